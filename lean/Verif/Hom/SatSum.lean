import Verif.Hom.SatNested
/-!
# When rewritten sums return

A sum and the saturation it is rewritten to apply the same operands, hence return for the same SDDs, provided that this is true of the nested
rewritings.
-/

set_option autoImplicit false
set_option linter.unusedSectionVars false

namespace Verif

open Relation

variable {V E I U : Type} [DecidableEq V] [DecidableEq I] [DecidableEq U] {env : User V I U} {C : Cfg V E} {sc : Scope I U}
  {lt : Hom V I U → Hom V I U → Bool} {ord : List (Nat × List (Hom V I U)) → List (Nat × List (Hom V I U))}

mutual
/-- The intersections which are rewritten, or which are in a fixpoint which is rewritten, contain no fixpoint. What is below compositions, choices and
`cons` is not rewritten. (Specification or proof device, not part of the code.) -/
def Hom.simpleFix : Hom V I U → Bool
  | .sum hs => simpleFixAll hs
  | .loc _ h => h.simpleFix
  | .inter hs => noFixAll hs
  | .fix h => h.calm
  | _ => true
/-- The same for all the operands. (Specification or proof device, not part of the code.) -/
def simpleFixAll : List (Hom V I U) → Bool
  | [] => true
  | h :: hs => h.simpleFix && simpleFixAll hs
end

theorem simpleFixAll_iff {hs : List (Hom V I U)} : simpleFixAll hs = true ↔ ∀ h ∈ hs, h.simpleFix = true := by
  induction hs with
  | nil => simp [simpleFixAll]
  | cons h hs ih => simp [simpleFixAll, ih]

theorem hnary_noFix {K : NAry} (hlt : StrictTotal lt) (hord : Iterates ord) : ∀ hs : List (Hom V I U), hs ≠ [] → (∀ h ∈ hs, h.noFix = true) →
    (hnary K lt ord hs).noFix = true :=
  hnary_pred (Q := Hom.noFix) (fun hs => by cases K <;> simp [NAry.mk, Hom.noFix, noFixAll_iff]) (fun x h => by simp [Hom.noFix]) hlt hord

theorem hnary_simpleFix (hlt : StrictTotal lt) (hord : Iterates ord) : ∀ hs : List (Hom V I U), hs ≠ [] → (∀ h ∈ hs, h.simpleFix = true) →
    (hnary .sum lt ord hs).simpleFix = true :=
  hnary_pred (Q := Hom.simpleFix) (fun hs => by simp [NAry.mk, Hom.simpleFix, simpleFixAll_iff]) (fun x h => by simp [Hom.simpleFix]) hlt hord

theorem hloc_noFix {x : Nat} {h : Hom V I U} (hn : h.noFix = true) : (hloc x h).noFix = true := by
  unfold hloc
  split
  · exact hn
  · simpa [Hom.noFix] using hn

/-- The parts made of the operands. -/
theorem Parts.Good.next {x : Nat} {i : OId I} {hs : List (Hom V I U)} {p : Parts V I U} (hp : p.Good env x i hs) (h : Hom V I U) :
    h ∈ (if p.hasId then p.F ++ [.id] else p.F) ↔ h ∈ hs ∧ h.skip env x i = true := by
  split
  · rename_i hi
    rw [List.mem_append, hp.F, List.mem_singleton]
    constructor
    · rintro (⟨h1, _, h2⟩ | rfl)
      · exact ⟨h1, h2⟩
      · exact ⟨hp.hasId.1 hi, rfl⟩
    · rintro ⟨h1, h2⟩
      by_cases h3 : h = .id
      · exact Or.inr h3
      · exact Or.inl ⟨h1, h3, h2⟩
  · rename_i hi
    rw [hp.F]
    constructor
    · rintro ⟨h1, _, h2⟩; exact ⟨h1, h2⟩
    · rintro ⟨h1, h2⟩
      refine ⟨h1, ?_, h2⟩
      rintro rfl
      exact hi (hp.hasId.2 h1)

theorem hrewrite_noFix (hlt : StrictTotal lt) (hord : Iterates ord) (o : OB I) : ∀ h : Hom V I U, h.noFix = true →
    (hrewrite env lt ord o h).noFix = true := by
  induction o with
  | nil => intro h hn; exact hn
  | node id nst nxt ihn ih =>
    intro h hn
    have nary : ∀ (K : NAry) (hs : List (Hom V I U)), (∀ h ∈ hs, h.noFix = true) → ∀ p : Parts V I U, p.Good env nxt.lvl id hs →
        (∀ f, (if (if p.hasId then p.F ++ [.id] else p.F) = [] then none else
          some (hrewrite env lt ord nxt (hnary K lt ord (if p.hasId then p.F ++ [.id] else p.F)))) = some f → f.noFix = true) ∧
        (∀ g ∈ homSet lt p.G, g.noFix = true) ∧
        (∀ f, (if p.L = [] then none else some (hloc nxt.lvl (hrewrite env lt ord nst (hnary K lt ord p.L)))) = some f → f.noFix = true) := by
      intro K hs hn p hp
      have hnx := hp.next
      generalize (if p.hasId then p.F ++ [.id] else p.F) = F' at hnx
      refine ⟨fun f hf => ?_, fun g hg => hn g ((hp.G g).1 ((mem_homSet hlt).1 hg)).1, fun f hf => ?_⟩
      · split at hf
        · cases hf
        · rename_i h1
          cases hf
          exact ih _ (hnary_noFix hlt hord _ h1 fun h hh => hn h ((hnx h).1 hh).1)
      · split at hf
        · cases hf
        · rename_i h1
          cases hf
          exact hloc_noFix (ihn _ (hnary_noFix hlt hord _ h1 fun h hh => by simpa [Hom.noFix] using hn _ ((hp.L h).1 hh)))
    cases h with
    | sum hs =>
      rw [hrewrite]
      dsimp only
      split
      · exact hn
      obtain ⟨h1, h2, h3⟩ := nary .sum hs (noFixAll_iff.1 hn) _ (hparts_good env nxt.lvl id hs)
      unfold hsatSum
      split
      · exact h1 _ ‹_›
      · exact h3 _ ‹_›
      · simp only [Hom.noFix, Bool.and_eq_true, noFixAll_iff, Option.mem_toList]
        exact ⟨⟨fun f hf => h1 f hf, h2⟩, fun f hf => h3 f hf⟩
    | inter hs =>
      rw [hrewrite]
      dsimp only
      split
      · exact hn
      obtain ⟨h1, h2, h3⟩ := nary .inter hs (noFixAll_iff.1 hn) _ (hparts_good env nxt.lvl id hs)
      unfold hsatInter
      split
      · exact h1 _ ‹_›
      · exact h3 _ ‹_›
      · simp only [Hom.noFix, Bool.and_eq_true, noFixAll_iff, Option.mem_toList]
        exact ⟨⟨fun f hf => h1 f hf, h2⟩, fun f hf => h3 f hf⟩
    | fix h => simp [Hom.noFix] at hn
    | _ => exact hn

/-! ## Sums -/

/-- `f` does not change when homomorphisms return. (Specification or proof device, not part of the code.) -/
def RwDef (env : User V I U) (C : Cfg V E) (sc : Scope I U) (o : OB I) (f : Hom V I U → Hom V I U) : Prop :=
  ∀ {h : Hom V I U}, h.noEmpty = true → h.simpleFix = true → ∀ {t : Ty}, Ad env C sc o h t → ∀ {x : SDD V}, Dom C o.ty x →
    (Def env C (f h) o x ↔ Def env C h o x)

theorem Def.satSum_iff (hC : C.Lawful) {id : OId I} {nst nxt : OB I} {F G L : List (Hom V I U)} {t : Ty} (ht : t.IsShape)
    (hty : ∀ h ∈ F ++ G ++ L, HTy env C sc (.node id nst nxt) h t) {x : SDD V} (hx : Dom C (OB.node id nst nxt).ty x) :
    Def env C (.satSum nxt.lvl F G L) (.node id nst nxt) x ↔ ∀ h ∈ F ++ G ++ L, Def env C h (.node id nst nxt) x := by
  by_cases h0 : x = .zero
  · subst h0; exact ⟨fun _ _ _ => ⟨_, .zero _ _⟩, fun _ => ⟨_, .zero _ _⟩⟩
  have hst : Stop env (.satSum nxt.lvl F G L) (.node id nst nxt) := by simp [Stop, Hom.skip]
  constructor
  · rintro ⟨r, e⟩ h hm
    have hh := hst.here hx h0
    generalize hg : Hom.satSum nxt.lvl F G L = g at e hh
    cases e with
    | zero => exact absurd rfl h0
    | skip _ _ h1 => exact (hh.not_below h1).elim
    | satSum f _ h1 => cases hg; exact ⟨_, h1 h hm⟩
    | _ => cases hg
  · intro hd
    obtain ⟨r, hr⟩ := exists_fam hC ht (F ++ G ++ L) (fun h => evOf env C h (.node id nst nxt) x) fun h hh => ((hd h hh).ev hC).dom (hty h hh) hx
    exact ⟨r, .satSum _ (hst.here hx h0) (fun h hh => (hd h hh).ev hC) hr⟩

theorem RwDef.hrewrite (hC : C.Lawful) (hsg : Sing C) (hon : Honest env C) (hlt : StrictTotal lt) (hord : Iterates ord)
    (hv : ∀ v, {a | C.vmem a v}.Finite) (hF : ∀ u, sc.A u → ∀ o v, (env.indF u o v).noFix = true)
    (hH : ∀ u, sc.A u → ∀ o v, (env.indH u o v).noFix = true) (o : OB I) : RwDef env C sc o (hrewrite env lt ord o) := by
  induction o with
  | nil => intro h hn hs t ha x hx; exact Iff.rfl
  | node id nst nxt ihn ih =>
    intro h hn hs t ha x hx
    have hrs : ∀ h : Hom V I U, h.skip env nxt.lvl id = true →
        (Verif.hrewrite env lt ord nxt h).skip env nxt.lvl id = true := fun h => hrewrite_skip hlt hord nxt h (Nat.le_refl _)
    cases h with
    | sum hs0 =>
      obtain ⟨hne, hn'⟩ := noEmpty_mk (K := .sum).1 hn
      obtain ⟨ha', _⟩ := Rl.nary_inv (K := .sum) hC hsg hne _ (ha.rl hC hsg)
      have hs' := simpleFixAll_iff.1 hs
      have hty : ∀ h ∈ hs0, HTy env C sc (.node id nst nxt) h t := fun h hm => ((ha' h hm).1.rl hC hsg).hty
      have hsh : t.IsShape := (ha.rl hC hsg).hty.shape
      rw [Verif.hrewrite, Def.sum_iff hC hne hsh hty hx]
      dsimp only
      split
      · rw [Def.sum_iff hC hne hsh hty hx]
      rename_i hFL
      have hp := hparts_good env nxt.lvl id hs0
      generalize hparts env nxt.lvl id hs0 = p at hFL hp
      have hnx := hp.next
      have hF0 : (if p.hasId then p.F ++ [.id] else p.F) = [] → p.F = [] := by
        split
        · simp
        · exact fun h => h
      generalize (if p.hasId then p.F ++ [.id] else p.F) = F' at hnx hF0
      -- the part below
      have hA : ∀ f, (if F' = [] then none else some (Verif.hrewrite env lt ord nxt (Verif.hnary .sum lt ord F'))) = some f →
          HTy env C sc (.node id nst nxt) f t ∧
            (Def env C f (.node id nst nxt) x ↔ ∀ h ∈ F', Def env C h (.node id nst nxt) x) := by
        intro f hf
        split at hf
        · cases hf
        rename_i hne'
        cases hf
        obtain ⟨g, hg⟩ := List.exists_mem_of_ne_nil _ hne'
        obtain ⟨t', h1, _⟩ := (hty g ((hnx g).1 hg).1).sk ((hnx g).1 hg).2
        subst h1
        have h2 : ∀ h ∈ F', AdS env C sc .sum nxt h t' := fun h hm => (ha' h ((hnx h).1 hm).1).sk hC hsg ((hnx h).1 hm).2
        have h2' : ∀ h ∈ F', HTy env C sc nxt h t' := fun h hm => ((h2 h hm).1.rl hC hsg).hty
        have hn2 : ∀ h ∈ F', h.noEmpty = true := fun h hm => hn' h ((hnx h).1 hm).1
        have h3 := Rl.hnary (K := .sum) hC hsg hlt hord F' hne' hn2 h2
        have h4 := Rl.hrewrite hC hsg hlt hord nxt (hnary_noEmpty hlt hord F' hne' hn2) h3
        have h5 := hrs _ (hnary_skip (K := .sum) hlt hord F' hne' fun h hm => ((hnx h).1 hm).2)
        refine ⟨(h4.above (nst := nst) h5).hty, ?_⟩
        rw [Def.skip_iff hC h4.hty h5 hx]
        constructor
        · intro h6 h hm
          rw [Def.skip_iff hC (h2' h hm) ((hnx h).1 hm).2 hx]
          intro hd s hds
          have h7 := (ih (hnary_noEmpty hlt hord F' hne' hn2) (hnary_simpleFix hlt hord F' hne' fun h hm => hs' h ((hnx h).1 hm).1) h3.ad
            (hds.dom hx).1).1 (h6 hd s hds)
          exact (Def.hnary_iff hC hon hlt hord hne' hn2 h3.hty.shape h2' (hds.dom hx).1).1 h7 h hm
        · intro h6 hd s hds
          refine (ih (hnary_noEmpty hlt hord F' hne' hn2) (hnary_simpleFix hlt hord F' hne' fun h hm => hs' h ((hnx h).1 hm).1) h3.ad
            (hds.dom hx).1).2 ((Def.hnary_iff hC hon hlt hord hne' hn2 h3.hty.shape h2' (hds.dom hx).1).2 fun h hm => ?_)
          exact (Def.skip_iff hC (h2' h hm) ((hnx h).1 hm).2 hx).1 (h6 h hm) hd s hds
      -- the part inside
      have hB : ∀ l, (if p.L = [] then none else some (hloc nxt.lvl (Verif.hrewrite env lt ord nst (Verif.hnary .sum lt ord p.L)))) = some l →
          HTy env C sc (.node id nst nxt) l t ∧
            (Def env C l (.node id nst nxt) x ↔ ∀ g ∈ p.L, Def env C (.loc nxt.lvl g) (.node id nst nxt) x) := by
        intro l hl
        split at hl
        · cases hl
        rename_i hne'
        cases hl
        obtain ⟨g, hg⟩ := List.exists_mem_of_ne_nil _ hne'
        obtain ⟨_, _, _, he, ⟨_, h1, tn, _, rfl, _⟩ | ⟨h1, _⟩⟩ := ((ha' _ ((hp.L g).1 hg)).1.rl hC hsg).loc_inv
        · cases he
          have h2 := fun g hg => ((ha' _ ((hp.L g).1 hg)).loc_inv hC hsg).2.2.1
          have h2' : ∀ h ∈ p.L, HTy env C sc nst h tn := fun h hm => ((h2 h hm).1.rl hC hsg).hty
          have hn2 : ∀ h ∈ p.L, h.noEmpty = true := fun h hm => hn' (.loc nxt.lvl h) ((hp.L h).1 hm)
          have hs2 : ∀ h ∈ p.L, h.simpleFix = true := fun h hm => by simpa [Hom.simpleFix] using hs' (.loc nxt.lvl h) ((hp.L h).1 hm)
          have h3 := Rl.hnary (K := .sum) hC hsg hlt hord p.L hne' hn2 h2
          have h4 := Rl.hrewrite hC hsg hlt hord nst (hnary_noEmpty hlt hord p.L hne' hn2) h3
          refine ⟨(Rl.loc (id := id) (nxt := nxt) h1 h4).hloc.hty, ?_⟩
          rcases dom_hier h1 hx with rfl | ⟨arcs, rfl, hga, hd1, hd2⟩
          · exact ⟨fun _ _ _ => ⟨_, .zero _ _⟩, fun _ => ⟨_, .zero _ _⟩⟩
          have hk : Def env C (hloc nxt.lvl (Verif.hrewrite env lt ord nst (Verif.hnary .sum lt ord p.L))) (.node id nst nxt) (.hier nxt.lvl arcs) ↔
              ∀ arc ∈ arcs, Def env C (Verif.hrewrite env lt ord nst (Verif.hnary .sum lt ord p.L)) nst arc.1 := by
            rw [← Def.loc_here hC h4.hty hx]
            unfold hloc
            split
            · rename_i h7
              rw [h7] at h4 ⊢
              exact ⟨fun _ => (Def.loc_here hC h4.hty hx).2 fun _ _ => ⟨_, .id _ _⟩, fun _ => ⟨_, .id _ _⟩⟩
            · exact Iff.rfl
          rw [hk]
          constructor
          · intro h6 h hm
            refine (Def.loc_here hC (h2' h hm) hx).2 fun arc harc => ?_
            have h7 := (ihn (hnary_noEmpty hlt hord p.L hne' hn2) (hnary_simpleFix hlt hord p.L hne' hs2) h3.ad (hd1 arc harc)).1 (h6 arc harc)
            exact (Def.hnary_iff hC hon hlt hord hne' hn2 h3.hty.shape h2' (hd1 arc harc)).1 h7 h hm
          · intro h6 arc harc
            refine (ihn (hnary_noEmpty hlt hord p.L hne' hn2) (hnary_simpleFix hlt hord p.L hne' hs2) h3.ad (hd1 arc harc)).2
              ((Def.hnary_iff hC hon hlt hord hne' hn2 h3.hty.shape h2' (hd1 arc harc)).2 fun h hm => ?_)
            exact (Def.loc_here hC (h2' h hm) hx).1 (h6 h hm) arc harc
        · cases he; exact absurd rfl h1
      -- all the parts
      have hall : (∀ h ∈ hs0, Def env C h (.node id nst nxt) x) ↔ (∀ h ∈ F', Def env C h (.node id nst nxt) x) ∧
          (∀ h ∈ homSet lt p.G, Def env C h (.node id nst nxt) x) ∧ ∀ g ∈ p.L, Def env C (.loc nxt.lvl g) (.node id nst nxt) x := by
        constructor
        · intro h1
          exact ⟨fun h hm => h1 h ((hnx h).1 hm).1, fun h hm => h1 h ((hp.G h).1 ((mem_homSet hlt).1 hm)).1, fun g hg => h1 _ ((hp.L g).1 hg)⟩
        · rintro ⟨h1, h2, h3⟩ h hm
          cases hsk : h.skip env nxt.lvl id with
          | true => exact h1 h ((hnx h).2 ⟨hm, hsk⟩)
          | false =>
            cases hl : h.isLoc with
            | false => exact h2 h ((mem_homSet hlt).2 ((hp.G h).2 ⟨hm, hsk, hl⟩))
            | true =>
              cases h with
              | loc y g =>
                have : y = nxt.lvl := by
                  simp only [Hom.skip, decide_eq_false_iff_not, not_not, ne_eq] at hsk
                  exact hsk.symm
                subst this
                exact h3 g ((hp.L g).2 hm)
              | _ => simp [Hom.isLoc] at hl
      rw [hall]
      have hF1 : F' = [] → (if F' = [] then none else some (Verif.hrewrite env lt ord nxt (Verif.hnary .sum lt ord F'))) = none := fun h => if_pos h
      have hF2 : F' ≠ [] → (if F' = [] then none else some (Verif.hrewrite env lt ord nxt (Verif.hnary .sum lt ord F'))) ≠ none := by
        intro h; simp [h]
      have hL1 : p.L = [] → (if p.L = [] then none else
        some (hloc nxt.lvl (Verif.hrewrite env lt ord nst (Verif.hnary .sum lt ord p.L)))) = none := fun h => if_pos h
      have hL2 : p.L ≠ [] → (if p.L = [] then none else
        some (hloc nxt.lvl (Verif.hrewrite env lt ord nst (Verif.hnary .sum lt ord p.L)))) ≠ none := by
        intro h; simp [h]
      generalize (if F' = [] then none else some (Verif.hrewrite env lt ord nxt (Verif.hnary .sum lt ord F'))) = f at hA hF1 hF2
      generalize (if p.L = [] then none else some (hloc nxt.lvl (Verif.hrewrite env lt ord nst (Verif.hnary .sum lt ord p.L)))) = l at hB hL1 hL2
      have hfl : (∀ h ∈ F', Def env C h (.node id nst nxt) x) ↔ ∀ g ∈ f.toList, Def env C g (.node id nst nxt) x := by
        cases f with
        | none =>
          have : F' = [] := by by_contra h; exact hF2 h rfl
          simp [this]
        | some f => simp [(hA f rfl).2]
      have hll : (∀ g ∈ p.L, Def env C (.loc nxt.lvl g) (.node id nst nxt) x) ↔ ∀ g ∈ l.toList, Def env C g (.node id nst nxt) x := by
        cases l with
        | none =>
          have : p.L = [] := by by_contra h; exact hL2 h rfl
          simp [this]
        | some l => simp [(hB l rfl).2]
      rw [hfl, hll]
      have htys : ∀ h ∈ f.toList ++ homSet lt p.G ++ l.toList, HTy env C sc (.node id nst nxt) h t := by
        intro h hm
        rcases List.mem_append.1 hm with hm | hm
        · rcases List.mem_append.1 hm with hm | hm
          · exact (hA h (Option.mem_toList.1 hm)).1
          · exact hty h ((hp.G h).1 ((mem_homSet hlt).1 hm)).1
        · exact (hB h (Option.mem_toList.1 hm)).1
      have hgen : Def env C (.satSum nxt.lvl f.toList (homSet lt p.G) l.toList) (.node id nst nxt) x ↔
          (∀ g ∈ f.toList, Def env C g (.node id nst nxt) x) ∧ (∀ h ∈ homSet lt p.G, Def env C h (.node id nst nxt) x) ∧
            ∀ g ∈ l.toList, Def env C g (.node id nst nxt) x := by
        rw [Def.satSum_iff hC hsh htys hx]
        simp only [List.mem_append, or_imp, forall_and, and_assoc]
      unfold hsatSum
      split
      · rename_i hG
        rw [hG]
        simp [homSet]
      · rename_i hG
        rw [hG]
        simp [homSet]
      · exact hgen
    | inter hs0 =>
      have hn2 : (Hom.inter hs0).noFix = true := by simpa [Hom.simpleFix, Hom.noFix] using hs
      have h1 := ha.rl hC hsg
      have h2 := Rl.hrewrite hC hsg hlt hord (.node id nst nxt) hn h1
      exact ⟨fun _ => h1.hty.def hC hF hH hn2 hx, fun _ => h2.hty.def hC hF hH (hrewrite_noFix hlt hord _ _ hn2) hx⟩
    | fix h =>
      cases h with
      | sum hs0 =>
        obtain ⟨rfl, R0, h1, _⟩ := Rl.fix_inv _ (ha.rl hC hsg)
        have hn2 : (Hom.sum hs0).noEmpty = true := by simpa only [Hom.noEmpty] using hn
        obtain ⟨hne, hn'⟩ := noEmpty_mk (K := .sum).1 hn2
        obtain ⟨ha', hR⟩ := Rl.nary_inv (K := .sum) hC hsg hne _ h1
        by_cases hid : (hparts env nxt.lvl id hs0).hasId = true
        · have hidm := (hparts_good env nxt.lvl id hs0).hasId.1 hid
          refine RwFixN.hrewrite hC hsg hon hlt hord hv hF hH _ hn2 (by simpa only [Hom.simpleFix] using hs) h1 (fun p hp => ?_) hx
          exact (hR p hp p).2 ⟨.id, hidm, (Rl.id.relEq hC hsg p hp p).1 rfl⟩
        · rw [Verif.hrewrite]
          simp [hid]
      | _ => exact Iff.rfl
    | _ => exact Iff.rfl

end Verif
