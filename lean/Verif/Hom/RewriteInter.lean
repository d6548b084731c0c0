import Verif.Hom.RewriteSum
import Verif.Hom.Total
/-!
# Rewriting intersections of selectors

Selectors declared by the user may be any functions which only remove paths. An intersection of such homomorphisms, and its rewriting, have the
same results when they contain no fixpoint.
-/

set_option autoImplicit false
set_option linter.unusedSectionVars false

namespace Verif

variable {V E I U : Type} [DecidableEq V] [DecidableEq I] [DecidableEq U] {env : User V I U} {C : Cfg V E} {sc : Scope I U}
  {lt : Hom V I U → Hom V I U → Bool} {ord : List (Nat × List (Hom V I U)) → List (Nat × List (Hom V I U))}

mutual
/-- Among what `rewrite` reaches by sums and locals, the intersections are those of selectors. (Specification, not part of the code.) -/
def Hom.selInters (env : User V I U) : Hom V I U → Bool
  | .sum hs => selIntersAll env hs
  | .loc _ h => h.selInters env
  | .inter hs => Hom.selectorAll env hs
  | _ => true
/-- The same for all the operands. (Specification, not part of the code.) -/
def selIntersAll (env : User V I U) : List (Hom V I U) → Bool
  | [] => true
  | h :: hs => h.selInters env && selIntersAll env hs
end

theorem selIntersAll_iff {hs : List (Hom V I U)} : selIntersAll env hs = true ↔ ∀ h ∈ hs, h.selInters env = true := by
  induction hs with
  | nil => simp [selIntersAll]
  | cons h hs ih => simp [selIntersAll, ih]

theorem selector_selInters (h : Hom V I U) : h.selector env = true → h.selInters env = true := by
  induction h using Hom.induct with
  | sum hs ih =>
    intro hs'
    rw [Hom.selInters, selIntersAll_iff]
    exact fun h hm => ih h hm (selector_mk (K := .sum).1 hs' h hm)
  | inter hs => exact fun h => h
  | loc x h ih => exact fun h => ih h
  | _ => intro _; rfl

theorem hnary_selInters (hlt : StrictTotal lt) (hord : Iterates ord) : ∀ hs : List (Hom V I U), hs ≠ [] → (∀ h ∈ hs, h.selInters env = true) →
    (hnary .sum lt ord hs).selInters env = true :=
  hnary_pred (Q := Hom.selInters env) (fun hs => by simp [NAry.mk, Hom.selInters, selIntersAll_iff]) (fun x h => by simp [Hom.selInters]) hlt hord

theorem hnary_selector {K : NAry} (hlt : StrictTotal lt) (hord : Iterates ord) : ∀ hs : List (Hom V I U), hs ≠ [] →
    (∀ h ∈ hs, h.selector env = true) → (hnary K lt ord hs).selector env = true :=
  hnary_pred (Q := Hom.selector env) (fun _ => selector_mk) (fun x h => by simp [Hom.selector]) hlt hord

theorem hdeep_noFix {K : NAry} (h : Hom V I U) : h.noFix = true → ∀ l ∈ hdeep K h, l.noFix = true := by
  induction h using nary_induct K with
  | mk hs ih =>
    intro hn l hl
    rw [hdeep_mk, mem_hdeepAll] at hl
    obtain ⟨h, hm, hl⟩ := hl
    refine ih h hm ?_ l hl
    cases K <;> exact noFixAll_iff.1 hn h hm
  | loc x h ih =>
    intro hn l hl
    simp only [hdeep, List.mem_map] at hl
    obtain ⟨g, hg, rfl⟩ := hl
    exact ih hn g hg
  | other h h1 h2 => intro hn l hl; simp [h2] at hl; subst hl; exact hn

theorem Ev.satInter_iff (hC : C.Lawful) {id : OId I} {nst nxt : OB I} {F G L : List (Hom V I U)}
    {x r : SDD V} (hx : Dom C (OB.node id nst nxt).ty x) (hne : F ++ G ++ L ≠ []) (hd : ∀ h ∈ F ++ G ++ L, Def env C h (.node id nst nxt) x) :
    Ev env C (.satInter nxt.lvl F G L) (.node id nst nxt) x r ↔ InterSpec env C (F ++ G ++ L) (.node id nst nxt) x r := by
  by_cases h0 : x = .zero
  · subst h0
    rw [InterSpec.zero hC hne]
    exact ⟨fun e => e.of_zero, fun e => by rw [e]; exact .zero _ _⟩
  have hst : Stop env (.satInter nxt.lvl F G L) (.node id nst nxt) := by simp [Stop, Hom.skip]
  have hh := hst.here hx h0
  constructor
  · intro e
    generalize hg : Hom.satInter nxt.lvl F G L = g at e hh
    cases e with
    | zero => exact absurd rfl h0
    | skip _ _ h1 => exact (hh.not_below h1).elim
    | satInter f _ h1 h2 =>
      cases hg
      refine ⟨h2.1, fun p => ?_⟩
      rw [h2.2]
      constructor
      · rintro ⟨_, h3⟩ h hm
        rw [evOf_eq hC (h1 h hm)]; exact h3 h hm
      · exact fun h3 => ⟨hne, fun h hm => by rw [← evOf_eq hC (h1 h hm)]; exact h3 h hm⟩
    | _ => cases hg
  · intro h2
    exact .satInter _ hh (fun h hm => (hd h hm).ev hC) ⟨h2.1, fun p => by rw [h2.2]; exact ⟨fun h => ⟨hne, h⟩, fun h => h.2⟩⟩

/-- Replacing parts by their intersections. -/
theorem InterSpec.parts (hC : C.Lawful) {hs : List (Hom V I U)} {o : OB I} {x : SDD V} (T : List (Hom V I U × List (Hom V I U)))
    (hT : ∀ a ∈ T, (∀ r, Ev env C a.1 o x r ↔ InterSpec env C a.2 o x r) ∧ Def env C a.1 o x)
    (hm : ∀ h, h ∈ hs ↔ ∃ a ∈ T, h ∈ a.2) (r : SDD V) :
    InterSpec env C (T.map Prod.fst) o x r ↔ InterSpec env C hs o x r := by
  have hs : ∀ p, (∀ h ∈ T.map Prod.fst, Mem C p (evOf env C h o x)) ↔ ∀ h ∈ hs, Mem C p (evOf env C h o x) := by
    intro p
    have key : ∀ a ∈ T, (Mem C p (evOf env C a.1 o x) ↔ ∀ h ∈ a.2, Mem C p (evOf env C h o x)) := fun a ha =>
      (((hT a ha).1 _).1 ((hT a ha).2.ev hC)).2 p
    constructor
    · intro h1 h hh
      obtain ⟨a, ha, hh⟩ := (hm h).1 hh
      exact (key a ha).1 (h1 a.1 (List.mem_map_of_mem ha)) h hh
    · intro h1 h hh
      obtain ⟨a, ha, rfl⟩ := List.mem_map.1 hh
      exact (key a ha).2 fun h hh => h1 h ((hm h).2 ⟨a, ha, hh⟩)
  simp only [InterSpec, Is, hs]

/-- The rewriting of an intersection of selectors, when the rewritings for the next levels and for the nested ones are right. -/
theorem SameEv.inter_step (hC : C.Lawful) (hon : Honest env C) (hlt : StrictTotal lt) (hord : Iterates ord)
    (hF : ∀ u, sc.A u → ∀ o v, (env.indF u o v).noFix = true) (hH : ∀ u, sc.A u → ∀ o v, (env.indH u o v).noFix = true) {id : OId I}
    {nst nxt : OB I}
    (ihn : ∀ {h : Hom V I U}, h.noEmpty = true → h.noFix = true → h.selInters env = true → SameEv env C sc nst h (Verif.hrewrite env lt ord nst h))
    (ih : ∀ {h : Hom V I U}, h.noEmpty = true → h.noFix = true → h.selInters env = true → SameEv env C sc nxt h (Verif.hrewrite env lt ord nxt h))
    {hs0 : List (Hom V I U)} (hn : (Hom.inter hs0).noEmpty = true) (hfx : ∀ h ∈ hs0, h.noFix = true) (hs' : ∀ h ∈ hs0, h.selector env = true) :
    SameEv env C sc (.node id nst nxt) (.inter hs0) (Verif.hrewrite env lt ord (.node id nst nxt) (.inter hs0)) := by
  intro t ht
  rw [Verif.hrewrite]
  dsimp only
  split
  · exact ⟨ht, fun _ _ _ => Iff.rfl⟩
  rename_i hFL
  obtain ⟨hne, hn'⟩ := noEmpty_mk (K := .inter).1 hn
  have hty : ∀ h ∈ hs0, HTy env C sc (.node id nst nxt) h t := HTy.nary_inv (k := .inter) ht
  have hsh : t.IsShape := ht.shape
  have hdd : ∀ {hs : List (Hom V I U)} {o : OB I} {t : Ty}, (∀ h ∈ hs, HTy env C sc o h t) → (∀ h ∈ hs, h.noFix = true) → ∀ {x}, Dom C o.ty x →
      ∀ h ∈ hdeepAll .inter hs, Def env C h o x := by
    intro hs o t hty hnf x hx h hm
    obtain ⟨g, hg, hm⟩ := mem_hdeepAll.1 hm
    exact ((hty g hg).deep g h hm).def hC hF hH (hdeep_noFix g (hnf g hg) h hm) hx
  have hal : ∀ {hs : List (Hom V I U)}, (∀ h ∈ hs, h.selector env = true) → LocAlone env .inter hs := by
    intro hs hsel _ x g hg
    obtain ⟨h, hm, hg⟩ := mem_hflatAll.1 hg
    exact Or.inl (hflat_selector h (hsel h hm) (.loc x g) hg)
  have hp := hparts_good env nxt.lvl id hs0
  generalize hparts env nxt.lvl id hs0 = p at hFL hp
  have hnx := hp.next
  have hF0 : (if p.hasId then p.F ++ [.id] else p.F) = [] → p.F = [] := by
    split
    · simp
    · exact fun h => h
  generalize (if p.hasId then p.F ++ [.id] else p.F) = F' at hnx hF0
  -- the part below
  have hA : F' ≠ [] → HTy env C sc (.node id nst nxt) (Verif.hrewrite env lt ord nxt (Verif.hnary .inter lt ord F')) t ∧
      ∀ x, Dom C (OB.node id nst nxt).ty x → ∀ r, Ev env C (Verif.hrewrite env lt ord nxt (Verif.hnary .inter lt ord F')) (.node id nst nxt) x r ↔
        InterSpec env C F' (.node id nst nxt) x r := by
    intro hne'
    have hn2 : ∀ h ∈ F', h.noEmpty = true := fun h hm => hn' h ((hnx h).1 hm).1
    have hsk := hnary_skip (K := .inter) hlt hord F' hne' fun h hm => ((hnx h).1 hm).2
    have hsk' := hrewrite_skip hlt hord nxt (Verif.hnary .inter lt ord F') (Nat.le_refl _) hsk
    have hty2 : ∀ h ∈ F', HTy env C sc (.node id nst nxt) h t := fun h hm => hty h ((hnx h).1 hm).1
    have hf2 : ∀ h ∈ F', h.noFix = true := fun h hm => hfx h ((hnx h).1 hm).1
    have hs2 : ∀ h ∈ F', h.selector env = true := fun h hm => hs' h ((hnx h).1 hm).1
    obtain ⟨k1, k2⟩ := hinter_iff hC hon hlt hord hne' hn2 (hal hs2) hty2
    obtain ⟨t', rfl, k3⟩ := k1.sk hsk
    obtain ⟨k4, k5⟩ := ih (hnary_noEmpty hlt hord F' hne' hn2) (hnary_noFix hlt hord F' hne' hf2)
      (selector_selInters _ (hnary_selector hlt hord F' hne' hs2)) k3
    exact ⟨k4.above hsk', fun x hx r => (Ev.skip_congr hC hsk' hsk hx (fun hd s ha r => k5 s (ha.dom hx).1 r) r).trans
      ((k2 x hx (hdd hty2 hf2 hx)).2 r)⟩
  -- the part inside
  have hB : p.L ≠ [] → HTy env C sc (.node id nst nxt) (hloc nxt.lvl (Verif.hrewrite env lt ord nst (Verif.hnary .inter lt ord p.L))) t ∧
      ∀ x, Dom C (OB.node id nst nxt).ty x → ∀ r,
        Ev env C (hloc nxt.lvl (Verif.hrewrite env lt ord nst (Verif.hnary .inter lt ord p.L))) (.node id nst nxt) x r ↔
          InterSpec env C (p.L.map (.loc nxt.lvl)) (.node id nst nxt) x r := by
    intro hne'
    have hn2 : ∀ h ∈ p.L, h.noEmpty = true := fun h hm => hn' (.loc nxt.lvl h) ((hp.L h).1 hm)
    have hs2 : ∀ h ∈ p.L, h.selector env = true := fun h hm => hs' (.loc nxt.lvl h) ((hp.L h).1 hm)
    have hf2 : ∀ h ∈ p.L, h.noFix = true := fun h hm => hfx (.loc nxt.lvl h) ((hp.L h).1 hm)
    have hnok : NOK env C sc .inter (Verif.hnary .inter lt ord p.L) p.L := fun o t hty => by
      obtain ⟨k1, k2⟩ := hinter_iff hC hon hlt hord hne' hn2 (hal hs2) hty
      exact ⟨k1, fun x hx _ r => (k2 x hx (hdd hty hf2 hx)).2 r⟩
    have hty2 : ∀ h ∈ p.L.map (Hom.loc nxt.lvl), HTy env C sc (.node id nst nxt) h t := fun h hm => by
      obtain ⟨g, hg, rfl⟩ := List.mem_map.1 hm
      exact hty _ ((hp.L g).1 hg)
    obtain ⟨k1, k2⟩ := hnok.loc hC hon hne' (fun _ => Or.inl hs2) nxt.lvl (.node id nst nxt) t hty2
    have hdL : ∀ x, Dom C (OB.node id nst nxt).ty x → ∀ h ∈ p.L.map (Hom.loc nxt.lvl), Def env C h (.node id nst nxt) x := fun x hx h hm => by
      obtain ⟨g, hg, rfl⟩ := List.mem_map.1 hm
      exact (hty _ ((hp.L g).1 hg)).def hC hF hH (hfx _ ((hp.L g).1 hg)) hx
    obtain ⟨_, _, _, he, ⟨_, h1, tn, rfl, k3⟩ | ⟨h1, _⟩⟩ := k1.loc_cases
    · cases he
      obtain ⟨k4, k5⟩ := ihn (hnary_noEmpty hlt hord p.L hne' hn2) (hnary_noFix hlt hord p.L hne' hf2)
        (selector_selInters _ (hnary_selector hlt hord p.L hne' hs2)) k3
      have k6 : HTy env C sc (.node id nst nxt) (.loc nxt.lvl (Verif.hrewrite env lt ord nst (Verif.hnary .inter lt ord p.L)))
        (.hier nxt.lvl tn nxt.ty) := .loc h1 k4
      have k7 : ∀ x, Dom C (OB.node id nst nxt).ty x → ∀ r,
          Ev env C (.loc nxt.lvl (Verif.hrewrite env lt ord nst (Verif.hnary .inter lt ord p.L))) (.node id nst nxt) x r ↔
            InterSpec env C (p.L.map (.loc nxt.lvl)) (.node id nst nxt) x r := by
        intro x hx r
        rw [← k2 x hx (hdL x hx) r]
        rcases dom_hier h1 hx with rfl | ⟨arcs, rfl, hga, hd1, hd2⟩
        · exact ⟨fun e => by rw [e.of_zero]; exact .zero _ _, fun e => by rw [e.of_zero]; exact .zero _ _⟩
        · rw [Ev.loc_here hC, Ev.loc_here hC]
          have e1 : ∀ arc ∈ arcs, evOf env C (Verif.hrewrite env lt ord nst (Verif.hnary .inter lt ord p.L)) nst arc.1 =
            evOf env C (Verif.hnary .inter lt ord p.L) nst arc.1 := fun arc hm => evOf_congr hC (k5 arc.1 (hd1 arc hm))
          have e2 : ∀ p', LocSet C nxt.lvl arcs (evOf env C (Verif.hrewrite env lt ord nst (Verif.hnary .inter lt ord p.L)) nst) p' ↔
              LocSet C nxt.lvl arcs (evOf env C (Verif.hnary .inter lt ord p.L) nst) p' := fun p' =>
            exists_congr fun n => exists_congr fun q => and_congr_right fun _ => exists_congr fun arc => and_congr_right fun hm => by
              rw [e1 arc hm]
          refine and_congr (forall_congr' fun arc => forall_congr' fun hm => exists_congr fun r => k5 arc.1 (hd1 arc hm) r) ?_
          simp only [Is, e2]
      unfold hloc
      split
      · rename_i h7
        rw [h7] at k6 k7 ⊢
        exact ⟨by rw [k6.loc_id]; exact .id _, fun x hx r => (Ev.loc_id hC _ k6 hx).symm.trans (k7 x hx r)⟩
      · exact ⟨k6, k7⟩
    · cases he; exact absurd rfl h1
  have hd0 : ∀ x, Dom C (OB.node id nst nxt).ty x → ∀ h ∈ hs0, Def env C h (.node id nst nxt) x := fun x hx h hm =>
    (hty h hm).def hC hF hH (hfx h hm) hx
  have hev : ∀ x, Dom C (OB.node id nst nxt).ty x → ∀ r, Ev env C (.inter hs0) (.node id nst nxt) x r ↔ InterSpec env C hs0 (.node id nst nxt) x r :=
    fun x hx r => Ev.inter_iff' hC hne hty hx (hd0 x hx)
  -- what the operands are
  have hall : ∀ h, h ∈ hs0 ↔ h ∈ F' ∨ h ∈ p.G ∨ h ∈ p.L.map (.loc nxt.lvl) := by
    intro h
    constructor
    · intro hm
      cases hsk : h.skip env nxt.lvl id with
      | true => exact Or.inl ((hnx h).2 ⟨hm, hsk⟩)
      | false =>
        cases hl : h.isLoc with
        | false => exact Or.inr (Or.inl ((hp.G h).2 ⟨hm, hsk, hl⟩))
        | true =>
          cases h with
          | loc y g =>
            have : y = nxt.lvl := by
              simp only [Hom.skip, decide_eq_false_iff_not, not_not, ne_eq] at hsk
              exact hsk.symm
            subst this
            exact Or.inr (Or.inr (List.mem_map_of_mem ((hp.L g).2 hm)))
          | _ => simp [Hom.isLoc] at hl
    · rintro (h1 | h1 | h1)
      · exact ((hnx h).1 h1).1
      · exact ((hp.G h).1 h1).1
      · obtain ⟨g, hg, rfl⟩ := List.mem_map.1 h1
        exact (hp.L g).1 hg
  -- the parts
  have hdef : ∀ {k : Hom V I U} {l : List (Hom V I U)} {x : SDD V}, Dom C (OB.node id nst nxt).ty x → l ≠ [] → (∀ h ∈ l, h ∈ hs0) →
      (∀ r, Ev env C k (.node id nst nxt) x r ↔ InterSpec env C l (.node id nst nxt) x r) → Def env C k (.node id nst nxt) x := by
    intro k l x hx hnl hl hk
    obtain ⟨r, hr⟩ := InterSpec.exists hC hsh hnl (fun h hm => hty h (hl h hm)) hx fun h hm => hd0 x hx h (hl h hm)
    exact ⟨r, (hk r).2 hr⟩
  have hgen : ∀ (f l : Option (Hom V I U)),
      (f = none → F' = []) → (l = none → p.L = []) →
      (∀ g, f = some g → F' ≠ [] ∧ HTy env C sc (.node id nst nxt) g t ∧ ∀ x, Dom C (OB.node id nst nxt).ty x → ∀ r,
        Ev env C g (.node id nst nxt) x r ↔ InterSpec env C F' (.node id nst nxt) x r) →
      (∀ g, l = some g → p.L ≠ [] ∧ HTy env C sc (.node id nst nxt) g t ∧ ∀ x, Dom C (OB.node id nst nxt).ty x → ∀ r,
        Ev env C g (.node id nst nxt) x r ↔ InterSpec env C (p.L.map (.loc nxt.lvl)) (.node id nst nxt) x r) →
      HTy env C sc (.node id nst nxt) (hsatInter lt nxt.lvl f p.G l) t ∧ ∀ x, Dom C (OB.node id nst nxt).ty x → ∀ r,
        Ev env C (hsatInter lt nxt.lvl f p.G l) (.node id nst nxt) x r ↔ Ev env C (.inter hs0) (.node id nst nxt) x r := by
    intro f l hf0 hl0 hf hl
    have hmain : HTy env C sc (.node id nst nxt) (.satInter nxt.lvl f.toList (homSet lt p.G) l.toList) t ∧
        ∀ x, Dom C (OB.node id nst nxt).ty x → ∀ r, Ev env C (.satInter nxt.lvl f.toList (homSet lt p.G) l.toList) (.node id nst nxt) x r ↔
          Ev env C (.inter hs0) (.node id nst nxt) x r := by
      constructor
      · refine .satInter hsh (by simp [Stop, Hom.skip]) fun h hm => ?_
        rcases List.mem_append.1 hm with hm | hm
        · rcases List.mem_append.1 hm with hm | hm
          · exact (hf h (Option.mem_toList.1 hm)).2.1
          · exact hty h ((hp.G h).1 ((mem_homSet hlt).1 hm)).1
        · exact (hl h (Option.mem_toList.1 hm)).2.1
      · intro x hx r
        have hT : ∀ a ∈ f.toList.map (fun g => (g, F')) ++ (homSet lt p.G).map (fun g => (g, [g])) ++
            l.toList.map (fun g => (g, p.L.map (.loc nxt.lvl))), (∀ r, Ev env C a.1 (.node id nst nxt) x r ↔
              InterSpec env C a.2 (.node id nst nxt) x r) ∧ Def env C a.1 (.node id nst nxt) x := by
          intro a ha
          rcases List.mem_append.1 ha with ha | ha
          · rcases List.mem_append.1 ha with ha | ha
            · obtain ⟨g, hg, rfl⟩ := List.mem_map.1 ha
              obtain ⟨h0, _, h2⟩ := hf g (Option.mem_toList.1 hg)
              exact ⟨h2 x hx, hdef hx h0 (fun h hm => ((hnx h).1 hm).1) (h2 x hx)⟩
            · obtain ⟨g, hg, rfl⟩ := List.mem_map.1 ha
              have h0 := ((hp.G g).1 ((mem_homSet hlt).1 hg)).1
              have h1 := hd0 x hx g h0
              exact ⟨((NOK.single (K := .inter) hC) (.node id nst nxt) t (by simpa using hty g h0)).2 x hx (by simpa using h1), h1⟩
          · obtain ⟨g, hg, rfl⟩ := List.mem_map.1 ha
            obtain ⟨h0, _, h2⟩ := hl g (Option.mem_toList.1 hg)
            exact ⟨h2 x hx, hdef hx (by simpa using h0) (fun h hm => (hall h).2 (Or.inr (Or.inr hm))) (h2 x hx)⟩
        have hfst : (f.toList.map (fun g => (g, F')) ++ (homSet lt p.G).map (fun g => (g, [g])) ++
            l.toList.map (fun g => (g, p.L.map (Hom.loc nxt.lvl)))).map Prod.fst = f.toList ++ homSet lt p.G ++ l.toList := by
          simp [List.map_append, Function.comp_def]
        have hne2 : f.toList ++ homSet lt p.G ++ l.toList ≠ [] := by
          intro hc
          simp only [List.append_eq_nil_iff] at hc
          obtain ⟨g, hg⟩ := List.exists_mem_of_ne_nil _ hne
          rcases (hall g).1 hg with h1 | h1 | h1
          · cases f with
            | none => rw [hf0 (Eq.refl _)] at h1; cases h1
            | some g => simp at hc
          · have := (mem_homSet hlt).2 h1
            rw [hc.1.2] at this
            cases this
          · cases l with
            | none => rw [hl0 (Eq.refl _)] at h1; cases h1
            | some g => simp at hc
        rw [Ev.satInter_iff hC hx hne2 fun h hm => by
          rw [← hfst] at hm
          obtain ⟨a, ha, rfl⟩ := List.mem_map.1 hm
          exact (hT a ha).2, hev x hx r, ← hfst]
        refine InterSpec.parts (env := env) (o := .node id nst nxt) (x := x) hC (hs := hs0) _ hT ?_ r
        · intro h
          rw [hall]
          constructor
          · rintro (h1 | h1 | h1)
            · cases f with
              | none => rw [hf0 (Eq.refl _)] at h1; cases h1
              | some g => exact ⟨(g, F'), by simp, h1⟩
            · exact ⟨(h, [h]), by simp [mem_homSet hlt, h1], by simp⟩
            · cases l with
              | none => rw [hl0 (Eq.refl _)] at h1; cases h1
              | some g => exact ⟨(g, _), by simp, h1⟩
          · rintro ⟨a, ha, h1⟩
            rcases List.mem_append.1 ha with ha | ha
            · rcases List.mem_append.1 ha with ha | ha
              · obtain ⟨g, hg, rfl⟩ := List.mem_map.1 ha
                exact Or.inl h1
              · obtain ⟨g, hg, rfl⟩ := List.mem_map.1 ha
                simp only [List.mem_singleton] at h1
                subst h1
                exact Or.inr (Or.inl ((mem_homSet hlt).1 hg))
            · obtain ⟨g, hg, rfl⟩ := List.mem_map.1 ha
              exact Or.inr (Or.inr h1)
    have hset : ∀ {A B : List (Hom V I U)}, (∀ h, h ∈ A ↔ h ∈ B) → ∀ x r,
        InterSpec env C A (.node id nst nxt) x r ↔ InterSpec env C B (.node id nst nxt) x r := by
      intro A B hAB x r
      simp only [InterSpec, hAB]
    unfold hsatInter
    split
    · rename_i g hG
      obtain ⟨_, k1, k2⟩ := hf g (by rfl)
      refine ⟨k1, fun x hx r => ?_⟩
      rw [k2 x hx r, hev x hx r]
      exact hset (fun h => by rw [hall, hG, hl0 (by rfl)]; simp) x r
    · rename_i g hG
      obtain ⟨_, k1, k2⟩ := hl g (by rfl)
      refine ⟨k1, fun x hx r => ?_⟩
      rw [k2 x hx r, hev x hx r]
      exact hset (fun h => by rw [hall, hG, hf0 (by rfl)]; simp) x r
    · exact hmain
  refine hgen _ _ ?_ ?_ ?_ ?_
  · split
    · exact fun _ => ‹_›
    · exact fun h => by cases h
  · split
    · exact fun _ => ‹_›
    · exact fun h => by cases h
  · intro g hg
    split at hg
    · cases hg
    · cases hg; exact ⟨‹_›, hA ‹_›⟩
  · intro g hg
    split at hg
    · cases hg
    · cases hg; exact ⟨‹_›, hB ‹_›⟩

/-- A homomorphism without fixpoint, whose intersections are those of selectors, and its rewriting. -/
theorem SameEv.hrewrite_inter (hC : C.Lawful) (hon : Honest env C) (hlt : StrictTotal lt) (hord : Iterates ord)
    (hF : ∀ u, sc.A u → ∀ o v, (env.indF u o v).noFix = true) (hH : ∀ u, sc.A u → ∀ o v, (env.indH u o v).noFix = true) (o : OB I) :
    ∀ {h : Hom V I U}, h.noEmpty = true → h.noFix = true → h.selInters env = true → SameEv env C sc o h (Verif.hrewrite env lt ord o h) := by
  induction o with
  | nil => intro h _ _ _; exact SameEv.same
  | node id nst nxt ihn ih =>
    intro h hn hf hs
    cases h with
    | sum hs0 =>
      refine SameEv.sum_step hC hon hlt hord (Q := fun h => h.noFix && h.selInters env) (fun hs hne hQ => ?_) (fun x h hQ => ?_)
        (fun hn hQ => ?_) (fun hn hQ => ?_) hn fun h hm => ?_
      · simp only [Bool.and_eq_true] at hQ ⊢
        exact ⟨hnary_noFix hlt hord hs hne fun h hm => (hQ h hm).1, hnary_selInters hlt hord hs hne fun h hm => (hQ h hm).2⟩
      · simpa [Hom.noFix, Hom.selInters] using hQ
      · simp only [Bool.and_eq_true] at hQ
        exact ihn hn hQ.1 hQ.2
      · simp only [Bool.and_eq_true] at hQ
        exact ih hn hQ.1 hQ.2
      · simp only [Bool.and_eq_true]
        exact ⟨noFixAll_iff.1 hf h hm, selIntersAll_iff.1 hs h hm⟩
    | inter hs0 =>
      exact SameEv.inter_step hC hon hlt hord hF hH ihn ih hn (noFixAll_iff.1 hf) (selector_mk (K := .inter).1 hs)
    | fix h => simp [Hom.noFix] at hf
    | _ => exact SameEv.same

end Verif
