import Verif.Hom.SatSum
/-!
# Rewriting sums of any homomorphisms

Nothing is asked of the operands of a sum for its rewriting to have the same results: sums (and sums in locals) are unions of the results of
their operands, however these are grouped.
-/

set_option autoImplicit false
set_option linter.unusedSectionVars false

namespace Verif

variable {V E I U : Type} [DecidableEq V] [DecidableEq I] [DecidableEq U] {env : User V I U} {C : Cfg V E} {sc : Scope I U}
  {lt : Hom V I U → Hom V I U → Bool} {ord : List (Nat × List (Hom V I U)) → List (Nat × List (Hom V I U))}

mutual
/-- Among what `rewrite` reaches by sums and locals, there are no intersections, nor fixpoints of sums with the identity. (Specification, not part of the code.) -/
def Hom.onlySums : Hom V I U → Bool
  | .sum hs => onlySumsAll hs
  | .loc _ h => h.onlySums
  | .inter _ => false
  | .fix (.sum hs) => !hs.any fun h => decide (h = .id)
  | _ => true
/-- The same for all the operands. (Specification, not part of the code.) -/
def onlySumsAll : List (Hom V I U) → Bool
  | [] => true
  | h :: hs => h.onlySums && onlySumsAll hs
end

theorem onlySumsAll_iff {hs : List (Hom V I U)} : onlySumsAll hs = true ↔ ∀ h ∈ hs, h.onlySums = true := by
  induction hs with
  | nil => simp [onlySumsAll]
  | cons h hs ih => simp [onlySumsAll, ih]

theorem hnary_onlySums (hlt : StrictTotal lt) (hord : Iterates ord) : ∀ hs : List (Hom V I U), hs ≠ [] → (∀ h ∈ hs, h.onlySums = true) →
    (hnary .sum lt ord hs).onlySums = true :=
  hnary_pred (Q := Hom.onlySums) (fun hs => by simp [NAry.mk, Hom.onlySums, onlySumsAll_iff]) (fun x h => by simp [Hom.onlySums]) hlt hord

theorem Ev.satSum_iff (hC : C.Lawful) {id : OId I} {nst nxt : OB I} {F G L : List (Hom V I U)}
    {x r : SDD V} (hx : Dom C (OB.node id nst nxt).ty x) :
    Ev env C (.satSum nxt.lvl F G L) (.node id nst nxt) x r ↔ SumSpec env C (F ++ G ++ L) (.node id nst nxt) x r := by
  by_cases h0 : x = .zero
  · subst h0
    have hz : Is C (.zero : SDD V) fun p => ∃ h ∈ F ++ G ++ L, Mem C p (evOf env C h (.node id nst nxt) .zero) :=
      ⟨hx.wf, fun p => ⟨fun h => absurd h (not_mem_zero _), fun ⟨h, _, hp⟩ => by
        rwa [evOf_eq hC (.zero h _)] at hp⟩⟩
    constructor
    · intro e; rw [e.of_zero]; exact ⟨fun h _ => ⟨_, .zero _ _⟩, hz⟩
    · rintro ⟨_, h2⟩; rw [h2.unique hC hz fun _ => Iff.rfl]; exact .zero _ _
  have hst : Stop env (.satSum nxt.lvl F G L) (.node id nst nxt) := by simp [Stop, Hom.skip]
  have hh := hst.here hx h0
  constructor
  · intro e
    generalize hg : Hom.satSum nxt.lvl F G L = g at e hh
    cases e with
    | zero => exact absurd rfl h0
    | skip _ _ h1 => exact (hh.not_below h1).elim
    | satSum f _ h1 h2 =>
      cases hg
      refine ⟨fun h hm => ⟨_, h1 h hm⟩, h2.1, fun p => ?_⟩
      rw [h2.2]
      exact exists_congr fun h => and_congr_right fun hm => by rw [evOf_eq hC (h1 h hm)]
    | _ => cases hg
  · rintro ⟨h1, h2⟩
    exact .satSum _ hh (fun h hm => (h1 h hm).ev hC) h2

/-- Replacing parts by their sums. -/
theorem SumSpec.parts (hC : C.Lawful) {hs : List (Hom V I U)} {o : OB I} {x : SDD V} (T : List (Hom V I U × List (Hom V I U)))
    (hT : ∀ a ∈ T, (∀ r, Ev env C a.1 o x r ↔ SumSpec env C a.2 o x r) ∧ ((∀ h ∈ a.2, Def env C h o x) → Def env C a.1 o x))
    (hm : ∀ h, h ∈ hs ↔ ∃ a ∈ T, h ∈ a.2) (r : SDD V) :
    SumSpec env C (T.map Prod.fst) o x r ↔ SumSpec env C hs o x r := by
  have hd : (∀ h ∈ T.map Prod.fst, Def env C h o x) ↔ ∀ h ∈ hs, Def env C h o x := by
    constructor
    · intro h1 h hh
      obtain ⟨a, ha, hh⟩ := (hm h).1 hh
      exact (((hT a ha).1 _).1 ((h1 a.1 (List.mem_map_of_mem ha)).ev hC)).1 h hh
    · intro h1 h hh
      obtain ⟨a, ha, rfl⟩ := List.mem_map.1 hh
      exact (hT a ha).2 fun h hh => h1 h ((hm h).2 ⟨a, ha, hh⟩)
  unfold SumSpec
  rw [hd]
  refine and_congr_right fun h1 => ?_
  have hs : ∀ p, (∃ h ∈ T.map Prod.fst, Mem C p (evOf env C h o x)) ↔ ∃ h ∈ hs, Mem C p (evOf env C h o x) := by
    intro p
    have key : ∀ a ∈ T, (Mem C p (evOf env C a.1 o x) ↔ ∃ h ∈ a.2, Mem C p (evOf env C h o x)) := fun a ha =>
      (((hT a ha).1 _).1 (((hT a ha).2 fun h hh => h1 h ((hm h).2 ⟨a, ha, hh⟩)).ev hC)).2.2 p
    constructor
    · rintro ⟨h, hh, hp⟩
      obtain ⟨a, ha, rfl⟩ := List.mem_map.1 hh
      obtain ⟨h, hh, hp⟩ := (key a ha).1 hp
      exact ⟨h, (hm h).2 ⟨a, ha, hh⟩, hp⟩
    · rintro ⟨h, hh, hp⟩
      obtain ⟨a, ha, hh⟩ := (hm h).1 hh
      exact ⟨a.1, List.mem_map_of_mem ha, (key a ha).2 ⟨h, hh, hp⟩⟩
  simp only [Is, hs]

/-- A homomorphism and what it is rewritten to have the same results. (Specification or proof device, not part of the code.) -/
def SameEv (env : User V I U) (C : Cfg V E) (sc : Scope I U) (o : OB I) (h h' : Hom V I U) : Prop :=
  ∀ {t : Ty}, HTy env C sc o h t → HTy env C sc o h' t ∧ ∀ x, Dom C o.ty x → ∀ r, Ev env C h' o x r ↔ Ev env C h o x r

theorem SameEv.same {o : OB I} {h : Hom V I U} : SameEv env C sc o h h := fun ht => ⟨ht, fun _ _ _ => Iff.rfl⟩

/-- The rewriting of a sum, when the rewritings for the next levels and for the nested ones are right. -/
theorem SameEv.sum_step (hC : C.Lawful) (hon : Honest env C) (hlt : StrictTotal lt) (hord : Iterates ord) {Q : Hom V I U → Bool}
    (hQn : ∀ hs, hs ≠ [] → (∀ h ∈ hs, Q h = true) → Q (hnary .sum lt ord hs) = true) (hQl : ∀ x h, Q (.loc x h) = true → Q h = true) {id : OId I}
    {nst nxt : OB I} (ihn : ∀ {h : Hom V I U}, h.noEmpty = true → Q h = true → SameEv env C sc nst h (hrewrite env lt ord nst h))
    (ih : ∀ {h : Hom V I U}, h.noEmpty = true → Q h = true → SameEv env C sc nxt h (hrewrite env lt ord nxt h)) {hs0 : List (Hom V I U)}
    (hn : (Hom.sum hs0).noEmpty = true) (hs' : ∀ h ∈ hs0, Q h = true) :
    SameEv env C sc (.node id nst nxt) (.sum hs0) (hrewrite env lt ord (.node id nst nxt) (.sum hs0)) := by
  intro t ht
  rw [Verif.hrewrite]
  dsimp only
  split
  · exact ⟨ht, fun _ _ _ => Iff.rfl⟩
  rename_i hFL
  obtain ⟨hne, hn'⟩ := noEmpty_mk (K := .sum).1 hn
  have hty : ∀ h ∈ hs0, HTy env C sc (.node id nst nxt) h t := HTy.nary_inv (k := .sum) ht
  have hsh : t.IsShape := ht.shape
  have hp := hparts_good env nxt.lvl id hs0
  generalize hparts env nxt.lvl id hs0 = p at hFL hp
  have hnx := hp.next
  have hF0 : (if p.hasId then p.F ++ [.id] else p.F) = [] → p.F = [] := by
    split
    · simp
    · exact fun h => h
  generalize (if p.hasId then p.F ++ [.id] else p.F) = F' at hnx hF0
  -- the part below
  have hA : F' ≠ [] → HTy env C sc (.node id nst nxt) (Verif.hrewrite env lt ord nxt (Verif.hnary .sum lt ord F')) t ∧
      ∀ x, Dom C (OB.node id nst nxt).ty x → ∀ r, Ev env C (Verif.hrewrite env lt ord nxt (Verif.hnary .sum lt ord F')) (.node id nst nxt) x r ↔
        SumSpec env C F' (.node id nst nxt) x r := by
    intro hne'
    have hn2 : ∀ h ∈ F', h.noEmpty = true := fun h hm => hn' h ((hnx h).1 hm).1
    have hsk := hnary_skip (K := .sum) hlt hord F' hne' fun h hm => ((hnx h).1 hm).2
    have hsk' := hrewrite_skip hlt hord nxt (Verif.hnary .sum lt ord F') (Nat.le_refl _) hsk
    obtain ⟨k1, k2⟩ := hsum_iff hC hon hlt hord hne' hn2 fun h hm => hty h ((hnx h).1 hm).1
    obtain ⟨t', rfl, k3⟩ := k1.sk hsk
    obtain ⟨k4, k5⟩ := ih (hnary_noEmpty hlt hord F' hne' hn2) (hQn F' hne' fun h hm => hs' h ((hnx h).1 hm).1) k3
    exact ⟨k4.above hsk', fun x hx r => (Ev.skip_congr hC hsk' hsk hx (fun hd s ha r => k5 s (ha.dom hx).1 r) r).trans (k2 x r hx)⟩
  -- the part inside
  have hB : p.L ≠ [] → HTy env C sc (.node id nst nxt) (hloc nxt.lvl (Verif.hrewrite env lt ord nst (Verif.hnary .sum lt ord p.L))) t ∧
      ∀ x, Dom C (OB.node id nst nxt).ty x → ∀ r,
        Ev env C (hloc nxt.lvl (Verif.hrewrite env lt ord nst (Verif.hnary .sum lt ord p.L))) (.node id nst nxt) x r ↔
          SumSpec env C (p.L.map (.loc nxt.lvl)) (.node id nst nxt) x r := by
    intro hne'
    have hn2 : ∀ h ∈ p.L, h.noEmpty = true := fun h hm => hn' (.loc nxt.lvl h) ((hp.L h).1 hm)
    have hs2 : ∀ h ∈ p.L, Q h = true := fun h hm => hQl _ h (hs' (.loc nxt.lvl h) ((hp.L h).1 hm))
    have hnok : NOK env C sc .sum (Verif.hnary .sum lt ord p.L) p.L := fun o t hty => by
      obtain ⟨k1, k2⟩ := hsum_iff hC hon hlt hord hne' hn2 hty
      exact ⟨k1, fun x hx r => k2 x r hx⟩
    obtain ⟨k1, k2⟩ := hnok.loc hC hon hne' (fun h => by cases h) nxt.lvl (.node id nst nxt) t fun h hm => by
      obtain ⟨g, hg, rfl⟩ := List.mem_map.1 hm
      exact hty _ ((hp.L g).1 hg)
    obtain ⟨_, _, _, he, ⟨_, h1, tn, rfl, k3⟩ | ⟨h1, _⟩⟩ := k1.loc_cases
    · cases he
      obtain ⟨k4, k5⟩ := ihn (hnary_noEmpty hlt hord p.L hne' hn2) (hQn p.L hne' hs2) k3
      have k6 : HTy env C sc (.node id nst nxt) (.loc nxt.lvl (Verif.hrewrite env lt ord nst (Verif.hnary .sum lt ord p.L)))
        (.hier nxt.lvl tn nxt.ty) := .loc h1 k4
      have k7 : ∀ x, Dom C (OB.node id nst nxt).ty x → ∀ r,
          Ev env C (.loc nxt.lvl (Verif.hrewrite env lt ord nst (Verif.hnary .sum lt ord p.L))) (.node id nst nxt) x r ↔
            SumSpec env C (p.L.map (.loc nxt.lvl)) (.node id nst nxt) x r := by
        intro x hx r
        rw [← k2 x hx r]
        rcases dom_hier h1 hx with rfl | ⟨arcs, rfl, hga, hd1, hd2⟩
        · exact ⟨fun e => by rw [e.of_zero]; exact .zero _ _, fun e => by rw [e.of_zero]; exact .zero _ _⟩
        · rw [Ev.loc_here hC, Ev.loc_here hC]
          have e1 : ∀ arc ∈ arcs, evOf env C (Verif.hrewrite env lt ord nst (Verif.hnary .sum lt ord p.L)) nst arc.1 =
            evOf env C (Verif.hnary .sum lt ord p.L) nst arc.1 := fun arc hm => evOf_congr hC (k5 arc.1 (hd1 arc hm))
          have e2 : ∀ p', LocSet C nxt.lvl arcs (evOf env C (Verif.hrewrite env lt ord nst (Verif.hnary .sum lt ord p.L)) nst) p' ↔
              LocSet C nxt.lvl arcs (evOf env C (Verif.hnary .sum lt ord p.L) nst) p' := fun p' =>
            exists_congr fun n => exists_congr fun q => and_congr_right fun _ => exists_congr fun arc => and_congr_right fun hm => by
              rw [e1 arc hm]
          refine and_congr (forall_congr' fun arc => forall_congr' fun hm => exists_congr fun r => k5 arc.1 (hd1 arc hm) r) ?_
          simp only [Is, e2]
      unfold hloc
      split
      · rename_i h7
        rw [h7] at k6 k7 ⊢
        exact ⟨by rw [k6.loc_id]; exact .id _, fun x hx r => (Ev.loc_id hC _ k6 hx).symm.trans (k7 x hx r)⟩
      · exact ⟨k6, k7⟩
    · cases he; exact absurd rfl h1
  have hev : ∀ x, Dom C (OB.node id nst nxt).ty x → ∀ r, Ev env C (.sum hs0) (.node id nst nxt) x r ↔ SumSpec env C hs0 (.node id nst nxt) x r :=
    fun x hx r => Ev.sum_iff hC _ hsh hne hty hx
  -- what the operands are
  have hall : ∀ h, h ∈ hs0 ↔ h ∈ F' ∨ h ∈ p.G ∨ h ∈ p.L.map (.loc nxt.lvl) := by
    intro h
    constructor
    · intro hm
      cases hsk : h.skip env nxt.lvl id with
      | true => exact Or.inl ((hnx h).2 ⟨hm, hsk⟩)
      | false =>
        cases hl : h.isLoc with
        | false => exact Or.inr (Or.inl ((hp.G h).2 ⟨hm, hsk, hl⟩))
        | true =>
          cases h with
          | loc y g =>
            have : y = nxt.lvl := by
              simp only [Hom.skip, decide_eq_false_iff_not, not_not, ne_eq] at hsk
              exact hsk.symm
            subst this
            exact Or.inr (Or.inr (List.mem_map_of_mem ((hp.L g).2 hm)))
          | _ => simp [Hom.isLoc] at hl
    · rintro (h1 | h1 | h1)
      · exact ((hnx h).1 h1).1
      · exact ((hp.G h).1 h1).1
      · obtain ⟨g, hg, rfl⟩ := List.mem_map.1 h1
        exact (hp.L g).1 hg
  -- the parts
  have hdef : ∀ {k : Hom V I U} {l : List (Hom V I U)} {x : SDD V}, Dom C (OB.node id nst nxt).ty x → (∀ h ∈ l, h ∈ hs0) →
      (∀ r, Ev env C k (.node id nst nxt) x r ↔ SumSpec env C l (.node id nst nxt) x r) →
      (∀ h ∈ l, Def env C h (.node id nst nxt) x) → Def env C k (.node id nst nxt) x := by
    intro k l x hx hl hk hd
    obtain ⟨r, hr⟩ := SumSpec.exists hC hsh (fun h hm => hty h (hl h hm)) hx hd
    exact ⟨r, (hk r).2 hr⟩
  have hgen : ∀ (f l : Option (Hom V I U)),
      (f = none → F' = []) → (l = none → p.L = []) →
      (∀ g, f = some g → HTy env C sc (.node id nst nxt) g t ∧ ∀ x, Dom C (OB.node id nst nxt).ty x → ∀ r,
        Ev env C g (.node id nst nxt) x r ↔ SumSpec env C F' (.node id nst nxt) x r) →
      (∀ g, l = some g → HTy env C sc (.node id nst nxt) g t ∧ ∀ x, Dom C (OB.node id nst nxt).ty x → ∀ r,
        Ev env C g (.node id nst nxt) x r ↔ SumSpec env C (p.L.map (.loc nxt.lvl)) (.node id nst nxt) x r) →
      HTy env C sc (.node id nst nxt) (hsatSum lt nxt.lvl f p.G l) t ∧ ∀ x, Dom C (OB.node id nst nxt).ty x → ∀ r,
        Ev env C (hsatSum lt nxt.lvl f p.G l) (.node id nst nxt) x r ↔ Ev env C (.sum hs0) (.node id nst nxt) x r := by
    intro f l hf0 hl0 hf hl
    have hmain : HTy env C sc (.node id nst nxt) (.satSum nxt.lvl f.toList (homSet lt p.G) l.toList) t ∧
        ∀ x, Dom C (OB.node id nst nxt).ty x → ∀ r, Ev env C (.satSum nxt.lvl f.toList (homSet lt p.G) l.toList) (.node id nst nxt) x r ↔
          Ev env C (.sum hs0) (.node id nst nxt) x r := by
      constructor
      · refine .satSum hsh (by simp [Stop, Hom.skip]) fun h hm => ?_
        rcases List.mem_append.1 hm with hm | hm
        · rcases List.mem_append.1 hm with hm | hm
          · exact (hf h (Option.mem_toList.1 hm)).1
          · exact hty h ((hp.G h).1 ((mem_homSet hlt).1 hm)).1
        · exact (hl h (Option.mem_toList.1 hm)).1
      · intro x hx r
        rw [Ev.satSum_iff hC hx, hev x hx r]
        have := SumSpec.parts (env := env) (o := .node id nst nxt) (x := x) hC (hs := hs0)
          (f.toList.map (fun g => (g, F')) ++ (homSet lt p.G).map (fun g => (g, [g])) ++
            l.toList.map (fun g => (g, p.L.map (.loc nxt.lvl)))) ?_ ?_ r
        · simpa [List.map_append, Function.comp_def] using this
        · intro a ha
          rcases List.mem_append.1 ha with ha | ha
          · rcases List.mem_append.1 ha with ha | ha
            · obtain ⟨g, hg, rfl⟩ := List.mem_map.1 ha
              have := (hf g (Option.mem_toList.1 hg)).2 x hx
              exact ⟨this, hdef hx (fun h hm => ((hnx h).1 hm).1) this⟩
            · obtain ⟨g, hg, rfl⟩ := List.mem_map.1 ha
              have h1 := hty g ((hp.G g).1 ((mem_homSet hlt).1 hg)).1
              refine ⟨((NOK.single (K := .sum) hC) (.node id nst nxt) t (by simpa using h1)).2 x hx, fun h => h g (by simp)⟩
          · obtain ⟨g, hg, rfl⟩ := List.mem_map.1 ha
            have := (hl g (Option.mem_toList.1 hg)).2 x hx
            exact ⟨this, hdef hx (fun h hm => (hall h).2 (Or.inr (Or.inr hm))) this⟩
        · intro h
          rw [hall]
          constructor
          · rintro (h1 | h1 | h1)
            · cases f with
              | none => rw [hf0 (Eq.refl _)] at h1; cases h1
              | some g => exact ⟨(g, F'), by simp, h1⟩
            · exact ⟨(h, [h]), by simp [mem_homSet hlt, h1], by simp⟩
            · cases l with
              | none => rw [hl0 (Eq.refl _)] at h1; cases h1
              | some g => exact ⟨(g, _), by simp, h1⟩
          · rintro ⟨a, ha, h1⟩
            rcases List.mem_append.1 ha with ha | ha
            · rcases List.mem_append.1 ha with ha | ha
              · obtain ⟨g, hg, rfl⟩ := List.mem_map.1 ha
                exact Or.inl h1
              · obtain ⟨g, hg, rfl⟩ := List.mem_map.1 ha
                simp only [List.mem_singleton] at h1
                subst h1
                exact Or.inr (Or.inl ((mem_homSet hlt).1 hg))
            · obtain ⟨g, hg, rfl⟩ := List.mem_map.1 ha
              exact Or.inr (Or.inr h1)
    have hset : ∀ {A B : List (Hom V I U)}, (∀ h, h ∈ A ↔ h ∈ B) → ∀ x r,
        SumSpec env C A (.node id nst nxt) x r ↔ SumSpec env C B (.node id nst nxt) x r := by
      intro A B hAB x r
      simp only [SumSpec, hAB]
    unfold hsatSum
    split
    · rename_i g hG
      obtain ⟨k1, k2⟩ := hf g (by rfl)
      refine ⟨k1, fun x hx r => ?_⟩
      rw [k2 x hx r, hev x hx r]
      exact hset (fun h => by rw [hall, hG, hl0 (by rfl)]; simp) x r
    · rename_i g hG
      obtain ⟨k1, k2⟩ := hl g (by rfl)
      refine ⟨k1, fun x hx r => ?_⟩
      rw [k2 x hx r, hev x hx r]
      exact hset (fun h => by rw [hall, hG, hf0 (by rfl)]; simp) x r
    · exact hmain
  refine hgen _ _ ?_ ?_ ?_ ?_
  · split
    · exact fun _ => ‹_›
    · exact fun h => by cases h
  · split
    · exact fun _ => ‹_›
    · exact fun h => by cases h
  · intro g hg
    split at hg
    · cases hg
    · cases hg; exact hA ‹_›
  · intro g hg
    split at hg
    · cases hg
    · cases hg; exact hB ‹_›

theorem SameEv.hrewrite (hC : C.Lawful) (hon : Honest env C) (hlt : StrictTotal lt) (hord : Iterates ord) (o : OB I) :
    ∀ {h : Hom V I U}, h.noEmpty = true → h.onlySums = true → SameEv env C sc o h (hrewrite env lt ord o h) := by
  induction o with
  | nil => intro h _ _; exact SameEv.same
  | node id nst nxt ihn ih =>
    intro h hn hs
    cases h with
    | sum hs0 =>
      exact SameEv.sum_step hC hon hlt hord (fun hs => hnary_onlySums hlt hord hs) (fun x h => by simp [Hom.onlySums]) ihn ih hn
        (onlySumsAll_iff.1 hs)
    | inter hs0 => simp [Hom.onlySums] at hs
    | fix h =>
      cases h with
      | sum hs0 =>
        have : (hparts env nxt.lvl id hs0).hasId = false := by
          by_contra hc
          simp only [Bool.not_eq_false] at hc
          have h1 := (hparts_good env nxt.lvl id hs0).hasId.1 hc
          simp only [Hom.onlySums, Bool.not_eq_true', List.any_eq_false, decide_eq_true_eq] at hs
          exact hs _ h1 (Eq.refl _)
        have he : Verif.hrewrite env lt ord (.node id nst nxt) (.fix (.sum hs0)) = .fix (.sum hs0) := by
          rw [Verif.hrewrite]; exact if_pos this
        rw [he]
        exact fun {_} ht => ⟨ht, fun _ _ _ => Iff.rfl⟩
      | _ => exact SameEv.same
    | _ => exact SameEv.same

end Verif
