import Verif.Order.Builder
/-!
# Dumping and loading orders: facts
-/

set_option autoImplicit false
set_option linter.unusedSectionVars false

namespace Verif
namespace OB
variable {I : Type}

/-- The same flat identifiers at the same places: identifiers of hierarchical levels are ignored.
(Specification or proof device, not part of the code.) -/
inductive SameNesting : OB I → OB I → Prop
  | nil : SameNesting .nil .nil
  | flat {i j : OId I} {n n' : OB I} : i.user = j.user → SameNesting n n' → SameNesting (.node i .nil n) (.node j .nil n')
  | hier {i j : OId I} {a b n n' : OB I} : a ≠ .nil → b ≠ .nil → SameNesting a b → SameNesting n n' →
      SameNesting (.node i a n) (.node j b n')

/-- Every nested level has at least two elements. (Specification or proof device, not part of the code.) -/
def Branching : OB I → Prop
  | .nil => True
  | .node _ nst nxt => (nst ≠ .nil → 2 ≤ nst.level.length ∧ Branching nst) ∧ Branching nxt

theorem SameNesting.concat {a b c d : OB I} (h : SameNesting a b) (h' : SameNesting c d) :
    SameNesting (a.concat c) (b.concat d) := by
  induction h with
  | nil => exact h'
  | flat h1 _ ih => exact .flat h1 ih
  | hier h1 h2 h3 _ _ ih => exact .hier h1 h2 h3 ih

theorem concat_nil (a : OB I) : a.concat .nil = a := by
  apply level_inj; simp [level_concat, level]

theorem concat_assoc (a b c : OB I) : (a.concat b).concat c = a.concat (b.concat c) := by
  apply level_inj; simp [level_concat]

theorem loadElems_dump (d : I) (ob : OB I) : ∀ (acc : OB I) (c : Nat),
    ∃ r c', loadElems d (dumpElems ob) acc c = some (acc.concat r, c') ∧ r.flatIds = ob.flatIds ∧
      r.level.length = ob.level.length ∧ (Branching ob → SameNesting ob r) := by
  induction ob with
  | nil =>
    intro acc c
    exact ⟨.nil, c, by simp [dumpElems, loadElems, concat_nil], rfl, rfl, fun _ => .nil⟩
  | node id nst nxt ihn ih =>
    intro acc c
    -- the first element
    have first : ∃ b c', loadImpl d (if nst.isNil then .leaf id.user else .arr (dumpElems nst)) c = some (b, c') ∧
        b.flatIds = (OB.node id nst .nil).flatIds ∧ b.level.length = 1 ∧
        (Branching (OB.node id nst .nil) → SameNesting (.node id nst .nil) b) := by
      by_cases hn : nst = .nil
      · subst hn
        exact ⟨.node (uid id.user) .nil .nil, c, by simp [isNil, loadImpl], by simp [flatIds, uid], by simp [level],
          fun _ => .flat rfl .nil⟩
      · have hb : nst.isNil = false := by
          cases nst with
          | nil => exact absurd rfl hn
          | node _ _ _ => rfl
        obtain ⟨r, c', e, h1, h2, h3⟩ := ihn .nil c
        have hr : r ≠ .nil := by
          rintro rfl
          exact hn (level_nil.1 (List.length_eq_zero_iff.1 h2.symm))
        rw [hb]
        simp only [Bool.false_eq_true, if_false, loadImpl, e, concat, height_eq, if_neg hr]
        by_cases hl : r.level.length = 1
        · refine ⟨r, c', by rw [if_pos hl], by simp [flatIds, hn, h1], hl, fun hB => ?_⟩
          have := (hB.1 hn).1
          omega
        · refine ⟨.node ⟨c' + 1, d⟩ r .nil, c' + 1, by rw [if_neg hl], by simp [flatIds, hn, hr, h1], by simp [level], fun hB => ?_⟩
          exact .hier hn hr (h3 (hB.1 hn).2) .nil
    obtain ⟨b, c1, e1, a1, a2, a3⟩ := first
    obtain ⟨r, c2, e2, b1, b2, b3⟩ := ih (acc.concat b) c1
    refine ⟨b.concat r, c2, ?_, ?_, ?_, ?_⟩
    · rw [dumpElems, loadElems, e1]
      simp only
      rw [e2, concat_assoc]
    · rw [flatIds_concat, a1, b1]
      simp [flatIds]
    · rw [level_concat, List.length_append, a2, b2, level, List.length_cons]
      omega
    · intro hB
      exact (a3 ⟨hB.1, trivial⟩).concat (b3 hB.2)

theorem load_dump (d : I) {ob : OB I} (hne : ob ≠ .nil) (c : Nat) :
    ∃ r c', load d (dump ob) c = some (r, c') ∧ r.flatIds = ob.flatIds ∧
      (Branching ob → (2 ≤ ob.level.length ∨ ∃ i, ob = .node i .nil .nil) → SameNesting ob r) := by
  obtain ⟨r, c', e, h1, h2, h3⟩ := loadElems_dump d ob .nil c
  have hr : r ≠ .nil := by
    rintro rfl
    exact hne (level_nil.1 (List.length_eq_zero_iff.1 h2.symm))
  rw [load, dump, loadImpl, e]
  simp only [concat, height_eq, if_neg hr]
  by_cases hl : r.level.length = 1
  · rw [if_pos hl]
    cases r with
    | nil => exact absurd rfl hr
    | node id nst nxt =>
      have hx : nxt = .nil := by
        simp only [level, List.length_cons] at hl
        exact level_nil.1 (List.length_eq_zero_iff.1 (by omega))
      subst hx
      by_cases hn : nst = .nil
      · subst hn
        exact ⟨_, c', by simp [isNil], h1, fun hB _ => h3 hB⟩
      · have hb : nst.isNil = false := by
          cases nst with
          | nil => exact absurd rfl hn
          | node _ _ _ => rfl
        refine ⟨nst, c', by simp [hb], by rw [← h1]; simp [flatIds, hn], ?_⟩
        rintro hB (h | ⟨i, rfl⟩)
        · omega
        · have := h3 hB
          cases this with
          | flat => exact absurd rfl hn
          | hier h => exact absurd rfl h
  · rw [if_neg hl]
    have hb : r.isNil = false := by
      cases r with
      | nil => exact absurd rfl hr
      | node _ _ _ => rfl
    exact ⟨r, c' + 1, by simp [hb], h1, fun hB _ => h3 hB⟩

end OB
end Verif
