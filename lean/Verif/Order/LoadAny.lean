import Verif.Order.JsonText

/-!
# Loading any document

`load_order` on texts of any origin, not only on those written by `dump_order`: `/repo/sdd/tools/order.hh`, lines 70-114.
The functions of the code are in `Order/Builder` (`OB.load`) and `Order/JsonText` (`loadText`); this file has the specification
(what a document says) and the inductions.
-/

set_option autoImplicit false
set_option linter.unusedSectionVars false
namespace Verif

variable {I : Type}

namespace OB
namespace Json

mutual
/-- The identifiers of a document, from left to right. (Specification, not part of the code.) -/
def leaves : Json I → List I
  | .leaf i => [i]
  | .arr l => leavesL l
/-- The identifiers of a list of documents. (Specification, not part of the code.) -/
def leavesL : List (Json I) → List I
  | [] => []
  | j :: l => leaves j ++ leavesL l
end

mutual
/-- The document in which each array of one element is replaced by its element. (Specification, not part of the code.) -/
def collapse : Json I → Json I
  | .leaf i => .leaf i
  | .arr l => match collapseL l with
    | [j] => j
    | l => .arr l
/-- The same for each element of a list. (Specification, not part of the code.) -/
def collapseL : List (Json I) → List (Json I)
  | [] => []
  | j :: l => collapse j :: collapseL l
end

mutual
/-- No array of the document is empty. (Specification, not part of the code.) -/
def Full : Json I → Prop
  | .leaf _ => True
  | .arr l => l ≠ [] ∧ FullL l
/-- The same for each element of a list. (Specification, not part of the code.) -/
def FullL : List (Json I) → Prop
  | [] => True
  | j :: l => Full j ∧ FullL l
end

/-- The document as an array: a lone identifier is put in an array. (Specification, not part of the code.) -/
def asArray : Json I → Json I
  | .leaf i => .arr [.leaf i]
  | j => j

end Json

theorem dumpElems_concat (a b : OB I) : (a.concat b).dumpElems = a.dumpElems ++ b.dumpElems := by
  induction a with
  | nil => rfl
  | node id nst nxt _ ih => simp [concat, dumpElems, ih]

theorem dumpElems_length (a : OB I) : a.dumpElems.length = a.level.length := by
  induction a with
  | nil => rfl
  | node id nst nxt _ ih => simp [dumpElems, level, ih]

theorem userIds_concat (a b : OB I) : (a.concat b).userIds = a.userIds ++ b.userIds := by
  simp [userIds, ids_concat]

/-- What `load_order_impl` makes of a document. (Proof device, not part of the code.) -/
structure Loaded (j : List (Json I)) (b : OB I) : Prop where
  dump : b.dumpElems = Json.collapseL j
  flat : b.flatIds = Json.leavesL j
  user : b.userIds = Json.leavesL j
  art : ∀ p ∈ b.level, p.2 ≠ OB.nil → p.1.artificial ≠ 0

theorem Loaded.nil : Loaded ([] : List (Json I)) .nil := ⟨rfl, rfl, rfl, by simp [level]⟩

theorem Json.leavesL_append (l l' : List (Json I)) : Json.leavesL (l ++ l') = Json.leavesL l ++ Json.leavesL l' := by
  induction l with
  | nil => rfl
  | cons j l ih => simp [Json.leavesL, ih]

theorem Json.collapseL_append (l l' : List (Json I)) : Json.collapseL (l ++ l') = Json.collapseL l ++ Json.collapseL l' := by
  induction l with
  | nil => rfl
  | cons j l ih => simp [Json.collapseL, ih]

theorem Json.collapseL_length (l : List (Json I)) : (Json.collapseL l).length = l.length := by
  induction l with
  | nil => rfl
  | cons j l ih => simp [Json.collapseL, ih]

theorem Loaded.append {l l' : List (Json I)} {a b : OB I} (ha : Loaded l a) (hb : Loaded l' b) : Loaded (l ++ l') (a.concat b) :=
  ⟨by rw [dumpElems_concat, ha.dump, hb.dump, Json.collapseL_append], by rw [flatIds_concat, ha.flat, hb.flat, Json.leavesL_append],
    by rw [userIds_concat, ha.user, hb.user, Json.leavesL_append], fun p hp => by
      rw [level_concat, List.mem_append] at hp
      exact hp.elim (ha.art p) (hb.art p)⟩

mutual
theorem loadImpl_any (d : I) : ∀ (j : Json I) (c : Nat),
    (j.Full → ∃ b c', loadImpl d j c = some (b, c') ∧ Loaded [j] b) ∧ (¬ j.Full → loadImpl d j c = none)
  | .leaf i, c => ⟨fun _ => ⟨_, _, rfl, ⟨by simp [dumpElems, Json.collapseL, Json.collapse, uid, isNil], by
      simp [flatIds, Json.leavesL, Json.leaves, uid], by simp [userIds, ids, Json.leavesL, Json.leaves, uid],
      by simp [level]⟩⟩, fun h => absurd trivial h⟩
  | .arr l, c => by
    have ⟨h1, h2⟩ := loadElems_any d l [] nil c Loaded.nil
    constructor
    · rintro ⟨hne, hf⟩
      obtain ⟨ob, c', e, hl⟩ := h1 hf
      rw [List.nil_append] at hl
      have hn : ob ≠ nil := by
        rintro rfl
        have := hl.dump
        rw [dumpElems] at this
        have h := congrArg List.length this
        rw [Json.collapseL_length] at h
        exact hne (List.length_eq_zero_iff.1 h.symm)
      rw [loadImpl, e]
      simp only [height_eq, hn, if_false]
      have hlen : ob.level.length = (Json.collapseL l).length := by rw [← hl.dump, dumpElems_length]
      split
      · rename_i h1
        refine ⟨_, _, rfl, ?_, ?_, ?_, hl.art⟩
        · rw [hl.dump]
          rw [hlen] at h1
          obtain ⟨x, hx⟩ := List.length_eq_one_iff.1 h1
          simp only [Json.collapseL, Json.collapse, hx]
        · rw [hl.flat]; simp [Json.leavesL, Json.leaves]
        · rw [hl.user]; simp [Json.leavesL, Json.leaves]
      · rename_i h1
        refine ⟨_, _, rfl, ?_, ?_, ?_, by simp [level]⟩
        · have hi : ob.isNil = false := by
            rw [Bool.eq_false_iff, ne_eq, isNil_iff]; exact hn
          rw [hlen] at h1
          have hc : (Json.arr l).collapse = .arr (Json.collapseL l) := by
            rw [Json.collapse]
            split
            · rename_i x hx
              exact absurd (by rw [hx]; rfl) h1
            · rfl
          simp [dumpElems, hi, hl.dump, Json.collapseL, hc]
        · simp [flatIds, hn, hl.flat, Json.leavesL, Json.leaves]
        · have := hl.user
          simp only [userIds] at this
          simp [userIds, ids, Json.leavesL, Json.leaves, this]
    · intro h
      rw [loadImpl]
      by_cases hf : Json.FullL l
      · have : l = [] := by
          by_contra hne
          exact h ⟨hne, hf⟩
        subst this
        simp [loadElems, height]
      · rw [h2 hf]
theorem loadElems_any (d : I) : ∀ (l : List (Json I)) (p : List (Json I)) (ob : OB I) (c : Nat), Loaded p ob →
    (Json.FullL l → ∃ b c', loadElems d l ob c = some (b, c') ∧ Loaded (p ++ l) b) ∧ (¬ Json.FullL l → loadElems d l ob c = none)
  | [], p, ob, c, hp => ⟨fun _ => ⟨ob, c, rfl, by simpa using hp⟩, fun h => absurd trivial h⟩
  | j :: l, p, ob, c, hp => by
    have ⟨h1, h2⟩ := loadImpl_any d j c
    constructor
    · rintro ⟨hj, hl⟩
      obtain ⟨b, c1, e, hb⟩ := h1 hj
      obtain ⟨r, c2, e2, hr⟩ := (loadElems_any d l (p ++ [j]) (ob.concat b) c1 (hp.append hb)).1 hl
      refine ⟨r, c2, by rw [loadElems, e]; exact e2, by simpa using hr⟩
    · intro h
      rw [loadElems]
      by_cases hj : j.Full
      · obtain ⟨b, c1, e, hb⟩ := h1 hj
        rw [e]
        exact (loadElems_any d l (p ++ [j]) (ob.concat b) c1 (hp.append hb)).2 fun hl => h ⟨hj, hl⟩
      · rw [h2 hj]
end

/-- `load_order` on documents: defined exactly when no array is empty. -/
theorem load_any (d : I) (j : Json I) (c : Nat) :
    (j.Full → ∃ r c', load d j c = some (r, c') ∧ r.flatIds = j.leaves ∧ r.userIds = j.leaves ∧ r.dump = j.collapse.asArray) ∧
    (¬ j.Full → load d j c = none) := by
  have ⟨h1, h2⟩ := loadImpl_any d j c
  constructor
  · intro hj
    obtain ⟨b, c', e, hb⟩ := h1 hj
    have hf : b.flatIds = j.leaves := by rw [hb.flat]; simp [Json.leavesL]
    have hu : b.userIds = j.leaves := by rw [hb.user]; simp [Json.leavesL]
    have hd : b.dumpElems = [j.collapse] := by rw [hb.dump]; simp [Json.collapseL]
    rw [load, e]
    cases b with
    | nil => simp [dumpElems] at hd
    | node id nst nxt =>
      rw [dumpElems, List.cons.injEq] at hd
      have hx : nxt = nil := by
        cases nxt with
        | nil => rfl
        | node => simp [dumpElems] at hd
      subst hx
      by_cases hn : nst = nil
      · subst hn
        refine ⟨_, _, rfl, hf, hu, ?_⟩
        simp only [isNil, if_true] at hd
        rw [← hd.1]
        simp [dump, dumpElems, isNil, Json.asArray]
      · have hi : nst.isNil = false := by
          rw [Bool.eq_false_iff, ne_eq, isNil_iff]; exact hn
        have ha := hb.art (id, nst) (by simp [level]) hn
        simp only [hi] at hd
        refine ⟨nst, c', by simp only [hi]; rfl, ?_, ?_, ?_⟩
        · rw [← hf]; simp [flatIds, hn]
        · rw [← hu]; simp [userIds, ids, ha]
        · rw [← hd.1]; simp [dump, Json.asArray]
  · intro h
    rw [load, h2 h]

end OB

/-! ## Texts -/

mutual
/-- Equality of JSON values, by computation. (Proof device, not part of the code.) -/
def JVal.beq : JVal → JVal → Bool
  | .num m, .num n => decide (m = n)
  | .str s, .str t => decide (s = t)
  | .arr l, .arr l' => JVal.beqL l l'
  | _, _ => false
/-- Equality of lists of JSON values, by computation. (Proof device, not part of the code.) -/
def JVal.beqL : List JVal → List JVal → Bool
  | [], [] => true
  | v :: l, v' :: l' => JVal.beq v v' && JVal.beqL l l'
  | _, _ => false
end

mutual
theorem JVal.eq_of_beq : ∀ v v' : JVal, JVal.beq v v' = true → v = v'
  | .num m, .num n, h => by simp [JVal.beq] at h; rw [h]
  | .str s, .str t, h => by simp [JVal.beq] at h; rw [h]
  | .arr l, .arr l', h => by rw [JVal.beq] at h; rw [JVal.eq_of_beqL l l' h]
  | .num _, .str _, h => by simp [JVal.beq] at h
  | .num _, .arr _, h => by simp [JVal.beq] at h
  | .str _, .num _, h => by simp [JVal.beq] at h
  | .str _, .arr _, h => by simp [JVal.beq] at h
  | .arr _, .num _, h => by simp [JVal.beq] at h
  | .arr _, .str _, h => by simp [JVal.beq] at h
theorem JVal.eq_of_beqL : ∀ l l' : List JVal, JVal.beqL l l' = true → l = l'
  | [], [], _ => rfl
  | v :: l, v' :: l', h => by
    rw [JVal.beqL, Bool.and_eq_true] at h
    rw [JVal.eq_of_beq v v' h.1, JVal.eq_of_beqL l l' h.2]
  | [], _ :: _, h => by simp [JVal.beqL] at h
  | _ :: _, [], h => by simp [JVal.beqL] at h
end

theorem parseJson_of_beq {t : List Char} {l : List JVal} (h : (match parseJson t with | some v => JVal.beq v (.arr l) | none => false) = true) :
    parseJson t = some (.arr l) := by
  split at h
  · rename_i v e
    rw [e, JVal.eq_of_beq _ _ h]
  · cases h

mutual
/-- A JSON value says a document, when each value which is not an array is an identifier, by `P`. (Specification, not part of the code.) -/
inductive Says (P : JVal → I → Prop) : JVal → OB.Json I → Prop where
  | num {n : Int} {i : I} : P (.num n) i → Says P (.num n) (.leaf i)
  | str {s : List Char} {i : I} : P (.str s) i → Says P (.str s) (.leaf i)
  | arr {l : List JVal} {js : List (OB.Json I)} : SaysL P l js → Says P (.arr l) (.arr js)
/-- The same for each element of a list. (Specification, not part of the code.) -/
inductive SaysL (P : JVal → I → Prop) : List JVal → List (OB.Json I) → Prop where
  | nil : SaysL P [] []
  | cons {v : JVal} {j : OB.Json I} {l : List JVal} {js : List (OB.Json I)} : Says P v j → SaysL P l js → SaysL P (v :: l) (j :: js)
end

mutual
theorem readIds_says {P : JVal → I → Prop} {mk : JVal → LOut I} (hmk : ∀ v i, (∀ l, v ≠ .arr l) → (mk v = .order i ↔ P v i)) :
    ∀ (v : JVal) (j : OB.Json I), readIds mk v = .order j ↔ Says P v j
  | .num n, j => by
    rw [readIds]
    constructor
    · intro h
      split at h
      · rename_i i e
        cases h
        exact .num ((hmk _ _ (by simp)).1 e)
      all_goals cases h
    · rintro ⟨⟩
      rename_i i h
      rw [(hmk _ _ (by simp)).2 h]
  | .str n, j => by
    rw [readIds]
    constructor
    · intro h
      split at h
      · rename_i i e
        cases h
        exact .str ((hmk _ _ (by simp)).1 e)
      all_goals cases h
    · rintro ⟨⟩
      rename_i i h
      rw [(hmk _ _ (by simp)).2 h]
  | .arr l, j => by
    rw [readIds]
    constructor
    · intro h
      split at h
      · rename_i js e
        cases h
        exact .arr ((readIdsL_says hmk l _).1 e)
      all_goals cases h
    · rintro ⟨⟩
      rename_i js h
      rw [(readIdsL_says hmk l _).2 h]
theorem readIdsL_says {P : JVal → I → Prop} {mk : JVal → LOut I} (hmk : ∀ v i, (∀ l, v ≠ .arr l) → (mk v = .order i ↔ P v i)) :
    ∀ (l : List JVal) (js : List (OB.Json I)), readIdsL mk l = .order js ↔ SaysL P l js
  | [], js => by
    rw [readIdsL]
    constructor
    · intro h
      cases h
      exact .nil
    · rintro ⟨⟩
      rfl
  | v :: l, js => by
    rw [readIdsL]
    constructor
    · intro h
      split at h
      · rename_i j e
        split at h
        · rename_i js' e'
          cases h
          exact .cons ((readIds_says hmk v _).1 e) ((readIdsL_says hmk l _).1 e')
        · rename_i hn
          exact absurd h (hn _)
      all_goals cases h
    · rintro ⟨⟩
      rename_i j js h h'
      rw [(readIds_says hmk v _).2 h]
      simp only [(readIdsL_says hmk l _).2 h']
end

/-- `load_order` on texts: which texts give an order, and which order. -/
theorem loadText_any {P : JVal → I → Prop} {mk : JVal → LOut I} (hmk : ∀ v i, (∀ l, v ≠ .arr l) → (mk v = .order i ↔ P v i)) (d : I) (t : List Char) (c : Nat) :
    (∀ l j, parseJson t = some (.arr l) → Says P (.arr l) j →
      (j.Full → ∃ r c', loadText mk d t c = .order (r, c') ∧ r.flatIds = j.leaves ∧ r.userIds = j.leaves ∧ r.dump = j.collapse.asArray) ∧
      (¬ j.Full → loadText mk d t c = .ub)) ∧
    (∀ r, loadText mk d t c = .order r → ∃ l j, parseJson t = some (.arr l) ∧ Says P (.arr l) j ∧ j.Full) := by
  constructor
  · intro l j e h
    have hne : t ≠ [] := by
      rintro rfl
      have h0 : parseJson [] = none := rfl
      rw [h0] at e
      cases e
    have hr := (readIds_says hmk _ _).2 h
    have ⟨h1, h2⟩ := OB.load_any d j c
    constructor
    · intro hf
      obtain ⟨r, c', e', h⟩ := h1 hf
      exact ⟨r, c', by simp only [loadText, if_neg hne, e, hr, e'], h⟩
    · intro hf
      simp only [loadText, if_neg hne, e, hr, h2 hf]
  · intro r h
    unfold loadText at h
    split at h
    · cases h
    · split at h
      · rename_i l e
        split at h
        · rename_i j e'
          refine ⟨l, j, e, (readIds_says hmk _ _).1 e', ?_⟩
          by_contra hf
          rw [(OB.load_any d j c).2 hf] at h
          cases h
        all_goals cases h
      · cases h

end Verif
