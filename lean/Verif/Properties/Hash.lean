import Verif.Values.Bitset
import Verif.Mem.Hash
/-!
# Properties of hashes
-/

set_option autoImplicit false
set_option linter.unusedSectionVars false

namespace Verif

variable {I A U : Type} [DecidableEq I] [DecidableEq A]

/-- The data of a homomorphism does not hold an order. -/
def HomData.noOrder : HomData I U → Bool
  | .consH .. => false
  | .consF .. => false
  | _ => true

/-- **C50.** Equal data have equal hashes: values, identifiers, nodes and terminals, keys of caches, homomorphisms; when it is the case of
what is provided by the user.

What is missing: `order`, and `cons` which holds an order. It holds when the orders share their storage; `C50_negation` shows that it fails otherwise. -/
theorem C50_hash_partial (H : StdHash I A U) (hu : ∀ u v, H.userEq u v = true → H.user u = H.user v) :
    (∀ l m : List A, flatSetEq l m = true → flatSetHash H l = flatSetHash H m) ∧
    (∀ i j : OId I, (i.artificial == j.artificial && i.user == j.user) = true → i.hash H = j.hash H) ∧
    (∀ a b : SDDData, a.eq H b = true → a.hash H = b.hash H) ∧
    (∀ a b : OpKey, a.eq H b = true → a.hash H = b.hash H) ∧
    (∀ a b : HomData I U, a.noOrder = true → a.eq H b = true → a.hash H = b.hash H) ∧
    (∀ a b : OrdObj I, a.addr = b.addr → a.ord.head = b.ord.head → a.hash H = b.hash H) := by
  have hb : ∀ a b : Nat, (a == b) = true → a = b := fun a b h => by simpa using h
  refine ⟨?_, ?_, ?_, ?_, ?_, ?_⟩
  · intro l m h
    rw [flatSetEq_iff.1 h]
  · intro i j h
    simp only [Bool.and_eq_true, beq_iff_eq] at h
    rw [OId.hash, OId.hash, h.1, h.2]
  · intro a b h
    simp only [SDDData.eq, Bool.and_eq_true, beq_iff_eq] at h
    obtain ⟨h1, h2⟩ := h
    cases a with
    | zero => cases b with
      | zero => rfl
      | one => simp [SDDData.index] at h1
      | node k => cases k <;> simp [SDDData.index] at h1
    | one => cases b with
      | zero => simp [SDDData.index] at h1
      | one => rfl
      | node k => cases k <;> simp [SDDData.index] at h1
    | node k x l => cases b with
      | zero => cases k <;> simp [SDDData.index] at h1
      | one => cases k <;> simp [SDDData.index] at h1
      | node k' y m =>
        simp only [Bool.and_eq_true, beq_iff_eq] at h2
        obtain ⟨⟨h3, rfl⟩, h4⟩ := h2
        have h5 := stored_eq (fun a b h => by
          simp only [arcEq, Bool.and_eq_true, beq_iff_eq] at h
          exact Prod.ext h.2 h.1) h3 h4
        simp only [SDDData.hash, h1, h5]
  · intro a b h
    cases a <;> cases b <;> simp only [OpKey.eq, Bool.and_eq_true, beq_iff_eq, Bool.false_eq_true] at h
    · simp only [OpKey.hash, stored_eq hb h.1 h.2]
    · rw [h.1, h.2]
    · rw [h.1, h.2]
  · intro a b hn h
    cases a <;> cases b <;> simp only [HomData.eq, HomData.noOrder, Bool.and_eq_true, beq_iff_eq, Bool.false_eq_true, flatSetEq_iff] at h hn
    · rw [h.1, h.2]
    · rw [h]
    · rw [h]
    · simp only [HomData.hash, HomData.hash0, HomData.index, h.1, hu _ _ h.2]
    · rfl
    · rw [h.1.1, h.1.2, h.2]
    · simp only [HomData.hash, HomData.hash0, HomData.index, hu _ _ h]
    · rw [h]
    · rw [h.1, h.2]
    · obtain ⟨⟨⟨⟨h1, h2⟩, h3⟩, h4⟩, h5⟩ := h
      simp only [HomData.hash, HomData.hash0, HomData.index, h1, h2, h3, stored_eq hb h4 h5]
    · obtain ⟨⟨⟨h1, h2⟩, h3⟩, h4⟩ := h
      rw [h1, h2, h3, h4]
    · obtain ⟨⟨⟨h1, h2⟩, h3⟩, h4⟩ := h
      rw [h1, h2, h3, h4]
    · simp only [HomData.hash, HomData.hash0, HomData.index, stored_eq hb h.1 h.2]
  · intro a b h1 h2
    rw [OrdObj.hash, OrdObj.hash, h1, h2]

/-- A hash of the standard library which is the identity on pointers and integers, and 16 bits for the numbers of arcs. -/
def demoHash : StdHash Nat Nat Nat := ⟨BitVec.ofNat 64, BitVec.ofNat 64, BitVec.ofNat 64, BitVec.ofNat 64, BitVec.ofNat 64, (· == ·), 16, 32⟩

/-- **C50**, bitsets. The hash of a bitset is defined for all bitsets of a type exactly when this type has no more than 64 bits (otherwise the program is
terminated for some of them); it is the same for the same set of elements. -/
theorem C50_bitset {I A U : Type} (H : StdHash I A U) (n : Nat) : ((∀ b : BitVec n, (bitsetHash H b).isSome) ↔ n ≤ 64) ∧
    ∀ b c : BitVec n, (∀ a, Bitset.Mem a b ↔ Bitset.Mem a c) → bitsetHash H b = bitsetHash H c := by
  refine ⟨⟨fun h => ?_, fun h b => ?_⟩, fun b c h => ?_⟩
  · by_contra hn
    have := h (BitVec.twoPow n 64)
    rw [bitsetHash, BitVec.toNat_twoPow, Nat.mod_eq_of_lt (Nat.pow_lt_pow_right (by omega) (by omega))] at this
    simp at this
  · rw [bitsetHash, if_pos (Nat.lt_of_lt_of_le b.isLt (Nat.pow_le_pow_right (by omega) h))]
    rfl
  · have : b = c := BitVec.eq_of_getLsbD_eq fun i _ => Bool.eq_iff_iff.2 (h i)
    rw [this]

example : (bitsetHash demoHash (5#64)).isSome = true ∧ bitsetHash demoHash (BitVec.twoPow 65 64) = none := by decide +kernel

/-- Two nodes which are different objects. -/
example : (∀ u v, demoHash.userEq u v = true → demoHash.user u = demoHash.user v) ∧
    (SDDData.node false 3 [(16, 32), (48, 64)]).eq demoHash (.node false 3 [(16, 32), (48, 64)]) = true :=
  ⟨fun u v h => by rw [show u = v by simpa [demoHash] using h], rfl⟩

/-- **C50 does not hold** for orders: `operator==` compares their contents while `std::hash` uses the address of their storage. Two orders
built from the same builder are equal but have different hashes; so do homomorphisms `cons` with these orders, which then get two handles. -/
theorem C50_negation : ∃ a b : OrdObj Nat, Ord.ofBuilder (OB.node (OB.uid 7) .nil .nil) = .ok a.ord ∧
    Ord.ofBuilder (OB.node (OB.uid 7) .nil .nil) = .ok b.ord ∧
    a.eq b = some true ∧ a.hash demoHash ≠ b.hash demoHash ∧
    HomData.eq demoHash (.consF a 16 32) (.consF b 16 32 : HomData Nat Nat) = true ∧
    (HomData.consF a 16 32 : HomData Nat Nat).hash demoHash ≠ (HomData.consF b 16 32 : HomData Nat Nat).hash demoHash := by
  let o : Ord Nat := match Ord.ofBuilder (OB.node (OB.uid 7) .nil .nil) with
    | .ok o => o
    | .error _ => ⟨[], none⟩
  exact ⟨⟨4096, o⟩, ⟨8192, o⟩, rfl, rfl, rfl, by decide +kernel, rfl, by decide +kernel⟩

end Verif
