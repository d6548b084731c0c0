import Verif.DD.Containers
import Mathlib.Data.List.Nodup
import Mathlib.Data.List.Range
/-!
# `sdd::values::bitset<Size>`

`/repo/sdd/values/bitset.hh`; a `std::bitset<Size>` is a `BitVec size`.
-/

set_option autoImplicit false
set_option linter.unusedSectionVars false

namespace Verif

/-- What a call on a bitset can do: return, throw `std::out_of_range` / `std::overflow_error`, or call
`std::terminate` (an exception leaves a `noexcept` function). (`/repo/sdd/values/bitset.hh`.) -/
inductive BOut (α : Type) : Type where
  | ok (a : α)
  | throws
  | terminate
  deriving DecidableEq

namespace Bitset
variable {n : Nat}

/-- The set denoted by a bitset. (Specification, not part of the code.) -/
def Mem (a : Nat) (v : BitVec n) : Prop := v.getLsbD a = true

/-- `bitset()`, `/repo/sdd/values/bitset.hh:36-39`. -/
def empty : BitVec n := 0#n

/-- `insert`, `/repo/sdd/values/bitset.hh:84-89`: `std::bitset::set` throws outside of the range. -/
def insert (v : BitVec n) (a : Nat) : BOut (BitVec n) :=
  if a < n then .ok (v ||| BitVec.twoPow n a) else .throws

/-- The constructor from an initializer list, `/repo/sdd/values/bitset.hh:51-58`. -/
def ofList : List Nat → BOut (BitVec n) :=
  fun l => l.foldl (fun acc a => match acc with | .ok v => insert v a | e => e) (.ok empty)

/-- The elements of a bitset in increasing order; used by `operator<<`,
`/repo/sdd/values/bitset.hh:183-197`. -/
def elems (v : BitVec n) : List Nat := (List.range n).filter fun i => v.getLsbD i

/-- `size`, `/repo/sdd/values/bitset.hh:91-96`: `std::bitset::count`. -/
def size (v : BitVec n) : Nat := (elems v).length

/-- `empty`, `/repo/sdd/values/bitset.hh:98-103`: `std::bitset::none`. -/
def isEmpty (v : BitVec n) : Bool := v == 0#n

/-- `test`, `/repo/sdd/values/bitset.hh:105-110`: `std::bitset::test` throws outside of the range, in a
`noexcept` function. -/
def test (v : BitVec n) (a : Nat) : BOut Bool :=
  if a < n then .ok (v.getLsbD a) else .terminate

/-- `sum`, `/repo/sdd/values/bitset.hh:144-151`. -/
def sum (v w : BitVec n) : BitVec n := v ||| w

/-- `intersection`, `/repo/sdd/values/bitset.hh:155-162`. -/
def inter (v w : BitVec n) : BitVec n := v &&& w

/-- `difference`, `/repo/sdd/values/bitset.hh:166-173`. -/
def diff (v w : BitVec n) : BitVec n := v &&& ~~~w

/-- `operator<<`, `/repo/sdd/values/bitset.hh:120-125`. -/
def shl (v : BitVec n) (k : Nat) : BitVec n := v <<< k

/-- `operator>>`, `/repo/sdd/values/bitset.hh:127-132`. -/
def shr (v : BitVec n) (k : Nat) : BitVec n := v >>> k

/-- `std::bitset::to_ulong` with a 64-bit `unsigned long`: throws when the value does not fit.
(Standard library; used by `/repo/sdd/values/bitset.hh`.) -/
def toUlong (v : BitVec n) : BOut Nat := if v.toNat < 2 ^ 64 then .ok v.toNat else .throws

/-- `operator<`, `/repo/sdd/values/bitset.hh:76-82`, a `noexcept` function. -/
def lt (v w : BitVec n) : BOut Bool :=
  match toUlong v, toUlong w with
  | .ok a, .ok b => .ok (decide (a < b))
  | _, _ => .terminate

/-- `std::hash`, `/repo/sdd/values/bitset.hh:213-218`, a `noexcept` function; the result is given before
the final `sdd::hash::seed`. -/
def hash (v : BitVec n) : BOut Nat :=
  match toUlong v with
  | .ok a => .ok a
  | _ => .terminate

theorem mem_lt {a : Nat} {v : BitVec n} (h : Mem a v) : a < n := by
  by_contra hc
  unfold Mem at h
  rw [BitVec.getLsbD_of_ge v a (by omega)] at h
  exact absurd h (by simp)

theorem ext {v w : BitVec n} (h : ∀ a, Mem a v ↔ Mem a w) : v = w := by
  apply BitVec.eq_of_getLsbD_eq
  intro i _
  have := h i
  unfold Mem at this
  rw [Bool.eq_iff_iff]
  exact this

theorem not_mem_empty (a : Nat) : ¬ Mem a (empty : BitVec n) := by simp [Mem, empty]

theorem mem_sum (a : Nat) (v w : BitVec n) : Mem a (sum v w) ↔ Mem a v ∨ Mem a w := by
  simp [Mem, sum]

theorem mem_inter (a : Nat) (v w : BitVec n) : Mem a (inter v w) ↔ Mem a v ∧ Mem a w := by
  simp [Mem, inter]

theorem mem_diff (a : Nat) (v w : BitVec n) : Mem a (diff v w) ↔ Mem a v ∧ ¬ Mem a w := by
  constructor
  · intro h
    have hlt := mem_lt h
    simp [Mem, diff, hlt] at h ⊢
    exact h
  · rintro ⟨h1, h2⟩
    have hlt := mem_lt h1
    simp [Mem, diff, hlt] at h1 h2 ⊢
    exact ⟨h1, h2⟩

theorem isEmpty_iff (v : BitVec n) : isEmpty v = true ↔ ∀ a, ¬ Mem a v := by
  unfold isEmpty
  rw [beq_iff_eq]
  constructor
  · rintro rfl a; exact not_mem_empty a
  · intro h
    exact ext fun a => ⟨fun h' => absurd h' (h a), fun h' => absurd h' (not_mem_empty a)⟩

theorem mem_elems (a : Nat) (v : BitVec n) : a ∈ elems v ↔ Mem a v := by
  unfold elems
  rw [List.mem_filter, List.mem_range]
  exact ⟨fun h => h.2, fun h => ⟨mem_lt h, h⟩⟩

theorem nodup_elems (v : BitVec n) : (elems v).Nodup := List.Nodup.filter _ List.nodup_range

/-- `insert` adds its argument, or throws exactly outside of the range. -/
theorem insert_spec (v : BitVec n) (a : Nat) :
    (a < n → ∃ w, insert v a = .ok w ∧ ∀ b, Mem b w ↔ b = a ∨ Mem b v) ∧
      (n ≤ a → insert v a = .throws) := by
  unfold insert
  refine ⟨fun h => ⟨v ||| BitVec.twoPow n a, by rw [if_pos h], fun b => ?_⟩,
    fun h => by rw [if_neg (by omega)]⟩
  simp only [Mem, BitVec.getLsbD_or, BitVec.getLsbD_twoPow, Bool.or_eq_true, Bool.and_eq_true,
    decide_eq_true_eq, h, true_and]
  constructor
  · rintro (h1 | h1)
    · exact Or.inr h1
    · exact Or.inl h1.symm
  · rintro (h1 | h1)
    · exact Or.inr h1.symm
    · exact Or.inl h1

/-- `test` is membership, inside the range. -/
theorem test_spec (v : BitVec n) (a : Nat) :
    (a < n → ∃ b, test v a = .ok b ∧ (b = true ↔ Mem a v)) ∧ (n ≤ a → test v a = .terminate) := by
  unfold test
  exact ⟨fun h => ⟨_, by rw [if_pos h], Iff.rfl⟩, fun h => by rw [if_neg (by omega)]⟩

theorem mem_shl (a k : Nat) (v : BitVec n) : Mem a (shl v k) ↔ a < n ∧ k ≤ a ∧ Mem (a - k) v := by
  simp [Mem, shl]
  tauto

theorem mem_shr (a k : Nat) (v : BitVec n) : Mem a (shr v k) ↔ Mem (a + k) v := by
  simp [Mem, shr, Nat.add_comm]

/-- For at most 64 bits, `operator<` always returns. -/
theorem lt_of_le (hn : n ≤ 64) (v w : BitVec n) : lt v w = .ok (decide (v.toNat < w.toNat)) := by
  have h : ∀ u : BitVec n, u.toNat < 2 ^ 64 := fun u =>
    lt_of_lt_of_le u.isLt (Nat.pow_le_pow_right (by omega) hn)
  unfold lt toUlong
  rw [if_pos (h v), if_pos (h w)]

end Bitset

/-- The comparison used by the library when it returns. (Proof device, not part of the code.) -/
def bitsetLt {n : Nat} (v w : BitVec n) : Bool := decide (v.toNat < w.toNat)

theorem natLt_st : StrictTotal fun a b : Nat => decide (a < b) where
  irrefl a := by simp
  trans a b c := by simp; omega
  total a b := by simp; omega

theorem bitsetLt_st {n : Nat} : StrictTotal (bitsetLt (n := n)) where
  irrefl a := by simp [bitsetLt]
  trans a b c := by simp [bitsetLt]; omega
  total a b := by
    simp [bitsetLt, BitVec.toNat_eq]
    omega

/-- The configuration of a library using bitsets of at most 64 bits (not `fast_iterable`,
`/repo/sdd/values/values_traits.hh`). -/
def bitsetCfg (n : Nat) (lt : SDD (BitVec n) → SDD (BitVec n) → Bool) (limit : Option Nat) :
    Cfg (BitVec n) Nat where
  vmem := Bitset.Mem
  vempty := Bitset.empty
  visEmpty := Bitset.isEmpty
  vsize := Bitset.size
  vsum := Bitset.sum
  vinter := Bitset.inter
  vdiff := Bitset.diff
  velems := Bitset.elems
  vbuild _ := Bitset.empty
  fast := false
  vlt := bitsetLt
  elt a b := decide (a < b)
  lt := lt
  limit := limit

theorem bitsetCfg_lawful {n : Nat} {lt : SDD (BitVec n) → SDD (BitVec n) → Bool}
    {limit : Option Nat} (hlt : StrictTotal lt) : (bitsetCfg n lt limit).Lawful where
  ext v w h := Bitset.ext h
  mem_empty := Bitset.not_mem_empty
  isEmpty_iff := Bitset.isEmpty_iff
  mem_sum := Bitset.mem_sum
  mem_inter := Bitset.mem_inter
  mem_diff := Bitset.mem_diff
  mem_elems := Bitset.mem_elems
  nodup_elems := Bitset.nodup_elems
  size_eq v := rfl
  mem_build h := by simp [bitsetCfg] at h
  vlt_st := bitsetLt_st
  elt_st := natLt_st
  lt_st := hlt

end Verif
