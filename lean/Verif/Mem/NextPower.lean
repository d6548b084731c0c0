import Mathlib.Data.Nat.Log
import Mathlib.Data.Nat.Bitwise
import Mathlib.Tactic.Common
/-!
# `next_power_of_2`
-/

set_option autoImplicit false
set_option linter.unusedSectionVars false

namespace Verif

/-- The assignments `x |= x >> k`. (`/repo/sdd/util/next_power.hh`, lines 15-55.) -/
def smear {w : Nat} (x : BitVec w) (ks : List Nat) : BitVec w :=
  ks.foldl (fun x k => x ||| (x >>> k)) x

/-- `next_power_of_2` for 64-bit types, `/repo/sdd/util/next_power.hh:20-34`. -/
def nextPower64 (x : BitVec 64) : BitVec 64 := smear (x - 1#64) [1, 2, 4, 8, 16, 32] + 1#64

/-- `next_power_of_2` for 32-bit types, `/repo/sdd/util/next_power.hh:42-55`. -/
def nextPower32 (x : BitVec 32) : BitVec 32 := smear (x - 1#32) [1, 2, 4, 8, 16] + 1#32

/-- Bit `i` of `v` tells whether one of the bits `i`, …, `i + n - 1` of `y` is set. (Proof device, not part of the code.) -/
def Window {w : Nat} (y v : BitVec w) (n : Nat) : Prop :=
  ∀ i, v.getLsbD i = true ↔ ∃ j, j < n ∧ y.getLsbD (i + j) = true

theorem Window.double {w : Nat} {y v : BitVec w} {n : Nat} (h : Window y v n) :
    Window y (v ||| (v >>> n)) (2 * n) := by
  intro i
  rw [BitVec.getLsbD_or, BitVec.getLsbD_ushiftRight, Bool.or_eq_true, h i, h (n + i)]
  constructor
  · rintro (⟨j, hj, e⟩ | ⟨j, hj, e⟩)
    · exact ⟨j, by omega, e⟩
    · exact ⟨n + j, by omega, by rw [← e]; congr 1; omega⟩
  · rintro ⟨j, hj, e⟩
    by_cases hjn : j < n
    · exact .inl ⟨j, hjn, e⟩
    · exact .inr ⟨j - n, by omega, by rw [← e]; congr 1; omega⟩

theorem Window.one {w : Nat} (y : BitVec w) : Window y y 1 := fun i =>
  ⟨fun h => ⟨0, by omega, h⟩, fun ⟨j, hj, e⟩ => by
    have : j = 0 := by omega
    subst this; exact e⟩

/-- A full window over a non-zero number gives the number with all the bits up to the greatest one. -/
theorem Window.toNat {w : Nat} {y v : BitVec w} (h : Window y v w) (hy : y.toNat ≠ 0) :
    v.toNat = 2 ^ (Nat.log2 y.toNat + 1) - 1 := by
  apply Nat.eq_of_testBit_eq
  intro i
  rw [Nat.testBit_two_pow_sub_one, Bool.eq_iff_iff]
  have h' : v.toNat.testBit i = true ↔ ∃ j, j < w ∧ y.toNat.testBit (i + j) = true := h i
  rw [h', decide_eq_true_eq]
  constructor
  · rintro ⟨j, hj, e⟩
    have h1 := Nat.ge_two_pow_of_testBit e
    have h2 : i + j ≤ y.toNat.log2 := (Nat.le_log2 hy).2 h1
    omega
  · intro hi
    refine ⟨y.toNat.log2 - i, ?_, ?_⟩
    · have h1 : 2 ^ y.toNat.log2 < 2 ^ w := lt_of_le_of_lt (Nat.log2_self_le hy) y.isLt
      have h2 := (Nat.pow_lt_pow_iff_right (by omega : 1 < 2)).1 h1
      omega
    · rw [show i + (y.toNat.log2 - i) = y.toNat.log2 by omega]
      exact Nat.testBit_log2 hy

/-- What is expected of the next power of 2, on `w` bits. (Specification, not part of the code.) -/
structure IsNextPower (w : Nat) (x r : BitVec w) : Prop where
  zero : x.toNat = 0 → r.toNat = 0
  range : 1 ≤ x.toNat → x.toNat ≤ 2 ^ (w - 1) →
    (∃ k, r.toNat = 2 ^ k) ∧ x.toNat ≤ r.toNat ∧ ∀ k, x.toNat ≤ 2 ^ k → r.toNat ≤ 2 ^ k
  beyond : 2 ^ (w - 1) < x.toNat → r.toNat = 0

theorem isNextPower {w : Nat} (hw : 1 < w) {x v : BitVec w} (h : Window (x - 1#w) v w) :
    IsNextPower w x (v + 1#w) := by
  have hpow : 2 ^ w = 2 * 2 ^ (w - 1) := by
    rw [← Nat.pow_succ']; congr 1; omega
  have hpos : 0 < 2 ^ (w - 1) := Nat.two_pow_pos _
  have h1lt : 1 < 2 ^ w := Nat.one_lt_two_pow (by omega)
  have h1 : (1#w).toNat = 1 := by simp [BitVec.toNat_ofNat, Nat.mod_eq_of_lt h1lt]
  have hx := x.isLt
  have hsub : 1 ≤ x.toNat → (x - 1#w).toNat = x.toNat - 1 := by
    intro hx1
    rw [BitVec.toNat_sub, h1, show 2 ^ w - 1 + x.toNat = 2 ^ w + (x.toNat - 1) by omega,
      Nat.add_mod_left, Nat.mod_eq_of_lt (by omega)]
  have hadd : (v + 1#w).toNat = (v.toNat + 1) % 2 ^ w := by rw [BitVec.toNat_add, h1]
  refine ⟨fun h0 => ?_, fun hx1 hx2 => ?_, fun hx1 => ?_⟩
  · have hy : (x - 1#w).toNat = 2 ^ w - 1 := by
      rw [BitVec.toNat_sub, h1, h0, Nat.add_zero, Nat.mod_eq_of_lt (by omega)]
    have hv := h.toNat (by omega)
    have hlog : (2 ^ w - 1).log2 = w - 1 := by
      apply le_antisymm
      · have : 2 ^ (2 ^ w - 1).log2 < 2 ^ w := by
          have := Nat.log2_self_le (n := 2 ^ w - 1) (by omega)
          omega
        have := (Nat.pow_lt_pow_iff_right (by omega : 1 < 2)).1 this
        omega
      · exact (Nat.le_log2 (by omega)).2 (by omega)
    rw [hy, hlog, show w - 1 + 1 = w by omega] at hv
    rw [hadd, hv, show 2 ^ w - 1 + 1 = 2 ^ w by omega, Nat.mod_self]
  · by_cases hx0 : x.toNat = 1
    · have hy : (x - 1#w).toNat = 0 := by rw [hsub hx1]; omega
      have hv : v.toNat = 0 := by
        apply Nat.eq_of_testBit_eq
        intro i
        have := h i
        have h0 : ∀ j, (x - 1#w).getLsbD j = false := by
          intro j
          rw [BitVec.getLsbD, hy]; simp
        simp only [h0, Bool.false_eq_true, and_false, exists_false, iff_false] at this
        simpa [BitVec.getLsbD] using this
      rw [hadd, hv, Nat.zero_add, Nat.mod_eq_of_lt h1lt, hx0]
      exact ⟨⟨0, rfl⟩, le_rfl, fun k hk => hk⟩
    · have hy : (x - 1#w).toNat = x.toNat - 1 := hsub hx1
      have hv := h.toNat (by omega)
      rw [hy] at hv
      have hl1 : x.toNat - 1 < 2 ^ ((x.toNat - 1).log2 + 1) := Nat.lt_log2_self
      have hl2 : 2 ^ (x.toNat - 1).log2 ≤ x.toNat - 1 := Nat.log2_self_le (by omega)
      have hlt : (x.toNat - 1).log2 + 1 ≤ w - 1 := by
        have : 2 ^ (x.toNat - 1).log2 < 2 ^ (w - 1) := by omega
        have := (Nat.pow_lt_pow_iff_right (by omega : 1 < 2)).1 this
        omega
      have hle : 2 ^ ((x.toNat - 1).log2 + 1) ≤ 2 ^ (w - 1) := Nat.pow_le_pow_right (by omega) hlt
      have hr : (v + 1#w).toNat = 2 ^ ((x.toNat - 1).log2 + 1) := by
        rw [hadd, hv, Nat.sub_add_cancel (Nat.two_pow_pos _), Nat.mod_eq_of_lt (by omega)]
      rw [hr]
      refine ⟨⟨_, rfl⟩, by omega, fun k hk => ?_⟩
      apply Nat.pow_le_pow_right (by omega)
      have : 2 ^ (x.toNat - 1).log2 < 2 ^ k := by omega
      have := (Nat.pow_lt_pow_iff_right (by omega : 1 < 2)).1 this
      omega
  · have hy : (x - 1#w).toNat = x.toNat - 1 := hsub (by omega)
    have hv := h.toNat (by omega)
    rw [hy] at hv
    have : (x.toNat - 1).log2 = w - 1 := by
      apply le_antisymm
      · have : 2 ^ (x.toNat - 1).log2 < 2 ^ w := by
          have := Nat.log2_self_le (n := x.toNat - 1) (by omega)
          omega
        have := (Nat.pow_lt_pow_iff_right (by omega : 1 < 2)).1 this
        omega
      · exact (Nat.le_log2 (by omega)).2 (by omega)
    rw [hadd, hv, this, show w - 1 + 1 = w by omega, show 2 ^ w - 1 + 1 = 2 ^ w by omega, Nat.mod_self]

theorem nextPower64_spec (x : BitVec 64) : IsNextPower 64 x (nextPower64 x) :=
  isNextPower (by omega) ((((((Window.one _).double).double).double).double).double).double

theorem nextPower32_spec (x : BitVec 32) : IsNextPower 32 x (nextPower32 x) :=
  isNextPower (by omega) (((((Window.one _).double).double).double).double).double

end Verif
