import Verif.Mem.Layout
/-!
# Properties of the layout of data in memory
-/

set_option autoImplicit false
set_option linter.unusedSectionVars false

namespace Verif

section
open Layout

/-- **C72**, bounds. In the block allocated for a datum of type `t` (any of the types of the variant) followed by `n` arcs or operands of type `e`, the
fields of the header, the datum and its arcs or operands come one after the other, without overlap and inside of the block. -/
theorem C72_fits {ts : List CType} {t : CType} (ht : t ∈ ts) (e : CType) (n : Nat) :
    offset (uniqueFields ts) 0 + 8 ≤ offset (uniqueFields ts) 1 ∧ offset (uniqueFields ts) 1 + 4 ≤ indexOff ts ∧
    indexOff ts + 1 ≤ dataOff ts ∧
    (∀ k, k < n → dataOff ts + t.size ≤ elemOff ts t e k ∧ elemOff ts t e k + e.size ≤ blockSize ts e n) ∧
    (∀ k l, k < l → elemOff ts t e k + e.size ≤ elemOff ts t e l) ∧ dataOff ts + t.size ≤ blockSize ts e n := by
  have h0 := maxAlign_pos ts
  obtain ⟨h1, h2⟩ := offsets ts
  have h3 := @alignUp_ge 12 _ h0
  have h4 := @alignUp_ge 1 _ h0
  have h5 := uniqueT_size ts
  have h6 := size_le_maxSize ht
  refine ⟨show 0 + 8 ≤ 8 by omega, ?_, by omega, fun k hk => ⟨?_, ?_⟩, fun k l hk => ?_, ?_⟩
  · show 8 + 4 ≤ _
    omega
  · unfold elemOff
    omega
  · have : (k + 1) * e.size ≤ n * e.size := Nat.mul_le_mul_right _ hk
    rw [Nat.add_mul, Nat.one_mul] at this
    unfold elemOff blockSize
    omega
  · have : (k + 1) * e.size ≤ l * e.size := Nat.mul_le_mul_right _ hk
    rw [Nat.add_mul, Nat.one_mul] at this
    unfold elemOff
    omega
  · unfold blockSize
    omega

/-- **C72**, alignment of the data themselves: the datum held by a variant is at an address suitable for its type. -/
theorem C72_data_aligned {ts : List CType} (hok : ∀ t ∈ ts, t.OK) {t : CType} (ht : t ∈ ts) {base : Nat} (hb : 16 ∣ base) :
    t.align ∣ base + dataOff ts := by
  have h1 : maxAlign ts ∣ dataOff ts := by
    rw [(offsets ts).2]
    exact Nat.dvd_add (dvd_alignUp _ _) (dvd_alignUp _ _)
  have h2 : t.align ∣ maxAlign ts := by
    have h3 := align_le_maxAlign ht
    have h4 := dvd_eight (hok t ht).1
    have h5 := dvd_eight (maxAlign_dvd fun u hu => (hok u hu).1)
    rcases h4 with h4 | h4 | h4 | h4 <;> rcases h5 with h5 | h5 | h5 | h5 <;> rw [h4, h5] at h3 ⊢ <;> revert h3 <;> decide
  exact Nat.dvd_add (((hok t ht).1.trans ⟨2, rfl⟩).trans hb) (h2.trans h1)

/-- **C72**, partial: arcs of nodes. For variables on `2^i` bytes and numbers of arcs on `2^j` bytes, arcs are at suitable addresses exactly when one of
these types has 4 bytes or more; this is the case of the default configuration (`/repo/sdd/conf/default_configurations.hh:26-29`). Operands of saturations
are always at suitable addresses, operands of sums exactly when their number is stored on 8 bytes.  `us`: the other types of homomorphisms.  Missing:
see `C72_negation`. -/
theorem C72_alignment_partial {i j : Nat} (hi : i ≤ 3) (hj : j ≤ 3) :
    (∀ val : CType, val.OK → (Aligned (sddTypes (intT i) (intT j)) (nodeT (intT i) (intT j)) (arcT val) ↔ 2 ≤ i ∨ 2 ≤ j)) ∧
    (∀ us : List CType, (∀ t ∈ us, t.OK) →
      Aligned (homTypes us (intT i) (intT j)) (satFixT (intT i) (intT j)) ptrT ∧
      (Aligned (homTypes us (intT i) (intT j)) (sumT (intT j)) ptrT ↔ j = 3)) := by
  have hp : ptrT.OK := ⟨⟨1, rfl⟩, ⟨1, rfl⟩⟩
  refine ⟨fun val hv => ?_, fun us hus => ?_⟩
  · have ha : (arcT val).OK := classT_ok (by
      intro t ht
      rcases List.mem_cons.1 ht with rfl | ht
      · exact hv.1
      · rw [List.mem_singleton.1 ht]
        exact hp.1)
    rw [aligned_iff ha]
    have : (arcT val).align = 8 := by
      show max val.align (max 8 1) = 8
      have := Nat.le_of_dvd (by omega) hv.1
      omega
    rw [this, (offsets _).2]
    interval_cases i <;> interval_cases j <;> decide
  · have hm : maxAlign (homTypes us (intT i) (intT j)) = 8 := by
      apply le_antisymm
      · refine Nat.le_of_dvd (by omega) (maxAlign_dvd fun t ht => ?_)
        rw [homTypes, List.mem_append, List.mem_cons] at ht
        rcases ht with (rfl | ht) | ht
        · decide
        · exact (hus t ht).1
        · have h2 : t = satFixT (intT i) (intT j) ∨ t = sumT (intT j) := by simpa using ht
          rcases h2 with rfl | rfl
          · interval_cases i <;> interval_cases j <;> decide
          · interval_cases j <;> decide
      · have : compositionT ∈ homTypes us (intT i) (intT j) := by simp [homTypes]
        exact align_le_maxAlign this
    rw [aligned_iff hp, aligned_iff hp, (offsets _).2, hm]
    refine ⟨?_, ?_⟩
    · interval_cases i <;> interval_cases j <;> decide
    · interval_cases j <;> decide

/-- The default configuration with sets of values which are pointers. -/
example : Aligned (sddTypes (intT 2) (intT 1)) (nodeT (intT 2) (intT 1)) (arcT ptrT) ∧
    elemOff (sddTypes (intT 2) (intT 1)) (nodeT (intT 2) (intT 1)) (arcT ptrT) 1 = 40 ∧
    blockSize (sddTypes (intT 2) (intT 1)) (arcT ptrT) 3 = 72 :=
  ⟨((C72_alignment_partial (by omega) (by omega)).1 ptrT ⟨⟨1, rfl⟩, ⟨1, rfl⟩⟩).2 (Or.inl (by omega)), by decide, by decide⟩

/-- **C72 does not hold**: in the default configuration (`operands_size_type` has 4 bytes, `/repo/sdd/conf/default_configurations.hh:32`), the operands of
a sum of homomorphisms are never at addresses suitable for pointers, whatever the other types of homomorphisms: undefined behaviour, which usual
processors tolerate.  Nodes with variables on one byte and numbers of arcs on two bytes are not suitable either. -/
theorem C72_negation : (∀ us : List CType, (∀ t ∈ us, t.OK) → ∀ base, 16 ∣ base → ∀ k,
      ¬ ptrT.align ∣ base + elemOff (homTypes us (intT 2) (intT 2)) (sumT (intT 2)) ptrT k) ∧
    ∀ base, 16 ∣ base → ∀ k, ¬ (arcT ptrT).align ∣ base + elemOff (sddTypes (intT 0) (intT 1)) (nodeT (intT 0) (intT 1)) (arcT ptrT) k := by
  refine ⟨fun us hus base hb k h => ?_, fun base hb k h => ?_⟩
  · have h0 := ((C72_alignment_partial (i := 2) (j := 2) (by omega) (by omega)).2 us hus).2
    have hp : ptrT.OK := ⟨⟨1, rfl⟩, ⟨1, rfl⟩⟩
    rw [aligned_iff hp] at h0
    refine absurd (h0.1 ?_) (by omega)
    have h1 : ptrT.align ∣ base := (show (8 : Nat) ∣ 16 from ⟨2, rfl⟩).trans hb
    have h2 := (Nat.dvd_add_right h1).1 h
    unfold elemOff at h2
    exact (Nat.dvd_add_left (hp.2.mul_left k)).1 h2
  · have e1 : elemOff (sddTypes (intT 0) (intT 1)) (nodeT (intT 0) (intT 1)) (arcT ptrT) k = 18 + k * 16 := by
      have e2 : dataOff (sddTypes (intT 0) (intT 1)) + (nodeT (intT 0) (intT 1)).size = 18 := by decide
      unfold elemOff
      rw [e2]
      rfl
    rw [e1] at h
    have h3 : (8 : Nat) ∣ base + (18 + k * 16) := h
    omega

/-- **C72**, packed mode, bounds. When compiled with `LIBSDD_PACKED`, by clang or by another compiler, the header, the datum and its arcs or operands also come
one after the other, without overlap and inside of the block. -/
theorem C72_packed_fits (clang : Bool) {ts : List CType} {t : CType} (ht : t ∈ ts) (e : CType) (n : Nat) :
    uniqueOffP clang ts 0 + 8 ≤ uniqueOffP clang ts 1 ∧ uniqueOffP clang ts 1 + 4 ≤ indexOffP clang ts ∧
    indexOffP clang ts + 1 ≤ dataOffP clang ts ∧
    (∀ k, k < n → dataOffP clang ts + t.size ≤ elemOffP clang ts t e k ∧ elemOffP clang ts t e k + e.size ≤ blockSizeP clang ts e n) ∧
    (∀ k l, k < l → elemOffP clang ts t e k + e.size ≤ elemOffP clang ts t e l) ∧ dataOffP clang ts + t.size ≤ blockSizeP clang ts e n := by
  obtain ⟨h1, h2, h3, h4⟩ := offsetsP clang ts
  have h5 := uniqueP_size clang ts
  have h6 := size_le_maxSize ht
  refine ⟨by omega, by omega, by omega, fun k hk => ⟨?_, ?_⟩, fun k l hk => ?_, ?_⟩
  · unfold elemOffP
    omega
  · have : (k + 1) * e.size ≤ n * e.size := Nat.mul_le_mul_right _ hk
    rw [Nat.add_mul, Nat.one_mul] at this
    unfold elemOffP blockSizeP
    omega
  · have : (k + 1) * e.size ≤ l * e.size := Nat.mul_le_mul_right _ hk
    rw [Nat.add_mul, Nat.one_mul] at this
    unfold elemOffP
    omega
  · unfold blockSizeP
    omega

/-- **C72 does not hold in packed mode**: no datum whose type has an alignment (compositions, for instance, are two pointers) is at a suitable address, nor are the operands of
sums; the arcs of nodes are at suitable addresses exactly when one of the types of variables and of numbers of arcs has one byte and the other one has two. -/
theorem C72_packed_negation (clang : Bool) :
    (∀ (ts : List CType) (t : CType), t.align ≠ 1 → t.OK → ∀ base, 16 ∣ base → ¬ t.align ∣ base + dataOffP clang ts) ∧
    (∀ (ts : List CType) (j : Nat), j ≤ 3 → ¬ AlignedP clang ts (sumP (intT j)) ptrT) ∧
    ∀ (ts : List CType) (i j : Nat), i ≤ 3 → j ≤ 3 → ∀ val : CType, val.OK →
      (AlignedP clang ts (nodeP (intT i) (intT j)) (arcT val) ↔ (i = 0 ∧ j = 1) ∨ (i = 1 ∧ j = 0)) := by
  have hp : ptrT.OK := ⟨⟨1, rfl⟩, ⟨1, rfl⟩⟩
  refine ⟨fun ts t h1 hok base hb h => ?_, fun ts j hj => ?_, fun ts i j hi hj val hv => ?_⟩
  · rw [(offsetsP clang ts).2.2.2] at h
    have h2 : (2 : Nat) ∣ t.align := by
      rcases dvd_eight hok.1 with e | e | e | e <;> rw [e] at h1 ⊢ <;> first | exact absurd rfl h1 | decide
    have := h2.trans h
    omega
  · rw [alignedP_iff hp]
    interval_cases j <;> decide
  · have ha : (arcT val).OK := classT_ok (by
      intro t ht
      rcases List.mem_cons.1 ht with rfl | ht
      · exact hv.1
      · rw [List.mem_singleton.1 ht]
        exact hp.1)
    rw [alignedP_iff ha]
    have : (arcT val).align = 8 := by
      show max val.align (max 8 1) = 8
      have := Nat.le_of_dvd (by omega) hv.1
      omega
    rw [this]
    interval_cases i <;> interval_cases j <;> decide

/-- The blocks of the default configuration in packed mode: 19 bytes before the arcs of a node, in blocks of 19 bytes (clang) or 24 bytes and the arcs. -/
example : elemOffP true (sddTypes (intT 2) (intT 1)) (nodeP (intT 2) (intT 1)) (arcT ptrT) 0 = 19 ∧
    blockSizeP true [classT [], classT [], nodeP (intT 2) (intT 1), nodeP (intT 2) (intT 1)] (arcT ptrT) 3 = 19 + 3 * 16 ∧
    blockSizeP false [classT [], classT [], nodeP (intT 2) (intT 1), nodeP (intT 2) (intT 1)] (arcT ptrT) 3 = 24 + 3 * 16 := by decide

end

section
open Arena

/-- **C72**, temporary containers. When the buffer starts at a multiple of `m`, the system gives multiples of `m` and all requests are multiples of `m` bytes
(`m = 8`: containers of pointers), the blocks given by the arena start at multiples of `m`, after any history. -/
theorem C72_arena {m base size : Nat} (hb : m ∣ base) {s : State} (h : ReachM m base size s) : Reach base size s ∧ ∀ b ∈ s.live, m ∣ b.addr :=
  ⟨h.reach, (h.aligned hb).2.2⟩

/-- A history with a rewinder and a block of the system. -/
example : ∃ s, ReachM 8 64 24 s ∧ s.live.map (·.addr) = [128, 64] :=
  ⟨_, .step (op := .allocate 16 128) (.step (op := .allocate 16 128) (.init) (by simp [Valid, Arena.init]) (by simp) rfl)
    (by simp [Valid, Arena.init, Arena.allocate]) (by simp) rfl, rfl⟩

/-- Requests of other sizes shift the next blocks. -/
example : ∃ s, Reach 64 24 s ∧ s.live.map (·.addr) = [67, 64] :=
  ⟨_, .step (op := .allocate 8 128) (.step (op := .allocate 3 128) (.init) (by simp [Valid, Arena.init]) rfl)
    (by simp [Valid, Arena.init, Arena.allocate]) rfl, rfl⟩

end
end Verif
