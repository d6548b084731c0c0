import Verif.Mem.Arena
import Mathlib.Data.Nat.Basic
import Mathlib.Tactic.IntervalCases
import Mathlib.Tactic.Ring
/-!
# The layout of data in memory

Unified data are followed by their arcs or operands in the same block of memory: `/repo/sdd/dd/node.hh:158-170`,
`/repo/sdd/hom/sum.hh:142-148`, `/repo/sdd/hom/saturation_fixpoint.hh:170-177`.  The layout of classes is the one of the usual ABI of C++ on 64-bit
machines: a field is put at the first offset suitable for its alignment, a class has the largest alignment of its
fields and its size is a multiple of it.  With `LIBSDD_PACKED`, the fields of some classes follow each other without padding (second part).
-/

set_option autoImplicit false
set_option linter.unusedSectionVars false

namespace Verif
namespace Layout

/-- `sizeof` and `alignof` of a type. (C++ ABI.) -/
structure CType where
  size : Nat
  align : Nat
  deriving DecidableEq

/-- A type which exists: arrays of it are possible, and the alignment is one of those of the machine's integers. (C++ ABI.) -/
def CType.OK (t : CType) : Prop := t.align ∣ 8 ∧ t.align ∣ t.size

/-- The first multiple of `a` which is not smaller than `n`. (C++ ABI.) -/
def alignUp (n a : Nat) : Nat := (n + a - 1) / a * a

/-- The offsets of the fields of a class from an offset, and the end of the last one (rule of the ABI).
(C++ ABI; classes declared with `LIBSDD_ATTRIBUTE_PACKED`, `/repo/sdd/util/packed.hh`, are treated apart.) -/
def fieldsFrom : Nat → List CType → List Nat × Nat
  | off, [] => ([], off)
  | off, t :: ts =>
    let o := alignUp off t.align
    let r := fieldsFrom (o + t.size) ts
    (o :: r.1, r.2)

/-- `largest_alignment`, `/repo/sdd/mem/variant_impl.hh:21-34`; also the alignment of a class (rule of the ABI). -/
def maxAlign (ts : List CType) : Nat := ts.foldr (fun t n => max t.align n) 1

/-- `largest_size`, `/repo/sdd/mem/variant_impl.hh:38-51`. -/
def maxSize (ts : List CType) : Nat := ts.foldr (fun t n => max t.size n) 0

/-- A class with the given fields (rule of the ABI; an empty class has one byte). (C++ ABI.) -/
def classT (ts : List CType) : CType := ⟨alignUp (max 1 (fieldsFrom 0 ts).2) (maxAlign ts), maxAlign ts⟩

/-- The offset of a field. (C++ ABI.) -/
def offset (ts : List CType) (k : Nat) : Nat := (fieldsFrom 0 ts).1.getD k 0

/-- A pointer, hence `SDD`, `homomorphism` (`/repo/sdd/mem/ptr.hh:72`) and `intrusive_member_hook` (`/repo/sdd/mem/hash_table.hh:27-31`). -/
def ptrT : CType := ⟨8, 8⟩

/-- An unsigned integer of `2^k` bytes. (C++ ABI.) -/
def intT (k : Nat) : CType := ⟨2 ^ k, 2 ^ k⟩

/-- `union_storage`, `/repo/sdd/mem/variant_impl.hh:55-72`: `std::aligned_storage`. -/
def storageT (ts : List CType) : CType := ⟨alignUp (maxSize ts) (maxAlign ts), maxAlign ts⟩

/-- The fields of a variant, `/repo/sdd/mem/variant.hh:56-63`: `index` and `storage`. -/
def variantFields (ts : List CType) : List CType := [intT 0, storageT ts]

/-- The fields of `unique`, `/repo/sdd/mem/unique.hh:47-59`: `hook`, `ref_count_` and `data_`. -/
def uniqueFields (ts : List CType) : List CType := [ptrT, intT 2, classT (variantFields ts)]

/-- `unique<variant<ts...>>`. (`/repo/sdd/mem/unique.hh`, lines 28-60.) -/
def uniqueT (ts : List CType) : CType := classT (uniqueFields ts)

/-- The offset of `index` in a block. (`/repo/sdd/mem/variant.hh`, lines 40-70.) -/
def indexOff (ts : List CType) : Nat := offset (uniqueFields ts) 2 + offset (variantFields ts) 0

/-- The offset of the datum held by the variant in a block. (`/repo/sdd/mem/variant.hh`, lines 40-70.) -/
def dataOff (ts : List CType) : Nat := offset (uniqueFields ts) 2 + offset (variantFields ts) 1

/-- The offset in a block of the `k`-th arc or operand (type `e`) which follows a datum of type `t`: `alpha_addr`, `/repo/sdd/dd/node.hh:158-170`;
`operands_addr`, `/repo/sdd/hom/sum.hh:142-148`; `G_operands_addr`, `/repo/sdd/hom/saturation_fixpoint.hh:170-177`; the loops of `consolidate`,
`/repo/sdd/dd/alpha.hh:151-161` and `/repo/sdd/hom/consolidate.hh:17-29`. -/
def elemOff (ts : List CType) (t e : CType) (k : Nat) : Nat := dataOff ts + t.size + k * e.size

/-- The number of bytes asked for a datum with `n` arcs or operands: `/repo/sdd/mem/unique_table.hh:140`, `size_to_allocate` (`/repo/sdd/dd/alpha.hh:140-145`),
`/repo/sdd/hom/sum.hh:241` and `/repo/sdd/hom/saturation_fixpoint.hh:207`. -/
def blockSize (ts : List CType) (e : CType) (n : Nat) : Nat := (uniqueT ts).size + n * e.size

/-- `node`, `/repo/sdd/dd/node.hh:58-64`: types of variables and of numbers of arcs. -/
def nodeT (v s : CType) : CType := classT [v, s]

/-- `arc`, `/repo/sdd/dd/alpha.hh:22-31`: a valuation and a successor. -/
def arcT (val : CType) : CType := classT [val, ptrT]

/-- `SDD::data_type`, `/repo/sdd/dd/definition.hh:53-54`. -/
def sddTypes (v s : CType) : List CType := [classT [], classT [], nodeT v s, nodeT v s]

/-- `_composition`, `/repo/sdd/hom/composition.hh:28-31`. -/
def compositionT : CType := classT [ptrT, ptrT]

/-- `_sum`, `/repo/sdd/hom/sum.hh:43`. -/
def sumT (s : CType) : CType := classT [s]

/-- `_saturation_fixpoint`, `/repo/sdd/hom/saturation_fixpoint.hh:44-53`: `variable`, `F`, `G_size`, `L`. -/
def satFixT (v s : CType) : CType := classT [v, ptrT, s, ptrT]

/-- `homomorphism::data_type`, `/repo/sdd/hom/definition.hh:44-58`; `us` are the types of the other kinds of homomorphisms, which have a fixed size. -/
def homTypes (us : List CType) (v s : CType) : List CType := compositionT :: us ++ [satFixT v s, sumT s]

/-! ## With `LIBSDD_PACKED` -/

/-- A class with the attribute `packed`: the fields follow each other, at any address. (`/repo/sdd/util/packed.hh`, lines 9-13.) -/
def packedT (ts : List CType) : CType := ⟨(ts.map CType.size).sum, 1⟩

/-- The offset of a field of a packed class. (`/repo/sdd/util/packed.hh`, lines 9-13.) -/
def packedOff (ts : List CType) (k : Nat) : Nat := ((ts.take k).map CType.size).sum

/-- `union_storage` in packed mode, `/repo/sdd/mem/variant_impl.hh:64-72`: the alignment is 1. -/
def storageP (ts : List CType) : CType := ⟨maxSize ts, 1⟩

/-- The fields of a variant in packed mode. (`/repo/sdd/mem/variant.hh:56-63`.) -/
def variantFieldsP (ts : List CType) : List CType := [intT 0, storageP ts]

/-- The fields of `unique` in packed mode. (`/repo/sdd/mem/unique.hh:47-59`.) -/
def uniqueFieldsP (ts : List CType) : List CType := [ptrT, intT 2, packedT (variantFieldsP ts)]

/-- `unique<variant<ts...>>` in packed mode: packed by clang only. (`/repo/sdd/mem/unique.hh:28-32`.) -/
def uniqueP (clang : Bool) (ts : List CType) : CType := if clang then packedT (uniqueFieldsP ts) else classT (uniqueFieldsP ts)

/-- The offset of a field of `unique` in packed mode. (`/repo/sdd/mem/unique.hh:28-32,47-59`.) -/
def uniqueOffP (clang : Bool) (ts : List CType) (k : Nat) : Nat :=
  if clang then packedOff (uniqueFieldsP ts) k else offset (uniqueFieldsP ts) k

/-- The offset of `index` in a block, in packed mode. (`/repo/sdd/mem/variant.hh:56-63`.) -/
def indexOffP (clang : Bool) (ts : List CType) : Nat := uniqueOffP clang ts 2 + packedOff (variantFieldsP ts) 0

/-- The offset of the datum held by the variant in a block, in packed mode. (`/repo/sdd/mem/variant.hh:56-63`.) -/
def dataOffP (clang : Bool) (ts : List CType) : Nat := uniqueOffP clang ts 2 + packedOff (variantFieldsP ts) 1

/-- As `elemOff`, in packed mode. (`/repo/sdd/dd/node.hh:158-170`; `/repo/sdd/hom/sum.hh:142-148`; `/repo/sdd/hom/saturation_fixpoint.hh:170-177`.) -/
def elemOffP (clang : Bool) (ts : List CType) (t e : CType) (k : Nat) : Nat := dataOffP clang ts + t.size + k * e.size

/-- As `blockSize`, in packed mode. (`/repo/sdd/mem/unique_table.hh:140`.) -/
def blockSizeP (clang : Bool) (ts : List CType) (e : CType) (n : Nat) : Nat := (uniqueP clang ts).size + n * e.size

/-- `node` in packed mode. (`/repo/sdd/dd/node.hh:30,58-64`.) -/
def nodeP (v s : CType) : CType := packedT [v, s]

/-- `_sum` in packed mode. (`/repo/sdd/hom/sum.hh:34,43`.) -/
def sumP (s : CType) : CType := packedT [s]

/-! ## Facts -/

theorem alignUp_ge {n a : Nat} (h : 0 < a) : n ≤ alignUp n a := by
  unfold alignUp
  have h1 := Nat.div_add_mod (n + a - 1) a
  have h2 := Nat.mod_lt (n + a - 1) h
  rw [Nat.mul_comm]
  omega

theorem dvd_alignUp (n a : Nat) : a ∣ alignUp n a := Dvd.intro_left _ rfl

theorem maxAlign_pos (ts : List CType) : 0 < maxAlign ts := by
  induction ts with
  | nil => exact Nat.one_pos
  | cons t ts ih =>
    show 0 < max t.align (maxAlign ts)
    omega

theorem size_le_maxSize {ts : List CType} {t : CType} (h : t ∈ ts) : t.size ≤ maxSize ts := by
  induction ts with
  | nil => cases h
  | cons u ts ih =>
    show t.size ≤ max u.size (maxSize ts)
    rcases List.mem_cons.1 h with rfl | h
    · omega
    · have := ih h
      omega

theorem align_le_maxAlign {ts : List CType} {t : CType} (h : t ∈ ts) : t.align ≤ maxAlign ts := by
  induction ts with
  | nil => cases h
  | cons u ts ih =>
    show t.align ≤ max u.align (maxAlign ts)
    rcases List.mem_cons.1 h with rfl | h
    · omega
    · have := ih h
      omega

theorem dvd_eight {a : Nat} (h : a ∣ 8) : a = 1 ∨ a = 2 ∨ a = 4 ∨ a = 8 := by
  have h1 := Nat.le_of_dvd (by omega) h
  interval_cases a <;> revert h <;> decide

theorem maxAlign_dvd {ts : List CType} (h : ∀ t ∈ ts, t.align ∣ 8) : maxAlign ts ∣ 8 := by
  induction ts with
  | nil => exact ⟨8, rfl⟩
  | cons u ts ih =>
    show max u.align (maxAlign ts) ∣ 8
    have h1 := h u (by simp)
    have h2 := ih fun t ht => h t (by simp [ht])
    rcases le_total u.align (maxAlign ts) with h3 | h3
    · rwa [max_eq_right h3]
    · rwa [max_eq_left h3]

theorem offsets (ts : List CType) : indexOff ts = alignUp 12 (maxAlign ts) ∧ dataOff ts = alignUp 12 (maxAlign ts) + alignUp 1 (maxAlign ts) := by
  have h : maxAlign (variantFields ts) = maxAlign ts := by
    show max (2 ^ 0) (max (maxAlign ts) 1) = maxAlign ts
    have := maxAlign_pos ts
    omega
  have e0 : offset (variantFields ts) 0 = 0 := rfl
  have e1 : offset (variantFields ts) 1 = alignUp 1 (maxAlign ts) := rfl
  have e2 : offset (uniqueFields ts) 2 = alignUp 12 (maxAlign (variantFields ts)) := rfl
  rw [indexOff, dataOff, e0, e1, e2, h]
  exact ⟨rfl, rfl⟩

theorem uniqueT_size (ts : List CType) : dataOff ts + maxSize ts ≤ (uniqueT ts).size := by
  have h0 := maxAlign_pos ts
  have h : maxAlign (variantFields ts) = maxAlign ts := by
    show max (2 ^ 0) (max (maxAlign ts) 1) = maxAlign ts
    omega
  have h1 : (fieldsFrom 0 (variantFields ts)).2 = alignUp 1 (maxAlign ts) + alignUp (maxSize ts) (maxAlign ts) := rfl
  have h2 : (fieldsFrom 0 (uniqueFields ts)).2 = alignUp 12 (maxAlign (variantFields ts)) + (classT (variantFields ts)).size := rfl
  have h3 : (fieldsFrom 0 (variantFields ts)).2 ≤ (classT (variantFields ts)).size :=
    (le_max_right 1 _).trans (alignUp_ge (maxAlign_pos _))
  have h4 : (fieldsFrom 0 (uniqueFields ts)).2 ≤ (uniqueT ts).size := (le_max_right 1 _).trans (alignUp_ge (maxAlign_pos _))
  have h5 := @alignUp_ge (maxSize ts) _ h0
  rw [(offsets ts).2]
  rw [h] at h2
  omega

/-- Every element is at an address suitable for its type, in all blocks given by the system (`new char[n]` gives addresses suitable for all types).
(Specification, not part of the code.) -/
def Aligned (ts : List CType) (t e : CType) : Prop := ∀ base, 16 ∣ base → ∀ k, e.align ∣ base + elemOff ts t e k

theorem aligned_iff {ts : List CType} {t e : CType} (he : e.OK) : Aligned ts t e ↔ e.align ∣ dataOff ts + t.size := by
  constructor
  · intro h
    have := h 0 (by simp) 0
    simpa [elemOff] using this
  · intro h base hb k
    have h1 : e.align ∣ base := (he.1.trans ⟨2, rfl⟩).trans hb
    exact (Nat.dvd_add_right h1).2 ((Nat.dvd_add_right h).2 (he.2.mul_left k))

/-- As `Aligned`, in packed mode. (Specification, not part of the code.) -/
def AlignedP (clang : Bool) (ts : List CType) (t e : CType) : Prop := ∀ base, 16 ∣ base → ∀ k, e.align ∣ base + elemOffP clang ts t e k

theorem offsetsP (clang : Bool) (ts : List CType) :
    uniqueOffP clang ts 0 = 0 ∧ uniqueOffP clang ts 1 = 8 ∧ indexOffP clang ts = 12 ∧ dataOffP clang ts = 13 := by
  have h1 : uniqueOffP clang ts 2 = 12 := by
    cases clang with
    | true => rfl
    | false => exact (show alignUp (alignUp (alignUp 0 8 + 8) 4 + 2 ^ 2) 1 = 12 by decide)
  have h2 : packedOff (variantFieldsP ts) 1 = 1 := rfl
  have h3 : packedOff (variantFieldsP ts) 0 = 0 := rfl
  refine ⟨by cases clang <;> rfl, by cases clang <;> rfl, ?_, ?_⟩
  · rw [indexOffP, h1, h3]
  · rw [dataOffP, h1, h2]

theorem uniqueP_size (clang : Bool) (ts : List CType) : dataOffP clang ts + maxSize ts ≤ (uniqueP clang ts).size := by
  rw [(offsetsP clang ts).2.2.2]
  cases clang with
  | true =>
    show 13 + maxSize ts ≤ 8 + (2 ^ 2 + (2 ^ 0 + (maxSize ts + 0) + 0))
    omega
  | false =>
    have h2 : (fieldsFrom 0 (uniqueFieldsP ts)).2 = alignUp (alignUp (alignUp 0 8 + 8) 4 + 2 ^ 2) 1 + (packedT (variantFieldsP ts)).size := rfl
    have h1 : alignUp (alignUp (alignUp 0 8 + 8) 4 + 2 ^ 2) 1 = 12 := by decide
    have h3 : (packedT (variantFieldsP ts)).size = 2 ^ 0 + (maxSize ts + 0) := rfl
    have h4 : (fieldsFrom 0 (uniqueFieldsP ts)).2 ≤ (classT (uniqueFieldsP ts)).size := (le_max_right 1 _).trans (alignUp_ge (maxAlign_pos _))
    show 13 + maxSize ts ≤ (classT (uniqueFieldsP ts)).size
    omega

theorem alignedP_iff {clang : Bool} {ts : List CType} {t e : CType} (he : e.OK) : AlignedP clang ts t e ↔ e.align ∣ 13 + t.size := by
  have h0 := (offsetsP clang ts).2.2.2
  constructor
  · intro h
    have := h 0 (by simp) 0
    simpa [elemOffP, h0] using this
  · intro h base hb k
    have h1 : e.align ∣ base := (he.1.trans ⟨2, rfl⟩).trans hb
    unfold elemOffP
    rw [h0]
    exact (Nat.dvd_add_right h1).2 ((Nat.dvd_add_right h).2 (he.2.mul_left k))

theorem classT_ok {ts : List CType} (h : ∀ t ∈ ts, t.align ∣ 8) : (classT ts).OK := ⟨maxAlign_dvd h, dvd_alignUp _ _⟩

end Layout

/-! ## The arena -/

namespace Arena

/-- Histories in which the system only gives addresses which are multiples of `m`, and clients only ask for multiples of `m` bytes.
(Model of the environment: what the user or the system does.) -/
inductive ReachM (m base size : Nat) : State → Prop where
  | init : ReachM m base size (init base size)
  | step {s s' : State} {op : Op} {o : Out} : ReachM m base size s → Valid s op →
      (∀ n a, op = .allocate n a → m ∣ n ∧ m ∣ a) → exec s op = some (o, s') → ReachM m base size s'

theorem ReachM.aligned {m base size : Nat} (hb : m ∣ base) {s : State} (h : ReachM m base size s) :
    m ∣ s.pos ∧ (∀ p ∈ s.stack, m ∣ p.1) ∧ ∀ b ∈ s.live, m ∣ b.addr := by
  induction h with
  | init => exact ⟨hb, by simp [Arena.init], by simp [Arena.init]⟩
  | @step s s' op o _ hv hm he ih =>
    obtain ⟨h1, h2, h3⟩ := ih
    cases op with
    | allocate n a =>
      obtain ⟨hn, ha⟩ := hm n a rfl
      simp only [exec, allocate] at he
      split at he <;> cases he
      · refine ⟨Nat.dvd_add h1 hn, h2, fun b hb => ?_⟩
        rcases List.mem_cons.1 hb with rfl | hb
        · exact h1
        · exact h3 b hb
      · refine ⟨h1, h2, fun b hb => ?_⟩
        rcases List.mem_cons.1 hb with rfl | hb
        · exact ha
        · exact h3 b hb
    | deallocate b =>
      have hb : m ∣ b.addr := h3 b hv
      simp only [exec, deallocate] at he
      split at he
      · split at he <;> cases he
        · exact ⟨hb, h2, fun c hc => h3 c (List.mem_of_mem_erase hc)⟩
        · exact ⟨h1, h2, fun c hc => h3 c (List.mem_of_mem_erase hc)⟩
      · cases he
        exact ⟨h1, h2, fun c hc => h3 c (List.mem_of_mem_erase hc)⟩
    | enter =>
      cases he
      refine ⟨h1, fun p hp => ?_, h3⟩
      rcases List.mem_cons.1 hp with rfl | hp
      · exact h1
      · exact h2 p hp
    | leave =>
      simp only [exec, leave] at he
      split at he
      · cases he
      · rename_i p t stack hs
        cases he
        rw [hs] at h2
        exact ⟨h2 (p, t) (by simp), fun q hq => h2 q (by simp [hq]), fun b hb => h3 b (List.mem_of_mem_filter hb)⟩

theorem ReachM.reach {m base size : Nat} {s : State} (h : ReachM m base size s) : Reach base size s := by
  induction h with
  | init => exact .init
  | step _ hv _ he ih => exact .step ih hv he

end Arena
end Verif
