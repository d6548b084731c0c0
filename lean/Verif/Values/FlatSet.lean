import Verif.DD.Containers
import Mathlib.Data.List.Nodup
/-!
# `sdd::values::flat_set`

`/repo/sdd/values/flat_set.hh`.  The data is a `boost::container::flat_set`: a strictly sorted vector.
It is unified (lines 311-320), so that equality of handles (a comparison of pointers, lines 242-252) is
equality of vectors: a `flat_set` is modelled by the vector itself.  Iterators are modelled by the
element they point to (or the rest of the sequence).
-/

set_option autoImplicit false
set_option linter.unusedSectionVars false

namespace Verif

section
variable {E : Type}

/-- `std::set_union` on sorted ranges (used at `/repo/sdd/values/flat_set.hh:512-513`). -/
def setUnion (lt : E → E → Bool) : List E → List E → List E
  | [], r => r
  | a :: l, [] => a :: l
  | a :: l, b :: r =>
    if lt a b then a :: setUnion lt l (b :: r)
    else if lt b a then b :: setUnion lt (a :: l) r
    else a :: setUnion lt l r
  termination_by l r => l.length + r.length

/-- `std::set_intersection` on sorted ranges (used at `/repo/sdd/values/flat_set.hh:497-498`). -/
def setInter (lt : E → E → Bool) : List E → List E → List E
  | [], _ => []
  | _ :: _, [] => []
  | a :: l, b :: r =>
    if lt a b then setInter lt l (b :: r)
    else if lt b a then setInter lt (a :: l) r
    else a :: setInter lt l r
  termination_by l r => l.length + r.length

/-- `std::set_difference` on sorted ranges (used at `/repo/sdd/values/flat_set.hh:482-483`). -/
def setDiff (lt : E → E → Bool) : List E → List E → List E
  | [], _ => []
  | a :: l, [] => a :: l
  | a :: l, b :: r =>
    if lt a b then a :: setDiff lt l (b :: r)
    else if lt b a then setDiff lt (a :: l) r
    else setDiff lt l r
  termination_by l r => l.length + r.length

/-- Successive insertions in an empty `boost::container::flat_set`: construction from a range
(`data_type(begin, end)`, `/repo/sdd/values/flat_set.hh:292`), insertions through `std::inserter`
(lines 481-483), or insertions in a values builder (line 398). -/
def insertAll (lt : E → E → Bool) (l : List E) : List E :=
  l.foldl (fun acc x => insertBy lt x acc) []

variable {lt : E → E → Bool}

theorem mem_insertAll_aux (h : StrictTotal lt) (x : E) (l : List E) : ∀ acc : List E,
    x ∈ l.foldl (fun acc x => insertBy lt x acc) acc ↔ x ∈ l ∨ x ∈ acc := by
  induction l with
  | nil => simp
  | cons y l ih =>
    intro acc
    rw [List.foldl_cons, ih, mem_insertBy h]
    simp only [List.mem_cons]
    tauto

theorem mem_insertAll (h : StrictTotal lt) (x : E) (l : List E) : x ∈ insertAll lt l ↔ x ∈ l := by
  unfold insertAll
  rw [mem_insertAll_aux h]
  simp

theorem insertAll_sorted (h : StrictTotal lt) (l : List E) :
    (insertAll lt l).Pairwise fun a b => lt a b = true := by
  unfold insertAll
  have : ∀ acc : List E, (acc.Pairwise fun a b => lt a b = true) →
      (l.foldl (fun acc x => insertBy lt x acc) acc).Pairwise fun a b => lt a b = true := by
    induction l with
    | nil => exact fun acc h => h
    | cons y l ih => exact fun acc hacc => ih _ (insertBy_sorted h y acc hacc)
  exact this [] (by simp)

/-- A `flat_set`: a strictly sorted list. (`/repo/sdd/values/flat_set.hh`, lines 31-60; the underlying container is `boost::container::flat_set`.) -/
structure FSet (E : Type) (lt : E → E → Bool) where
  data : List E
  sorted : data.Pairwise fun a b => lt a b = true

instance [DecidableEq E] : DecidableEq (FSet E lt) := fun v w =>
  if h : v.data = w.data then isTrue (by cases v; cases w; simp at h; simp [h])
  else isFalse (by rintro rfl; exact h rfl)

namespace FSet

/-- `flat_set()`, `/repo/sdd/values/flat_set.hh:68-70`. -/
def empty : FSet E lt := ⟨[], by simp⟩

/-- Construction from a range, `/repo/sdd/values/flat_set.hh:72-76,280-294`. -/
def ofList (h : StrictTotal lt) (l : List E) : FSet E lt := ⟨insertAll lt l, insertAll_sorted h l⟩

/-- `insert`, `/repo/sdd/values/flat_set.hh:89-100`: the new set and whether an insertion took place.
The returned iterator, which may dangle since it points into the local copy `fs`, is modelled in `Values/FlatIter`. -/
def insert (h : StrictTotal lt) (v : FSet E lt) (x : E) : FSet E lt × Bool :=
  let fs := insertBy lt x v.data
  if fs.length = v.data.length then (v, false)
  else (⟨fs, insertBy_sorted h x v.data v.sorted⟩, true)

/-- `erase`, `/repo/sdd/values/flat_set.hh:200-207`: the new set and the number of erased elements. -/
def erase (v : FSet E lt) (x : E) : FSet E lt × Nat :=
  let d := v.data.filter fun y => lt x y || lt y x
  (⟨d, v.sorted.filter _⟩, v.data.length - d.length)

/-- `empty`, `/repo/sdd/values/flat_set.hh:167-172`. -/
def isEmpty (v : FSet E lt) : Bool := v.data.isEmpty

/-- `size`, `/repo/sdd/values/flat_set.hh:175-180`. -/
def size (v : FSet E lt) : Nat := v.data.length

/-- `find`, `/repo/sdd/values/flat_set.hh:183-188`. -/
def find (v : FSet E lt) (x : E) : Option E := v.data.find? fun y => !lt x y && !lt y x

/-- `count`, `/repo/sdd/values/flat_set.hh:192-197`. -/
def count (v : FSet E lt) (x : E) : Nat := (v.data.filter fun y => !lt x y && !lt y x).length

/-- `lower_bound`, `/repo/sdd/values/flat_set.hh:210-215`: the elements from the iterator to the end. -/
def lowerBound (v : FSet E lt) (x : E) : List E := v.data.dropWhile fun y => lt y x

/-- `upper_bound`, `/repo/sdd/values/flat_set.hh:218-223`. -/
def upperBound (v : FSet E lt) (x : E) : List E := v.data.dropWhile fun y => !lt x y

/-- `sum`, `/repo/sdd/values/flat_set.hh:505-515`. -/
def sum (h : StrictTotal lt) (v w : FSet E lt) : FSet E lt := ofList h (setUnion lt v.data w.data)

/-- `intersection`, `/repo/sdd/values/flat_set.hh:490-500`. -/
def inter (h : StrictTotal lt) (v w : FSet E lt) : FSet E lt := ofList h (setInter lt v.data w.data)

/-- `difference`, `/repo/sdd/values/flat_set.hh:475-485`. -/
def diff (h : StrictTotal lt) (v w : FSet E lt) : FSet E lt := ofList h (setDiff lt v.data w.data)

/-- The set denoted by a `flat_set`. (Specification, not part of the code.) -/
def Mem (x : E) (v : FSet E lt) : Prop := x ∈ v.data

theorem ext (h : StrictTotal lt) {v w : FSet E lt} (hvw : ∀ x, Mem x v ↔ Mem x w) : v = w := by
  have : v.data = w.data := sorted_ext (r := fun a b => lt a b = true)
    (fun a => by simp [h.irrefl]) (fun a b c => h.trans a b c) v.sorted w.sorted hvw
  cases v; cases w; simp at this; simp [this]

theorem mem_ofList (h : StrictTotal lt) (x : E) (l : List E) : Mem x (ofList h l) ↔ x ∈ l :=
  mem_insertAll h x l

theorem nodup (h : StrictTotal lt) (v : FSet E lt) : v.data.Nodup :=
  v.sorted.imp fun h' => h.ne_of h'

end FSet

theorem mem_setUnion (h : StrictTotal lt) (x : E) : ∀ l r : List E,
    x ∈ setUnion lt l r ↔ x ∈ l ∨ x ∈ r
  | [], r => by simp [setUnion]
  | a :: l, [] => by simp [setUnion]
  | a :: l, b :: r => by
    rw [setUnion]
    split
    · rw [List.mem_cons, mem_setUnion h x l (b :: r)]; simp only [List.mem_cons]; tauto
    · split
      · rw [List.mem_cons, mem_setUnion h x (a :: l) r]; simp only [List.mem_cons]; tauto
      · rename_i h1 h2
        have := h.eq_of h1 h2
        subst this
        rw [List.mem_cons, mem_setUnion h x l r]; simp only [List.mem_cons]; tauto
  termination_by l r => l.length + r.length

theorem mem_setInter (h : StrictTotal lt) (x : E) : ∀ l r : List E,
    (l.Pairwise fun a b => lt a b = true) → (r.Pairwise fun a b => lt a b = true) →
    (x ∈ setInter lt l r ↔ x ∈ l ∧ x ∈ r)
  | [], r, _, _ => by simp [setInter]
  | a :: l, [], _, _ => by simp [setInter]
  | a :: l, b :: r, hl, hr => by
    have hl' := List.pairwise_cons.1 hl
    have hr' := List.pairwise_cons.1 hr
    rw [setInter]
    split
    · rename_i h1
      rw [mem_setInter h x l (b :: r) hl'.2 hr]
      simp only [List.mem_cons]
      constructor
      · rintro ⟨h2, h3⟩; exact ⟨Or.inr h2, h3⟩
      · rintro ⟨rfl | h2, h3⟩
        · rcases h3 with rfl | h3
          · simp [h.irrefl] at h1
          · have := h.trans _ _ _ h1 (hr'.1 x h3)
            simp [h.irrefl] at this
        · exact ⟨h2, h3⟩
    · split
      · rename_i h0 h1
        rw [mem_setInter h x (a :: l) r hl hr'.2]
        simp only [List.mem_cons]
        constructor
        · rintro ⟨h2, h3⟩; exact ⟨h2, Or.inr h3⟩
        · rintro ⟨h2, rfl | h3⟩
          · rcases h2 with rfl | h2
            · simp [h.irrefl] at h1
            · have := h.trans _ _ _ h1 (hl'.1 x h2)
              simp [h.irrefl] at this
          · exact ⟨h2, h3⟩
      · rename_i h1 h2
        have := h.eq_of h1 h2
        subst this
        rw [List.mem_cons, mem_setInter h x l r hl'.2 hr'.2]
        simp only [List.mem_cons]
        constructor
        · rintro (rfl | ⟨h3, h4⟩)
          · exact ⟨Or.inl rfl, Or.inl rfl⟩
          · exact ⟨Or.inr h3, Or.inr h4⟩
        · rintro ⟨h3, h4⟩
          rcases h3 with rfl | h3
          · exact Or.inl rfl
          · rcases h4 with rfl | h4
            · exact Or.inl rfl
            · exact Or.inr ⟨h3, h4⟩
  termination_by l r => l.length + r.length

theorem mem_setDiff (h : StrictTotal lt) (x : E) : ∀ l r : List E,
    (l.Pairwise fun a b => lt a b = true) → (r.Pairwise fun a b => lt a b = true) →
    (x ∈ setDiff lt l r ↔ x ∈ l ∧ x ∉ r)
  | [], r, _, _ => by simp [setDiff]
  | a :: l, [], _, _ => by simp [setDiff]
  | a :: l, b :: r, hl, hr => by
    have hl' := List.pairwise_cons.1 hl
    have hr' := List.pairwise_cons.1 hr
    rw [setDiff]
    split
    · rename_i h1
      rw [List.mem_cons, mem_setDiff h x l (b :: r) hl'.2 hr]
      simp only [List.mem_cons, not_or]
      constructor
      · rintro (rfl | ⟨h2, h3⟩)
        · refine ⟨Or.inl rfl, ?_, fun h3 => ?_⟩
          · rintro rfl; simp [h.irrefl] at h1
          · have := h.trans _ _ _ h1 (hr'.1 x h3)
            simp [h.irrefl] at this
        · exact ⟨Or.inr h2, h3⟩
      · rintro ⟨rfl | h2, h3⟩
        · exact Or.inl rfl
        · exact Or.inr ⟨h2, h3⟩
    · split
      · rename_i h0 h1
        rw [mem_setDiff h x (a :: l) r hl hr'.2]
        simp only [List.mem_cons, not_or]
        constructor
        · rintro ⟨h2, h3⟩
          refine ⟨h2, ?_, h3⟩
          rintro rfl
          rcases h2 with rfl | h2
          · simp [h.irrefl] at h1
          · have := h.trans _ _ _ h1 (hl'.1 x h2)
            simp [h.irrefl] at this
        · rintro ⟨h2, _, h3⟩; exact ⟨h2, h3⟩
      · rename_i h1 h2
        have := h.eq_of h1 h2
        subst this
        rw [mem_setDiff h x l r hl'.2 hr'.2]
        simp only [List.mem_cons, not_or]
        constructor
        · rintro ⟨h3, h4⟩
          refine ⟨Or.inr h3, ?_, h4⟩
          rintro rfl
          have := hl'.1 x h3
          simp [h.irrefl] at this
        · rintro ⟨rfl | h3, h4, h5⟩
          · exact absurd rfl h4
          · exact ⟨h3, h5⟩
  termination_by l r => l.length + r.length

namespace FSet

theorem mem_sum (h : StrictTotal lt) (x : E) (v w : FSet E lt) :
    Mem x (sum h v w) ↔ Mem x v ∨ Mem x w := by
  unfold sum
  rw [mem_ofList, mem_setUnion h]; rfl

theorem mem_inter (h : StrictTotal lt) (x : E) (v w : FSet E lt) :
    Mem x (inter h v w) ↔ Mem x v ∧ Mem x w := by
  unfold inter
  rw [mem_ofList, mem_setInter h x _ _ v.sorted w.sorted]; rfl

theorem mem_diff (h : StrictTotal lt) (x : E) (v w : FSet E lt) :
    Mem x (diff h v w) ↔ Mem x v ∧ ¬ Mem x w := by
  unfold diff
  rw [mem_ofList, mem_setDiff h x _ _ v.sorted w.sorted]; rfl

theorem isEmpty_iff (v : FSet E lt) : v.isEmpty = true ↔ ∀ x, ¬ Mem x v := by
  unfold isEmpty Mem
  rw [List.isEmpty_iff, List.eq_nil_iff_forall_not_mem]

theorem insertBy_length (h : StrictTotal lt) (x : E) (l : List E) :
    (l.Pairwise fun a b => lt a b = true) →
    (x ∈ l → (insertBy lt x l).length = l.length) ∧
      (x ∉ l → (insertBy lt x l).length = l.length + 1) := by
  induction l with
  | nil => intro _; simp [insertBy]
  | cons y l ih =>
    intro hl
    have hl' := List.pairwise_cons.1 hl
    rw [insertBy]
    split
    · rename_i h1
      refine ⟨fun h2 => ?_, fun _ => rfl⟩
      rw [List.mem_cons] at h2
      rcases h2 with rfl | h2
      · simp [h.irrefl] at h1
      · have := h.trans _ _ _ h1 (hl'.1 x h2)
        simp [h.irrefl] at this
    · split
      · rename_i h0 h1
        have : x ≠ y := by rintro rfl; simp [h.irrefl] at h1
        simp only [List.length_cons, List.mem_cons, this, false_or, Nat.add_right_cancel_iff]
        exact ih hl'.2
      · rename_i h1 h2
        have := h.eq_of h1 h2
        subst this
        simp

/-- `insert` adds the element and tells whether it was new. -/
theorem insert_spec (h : StrictTotal lt) (v : FSet E lt) (x : E) :
    (∀ y, Mem y (v.insert h x).1 ↔ y = x ∨ Mem y v) ∧ ((v.insert h x).2 = true ↔ ¬ Mem x v) := by
  have hlen := insertBy_length h x v.data v.sorted
  unfold insert Mem
  simp only
  by_cases hx : x ∈ v.data
  · rw [if_pos (hlen.1 hx)]
    refine ⟨fun y => ?_, by simp [hx]⟩
    constructor
    · exact Or.inr
    · rintro (rfl | hy)
      · exact hx
      · exact hy
  · have := hlen.2 hx
    rw [if_neg (by omega)]
    refine ⟨fun y => mem_insertBy h x y v.data, by simp [hx]⟩

/-- `erase` removes the element and returns the number of removed elements. -/
theorem erase_spec (h : StrictTotal lt) (v : FSet E lt) (x : E) :
    (∀ y, Mem y (v.erase x).1 ↔ y ≠ x ∧ Mem y v) ∧
      (v.erase x).2 = v.size - (v.erase x).1.size ∧
      ((v.erase x).2 ≠ 0 ↔ Mem x v) := by
  have key : ∀ y, (lt x y || lt y x) = true ↔ y ≠ x := by
    intro y
    constructor
    · rintro h1 rfl; simp [h.irrefl] at h1
    · intro h1
      rcases h.total x y with h2 | h2 | h2
      · simp [h2]
      · exact absurd h2.symm h1
      · simp [h2]
  refine ⟨fun y => ?_, rfl, ?_⟩
  · unfold erase Mem
    simp only [List.mem_filter, key]
    tauto
  · unfold erase Mem
    simp only
    have hle := List.length_filter_le (fun y => lt x y || lt y x) v.data
    constructor
    · intro h1
      by_contra hx
      apply h1
      have : v.data.filter (fun y => lt x y || lt y x) = v.data := by
        rw [List.filter_eq_self]
        intro a ha
        rw [key]
        rintro rfl
        exact hx ha
      rw [this]; omega
    · intro hx h1
      have : (v.data.filter (fun y => lt x y || lt y x)).length = v.data.length := by omega
      rw [List.length_filter_eq_length_iff] at this
      exact (key x).1 (this x hx) rfl

/-- `find` finds exactly the elements of the set. -/
theorem find_spec (h : StrictTotal lt) (v : FSet E lt) (x : E) :
    (Mem x v → v.find x = some x) ∧ (¬ Mem x v → v.find x = none) := by
  have key : ∀ y, (!lt x y && !lt y x) = true ↔ y = x := by
    intro y
    rw [Bool.and_eq_true, Bool.not_eq_true', Bool.not_eq_true']
    constructor
    · rintro ⟨h1, h2⟩
      exact (h.eq_of (by simp [h1]) (by simp [h2])).symm
    · rintro rfl; simp [h.irrefl]
  unfold find Mem
  constructor
  · intro hx
    cases hf : v.data.find? fun y => !lt x y && !lt y x with
    | none =>
      rw [List.find?_eq_none] at hf
      exact absurd ((key x).2 rfl) (hf x hx)
    | some y =>
      have := List.find?_some hf
      rw [key] at this
      rw [this]
  · intro hx
    rw [List.find?_eq_none]
    intro y hy
    rw [key]
    rintro rfl
    exact hx hy

/-- `count` is 1 for the elements of the set and 0 for the others. -/
theorem count_spec [DecidableEq E] (h : StrictTotal lt) (v : FSet E lt) (x : E) :
    (Mem x v → v.count x = 1) ∧ (¬ Mem x v → v.count x = 0) := by
  have key : ∀ y, (!lt x y && !lt y x) = (y == x) := by
    intro y
    by_cases hy : y = x
    · subst hy; simp [h.irrefl]
    · have : (y == x) = false := by simpa using hy
      rw [this]
      rcases h.total x y with h2 | h2 | h2
      · simp [h2]
      · exact absurd h2.symm hy
      · simp [h2]
  unfold count Mem
  simp only [key]
  rw [show (fun y => y == x) = (· == x) from rfl, ← List.count_eq_length_filter]
  exact ⟨fun hx => List.count_eq_one_of_mem (v.nodup h) hx,
    fun hx => List.count_eq_zero_of_not_mem hx⟩

/-- `lower_bound` and `upper_bound` give the elements not below, and above, their argument. -/
theorem bounds_spec (h : StrictTotal lt) (v : FSet E lt) (x : E) :
    (∀ y, y ∈ v.lowerBound x ↔ Mem y v ∧ lt y x = false) ∧
      (∀ y, y ∈ v.upperBound x ↔ Mem y v ∧ lt x y = true) := by
  unfold lowerBound upperBound Mem
  have hs := v.sorted
  generalize v.data = l at hs
  constructor
  · intro y
    induction l with
    | nil => simp
    | cons z l ih =>
      have hs' := List.pairwise_cons.1 hs
      rw [List.dropWhile_cons]
      split
      · rename_i hz
        rw [ih hs'.2, List.mem_cons]
        constructor
        · rintro ⟨h1, h2⟩; exact ⟨Or.inr h1, h2⟩
        · rintro ⟨rfl | h1, h2⟩
          · rw [hz] at h2; exact absurd h2 (by simp)
          · exact ⟨h1, h2⟩
      · rename_i hz
        constructor
        · intro hy
          refine ⟨hy, ?_⟩
          rw [List.mem_cons] at hy
          rcases hy with rfl | hy
          · simpa using hz
          · by_contra hc
            rw [Bool.not_eq_false] at hc
            exact hz (h.trans _ _ _ (hs'.1 y hy) hc)
        · exact fun hy => hy.1
  · intro y
    induction l with
    | nil => simp
    | cons z l ih =>
      have hs' := List.pairwise_cons.1 hs
      rw [List.dropWhile_cons]
      split
      · rename_i hz
        rw [ih hs'.2, List.mem_cons]
        constructor
        · rintro ⟨h1, h2⟩; exact ⟨Or.inr h1, h2⟩
        · rintro ⟨rfl | h1, h2⟩
          · rw [h2] at hz; exact absurd hz (by simp)
          · exact ⟨h1, h2⟩
      · rename_i hz
        have hz : lt x z = true := by simpa using hz
        constructor
        · intro hy
          refine ⟨hy, ?_⟩
          rw [List.mem_cons] at hy
          rcases hy with rfl | hy
          · exact hz
          · exact h.trans _ _ _ hz (hs'.1 y hy)
        · exact fun hy => hy.1

end FSet
end

/-- The configuration of a library using `flat_set`s (`fast_iterable`, line 396): `vlt` and `lt` are
the comparisons of the addresses of the unified values and nodes. (`/repo/sdd/values/flat_set.hh`.) -/
def flatSetCfg {E : Type} (elt : E → E → Bool) (h : StrictTotal elt)
    (vlt : FSet E elt → FSet E elt → Bool) (lt : SDD (FSet E elt) → SDD (FSet E elt) → Bool)
    (limit : Option Nat) : Cfg (FSet E elt) E where
  vmem := FSet.Mem
  vempty := FSet.empty
  visEmpty := FSet.isEmpty
  vsize := FSet.size
  vsum := FSet.sum h
  vinter := FSet.inter h
  vdiff := FSet.diff h
  velems v := v.data
  vbuild l := FSet.ofList h l
  fast := true
  vlt := vlt
  elt := elt
  lt := lt
  limit := limit

theorem flatSetCfg_lawful {E : Type} {elt : E → E → Bool} (h : StrictTotal elt)
    {vlt : FSet E elt → FSet E elt → Bool} {lt : SDD (FSet E elt) → SDD (FSet E elt) → Bool}
    {limit : Option Nat} (hv : StrictTotal vlt) (hlt : StrictTotal lt) :
    (flatSetCfg elt h vlt lt limit).Lawful where
  ext v w hvw := FSet.ext h hvw
  mem_empty a := by simp [flatSetCfg, FSet.Mem, FSet.empty]
  isEmpty_iff v := FSet.isEmpty_iff v
  mem_sum a v w := FSet.mem_sum h a v w
  mem_inter a v w := FSet.mem_inter h a v w
  mem_diff a v w := FSet.mem_diff h a v w
  mem_elems a v := Iff.rfl
  nodup_elems v := FSet.nodup h v
  size_eq v := rfl
  mem_build _ a l := FSet.mem_ofList h a l
  vlt_st := hv
  elt_st := h
  lt_st := hlt

end Verif
