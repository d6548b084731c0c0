import Verif.Values.Print
import Verif.Values.Concrete
/-!
# Properties of sets of values
-/

set_option autoImplicit false
set_option linter.unusedSectionVars false

namespace Verif

instance {E : Type} {lt : E → E → Bool} [DecidableEq E] (x : E) (v : FSet E lt) :
    Decidable (FSet.Mem x v) := inferInstanceAs (Decidable (x ∈ v.data))

section
variable {E : Type} {lt : E → E → Bool} (h : StrictTotal lt)
include h

/-- **C24.** `flat_set`s behave as finite sets: construction, insertion, erasure, union, intersection,
difference, emptiness, size, look-ups. -/
theorem C24_flat_set [DecidableEq E] (v w : FSet E lt) (x : E) (l : List E) :
    (∀ y, FSet.Mem y (FSet.ofList h l) ↔ y ∈ l) ∧
    (∀ y, FSet.Mem y (v.insert h x).1 ↔ y = x ∨ FSet.Mem y v) ∧
    ((v.insert h x).2 = true ↔ ¬ FSet.Mem x v) ∧
    (∀ y, FSet.Mem y (v.erase x).1 ↔ y ≠ x ∧ FSet.Mem y v) ∧
    ((v.erase x).2 = if FSet.Mem x v then 1 else 0) ∧
    (∀ y, FSet.Mem y (v.sum h w) ↔ FSet.Mem y v ∨ FSet.Mem y w) ∧
    (∀ y, FSet.Mem y (v.inter h w) ↔ FSet.Mem y v ∧ FSet.Mem y w) ∧
    (∀ y, FSet.Mem y (v.diff h w) ↔ FSet.Mem y v ∧ ¬ FSet.Mem y w) ∧
    (v.isEmpty = true ↔ ∀ y, ¬ FSet.Mem y v) ∧
    (∃ k : List E, k.Nodup ∧ (∀ y, y ∈ k ↔ FSet.Mem y v) ∧ v.size = k.length) ∧
    (v.find x = if FSet.Mem x v then some x else none) ∧
    (v.count x = if FSet.Mem x v then 1 else 0) ∧
    (∀ y, y ∈ v.lowerBound x ↔ FSet.Mem y v ∧ lt y x = false) ∧
    (∀ y, y ∈ v.upperBound x ↔ FSet.Mem y v ∧ lt x y = true) := by
  obtain ⟨i1, i2⟩ := FSet.insert_spec h v x
  obtain ⟨e1, e2, e3⟩ := FSet.erase_spec h v x
  obtain ⟨b1, b2⟩ := FSet.bounds_spec h v x
  refine ⟨fun y => FSet.mem_ofList h y l, i1, i2, e1, ?_, fun y => FSet.mem_sum h y v w,
    fun y => FSet.mem_inter h y v w, fun y => FSet.mem_diff h y v w, FSet.isEmpty_iff v,
    ⟨v.data, FSet.nodup h v, fun y => Iff.rfl, rfl⟩, ?_, ?_, b1, b2⟩
  · split
    · rename_i hx
      have n1 := FSet.nodup h v
      have n2 := FSet.nodup h (v.erase x).1
      have hp : v.data.Perm (x :: (v.erase x).1.data) := by
        rw [List.perm_ext_iff_of_nodup n1]
        · intro y
          have := e1 y
          unfold FSet.Mem at this hx
          rw [List.mem_cons, this]
          by_cases hy : y = x
          · subst hy; simp [hx]
          · simp [hy]
        · rw [List.nodup_cons]
          exact ⟨fun hc => ((e1 x).1 hc).1 rfl, n2⟩
      have hl := hp.length_eq
      rw [e2]
      unfold FSet.size
      rw [hl, List.length_cons]; omega
    · rename_i hx
      by_contra hc
      exact hx (e3.1 hc)
  · split
    · rename_i hx; exact (FSet.find_spec h v x).1 hx
    · rename_i hx; exact (FSet.find_spec h v x).2 hx
  · split
    · rename_i hx; exact (FSet.count_spec h v x).1 hx
    · rename_i hx; exact (FSet.count_spec h v x).2 hx

/-- **C24**, unique representation: two `flat_set`s are equal exactly when they have the same
elements. -/
theorem C24_flat_set_ext (v w : FSet E lt) : v = w ↔ ∀ x, FSet.Mem x v ↔ FSet.Mem x w :=
  ⟨fun e x => by rw [e], FSet.ext h⟩

end

example : (FSet.insert natLt_st' (ns [3, 1, 2, 3]) 5).1 = ns [5, 1, 2, 3] ∧
    (FSet.erase (ns [3, 1, 2]) 1).2 = 1 ∧ (ns [1, 2]).diff natLt_st' (ns [2, 3]) = ns [1] := by
  decide +kernel

section
variable {n : Nat}

/-- **C25.** bitsets behave as subsets of `{0, …, n-1}`. -/
theorem C25_bitset (v w : BitVec n) (a : Nat) :
    (Bitset.Mem a v → a < n) ∧
    (v = w ↔ ∀ b, Bitset.Mem b v ↔ Bitset.Mem b w) ∧
    (∀ b, Bitset.Mem b (Bitset.sum v w) ↔ Bitset.Mem b v ∨ Bitset.Mem b w) ∧
    (∀ b, Bitset.Mem b (Bitset.inter v w) ↔ Bitset.Mem b v ∧ Bitset.Mem b w) ∧
    (∀ b, Bitset.Mem b (Bitset.diff v w) ↔ Bitset.Mem b v ∧ ¬ Bitset.Mem b w) ∧
    (Bitset.isEmpty v = true ↔ ∀ b, ¬ Bitset.Mem b v) ∧
    (∃ k : List Nat, k.Nodup ∧ (∀ b, b ∈ k ↔ Bitset.Mem b v) ∧ Bitset.size v = k.length) ∧
    (if a < n then ∃ u, Bitset.insert v a = .ok u ∧ ∀ b, Bitset.Mem b u ↔ b = a ∨ Bitset.Mem b v
      else Bitset.insert v a = .throws) ∧
    (if a < n then ∃ b, Bitset.test v a = .ok b ∧ (b = true ↔ Bitset.Mem a v)
      else Bitset.test v a = .terminate) ∧
    (∀ b k, Bitset.Mem b (Bitset.shl v k) ↔ b < n ∧ k ≤ b ∧ Bitset.Mem (b - k) v) ∧
    (∀ b k, Bitset.Mem b (Bitset.shr v k) ↔ Bitset.Mem (b + k) v) := by
  refine ⟨Bitset.mem_lt, ⟨fun e b => by rw [e], Bitset.ext⟩, fun b => Bitset.mem_sum b v w,
    fun b => Bitset.mem_inter b v w, fun b => Bitset.mem_diff b v w, Bitset.isEmpty_iff v,
    ⟨Bitset.elems v, Bitset.nodup_elems v, fun b => Bitset.mem_elems b v, rfl⟩, ?_, ?_,
    fun b k => Bitset.mem_shl b k v, fun b k => Bitset.mem_shr b k v⟩
  · split
    · rename_i ha; exact (Bitset.insert_spec v a).1 ha
    · rename_i ha; exact (Bitset.insert_spec v a).2 (by omega)
  · split
    · rename_i ha; exact (Bitset.test_spec v a).1 ha
    · rename_i ha; exact (Bitset.test_spec v a).2 (by omega)

/-- **C25**, construction from a list: it succeeds exactly when all the elements are in the range, and
then gives the set of these elements. -/
theorem C25_bitset_of_list (l : List Nat) :
    if ∀ a ∈ l, a < n then ∃ v : BitVec n, Bitset.ofList l = .ok v ∧ ∀ b, Bitset.Mem b v ↔ b ∈ l
    else (Bitset.ofList l : BOut (BitVec n)) = .throws := by
  unfold Bitset.ofList
  have key : ∀ (l : List Nat) (v : BitVec n),
      if ∀ a ∈ l, a < n then ∃ u : BitVec n, l.foldl (fun acc a => match acc with
          | .ok v => Bitset.insert v a | e => e) (.ok v) = BOut.ok u ∧
            ∀ b, Bitset.Mem b u ↔ b ∈ l ∨ Bitset.Mem b v
      else l.foldl (fun acc a => match acc with
          | .ok v => Bitset.insert v a | e => e) (.ok v) = (BOut.throws : BOut (BitVec n)) := by
    have stuck : ∀ l : List Nat, l.foldl (fun acc a => match acc with
          | .ok v => Bitset.insert v a | e => e) .throws = (BOut.throws : BOut (BitVec n)) := by
      intro l
      induction l with
      | nil => rfl
      | cons a l ih => rw [List.foldl_cons]; exact ih
    intro l
    induction l with
    | nil => intro v; simp
    | cons a l ih =>
      intro v
      rw [List.foldl_cons]
      by_cases ha : a < n
      · obtain ⟨u, hu, hm⟩ := (Bitset.insert_spec v a).1 ha
        simp only [hu]
        have := ih u
        by_cases hl : ∀ b ∈ l, b < n
        · rw [if_pos hl] at this
          rw [if_pos (by simpa [ha] using hl)]
          obtain ⟨u', hu', hm'⟩ := this
          refine ⟨u', hu', fun b => ?_⟩
          rw [hm' b, hm b, List.mem_cons]
          tauto
        · rw [if_neg hl] at this
          rw [if_neg (by simpa [ha] using hl)]
          exact this
      · rw [if_neg (by simp [ha])]
        simp only [(Bitset.insert_spec v a).2 (by omega)]
        exact stuck l
  have := key l Bitset.empty
  split
  · rename_i hl
    rw [if_pos hl] at this
    obtain ⟨u, hu, hm⟩ := this
    exact ⟨u, hu, fun b => by rw [hm b]; simp [Bitset.not_mem_empty]⟩
  · rename_i hl
    rwa [if_neg hl] at this

example : (Bitset.ofList [0, 3] : BOut (BitVec 4)) = .ok 9#4 ∧
    (Bitset.ofList [0, 4] : BOut (BitVec 4)) = .throws := by decide

/-- **C26**, negation: for every size above 64, comparing (or hashing) some bitset terminates the
program. -/
theorem C26_negation (hn : 64 < n) : ∃ v : BitVec n, (∀ w, Bitset.lt v w = .terminate) ∧
    Bitset.hash v = .terminate ∧ (Bitset.ofList [64] : BOut (BitVec n)) = .ok v := by
  have h1 : (1 : Nat) < 2 ^ n := Nat.one_lt_two_pow (by omega)
  have ht : (BitVec.twoPow n 64).toNat = 2 ^ 64 := by
    rw [BitVec.toNat_twoPow]
    exact Nat.mod_eq_of_lt (Nat.pow_lt_pow_right (by omega) hn)
  refine ⟨BitVec.twoPow n 64, fun w => ?_, ?_, ?_⟩
  · unfold Bitset.lt Bitset.toUlong
    rw [ht, if_neg (by omega)]
  · unfold Bitset.hash Bitset.toUlong
    rw [ht, if_neg (by omega)]
  · simp [Bitset.ofList, Bitset.insert, Bitset.empty, hn]

/-- **C26**, partial: for sizes up to 64, `operator<` returns and is a strict total order compatible
with equality.  What is missing: larger sizes, for which the claim is false (`C26_negation`). -/
theorem C26_bitset_order_partial (hn : n ≤ 64) : ∃ lt : BitVec n → BitVec n → Bool,
    (∀ v w, Bitset.lt v w = .ok (lt v w)) ∧ (∀ v, lt v v = false) ∧
    (∀ u v w, lt u v = true → lt v w = true → lt u w = true) ∧
    (∀ v w, lt v w = true ∨ v = w ∨ lt w v = true) :=
  ⟨bitsetLt, Bitset.lt_of_le hn, bitsetLt_st.irrefl, bitsetLt_st.trans, bitsetLt_st.total⟩

example : Bitset.lt (5#8) (6#8) = .ok true ∧ Bitset.lt (6#8) (5#8) = .ok false := by decide

end

/-- **C54.** The text of a `flat_set` of integers, with ranges of consecutive values abbreviated,
denotes the elements of the set; in particular two sets with the same text are equal. -/
theorem C54_print_flat_set {lt : Int → Int → Bool} (h : StrictTotal lt)
    (hlt : ∀ a b, lt a b = true ↔ a < b) (v w : FSet Int lt) :
    (∀ x, Reads (printIntegral v.data) x ↔ FSet.Mem x v) ∧
    (printIntegral v.data = printIntegral w.data → v = w) := by
  have key : ∀ (v : FSet Int lt) x, Reads (printIntegral v.data) x ↔ FSet.Mem x v :=
    fun v x => reads_printIntegral v.data (v.sorted.imp fun h => (hlt _ _).1 h) x
  exact ⟨key v, fun e => FSet.ext h fun x => by rw [← key v, ← key w, e]⟩

/-- **C54**, other types of values and bitsets: the text lists the elements. -/
theorem C54_print_other {E : Type} {lt : E → E → Bool} {n : Nat} (v : FSet E lt) (b : BitVec n) :
    tokVals (printOther v.data) = v.data ∧
    (∀ a, a ∈ tokVals (printBitset b) ↔ Bitset.Mem a b) ∧ (tokVals (printBitset b)).Nodup := by
  rw [tokVals_printBitset]
  exact ⟨tokVals_printOther _, fun a => Bitset.mem_elems a b, Bitset.nodup_elems b⟩

example : printIntegral [-1, 0, 1, 5, 7, 8] =
    [.lb, .val (-1), .dots, .val 1, .comma, .val 5, .comma, .val 7, .dots, .val 8, .rb] := by
  simp [printIntegral, printRuns, lastConsecutive]

end Verif
