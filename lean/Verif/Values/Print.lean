import Verif.Values.FlatSet
import Verif.Values.Bitset
/-!
# Textual output of sets of values

The output is a sequence of tokens: the rendering of one value by the standard library is not modelled.
-/

set_option autoImplicit false
set_option linter.unusedSectionVars false

namespace Verif

/-- What is written on the stream. (`/repo/sdd/values/flat_set.hh`, lines 402-470.) -/
inductive Tok (E : Type) : Type where
  | lb
  | rb
  | comma
  | dots
  | val (e : E)
  deriving DecidableEq

/-- The inner loop of `operator<<` for integral types, `/repo/sdd/values/flat_set.hh:447-450`: moves `cit`
to the last of the consecutive values.  An iterator is the value it points to and the values after it. -/
def lastConsecutive : Int → List Int → Int × List Int
  | c, [] => (c, [])
  | c, n :: l => if c + 1 = n then lastConsecutive n l else (c, n :: l)

theorem lastConsecutive_length : ∀ (c : Int) (l : List Int), (lastConsecutive c l).2.length ≤ l.length
  | _, [] => by simp [lastConsecutive]
  | c, n :: l => by
    rw [lastConsecutive]
    split
    · have := lastConsecutive_length n l
      simp only [List.length_cons]; omega
    · simp

/-- The outer loop, `/repo/sdd/values/flat_set.hh:444-464`.  Two iterators on the same sequence are equal
when the same number of values follow them. -/
def printRuns : List Int → List (Tok Int)
  | [] => []
  | first :: l =>
    let r := lastConsecutive first l
    (if r.2.length = l.length then [.val r.1] else [.val first, .dots, .val r.1]) ++
      (if r.2.isEmpty then [] else [.comma]) ++ printRuns r.2
  termination_by l => l.length
  decreasing_by
    have := lastConsecutive_length first l
    simp only [List.length_cons]; omega

/-- `operator<<` for a `flat_set` of an integral type, `/repo/sdd/values/flat_set.hh:434-467`. -/
def printIntegral (l : List Int) : List (Tok Int) :=
  [.lb] ++
    (match l with
    | [] => []
    | [x] => [.val x]
    | l => printRuns l) ++ [.rb]

/-- `operator<<` for a `flat_set` of another type, `/repo/sdd/values/flat_set.hh:416-428`. -/
def printOther {E : Type} (l : List E) : List (Tok E) :=
  [.lb] ++
    (match l.getLast? with
    | none => []
    | some z => (l.dropLast.flatMap fun x => [.val x, .comma]) ++ [.val z]) ++ [.rb]

/-- `operator<<` for a `bitset`, `/repo/sdd/values/bitset.hh:177-199`; the state is `first` and the
output. -/
def printBitset {n : Nat} (v : BitVec n) : List (Tok Nat) :=
  [.lb] ++ ((List.range n).foldl (fun (st : Bool × List (Tok Nat)) i =>
    if v.getLsbD i then (false, st.2 ++ (if st.1 then [] else [.comma]) ++ [.val i]) else st)
    (true, [])).2 ++ [.rb]

/-- The meaning of a text, specification: `a` is a value, `a..b` is the range from `a` to `b`. (Specification, not part of the code.) -/
def Reads : List (Tok Int) → Int → Prop
  | .val a :: .dots :: .val b :: l, x => (a ≤ x ∧ x ≤ b) ∨ Reads l x
  | .val a :: l, x => x = a ∨ Reads l x
  | _ :: l, x => Reads l x
  | [], _ => False

theorem reads_rb : Reads [.rb] = fun _ => False := by funext x; simp [Reads]

/-- Reading a text ending with the closing brace. -/
theorem reads_val (a x : Int) (l : List (Tok Int)) (h : l.head? ≠ some .dots) :
    Reads (.val a :: l) x ↔ x = a ∨ Reads l x := by
  cases l with
  | nil => simp [Reads]
  | cons t l => cases t <;> simp_all [Reads]

/-- The values skipped by `lastConsecutive` are those of the range. -/
theorem lastConsecutive_spec (x : Int) : ∀ (l : List Int) (c : Int),
    ((c :: l).Pairwise fun a b => a < b) →
    c ≤ (lastConsecutive c l).1 ∧
    (x ∈ c :: l ↔ (c ≤ x ∧ x ≤ (lastConsecutive c l).1) ∨ x ∈ (lastConsecutive c l).2) ∧
    ((lastConsecutive c l).2.length = l.length → (lastConsecutive c l).1 = c) ∧
    ((lastConsecutive c l).2).Pairwise fun a b => a < b
  | [], c, _ => by simp [lastConsecutive]; omega
  | n :: l, c, h => by
    have h' := List.pairwise_cons.1 h
    rw [lastConsecutive]
    split
    · rename_i hn
      have ih := lastConsecutive_spec x l n h'.2
      have hlen := lastConsecutive_length n l
      refine ⟨by omega, ?_, fun hl => ?_, ih.2.2.2⟩
      · rw [List.mem_cons, ih.2.1]
        constructor
        · rintro (rfl | h1 | h1)
          · exact .inl ⟨by omega, by omega⟩
          · exact .inl ⟨by omega, by omega⟩
          · exact .inr h1
        · rintro (h1 | h1)
          · by_cases hx : x = c
            · exact .inl hx
            · exact .inr (.inl ⟨by omega, by omega⟩)
          · exact .inr (.inr h1)
      · simp only [List.length_cons] at hl; omega
    · refine ⟨by simp, ?_, fun _ => rfl, h'.2⟩
      simp only [List.mem_cons]
      constructor
      · rintro (rfl | h1)
        · exact .inl ⟨by omega, by omega⟩
        · exact .inr h1
      · rintro (h1 | h1)
        · exact .inl (by omega)
        · exact .inr h1

theorem printRuns_head (l : List Int) (t : List (Tok Int)) (ht : t.head? ≠ some .dots) :
    (printRuns l ++ t).head? ≠ some .dots := by
  cases l with
  | nil => simpa [printRuns] using ht
  | cons a l => rw [printRuns]; split <;> simp

theorem reads_printRuns (x : Int) : ∀ (n : Nat) (l : List Int), l.length ≤ n →
    (l.Pairwise fun a b => a < b) → (Reads (printRuns l ++ [.rb]) x ↔ x ∈ l)
  | _, [], _, _ => by simp [printRuns, Reads]
  | 0, _ :: _, h, _ => by simp at h
  | n + 1, first :: l, hn, h => by
    obtain ⟨h1, h2, h3, h4⟩ := lastConsecutive_spec x l first h
    have hlen := lastConsecutive_length first l
    have ih := reads_printRuns x n (lastConsecutive first l).2 (by
      simp only [List.length_cons] at hn; omega) h4
    rw [h2, printRuns]
    have hc : ∀ b : Bool, Reads ((if b = true then [] else [Tok.comma]) ++
        printRuns (lastConsecutive first l).2 ++ [.rb]) x ↔ x ∈ (lastConsecutive first l).2 := by
      intro b
      cases b
      · simpa [Reads] using ih
      · simpa using ih
    split
    · rename_i hl
      rw [h3 hl]
      have : ∀ b : Bool, ((if b = true then [] else [Tok.comma]) ++
        printRuns (lastConsecutive first l).2 ++ [Tok.rb]).head? ≠ some .dots := by
        intro b
        cases b
        · simp
        · simpa using printRuns_head (lastConsecutive first l).2 [.rb] (by simp)
      simp only [List.append_assoc, List.cons_append, List.nil_append] at *
      rw [reads_val _ _ _ (this _), hc]
      constructor
      · rintro (rfl | h5)
        · exact .inl ⟨by omega, by omega⟩
        · exact .inr h5
      · rintro (h5 | h5)
        · exact .inl (by omega)
        · exact .inr h5
    · simp only [List.append_assoc, List.cons_append, List.nil_append] at *
      rw [Reads, hc]

theorem reads_printIntegral (l : List Int) (h : l.Pairwise fun a b => a < b) (x : Int) :
    Reads (printIntegral l) x ↔ x ∈ l := by
  unfold printIntegral
  match l, h with
  | [], _ => simp [Reads]
  | [y], _ => simp [Reads]
  | a :: b :: l, h =>
    have := reads_printRuns x _ (a :: b :: l) le_rfl h
    simpa [Reads] using this

/-- The values written in a text. (Specification, not part of the code.) -/
def tokVals {E : Type} (l : List (Tok E)) : List E := l.filterMap fun
  | .val e => some e
  | _ => none

theorem tokVals_append {E : Type} (l l' : List (Tok E)) : tokVals (l ++ l') = tokVals l ++ tokVals l' :=
  List.filterMap_append

theorem tokVals_printOther {E : Type} (l : List E) : tokVals (printOther l) = l := by
  unfold printOther
  have key : ∀ k : List E, tokVals (k.flatMap fun x => [.val x, .comma]) = k := by
    intro k
    induction k with
    | nil => rfl
    | cons a k ih =>
      rw [List.flatMap_cons, tokVals_append, ih]
      simp [tokVals]
  cases hl : l.getLast? with
  | none =>
    rw [List.getLast?_eq_none_iff] at hl
    subst hl
    rfl
  | some z =>
    have : l.dropLast ++ [z] = l := by
      obtain ⟨k, rfl⟩ := List.getLast?_eq_some_iff.1 hl
      simp
    rw [tokVals_append, tokVals_append, tokVals_append, key]
    simpa [tokVals] using this

theorem tokVals_printBitset {n : Nat} (v : BitVec n) : tokVals (printBitset v) = Bitset.elems v := by
  unfold printBitset Bitset.elems
  have key : ∀ (l : List Nat) (st : Bool × List (Tok Nat)), tokVals ((l.foldl
      (fun (st : Bool × List (Tok Nat)) i =>
        if v.getLsbD i then (false, st.2 ++ (if st.1 then [] else [.comma]) ++ [.val i]) else st)
      st).2) = tokVals st.2 ++ l.filter fun i => v.getLsbD i := by
    intro l
    induction l with
    | nil => simp
    | cons a l ih =>
      intro st
      rw [List.foldl_cons, ih]
      by_cases ha : v.getLsbD a = true
      · rw [if_pos ha, List.filter_cons_of_pos (by simpa using ha)]
        simp only [tokVals_append]
        have : tokVals (if st.1 = true then [] else [Tok.comma] : List (Tok Nat)) = [] := by
          split <;> rfl
        rw [this]
        simp [tokVals]
      · rw [if_neg ha, List.filter_cons_of_neg (by simpa using ha)]
  rw [tokVals_append, tokVals_append, key]
  simp [tokVals]

end Verif
