import Verif.DD.Syntax
import Verif.Values.Print
/-!
# Textual output of SDDs

`operator<<` of SDDs, nodes, terminals, numbers and sets of values, as sequences of characters.
-/

set_option autoImplicit false
set_option linter.unusedSectionVars false

namespace Verif

/-! ## Numbers -/

/-- The decimal digit `n`. (Standard library.) -/
def digit (n : Nat) : Char := Char.ofNat (48 + n)

/-- A decimal digit. (Specification or proof device, not part of the code.) -/
def isDig (c : Char) : Bool := decide (48 ≤ c.toNat) && decide (c.toNat ≤ 57)

/-- `operator<<` of the standard library for unsigned integers (default flags): decimal, without leading zeros.
(Used by `/repo/sdd/dd/node.hh`, lines 145-155.) -/
def dec (n : Nat) : List Char := if n < 10 then [digit n] else dec (n / 10) ++ [digit (n % 10)]

/-- `operator<<` of the standard library for signed integers. (Used by `/repo/sdd/values/flat_set.hh`, lines 402-470.) -/
def decInt : Int → List Char
  | .ofNat n => dec n
  | .negSucc n => '-' :: dec (n + 1)

theorem digit_toNat {n : Nat} (h : n < 10) : (digit n).toNat = 48 + n := by
  have : ∀ n : Fin 10, (digit n.1).toNat = 48 + n.1 := by decide
  exact this ⟨n, h⟩

theorem isDig_digit {n : Nat} (h : n < 10) : isDig (digit n) = true := by
  simp [isDig, digit_toNat h]; omega

theorem dec_ne_nil (n : Nat) : dec n ≠ [] := by
  rw [dec]; split <;> simp

theorem isDig_dec : ∀ n : Nat, ∀ c ∈ dec n, isDig c = true
  | n => by
    intro c hc
    rw [dec] at hc
    split at hc
    · simp only [List.mem_singleton] at hc; subst hc; exact isDig_digit (by omega)
    · rw [List.mem_append] at hc
      rcases hc with hc | hc
      · exact isDig_dec (n / 10) c hc
      · simp only [List.mem_singleton] at hc; subst hc; exact isDig_digit (by omega)
  termination_by n => n

/-- The number written by digits. (Specification or proof device, not part of the code.) -/
def undec (l : List Char) : Nat := l.foldl (fun a c => 10 * a + (c.toNat - 48)) 0

theorem undec_dec (n : Nat) : undec (dec n) = n := by
  induction n using Nat.strong_induction_on with
  | _ n ih =>
    rw [dec]
    split
    · rename_i h; simp [undec, digit_toNat h]
    · rename_i h
      have ih := ih (n / 10) (by omega)
      unfold undec at ih ⊢
      rw [List.foldl_append, ih]
      simp [digit_toNat (show n % 10 < 10 by omega)]
      omega

theorem dec_inj {n m : Nat} (h : dec n = dec m) : n = m := by rw [← undec_dec n, h, undec_dec]

/-- Two texts made of a first part whose characters satisfy `p`, followed by a character which does not. -/
theorem split_unique (p : Char → Bool) : ∀ {d d' : List Char} {c c' : Char} {l l' : List Char},
    (∀ a ∈ d, p a = true) → (∀ a ∈ d', p a = true) → p c = false → p c' = false →
    d ++ c :: l = d' ++ c' :: l' → d = d' ∧ c = c' ∧ l = l'
  | [], [], _, _, _, _, _, _, _, _, h => by simpa using h
  | [], a :: d', c, c', l, l', _, h2, h3, _, h => by
    simp only [List.nil_append, List.cons_append, List.cons.injEq] at h
    rw [h.1, h2 a (by simp)] at h3; cases h3
  | a :: d, [], c, c', l, l', h1, _, _, h4, h => by
    simp only [List.nil_append, List.cons_append, List.cons.injEq] at h
    rw [← h.1, h1 a (by simp)] at h4; cases h4
  | a :: d, b :: d', c, c', l, l', h1, h2, h3, h4, h => by
    simp only [List.cons_append, List.cons.injEq] at h
    obtain ⟨rfl, h⟩ := h
    obtain ⟨rfl, rfl, rfl⟩ := split_unique p (fun x hx => h1 x (by simp [hx])) (fun x hx => h2 x (by simp [hx])) h3 h4 h
    simp

theorem dec_split {n m : Nat} {c c' : Char} {l l' : List Char} (hc : isDig c = false) (hc' : isDig c' = false)
    (h : dec n ++ c :: l = dec m ++ c' :: l') : n = m ∧ c = c' ∧ l = l' := by
  obtain ⟨h1, h2, h3⟩ := split_unique isDig (isDig_dec n) (isDig_dec m) hc hc' h
  exact ⟨dec_inj h1, h2, h3⟩

theorem dec_head (n : Nat) : ∃ c l, dec n = c :: l ∧ isDig c = true := by
  cases h : dec n with
  | nil => exact (dec_ne_nil n h).elim
  | cons c l => exact ⟨c, l, rfl, isDig_dec n c (by simp [h])⟩

/-- Digits and the minus sign. (Specification or proof device, not part of the code.) -/
def isNum (c : Char) : Bool := isDig c || decide (c = '-')

theorem isNum_decInt (i : Int) : ∀ c ∈ decInt i, isNum c = true := by
  intro c hc
  cases i with
  | ofNat n => simp [isNum, isDig_dec n c hc]
  | negSucc n =>
    rcases List.mem_cons.1 hc with rfl | hc
    · rfl
    · simp [isNum, isDig_dec _ c hc]

theorem decInt_inj {i j : Int} (h : decInt i = decInt j) : i = j := by
  have key : ∀ n m, dec n ≠ '-' :: m := by
    intro n m h
    have := isDig_dec n '-' (by simp [h])
    exact absurd this (by decide)
  cases i with
  | ofNat n =>
    cases j with
    | ofNat m => exact congrArg _ (dec_inj h)
    | negSucc m => exact (key _ _ h).elim
  | negSucc n =>
    cases j with
    | ofNat m => exact (key _ _ h.symm).elim
    | negSucc m =>
      simp only [decInt, List.cons.injEq, true_and] at h
      have := dec_inj h
      simp only [Nat.add_right_cancel_iff] at this
      rw [this]

theorem decInt_ne_nil (i : Int) : decInt i ≠ [] := by
  cases i with
  | ofNat n => exact dec_ne_nil n
  | negSucc n => simp [decInt]

theorem decInt_split {n m : Int} {c c' : Char} {l l' : List Char} (hc : isNum c = false) (hc' : isNum c' = false)
    (h : decInt n ++ c :: l = decInt m ++ c' :: l') : n = m ∧ c = c' ∧ l = l' := by
  obtain ⟨h1, h2, h3⟩ := split_unique isNum (isNum_decInt n) (isNum_decInt m) hc hc' h
  exact ⟨decInt_inj h1, h2, h3⟩

/-! ## Sets of values -/

/-- The characters of a token; `rv` is `operator<<` of the type of values. (`/repo/sdd/values/flat_set.hh`, lines 402-470.) -/
def Tok.chars {E : Type} (rv : E → List Char) : Tok E → List Char
  | .lb => ['{']
  | .rb => ['}']
  | .comma => [',']
  | .dots => ['.', '.']
  | .val e => rv e

/-- The characters of a text. (`/repo/sdd/values/flat_set.hh`, lines 402-470.) -/
def chars {E : Type} (rv : E → List Char) (l : List (Tok E)) : List Char := l.flatMap (Tok.chars rv)

/-- Texts of sets: two values do not follow each other, and the only closing brace is at the end.
(Specification or proof device, not part of the code.) -/
def Delimited {E : Type} : List (Tok E) → Prop
  | [] => False
  | [.rb] => True
  | .rb :: _ => False
  | .val _ :: .val _ :: _ => False
  | _ :: l => Delimited l

/-- How numbers are written is known to be recognisable in a text. (Specification or proof device, not part of the code.) -/
structure NumText {E : Type} (rv : E → List Char) : Prop where
  ne : ∀ e, rv e ≠ []
  num : ∀ e, ∀ c ∈ rv e, isNum c = true
  inj : ∀ e e', rv e = rv e' → e = e'

theorem numText_decInt : NumText decInt := ⟨decInt_ne_nil, isNum_decInt, fun _ _ => decInt_inj⟩

theorem numText_dec : NumText dec :=
  ⟨dec_ne_nil, fun n c hc => by simp [isNum, isDig_dec n c hc], fun _ _ => dec_inj⟩

section
variable {E : Type} {rv : E → List Char}

theorem Delimited.tail {a : Tok E} {l : List (Tok E)} (h : Delimited (a :: l)) : (a = .rb ∧ l = []) ∨ (a ≠ .rb ∧ Delimited l) := by
  unfold Delimited at h
  split at h <;> simp_all

theorem Delimited.val {e : E} {l : List (Tok E)} (h : Delimited (.val e :: l)) :
    Delimited l ∧ ∀ t, ∃ c r, chars rv l ++ t = c :: r ∧ isNum c = false := by
  match l, h with
  | .lb :: l, h => exact ⟨h, fun t => ⟨'{', _, rfl, by decide⟩⟩
  | .rb :: l, h => exact ⟨h, fun t => ⟨'}', _, rfl, by decide⟩⟩
  | .comma :: l, h => exact ⟨h, fun t => ⟨',', _, rfl, by decide⟩⟩
  | .dots :: l, h => exact ⟨h, fun t => ⟨'.', _, rfl, by decide⟩⟩

theorem chars_cons (a : Tok E) (l : List (Tok E)) : chars rv (a :: l) = a.chars rv ++ chars rv l := rfl

/-- The head of a text tells the kind of the first token. -/
theorem NumText.head (h : NumText rv) (e : E) : ∃ c l, rv e = c :: l ∧ isNum c = true := by
  cases he : rv e with
  | nil => exact (h.ne e he).elim
  | cons c l => exact ⟨c, l, rfl, h.num e c (by simp [he])⟩

/-- A text of a set can be recognised at the beginning of a longer one. -/
theorem chars_unique (hv : NumText rv) : ∀ {l l' : List (Tok E)} {t t' : List Char}, Delimited l → Delimited l' →
    chars rv l ++ t = chars rv l' ++ t' → l = l' ∧ t = t'
  | [], _, _, _, h, _, _ => h.elim
  | _ :: _, [], _, _, _, h, _ => h.elim
  | a :: l, b :: l', t, t', h, h', e => by
    rw [chars_cons, chars_cons, List.append_assoc, List.append_assoc] at e
    have hrec : a = b → chars rv l ++ t = chars rv l' ++ t' → a :: l = b :: l' ∧ t = t' := by
      rintro rfl e
      rcases h.tail with ⟨rfl, rfl⟩ | ⟨hn, hl⟩
      · rcases h'.tail with ⟨_, rfl⟩ | ⟨hn, _⟩
        · exact ⟨rfl, by simpa [chars] using e⟩
        · exact (hn rfl).elim
      · rcases h'.tail with ⟨rfl, _⟩ | ⟨_, hl'⟩
        · exact (hn rfl).elim
        · obtain ⟨rfl, rfl⟩ := chars_unique hv hl hl' e
          exact ⟨rfl, rfl⟩
    have nv : ∀ {x : E} {c : Char} {r r' : List Char}, isNum c = false → rv x ++ r = c :: r' → False := by
      intro x c r r' hc e
      obtain ⟨d, m, hd, hn⟩ := hv.head x
      rw [hd, List.cons_append, List.cons.injEq] at e
      rw [e.1, hc] at hn; cases hn
    cases a with
    | val x =>
      cases b with
      | val y =>
        obtain ⟨h1, h2⟩ := h.val (rv := rv)
        obtain ⟨h3, h4⟩ := h'.val (rv := rv)
        obtain ⟨c, r, e1, hc⟩ := h2 t
        obtain ⟨c', r', e2, hc'⟩ := h4 t'
        simp only [Tok.chars] at e
        rw [e1, e2] at e
        obtain ⟨k1, rfl, rfl⟩ := split_unique isNum (hv.num x) (hv.num y) hc hc' e
        exact hrec (by rw [hv.inj _ _ k1]) (by rw [e1, e2])
      | lb => exact (nv (by decide) e).elim
      | rb => exact (nv (by decide) e).elim
      | comma => exact (nv (by decide) e).elim
      | dots => exact (nv (by decide) e).elim
    | lb =>
      cases b with
      | val y => exact (nv (by decide) e.symm).elim
      | lb => exact hrec rfl (by simpa [Tok.chars] using e)
      | rb => simp [Tok.chars] at e
      | comma => simp [Tok.chars] at e
      | dots => simp [Tok.chars] at e
    | rb =>
      cases b with
      | val y => exact (nv (by decide) e.symm).elim
      | rb => exact hrec rfl (by simpa [Tok.chars] using e)
      | lb => simp [Tok.chars] at e
      | comma => simp [Tok.chars] at e
      | dots => simp [Tok.chars] at e
    | comma =>
      cases b with
      | val y => exact (nv (by decide) e.symm).elim
      | comma => exact hrec rfl (by simpa [Tok.chars] using e)
      | lb => simp [Tok.chars] at e
      | rb => simp [Tok.chars] at e
      | dots => simp [Tok.chars] at e
    | dots =>
      cases b with
      | val y => exact (nv (by decide) e.symm).elim
      | dots => exact hrec rfl (by simpa [Tok.chars] using e)
      | lb => simp [Tok.chars] at e
      | rb => simp [Tok.chars] at e
      | comma => simp [Tok.chars] at e

end

theorem delimited_printRuns : ∀ (n : Nat) (l : List Int), l.length ≤ n → Delimited (printRuns l ++ [.rb])
  | _, [], _ => by simp [printRuns, Delimited]
  | 0, _ :: _, h => by simp at h
  | n + 1, first :: l, hn => by
    have hlen := lastConsecutive_length first l
    have ih := delimited_printRuns n (lastConsecutive first l).2 (by simp only [List.length_cons] at hn; omega)
    rw [printRuns]
    have hv : ∀ a : Int, Delimited (.val a :: ((if (lastConsecutive first l).2.isEmpty then [] else [Tok.comma]) ++
        printRuns (lastConsecutive first l).2 ++ [.rb])) := by
      intro a
      split
      · rename_i he
        simp only [List.isEmpty_iff] at he
        simp [he, printRuns, Delimited]
      · simpa [Delimited] using ih
    split
    · simpa using hv _
    · simpa [Delimited] using hv _

theorem delimited_printIntegral (l : List Int) : Delimited (printIntegral l) := by
  unfold printIntegral
  split
  · simp [Delimited]
  · simp [Delimited]
  · simpa [Delimited] using delimited_printRuns _ l (le_refl _)

theorem delimited_commas {E : Type} (z : E) : ∀ l : List E,
    Delimited ((l.flatMap fun x => [Tok.val x, .comma]) ++ [.val z, .rb])
  | [] => by simp [Delimited]
  | a :: l => by simpa [Delimited] using delimited_commas z l

theorem delimited_printOther {E : Type} (l : List E) : Delimited (printOther l) := by
  unfold printOther
  split
  · simp [Delimited]
  · simpa [Delimited] using delimited_commas _ l.dropLast


theorem delimited_printBitset {n : Nat} (v : BitVec n) : Delimited (printBitset v) := by
  have key : ∀ (l : List Nat) (st : Bool × List (Tok Nat)),
      ((st.1 = true ∧ st.2 = []) ∨ (st.1 = false ∧ ∃ (k : List Nat) (z : Nat), st.2 = (k.flatMap fun x => [Tok.val x, .comma]) ++ [.val z])) →
      Delimited ((l.foldl (fun (st : Bool × List (Tok Nat)) i =>
        if v.getLsbD i then (false, st.2 ++ (if st.1 then [] else [.comma]) ++ [.val i]) else st) st).2 ++ [.rb]) := by
    intro l
    induction l with
    | nil =>
      rintro st (⟨_, h⟩ | ⟨_, k, z, h⟩)
      · simp [h, Delimited]
      · simpa [h] using delimited_commas z k
    | cons a l ih =>
      intro st h
      rw [List.foldl_cons]
      refine ih _ ?_
      split
      · rcases h with ⟨h1, h2⟩ | ⟨h1, k, z, h2⟩
        · exact .inr ⟨rfl, [], a, by simp [h1, h2]⟩
        · exact .inr ⟨rfl, k ++ [z], a, by simp [h1, h2]⟩
      · exact h
  have := key (List.range n) (true, []) (.inl ⟨rfl, rfl⟩)
  unfold printBitset
  simpa [Delimited] using this

/-! ## SDDs -/

/-- What the text of SDDs requires of `operator<<` of the type of values: texts start with a brace, and are recognised at the
beginning of a longer text. (Specification or proof device, not part of the code.) -/
structure ValText {V : Type} (pv : V → List Char) : Prop where
  brace : ∀ v, ∃ l, pv v = '{' :: l
  uniq : ∀ v w t t', pv v ++ t = pv w ++ t' → v = w ∧ t = t'

section
variable {V : Type}

mutual
/-- `operator<<` for SDDs: `/repo/sdd/dd/definition.hh:399-404`, `/repo/sdd/mem/variant.hh:84-89` (dispatch),
`/repo/sdd/dd/terminal.hh:29-34` and `53-58`, `/repo/sdd/dd/node.hh:146-155`; `pv` is `operator<<` for the values.  `none`:
undefined behaviour (`end() - 1` without arcs). -/
def textSdd (pv : V → List Char) : SDD V → Option (List Char)
  | .zero => some ['|', '0', '|']
  | .one => some ['|', '1', '|']
  | .flat x arcs => (textF pv arcs).map fun l => dec x ++ '[' :: l
  | .hier x arcs => (textH pv arcs).map fun l => dec x ++ '[' :: l
/-- The arcs of a flat node, `/repo/sdd/dd/node.hh:152-154`. -/
def textF (pv : V → List Char) : List (V × SDD V) → Option (List Char)
  | [] => none
  | [(v, s)] => (textSdd pv s).map fun l => pv v ++ " --> ".toList ++ l ++ [']']
  | (v, s) :: a :: arcs => (textSdd pv s).bind fun l => (textF pv (a :: arcs)).map fun r =>
      pv v ++ " --> ".toList ++ l ++ " || ".toList ++ r
/-- The arcs of a hierarchical node. (The loop of `operator<<` of nodes in `/repo/sdd/dd/node.hh`.) -/
def textH (pv : V → List Char) : List (SDD V × SDD V) → Option (List Char)
  | [] => none
  | [(v, s)] => (textSdd pv v).bind fun k => (textSdd pv s).map fun l => k ++ " --> ".toList ++ l ++ [']']
  | (v, s) :: a :: arcs => (textSdd pv v).bind fun k => (textSdd pv s).bind fun l => (textH pv (a :: arcs)).map fun r =>
      k ++ " --> ".toList ++ l ++ " || ".toList ++ r
end

variable {pv : V → List Char}

/-- Texts are unambiguous: `x` can be recovered from its text, even followed by something else.
(Specification or proof device, not part of the code.) -/
def Recog (pv : V → List Char) (x : SDD V) : Prop :=
  ∀ y a b t t', textSdd pv x = some a → textSdd pv y = some b → a ++ t = b ++ t' → x = y ∧ t = t'

/-- First character of the text of an SDD. -/
theorem textSdd_head {x : SDD V} {a : List Char} (h : textSdd pv x = some a) : ∃ c l, a = c :: l ∧ c ≠ '{' := by
  cases x with
  | zero => simp only [textSdd, Option.some.injEq] at h; exact ⟨_, _, h.symm, by decide⟩
  | one => simp only [textSdd, Option.some.injEq] at h; exact ⟨_, _, h.symm, by decide⟩
  | flat x arcs =>
    simp only [textSdd, Option.map_eq_some_iff] at h
    obtain ⟨l, _, rfl⟩ := h
    obtain ⟨c, d, hd, hc⟩ := dec_head x
    exact ⟨c, d ++ '[' :: l, by simp [hd], by rintro rfl; exact absurd hc (by decide)⟩
  | hier x arcs =>
    simp only [textSdd, Option.map_eq_some_iff] at h
    obtain ⟨l, _, rfl⟩ := h
    obtain ⟨c, d, hd, hc⟩ := dec_head x
    exact ⟨c, d ++ '[' :: l, by simp [hd], by rintro rfl; exact absurd hc (by decide)⟩

theorem textF_head (hv : ValText pv) {arcs : List (V × SDD V)} {a : List Char} (h : textF pv arcs = some a) :
    ∃ l, a = '{' :: l := by
  match arcs, h with
  | [(v, s)], h =>
    simp only [textF, Option.map_eq_some_iff] at h
    obtain ⟨l, _, rfl⟩ := h
    obtain ⟨k, hk⟩ := hv.brace v
    exact ⟨_, by rw [hk]; rfl⟩
  | (v, s) :: b :: arcs, h =>
    simp only [textF, Option.bind_eq_some_iff, Option.map_eq_some_iff] at h
    obtain ⟨l, _, r, _, rfl⟩ := h
    obtain ⟨k, hk⟩ := hv.brace v
    exact ⟨_, by rw [hk]; rfl⟩

theorem textH_head {arcs : List (SDD V × SDD V)} {a : List Char} (h : textH pv arcs = some a) :
    ∃ c l, a = c :: l ∧ c ≠ '{' := by
  match arcs, h with
  | [(v, s)], h =>
    simp only [textH, Option.bind_eq_some_iff, Option.map_eq_some_iff] at h
    obtain ⟨k, hk, l, _, rfl⟩ := h
    obtain ⟨c, m, rfl, hc⟩ := textSdd_head hk
    exact ⟨c, _, rfl, hc⟩
  | (v, s) :: b :: arcs, h =>
    simp only [textH, Option.bind_eq_some_iff, Option.map_eq_some_iff] at h
    obtain ⟨k, hk, l, _, r, _, rfl⟩ := h
    obtain ⟨c, m, rfl, hc⟩ := textSdd_head hk
    exact ⟨c, _, rfl, hc⟩

theorem textF_uniq (hv : ValText pv) : ∀ {arcs arcs' : List (V × SDD V)} {a b t t' : List Char}, (∀ c ∈ arcs, Recog pv c.2) →
    textF pv arcs = some a → textF pv arcs' = some b → a ++ t = b ++ t' → arcs = arcs' ∧ t = t'
  | [], _, _, _, _, _, _, h, _, _ => by simp [textF] at h
  | _ :: _, [], _, _, _, _, _, _, h, _ => by simp [textF] at h
  | [(v, s)], [(w, u)], a, b, t, t', ih, h, h', e => by
    simp only [textF, Option.map_eq_some_iff] at h h'
    obtain ⟨l, hl, rfl⟩ := h
    obtain ⟨l', hl', rfl⟩ := h'
    simp only [List.append_assoc] at e
    obtain ⟨h0, e⟩ := hv.uniq _ _ _ _ e
    obtain ⟨h1, e⟩ := ih (v, s) (by simp) u _ _ _ _ hl hl' (List.append_cancel_left e)
    exact ⟨by simp only at h1; rw [h0, h1], by simpa using e⟩
  | [(v, s)], (w, u) :: c :: k, a, b, t, t', ih, h, h', e => by
    simp only [textF, Option.map_eq_some_iff, Option.bind_eq_some_iff] at h h'
    obtain ⟨l, hl, rfl⟩ := h
    obtain ⟨l', hl', r, _, rfl⟩ := h'
    simp only [List.append_assoc] at e
    obtain ⟨h0, e⟩ := hv.uniq _ _ _ _ e
    obtain ⟨h1, e⟩ := ih (v, s) (by simp) u _ _ _ _ hl hl' (List.append_cancel_left e)
    exact absurd (List.cons.inj e).1 (by decide)
  | (v, s) :: c :: k, [(w, u)], a, b, t, t', ih, h, h', e => by
    simp only [textF, Option.map_eq_some_iff, Option.bind_eq_some_iff] at h h'
    obtain ⟨l, hl, r, _, rfl⟩ := h
    obtain ⟨l', hl', rfl⟩ := h'
    simp only [List.append_assoc] at e
    obtain ⟨h0, e⟩ := hv.uniq _ _ _ _ e
    obtain ⟨h1, e⟩ := ih (v, s) (by simp) u _ _ _ _ hl hl' (List.append_cancel_left e)
    exact absurd (List.cons.inj e).1 (by decide)
  | (v, s) :: c :: k, (w, u) :: c' :: k', a, b, t, t', ih, h, h', e => by
    simp only [textF, Option.map_eq_some_iff, Option.bind_eq_some_iff] at h h'
    obtain ⟨l, hl, r, hr, rfl⟩ := h
    obtain ⟨l', hl', r', hr', rfl⟩ := h'
    simp only [List.append_assoc] at e
    obtain ⟨h0, e⟩ := hv.uniq _ _ _ _ e
    obtain ⟨h1, e⟩ := ih (v, s) (by simp) u _ _ _ _ hl hl' (List.append_cancel_left e)
    obtain ⟨h2, e⟩ := textF_uniq hv (fun x hx => ih x (by simp at hx ⊢; tauto)) hr hr' (List.append_cancel_left e)
    exact ⟨by simp only at h1; rw [h0, h1, h2], e⟩

theorem textH_uniq : ∀ {arcs arcs' : List (SDD V × SDD V)} {a b t t' : List Char},
    (∀ c ∈ arcs, Recog pv c.1 ∧ Recog pv c.2) →
    textH pv arcs = some a → textH pv arcs' = some b → a ++ t = b ++ t' → arcs = arcs' ∧ t = t'
  | [], _, _, _, _, _, _, h, _, _ => by simp [textH] at h
  | _ :: _, [], _, _, _, _, _, _, h, _ => by simp [textH] at h
  | [(v, s)], [(w, u)], a, b, t, t', ih, h, h', e => by
    simp only [textH, Option.map_eq_some_iff, Option.bind_eq_some_iff] at h h'
    obtain ⟨k, hk, l, hl, rfl⟩ := h
    obtain ⟨k', hk', l', hl', rfl⟩ := h'
    simp only [List.append_assoc] at e
    obtain ⟨h0, e⟩ := (ih (v, s) (by simp)).1 w _ _ _ _ hk hk' e
    obtain ⟨h1, e⟩ := (ih (v, s) (by simp)).2 u _ _ _ _ hl hl' (List.append_cancel_left e)
    exact ⟨by simp only at h0 h1; rw [h0, h1], by simpa using e⟩
  | [(v, s)], (w, u) :: c :: m, a, b, t, t', ih, h, h', e => by
    simp only [textH, Option.map_eq_some_iff, Option.bind_eq_some_iff] at h h'
    obtain ⟨k, hk, l, hl, rfl⟩ := h
    obtain ⟨k', hk', l', hl', r, _, rfl⟩ := h'
    simp only [List.append_assoc] at e
    obtain ⟨h0, e⟩ := (ih (v, s) (by simp)).1 w _ _ _ _ hk hk' e
    obtain ⟨h1, e⟩ := (ih (v, s) (by simp)).2 u _ _ _ _ hl hl' (List.append_cancel_left e)
    exact absurd (List.cons.inj e).1 (by decide)
  | (v, s) :: c :: m, [(w, u)], a, b, t, t', ih, h, h', e => by
    simp only [textH, Option.map_eq_some_iff, Option.bind_eq_some_iff] at h h'
    obtain ⟨k, hk, l, hl, r, _, rfl⟩ := h
    obtain ⟨k', hk', l', hl', rfl⟩ := h'
    simp only [List.append_assoc] at e
    obtain ⟨h0, e⟩ := (ih (v, s) (by simp)).1 w _ _ _ _ hk hk' e
    obtain ⟨h1, e⟩ := (ih (v, s) (by simp)).2 u _ _ _ _ hl hl' (List.append_cancel_left e)
    exact absurd (List.cons.inj e).1 (by decide)
  | (v, s) :: c :: m, (w, u) :: c' :: m', a, b, t, t', ih, h, h', e => by
    simp only [textH, Option.map_eq_some_iff, Option.bind_eq_some_iff] at h h'
    obtain ⟨k, hk, l, hl, r, hr, rfl⟩ := h
    obtain ⟨k', hk', l', hl', r', hr', rfl⟩ := h'
    simp only [List.append_assoc] at e
    obtain ⟨h0, e⟩ := (ih (v, s) (by simp)).1 w _ _ _ _ hk hk' e
    obtain ⟨h1, e⟩ := (ih (v, s) (by simp)).2 u _ _ _ _ hl hl' (List.append_cancel_left e)
    obtain ⟨h2, e⟩ := textH_uniq (fun x hx => ih x (by simp at hx ⊢; tauto)) hr hr' (List.append_cancel_left e)
    exact ⟨by simp only at h0 h1; rw [h0, h1, h2], e⟩

theorem textSdd_uniq (hv : ValText pv) (x : SDD V) : Recog pv x := by
  have bar : ∀ {n : Nat} {l r : List Char}, dec n ++ l = '|' :: r → False := by
    intro n l r h
    obtain ⟨c, d, hd, hc⟩ := dec_head n
    rw [hd, List.cons_append, List.cons.injEq] at h
    rw [h.1] at hc
    exact absurd hc (by decide)
  induction x using SDD.ind with
  | h0 =>
    intro y a b t t' ha hb e
    simp only [textSdd, Option.some.injEq] at ha
    subst ha
    cases y with
    | zero =>
      simp only [textSdd, Option.some.injEq] at hb
      subst hb
      exact ⟨rfl, by simpa using e⟩
    | one =>
      simp only [textSdd, Option.some.injEq] at hb
      subst hb
      simp at e
    | flat x arcs =>
      simp only [textSdd, Option.map_eq_some_iff] at hb
      obtain ⟨l, _, rfl⟩ := hb
      rw [List.append_assoc] at e
      exact (bar e.symm).elim
    | hier x arcs =>
      simp only [textSdd, Option.map_eq_some_iff] at hb
      obtain ⟨l, _, rfl⟩ := hb
      rw [List.append_assoc] at e
      exact (bar e.symm).elim
  | h1 =>
    intro y a b t t' ha hb e
    simp only [textSdd, Option.some.injEq] at ha
    subst ha
    cases y with
    | zero =>
      simp only [textSdd, Option.some.injEq] at hb
      subst hb
      simp at e
    | one =>
      simp only [textSdd, Option.some.injEq] at hb
      subst hb
      exact ⟨rfl, by simpa using e⟩
    | flat x arcs =>
      simp only [textSdd, Option.map_eq_some_iff] at hb
      obtain ⟨l, _, rfl⟩ := hb
      rw [List.append_assoc] at e
      exact (bar e.symm).elim
    | hier x arcs =>
      simp only [textSdd, Option.map_eq_some_iff] at hb
      obtain ⟨l, _, rfl⟩ := hb
      rw [List.append_assoc] at e
      exact (bar e.symm).elim
  | hf x arcs ih =>
    intro y a b t t' ha hb e
    simp only [textSdd, Option.map_eq_some_iff] at ha
    obtain ⟨l, hl, rfl⟩ := ha
    cases y with
    | zero =>
      simp only [textSdd, Option.some.injEq] at hb
      subst hb
      rw [List.append_assoc] at e
      exact (bar e).elim
    | one =>
      simp only [textSdd, Option.some.injEq] at hb
      subst hb
      rw [List.append_assoc] at e
      exact (bar e).elim
    | flat y arcs' =>
      simp only [textSdd, Option.map_eq_some_iff] at hb
      obtain ⟨l', hl', rfl⟩ := hb
      simp only [List.append_assoc, List.cons_append] at e
      obtain ⟨rfl, _, e⟩ := dec_split (by decide) (by decide) e
      obtain ⟨rfl, rfl⟩ := textF_uniq hv ih hl hl' e
      exact ⟨rfl, rfl⟩
    | hier y arcs' =>
      simp only [textSdd, Option.map_eq_some_iff] at hb
      obtain ⟨l', hl', rfl⟩ := hb
      simp only [List.append_assoc, List.cons_append] at e
      obtain ⟨rfl, _, e⟩ := dec_split (by decide) (by decide) e
      obtain ⟨k, rfl⟩ := textF_head hv hl
      obtain ⟨c, k', rfl, hc⟩ := textH_head hl'
      exact (hc (List.cons.inj e).1.symm).elim
  | hh x arcs ih =>
    intro y a b t t' ha hb e
    simp only [textSdd, Option.map_eq_some_iff] at ha
    obtain ⟨l, hl, rfl⟩ := ha
    cases y with
    | zero =>
      simp only [textSdd, Option.some.injEq] at hb
      subst hb
      rw [List.append_assoc] at e
      exact (bar e).elim
    | one =>
      simp only [textSdd, Option.some.injEq] at hb
      subst hb
      rw [List.append_assoc] at e
      exact (bar e).elim
    | flat y arcs' =>
      simp only [textSdd, Option.map_eq_some_iff] at hb
      obtain ⟨l', hl', rfl⟩ := hb
      simp only [List.append_assoc, List.cons_append] at e
      obtain ⟨rfl, _, e⟩ := dec_split (by decide) (by decide) e
      obtain ⟨k, rfl⟩ := textF_head hv hl'
      obtain ⟨c, k', rfl, hc⟩ := textH_head hl
      exact (hc (List.cons.inj e).1).elim
    | hier y arcs' =>
      simp only [textSdd, Option.map_eq_some_iff] at hb
      obtain ⟨l', hl', rfl⟩ := hb
      simp only [List.append_assoc, List.cons_append] at e
      obtain ⟨rfl, _, e⟩ := dec_split (by decide) (by decide) e
      obtain ⟨rfl, rfl⟩ := textH_uniq ih hl hl' e
      exact ⟨rfl, rfl⟩

/-- `top::description`, `/repo/sdd/dd/top.hh:76-89` (`what()` returns it). -/
def textTop (pv : V → List Char) (l r : SDD V) : Option (List Char) :=
  (textSdd pv l).bind fun a => (textSdd pv r).map fun b =>
    "Incompatible SDD: ".toList ++ a ++ " and ".toList ++ b ++ ".\n".toList

theorem textTop_inj (hv : ValText pv) {l r l' r' : SDD V} {a : List Char} (h : textTop pv l r = some a)
    (h' : textTop pv l' r' = some a) : l = l' ∧ r = r' := by
  simp only [textTop, Option.bind_eq_some_iff, Option.map_eq_some_iff] at h h'
  obtain ⟨x, hx, y, hy, rfl⟩ := h
  obtain ⟨x', hx', y', hy', e⟩ := h'
  simp only [List.append_assoc] at e
  obtain ⟨h1, e⟩ := textSdd_uniq hv _ _ _ _ _ _ hx' hx (List.append_cancel_left e)
  obtain ⟨h2, _⟩ := textSdd_uniq hv _ _ _ _ _ _ hy' hy (List.append_cancel_left e)
  exact ⟨h1.symm, h2.symm⟩

end

end Verif
