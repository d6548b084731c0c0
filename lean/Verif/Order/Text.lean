import Verif.Order.Order
import Verif.DD.Text
/-!
# Textual output of orders

`operator<<` of orders and of their identifiers, `/repo/sdd/order/order.hh:322-350`, `/repo/sdd/order/order_identifier.hh:103-116`.
-/

set_option autoImplicit false
set_option linter.unusedSectionVars false

namespace Verif

variable {I : Type}

/-- `operator<<` for `order_identifier`, `/repo/sdd/order/order_identifier.hh:103-116`; `pi` is `operator<<` for the identifiers of the user. -/
def textId (pi : I → List Char) (id : OId I) : List Char :=
  if id.artificial ≠ 0 then '@' :: (dec id.artificial ++ ['@']) else pi id.user

namespace Ord

/-- The function `helper`, `/repo/sdd/order/order.hh:328-347`, with fuel; `none`: dereference of a null pointer. -/
def textImpl (pi : I → List Char) (nodes : List (Option (ONode I))) : Nat → Nat → Option Nat → Option (List Char)
  | _, _, none => some []
  | 0, _, some _ => none
  | fuel + 1, indent, some p =>
    match (nodes[p]?).join with
    | none => none
    | some n =>
      match (if n.nested.isSome then textImpl pi nodes fuel (indent + 2) n.nested else some []),
          (if n.next.isSome then textImpl pi nodes fuel indent n.next else some []) with
      | some a, some b => some (List.replicate indent ' ' ++ textId pi n.id ++ " (".toList ++ dec n.var ++ ")\n".toList ++ a ++ b)
      | _, _ => none

/-- `operator<<`, `/repo/sdd/order/order.hh:322-350`. -/
def text (pi : I → List Char) (o : Ord I) : Option (List Char) := textImpl pi o.nodes o.nodes.length 0 o.head

end Ord

namespace OB

/-- The text of a level: each element on its line, followed by the elements nested in it, shifted by two characters.
(Specification or proof device, not part of the code.) -/
def text (pi : I → List Char) : OB I → Nat → List Char
  | .nil, _ => []
  | .node id nst nxt, k =>
    List.replicate k ' ' ++ textId pi id ++ " (".toList ++ dec nxt.level.length ++ ")\n".toList ++ text pi nst (k + 2) ++ text pi nxt k

end OB

theorem Ord.textImpl_spec {pi : I → List Char} {nodes : List (Option (ONode I))} (ob : OB I) :
    ∀ {fuel p k : Nat} {h : Option Nat} {path : List Nat}, Rep nodes p h ob path → ob.ids.length ≤ fuel →
      textImpl pi nodes fuel k h = some (ob.text pi k) := by
  induction ob with
  | nil =>
    intro fuel p k h path hr _
    rw [show h = none from hr]
    cases fuel <;> rfl
  | node id nst nxt ihn ih =>
    intro fuel p k h path hr hf
    obtain ⟨rfl, n, m, h1, h2, h3⟩ := hr
    simp only [OB.ids, List.length_cons, List.length_append] at hf
    cases fuel with
    | zero => omega
    | succ fuel =>
      have e1 := ihn (fuel := fuel) (k := k + 2) h2 (by omega)
      have e2 := ih (fuel := fuel) (k := k) h3 (by omega)
      rw [textImpl, h1]
      simp only [Option.join_some]
      have g1 : (if m.isSome then textImpl pi nodes fuel (k + 2) m else some []) = some (nst.text pi (k + 2)) := by
        cases m with
        | none => cases fuel <;> exact e1
        | some _ => exact e1
      have g2 : (if n.isSome then textImpl pi nodes fuel k n else some []) = some (nxt.text pi k) := by
        cases n with
        | none => cases fuel <;> exact e2
        | some _ => exact e2
      rw [g1, g2]
      rfl

/-- What is asked of `operator<<` for the identifiers of the user: different texts for different identifiers, not empty, on one line, and which
do not start with a space nor with `@`. (Specification or proof device, not part of the code.) -/
structure IdText (pi : I → List Char) : Prop where
  inj : ∀ i j, pi i = pi j → i = j
  line : ∀ i, '\n' ∉ pi i
  head : ∀ i, ∃ c l, pi i = c :: l ∧ c ≠ ' ' ∧ c ≠ '@'

section
variable {pi : I → List Char}

theorem IdText.tid_head (h : IdText pi) (id : OId I) : ∃ c l, textId pi id = c :: l ∧ c ≠ ' ' := by
  unfold textId
  split
  · exact ⟨_, _, rfl, by decide⟩
  · obtain ⟨c, l, h1, h2, _⟩ := h.head id.user
    exact ⟨c, l, h1, h2⟩

theorem IdText.tid_line (h : IdText pi) (id : OId I) : '\n' ∉ textId pi id := by
  unfold textId
  split
  · simp only [List.mem_cons, List.mem_append, List.not_mem_nil, or_false, not_or]
    exact ⟨by decide, fun hc => absurd (isDig_dec _ _ hc) (by decide), by decide⟩
  · exact h.line _

/-- Identifiers of builders: artificial identifiers have no meaningful user part. -/
theorem IdText.tid_inj (h : IdText pi) {a b : OId I} (hd : a.artificial ≠ 0 → b.artificial ≠ 0 → a.user = b.user)
    (e : textId pi a = textId pi b) : a = b := by
  obtain ⟨a1, a2⟩ := a
  obtain ⟨b1, b2⟩ := b
  unfold textId at e
  split at e <;> split at e <;> rename_i ha hb
  · simp only [List.cons.injEq, true_and] at e
    have := List.append_cancel_right e
    have h1 : a1 = b1 := dec_inj this
    have h2 : a2 = b2 := hd ha hb
    rw [h1, h2]
  · obtain ⟨c, l, h1, _, h3⟩ := h.head b2
    rw [h1] at e
    exact (h3 (List.cons.inj e).1.symm).elim
  · obtain ⟨c, l, h1, _, h3⟩ := h.head a2
    rw [h1] at e
    exact (h3 (List.cons.inj e).1).elim
  · simp only [ne_eq, not_not] at ha hb
    have h1 : a2 = b2 := h.inj _ _ e
    rw [ha, hb, h1]

/-- A line determines its identifier. -/
theorem line_inj {a b : List Char} {n m : Nat} (e : a ++ (" (".toList ++ (dec n ++ ")".toList)) = b ++ (" (".toList ++ (dec m ++ ")".toList))) :
    a = b := by
  have e := congrArg List.reverse e
  simp only [List.reverse_append] at e
  have := List.append_cancel_left (as := ")".toList.reverse) (by simpa using e)
  obtain ⟨_, _, h⟩ := split_unique isDig (fun c hc => isDig_dec n c (List.mem_reverse.1 hc))
    (fun c hc => isDig_dec m c (List.mem_reverse.1 hc)) (by decide) (by decide) this
  have := (List.cons.inj h).2
  exact List.reverse_injective this

/-- A text whose first line is shifted by less than `k` characters, or is empty. (Specification or proof device, not part of the code.) -/
def Low (k : Nat) (t : List Char) : Prop := t = [] ∨ ∃ j < k, ∃ c l, t = List.replicate j ' ' ++ c :: l ∧ c ≠ ' '

theorem spaces_split {j k : Nat} {c c' : Char} {l l' : List Char} (hc : c ≠ ' ') (hc' : c' ≠ ' ')
    (e : List.replicate j ' ' ++ c :: l = List.replicate k ' ' ++ c' :: l') : j = k ∧ c :: l = c' :: l' := by
  obtain ⟨h1, h2, h3⟩ := split_unique (fun c => decide (c = ' ')) (by intro a ha; simp [List.eq_of_mem_replicate ha])
    (by intro a ha; simp [List.eq_of_mem_replicate ha]) (by simpa using hc) (by simpa using hc') e
  have := congrArg List.length h1
  simp only [List.length_replicate] at this
  exact ⟨this, by rw [h2, h3]⟩

theorem OB.text_low (h : IdText pi) {ob : OB I} {k : Nat} {t : List Char} (ht : Low k t) : Low (k + 2) (ob.text pi k ++ t) := by
  cases ob with
  | nil =>
    rcases ht with h | ⟨j, hj, c, l, h1, h2⟩
    · exact .inl (by simp [OB.text, h])
    · exact .inr ⟨j, by omega, c, l, by simpa [OB.text] using h1, h2⟩
  | node id nst nxt =>
    obtain ⟨c, l, h1, h2⟩ := h.tid_head id
    refine .inr ⟨k, by omega, c, l ++ " (".toList ++ dec nxt.level.length ++ ")\n".toList ++ nst.text pi (k + 2) ++ nxt.text pi k ++ t, ?_, h2⟩
    rw [OB.text, h1]
    simp only [List.append_assoc, List.cons_append]

theorem OB.low_ne (h : IdText pi) {id : OId I} {nst nxt : OB I} {k : Nat} {t t' : List Char} (ht : Low k t)
    (e : t = (OB.node id nst nxt).text pi k ++ t') : False := by
  obtain ⟨c, l, h1, h2⟩ := h.tid_head id
  rw [OB.text, h1] at e
  simp only [List.append_assoc, List.cons_append] at e
  rcases ht with rfl | ⟨j, hj, c', l', rfl, h3⟩
  · have := congrArg List.length e
    simp at this
  · have := (spaces_split h3 h2 e).1
    omega

/-- The user parts of all the artificial identifiers are the same value (default constructed in the code).
(Specification or proof device, not part of the code.) -/
def OB.Plain (d : I) (ob : OB I) : Prop := ∀ id ∈ ob.ids, id.artificial ≠ 0 → id.user = d

theorem OB.text_inj (h : IdText pi) {d : I} (a : OB I) : ∀ (b : OB I) (k : Nat) (t t' : List Char), a.Plain d → b.Plain d → Low k t → Low k t' →
    a.text pi k ++ t = b.text pi k ++ t' → a = b ∧ t = t' := by
  induction a with
  | nil =>
    intro b k t t' _ _ ht _ e
    cases b with
    | nil => exact ⟨rfl, by simpa [OB.text] using e⟩
    | node id nst nxt => exact (OB.low_ne h ht (by simpa [OB.text] using e)).elim
  | node id nst nxt ihn ih =>
    intro b k t t' ha hb ht ht' e
    cases b with
    | nil => exact (OB.low_ne h ht' (by simpa [OB.text] using e.symm)).elim
    | node id' nst' nxt' =>
      rw [OB.text, OB.text] at e
      simp only [List.append_assoc] at e
      have e := List.append_cancel_left e
      have hn : ")\n".toList = [')', '\n'] := by decide
      rw [hn] at e
      have nl : ∀ (i : OId I) (n : Nat), ∀ c ∈ textId pi i ++ (" (".toList ++ (dec n ++ ")".toList)), decide (c ≠ '\n') = true := by
        intro i n c hc
        have hs1 : " (".toList = [' ', '('] := by decide
        have hs2 : ")".toList = [')'] := by decide
        rw [hs1, hs2] at hc
        simp only [List.mem_append, List.mem_cons, List.not_mem_nil, or_false] at hc
        simp only [decide_eq_true_eq]
        rintro rfl
        rcases hc with hc | (hc | hc) | hc | hc
        · exact h.tid_line i hc
        · exact absurd hc (by decide)
        · exact absurd hc (by decide)
        · exact absurd (isDig_dec _ _ hc) (by decide)
        · exact absurd hc (by decide)
      obtain ⟨h1, _, e⟩ := split_unique (fun c => decide (c ≠ '\n')) (nl id nxt.level.length) (nl id' nxt'.level.length)
        (c := '\n') (c' := '\n') (by decide) (by decide)
        (l := nst.text pi (k + 2) ++ (nxt.text pi k ++ t)) (l' := nst'.text pi (k + 2) ++ (nxt'.text pi k ++ t'))
        (by simpa using e)
      have hid : id = id' := h.tid_inj (fun q q' => by
        rw [ha id (by simp [OB.ids]) q, hb id' (by simp [OB.ids]) q']) (line_inj h1)
      obtain ⟨hn1, e⟩ := ihn nst' (k + 2) _ _ (fun i hi => ha i (by simp [OB.ids, hi])) (fun i hi => hb i (by simp [OB.ids, hi]))
        (OB.text_low h ht) (OB.text_low h ht') e
      obtain ⟨hn2, e⟩ := ih nxt' k _ _ (fun i hi => ha i (by simp [OB.ids, hi])) (fun i hi => hb i (by simp [OB.ids, hi])) ht ht' e
      exact ⟨by rw [hid, hn1, hn2], e⟩

end
end Verif
