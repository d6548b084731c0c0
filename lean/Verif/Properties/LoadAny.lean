import Verif.Properties.Text
import Verif.Order.LoadAny
/-!
# Properties of orders loaded from texts of any origin
-/

set_option autoImplicit false
set_option linter.unusedSectionVars false

namespace Verif

/-! ## C103: loading any text -/

/-- What is said to be an integer identifier: an integer in the range of `int`, or a string which `std::stoi` accepts. (Specification, not part of the code.) -/
def IntIdent (v : JVal) (i : Int) : Prop :=
  (v = .num i ∧ -(2 ^ 31) ≤ i ∧ i < 2 ^ 31) ∨ ∃ s, v = .str s ∧ stoi s = some i

/-- What is said to be an identifier which is a string: a string. (Specification, not part of the code.) -/
def StrIdent (v : JVal) (s : List Char) : Prop := v = .str s

theorem intId_iff (v : JVal) (i : Int) (hv : ∀ l, v ≠ .arr l) : intId v = .order i ↔ IntIdent v i := by
  cases v with
  | arr l => exact absurd rfl (hv l)
  | num n =>
    rw [intId]
    constructor
    · intro h
      split at h
      · cases h
        exact .inl ⟨rfl, ‹_›⟩
      · cases h
    · rintro (⟨h, hr⟩ | ⟨s, h, _⟩)
      · cases h
        rw [if_pos hr]
      · cases h
  | str s =>
    rw [intId]
    constructor
    · intro h
      split at h
      · cases h
        exact .inr ⟨s, rfl, ‹_›⟩
      · cases h
    · rintro (⟨h, _⟩ | ⟨s', h, e⟩)
      · cases h
      · cases h
        rw [e]

theorem strId_iff (v : JVal) (s : List Char) (_ : ∀ l, v ≠ .arr l) : strId v = .order s ↔ StrIdent v s := by
  cases v <;> simp [strId, StrIdent]

/-- **C103**, integers. A text is loaded exactly when it is an array whose elements are integers in the range of `int`, strings of such integers, or arrays of the same kind
which are not empty. Then the identifiers of the builder are those of the text, in the same order, and its nesting (given by what `dump_order` writes of it) is that of the text in which
the arrays of one element are replaced by their element; an order can be made of it exactly when no identifier is repeated.

Missing: the nesting of arrays of one element, and the empty arrays (`C103_negation`). -/
theorem C103_load_integers_partial (d : Int) (t : List Char) (c : Nat) :
    (∀ l j, parseJson t = some (.arr l) → Says IntIdent (.arr l) j → j.Full →
      ∃ r c', loadText intId d t c = .order (r, c') ∧ r.flatIds = j.leaves ∧ r.userIds = j.leaves ∧ r.dump = j.collapse.asArray ∧
        ((∃ o, Ord.ofBuilder r = .ok o) ↔ j.leaves.Nodup)) ∧
    (∀ r, loadText intId d t c = .order r → ∃ l j, parseJson t = some (.arr l) ∧ Says IntIdent (.arr l) j ∧ j.Full) := by
  have ⟨h1, h2⟩ := loadText_any intId_iff d t c
  refine ⟨fun l j e h hf => ?_, h2⟩
  obtain ⟨r, c', e', hfl, hu, hd⟩ := (h1 l j e h).1 hf
  refine ⟨r, c', e', hfl, hu, hd, ?_⟩
  have := (C28_identifiers r).2.1
  rw [hu] at this
  rw [← not_iff_not, ← this]
  cases ho : Ord.ofBuilder r <;> simp

/-- **C103**, strings. The same for identifiers which are strings.

Missing: the same as for integers (`C103_negation`). -/
theorem C103_load_strings_partial (d : List Char) (t : List Char) (c : Nat) :
    (∀ l j, parseJson t = some (.arr l) → Says StrIdent (.arr l) j → j.Full →
      ∃ r c', loadText strId d t c = .order (r, c') ∧ r.flatIds = j.leaves ∧ r.userIds = j.leaves ∧ r.dump = j.collapse.asArray ∧
        ((∃ o, Ord.ofBuilder r = .ok o) ↔ j.leaves.Nodup)) ∧
    (∀ r, loadText strId d t c = .order r → ∃ l j, parseJson t = some (.arr l) ∧ Says StrIdent (.arr l) j ∧ j.Full) := by
  have ⟨h1, h2⟩ := loadText_any strId_iff d t c
  refine ⟨fun l j e h hf => ?_, h2⟩
  obtain ⟨r, c', e', hfl, hu, hd⟩ := (h1 l j e h).1 hf
  refine ⟨r, c', e', hfl, hu, hd, ?_⟩
  have := (C28_identifiers r).2.1
  rw [hu] at this
  rw [← not_iff_not, ← this]
  cases ho : Ord.ofBuilder r <;> simp

/-- **C103**, negation. Every text with an empty array somewhere (its other elements being identifiers) makes `load_order` read a null pointer: there are such texts which are
the output of `dump_order` (for the empty order). And the array of one element is lost: `[1,[2]]` is loaded as `[1,2]`. -/
theorem C103_negation :
    (∀ (d : Int) (t : List Char) (c : Nat) (l : List JVal) (j : OB.Json Int), parseJson t = some (.arr l) → Says IntIdent (.arr l) j → ¬ j.Full →
      loadText intId d t c = .ub) ∧
    (∃ o t l j, Ord.ofBuilder (.nil : OB Int) = .ok o ∧ o.dumpText decInt = some t ∧ parseJson t = some (.arr l) ∧ Says IntIdent (.arr l) j ∧ ¬ j.Full) ∧
    loadText intId 0 "[1,[2]]".toList 0 = loadText intId 0 "[1,2]".toList 0 := by
  refine ⟨fun d t c l j e h hf => ((loadText_any intId_iff d t c).1 l j e h).2 hf,
    ⟨_, _, _, _, rfl, rfl, rfl, .arr .nil, by simp [OB.Json.Full]⟩, ?_⟩
  decide +kernel

/-! ## Concrete cases -/

namespace DemoLoad

/-- A text with spaces, a string for an integer and an array of one element. (An example.) -/
def text : List Char := " [ 1, [\"2\" ,3], [\"-4\"] ]".toList

/-- What the text says. (An example.) -/
def doc : OB.Json Int := .arr [.leaf 1, .arr [.leaf 2, .leaf 3], .arr [.leaf (-4)]]

theorem says_doc : ∃ l, parseJson text = some (.arr l) ∧ Says IntIdent (.arr l) doc := by
  refine ⟨[.num 1, .arr [.str "2".toList, .num 3], .arr [.str "-4".toList]], parseJson_of_beq (by decide +kernel), ?_⟩
  refine .arr (.cons (.num (.inl ⟨rfl, by decide⟩)) (.cons (.arr (.cons (.str (.inr ⟨_, rfl, by decide +kernel⟩))
    (.cons (.num (.inl ⟨rfl, by decide⟩)) .nil))) (.cons (.arr (.cons (.str (.inr ⟨_, rfl, by decide +kernel⟩)) .nil)) .nil)))

end DemoLoad

example : ∃ r c', loadText intId 0 DemoLoad.text 0 = .order (r, c') ∧ r.flatIds = [1, 2, 3, -4] ∧
    r.dump = .arr [.leaf 1, .arr [.leaf 2, .leaf 3], .leaf (-4)] ∧ ∃ o, Ord.ofBuilder r = .ok o := by
  obtain ⟨l, e, h⟩ := DemoLoad.says_doc
  obtain ⟨r, c', h1, h2, _, h4, h5⟩ := (C103_load_integers_partial 0 DemoLoad.text 0).1 l _ e h (by
    simp [DemoLoad.doc, OB.Json.Full, OB.Json.FullL])
  exact ⟨r, c', h1, h2, h4, h5.2 (by decide +kernel)⟩

example : ∃ r c', loadText strId [] "[[\"x\",[\"y\",\"x\"]]]".toList 0 = .order (r, c') ∧ r.flatIds = ["x".toList, "y".toList, "x".toList] ∧
    ¬ ∃ o, Ord.ofBuilder r = .ok o := by
  obtain ⟨r, c', h1, h2, _, h4, h5⟩ := (C103_load_strings_partial [] "[[\"x\",[\"y\",\"x\"]]]".toList 0).1
    [.arr [.str "x".toList, .arr [.str "y".toList, .str "x".toList]]]
    (.arr [.arr [.leaf "x".toList, .arr [.leaf "y".toList, .leaf "x".toList]]]) (parseJson_of_beq (by decide +kernel))
    (.arr (.cons (.arr (.cons (.str rfl) (.cons (.arr (.cons (.str rfl) (.cons (.str rfl) .nil))) .nil))) .nil))
    (by simp [OB.Json.Full, OB.Json.FullL])
  exact ⟨r, c', h1, h2, fun h => absurd (h5.1 h) (by decide +kernel)⟩

/-- An empty array deep in a text: nothing is returned. -/
example : loadText intId 0 "[1,[2,[]]]".toList 0 = .ub :=
  C103_negation.1 0 _ 0 [.num 1, .arr [.num 2, .arr []]] (.arr [.leaf 1, .arr [.leaf 2, .arr []]]) (parseJson_of_beq (by decide +kernel))
    (.arr (.cons (.num (.inl ⟨rfl, by decide⟩)) (.cons (.arr (.cons (.num (.inl ⟨rfl, by decide⟩)) (.cons (.arr .nil) .nil))) .nil)))
    (by simp [OB.Json.Full, OB.Json.FullL])

end Verif
