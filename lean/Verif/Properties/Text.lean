import Verif.DD.Text
import Verif.Properties.DD
import Verif.Properties.Values
import Verif.Properties.Order
import Verif.Order.Text
import Verif.Order.JsonText
/-!
# Properties of textual outputs
-/

set_option autoImplicit false
set_option linter.unusedSectionVars false

namespace Verif

/-- `operator<<` for a `flat_set` of signed integers. -/
def textInts {lt : Int → Int → Bool} (v : FSet Int lt) : List Char := chars decInt (printIntegral v.data)

/-- `operator<<` for a `flat_set` of unsigned integers. -/
def textNats (v : NSet) : List Char := chars decInt (printIntegral (v.data.map Int.ofNat))

/-- `operator<<` for a `bitset`. -/
def textBits {n : Nat} (v : BitVec n) : List Char := chars dec (printBitset v)

theorem chars_brace {E : Type} {rv : E → List Char} {l : List (Tok E)} (h : l.head? = some .lb) :
    ∃ r, chars rv l = '{' :: r := by
  cases l with
  | nil => simp at h
  | cons a l => simp at h; subst h; exact ⟨_, rfl⟩

/-- **C54**, characters: the texts of sets of integers and of bitsets start with a brace and determine the set, even when they
are followed by other characters. -/
theorem C54_characters {lt : Int → Int → Bool} (h : StrictTotal lt) (hlt : ∀ a b, lt a b = true ↔ a < b) (n : Nat) :
    ValText (textInts (lt := lt)) ∧ ValText textNats ∧ ValText (textBits (n := n)) := by
  refine ⟨⟨fun v => chars_brace rfl, fun v w t t' e => ?_⟩, ⟨fun v => chars_brace rfl, fun v w t t' e => ?_⟩,
    ⟨fun v => chars_brace rfl, fun v w t t' e => ?_⟩⟩
  · obtain ⟨e1, rfl⟩ := chars_unique numText_decInt (delimited_printIntegral _) (delimited_printIntegral _) e
    exact ⟨(C54_print_flat_set h hlt v w).2 e1, rfl⟩
  · obtain ⟨e1, rfl⟩ := chars_unique numText_decInt (delimited_printIntegral _) (delimited_printIntegral _) e
    refine ⟨FSet.ext natLt_st' fun x => ?_, rfl⟩
    have hs : ∀ v : NSet, (v.data.map Int.ofNat).Pairwise fun a b => a < b := by
      intro v
      rw [List.pairwise_map]
      refine v.sorted.imp fun h => ?_
      have : _ < _ := of_decide_eq_true h
      exact Int.ofNat_lt.2 this
    have k : ∀ v : NSet, Reads (printIntegral (v.data.map Int.ofNat)) (Int.ofNat x) ↔ FSet.Mem x v := by
      intro v
      rw [reads_printIntegral _ (hs v)]
      constructor
      · intro h
        obtain ⟨a, ha, e⟩ := List.mem_map.1 h
        cases e; exact ha
      · exact fun h => List.mem_map.2 ⟨x, h, rfl⟩
    rw [← k v, ← k w, e1]
  · obtain ⟨e1, rfl⟩ := chars_unique numText_dec (delimited_printBitset _) (delimited_printBitset _) e
    refine ⟨Bitset.ext fun x => ?_, rfl⟩
    rw [← Bitset.mem_elems, ← Bitset.mem_elems, ← tokVals_printBitset, ← tokVals_printBitset, e1]

example : String.ofList (textNats (ns [1, 2, 3, 10, 12, 13])) = "{1..3,10,12..13}" ∧
    String.ofList (textBits (0b1011#4)) = "{0,1,3}" := by decide +kernel

theorem Demo.valText : ValText textNats :=
  (C54_characters (lt := fun a b => decide (a < b)) ⟨by simp, by simp; omega, by simp; omega⟩ (by simp) 0).2.1

section
variable {V E : Type} [DecidableEq V] {C : Cfg V E} {orc : Nat → Nat → List Nat} {cap : OpKind → Nat} {pv : V → List Char}

theorem textF_some {arcs : List (V × SDD V)} (h : ∀ c ∈ arcs, ∃ a, textSdd pv c.2 = some a) (hne : arcs ≠ []) :
    ∃ a, textF pv arcs = some a := by
  induction arcs with
  | nil => exact (hne rfl).elim
  | cons c arcs ih =>
    obtain ⟨v, s⟩ := c
    obtain ⟨a, ha⟩ := h (v, s) (by simp)
    simp only at ha
    cases arcs with
    | nil => exact ⟨_, by rw [textF, ha]; rfl⟩
    | cons c' k =>
      obtain ⟨b, hb⟩ := ih (fun x hx => h x (by simp [List.mem_cons.1 hx])) (by simp)
      exact ⟨_, by rw [textF, ha, hb]; rfl⟩

theorem textH_some {arcs : List (SDD V × SDD V)} (h : ∀ c ∈ arcs, (∃ a, textSdd pv c.1 = some a) ∧ ∃ a, textSdd pv c.2 = some a)
    (hne : arcs ≠ []) : ∃ a, textH pv arcs = some a := by
  induction arcs with
  | nil => exact (hne rfl).elim
  | cons c arcs ih =>
    obtain ⟨v, s⟩ := c
    obtain ⟨⟨a0, ha0⟩, a, ha⟩ := h (v, s) (by simp)
    simp only at ha ha0
    cases arcs with
    | nil => exact ⟨_, by rw [textH, ha0, ha]; rfl⟩
    | cons c' k =>
      obtain ⟨b, hb⟩ := ih (fun x hx => h x (by simp [List.mem_cons.1 hx])) (by simp)
      exact ⟨_, by rw [textH, ha0, ha, hb]; rfl⟩

theorem Dom.text {t : Ty} {x : SDD V} (h : Dom C t x) : ∃ a, textSdd pv x = some a := by
  induction x using SDD.ind generalizing t with
  | h0 => exact ⟨_, rfl⟩
  | h1 => exact ⟨_, rfl⟩
  | hf x arcs ih =>
    cases h with
    | flat _ t' _ _ _ hg hd =>
      obtain ⟨a, ha⟩ := textF_some (pv := pv) (fun c hc => ih c hc (hd c hc)) hg.ne
      exact ⟨_, by rw [textSdd, ha]; rfl⟩
  | hh x arcs ih =>
    cases h with
    | hier _ tn t' _ _ _ hg hd1 hd2 =>
      obtain ⟨a, ha⟩ := textH_some (pv := pv) (fun c hc => ⟨(ih c hc).1 (hd1 c hc), (ih c hc).2 (hd2 c hc)⟩) hg.ne
      exact ⟨_, by rw [textSdd, ha]; rfl⟩

/-- **C70.** Writing a handle is always defined, and two handles have the same text exactly when they are the same set; this stays
true when the texts are followed by other characters. -/
theorem C70_text_identifies (hC : C.Lawful) (hcap : ∀ k, 0 < cap k) (hv : ValText pv) {s : Sess V} (hs : Sess.Reach C orc cap s)
    {x y : SDD V} (hx : x ∈ s.handles) (hy : y ∈ s.handles) : ∃ a b, textSdd pv x = some a ∧ textSdd pv y = some b ∧
      (a = b ↔ ∀ p, Mem C p x ↔ Mem C p y) ∧ (∀ t t', a ++ t = b ++ t' → a = b ∧ t = t') := by
  have hi := hs.inv hC hcap
  obtain ⟨a, ha⟩ := (hi.wf x hx).choose_spec.text (pv := pv)
  obtain ⟨b, hb⟩ := (hi.wf y hy).choose_spec.text (pv := pv)
  refine ⟨a, b, ha, hb, ?_, fun t t' e => ?_⟩
  · rw [← (C01_equality_is_set_equality hC hcap hs hx hy).1]
    constructor
    · rintro rfl
      exact (textSdd_uniq hv x y a a [] [] ha hb rfl).1
    · rintro rfl
      rw [ha] at hb
      exact Option.some.inj hb
  · obtain ⟨rfl, rfl⟩ := textSdd_uniq hv x y a b t t' ha hb e
    rw [ha] at hb
    exact ⟨Option.some.inj hb, rfl⟩

example : (textSdd textNats Demo.ha).map String.ofList = some "1[0[{1..2} --> |1|] --> |1|]" ∧
    (textSdd textNats (.flat 3 [(ns [1], Demo.a), (ns [2, 4], Demo.b)] : SDD NSet)).map String.ofList =
      some "3[{1} --> 0[{1..2} --> |1|] || {2,4} --> 0[{2..3} --> |1|]]" := by decide +kernel

example : ∃ a b, textSdd textNats Demo.ha = some a ∧ textSdd textNats Demo.hb = some b ∧
    (a = b ↔ ∀ p, Mem Demo.C p Demo.ha ↔ Mem Demo.C p Demo.hb) ∧ (∀ t t', a ++ t = b ++ t' → a = b ∧ t = t') :=
  C70_text_identifies (natCfg_lawful none) Demo.cap_pos Demo.valText Demo.reach
    (by rw [Demo.handles]; decide +kernel) (by rw [Demo.handles]; decide +kernel)

/-- **C70**, exceptions: the description of a `Top` raised by any call determines the two SDDs it carries. -/
theorem C70_top_description (hC : C.Lawful) (hcap : ∀ k, 0 < cap k) (hv : ValText pv) {s : Sess V} (hs : Sess.Reach C orc cap s)
    (c : Call V) (ha : ∀ x ∈ c.args, x ∈ s.handles) {l r : SDD V} {m : Mach V}
    (h : c.run (C.withLt s.lt) orc cap s.mach = (.error (.top l r), m)) :
    ∃ a, textTop pv l r = some a ∧ ∀ l' r', textTop pv l' r' = some a → l' = l ∧ r' = r := by
  have hi := (C69_top_operands hC hcap hs c ha h).2.inv hC hcap
  obtain ⟨a, hl⟩ := (hi.wf l (by simp)).choose_spec.text (pv := pv)
  obtain ⟨b, hr⟩ := (hi.wf r (by simp)).choose_spec.text (pv := pv)
  have ht : textTop pv l r = some ("Incompatible SDD: ".toList ++ a ++ " and ".toList ++ b ++ ".\n".toList) := by
    rw [textTop, hl, Option.bind_some, hr]; rfl
  exact ⟨_, ht, fun l' r' h' => textTop_inj hv h' ht⟩

example : (textTop textNats Demo.a Demo.d).map String.ofList =
    some "Incompatible SDD: 0[{1..2} --> |1|] and 7[{5} --> |1|].\n" := by decide +kernel

end

/-! ## Orders -/

section
variable {I : Type} [DecidableEq I] {pi : I → List Char}

/-- **C71.** Writing an order is always defined, and two orders have the same text exactly when they are equal.  `d`: the identifier of the user is
default constructed in artificial identifiers. -/
theorem C71_order_text (h : IdText pi) {d : I} {a b : OB I} {o o' : Ord I} (ha : Ord.ofBuilder a = .ok o) (hb : Ord.ofBuilder b = .ok o')
    (pa : a.Plain d) (pb : b.Plain d) :
    ∃ t t', o.text pi = some t ∧ o'.text pi = some t' ∧ (t = t' ↔ o.eq o' = some true) := by
  have h1 := Ord.ofBuilder_spec a
  have h2 := Ord.ofBuilder_spec b
  rw [ha] at h1
  rw [hb] at h2
  refine ⟨_, _, Ord.textImpl_spec a h1.2.rep (by rw [h1.2.len]), Ord.textImpl_spec b h2.2.rep (by rw [h2.2.len]), ?_⟩
  rw [C56_order_equality ha hb]
  simp only [Option.some.injEq, decide_eq_true_eq]
  constructor
  · intro e
    exact (OB.text_inj h a b 0 [] [] pa pb (.inl rfl) (.inl rfl) (by rw [e])).1
  · rintro rfl; rfl

theorem idText_dec : IdText dec where
  inj := fun _ _ => dec_inj
  line := fun i hc => absurd (isDig_dec i _ hc) (by decide)
  head := fun i => by
    obtain ⟨c, l, h1, h2⟩ := dec_head i
    exact ⟨c, l, h1, by rintro rfl; exact absurd h2 (by decide), by rintro rfl; exact absurd h2 (by decide)⟩

/-- A builder with an artificial hierarchy. -/
def textOB : OB Nat := .node ⟨1, 0⟩ (.node (OB.uid 4) .nil (.node (OB.uid 12) .nil .nil)) (.node (OB.uid 7) .nil .nil)

example : ∃ o, Ord.ofBuilder textOB = .ok o ∧
    (o.text dec).map String.ofList = some "@1@ (1)\n  4 (1)\n  12 (0)\n7 (0)\n" := ⟨_, rfl, by decide +kernel⟩

example : ∃ o o' t t', Ord.ofBuilder textOB = .ok o ∧ Ord.ofBuilder (OB.node (OB.uid 4) .nil .nil) = .ok o' ∧
    o.text dec = some t ∧ o'.text dec = some t' ∧ (t = t' ↔ o.eq o' = some true) := by
  obtain ⟨t, t', h⟩ := C71_order_text idText_dec (d := 0) (a := textOB) (b := .node (OB.uid 4) .nil .nil) rfl rfl
    (by simp [OB.Plain, textOB, OB.ids, OB.uid]) (by simp [OB.Plain, OB.ids, OB.uid])
  exact ⟨_, _, t, t', rfl, rfl, h⟩

/-- The hypotheses on the texts of identifiers are needed: an artificial hierarchy and a hierarchy which the user calls `@1@` have the same text. -/
example : ∃ o o', Ord.ofBuilder (OB.node ⟨1, ""⟩ (.node (OB.uid "a") .nil .nil) .nil) = .ok o ∧
    Ord.ofBuilder (OB.node (OB.uid "@1@") (.node (OB.uid "a") .nil .nil) .nil) = .ok o' ∧
    o.text String.toList = o'.text String.toList ∧ o.eq o' = some false :=
  ⟨_, _, rfl, rfl, by decide +kernel, by decide +kernel⟩

/-- The exceptions of orders. -/
inductive OrderError (I : Type) where
  | notFound (i : I)
  | duplicate (i : I)

/-- `description`, `/repo/sdd/order/order_error.hh:69-80` and `115-126`. -/
def OrderError.text (pi : I → List Char) : OrderError I → List Char
  | .notFound i => "Identifier \"".toList ++ (pi i ++ "\" not found in order.".toList)
  | .duplicate i => "Duplicate identifier \"".toList ++ (pi i ++ "\".".toList)

/-- **C71**, exceptions: the description of an error of an order tells its kind and its identifier. -/
theorem C71_error_text (h : ∀ i j, pi i = pi j → i = j) (e e' : OrderError I) : e.text pi = e'.text pi ↔ e = e' := by
  have key : ∀ (k : List Char) (i j : I) (q : List Char), k ++ (pi i ++ q) = k ++ (pi j ++ q) → i = j := fun k i j q he =>
    h _ _ (List.append_cancel_right (List.append_cancel_left he))
  have ne : ∀ l l' : List Char, "Identifier \"".toList ++ l ≠ "Duplicate identifier \"".toList ++ l' := by
    intro l l' he
    have := congrArg (List.take 1) he
    rw [List.take_append_of_le_length (by decide), List.take_append_of_le_length (by decide)] at this
    exact absurd this (by decide)
  constructor
  · intro he
    match e, e', he with
    | .notFound i, .notFound j, he => rw [key _ i j _ he]
    | .duplicate i, .duplicate j, he => rw [key _ i j _ he]
    | .notFound i, .duplicate j, he => exact (ne _ _ he).elim
    | .duplicate i, .notFound j, he => exact (ne _ _ he.symm).elim
  · intro h; rw [h]

example : String.ofList ((OrderError.duplicate 12).text dec) = "Duplicate identifier \"12\"." := by decide +kernel

end

/-! ## C77: the JSON text of an order -/

section
variable {I : Type} [DecidableEq I]

theorem Ord.dumpText_spec (pi : I → List Char) {ob : OB I} {o : Ord I} (ho : Ord.ofBuilder ob = .ok o) :
    o.dumpText pi = some ('[' :: (ob.dumpChars pi true ++ [']'])) := by
  have h := Ord.ofBuilder_spec ob
  rw [ho] at h
  rw [Ord.dumpText, Ord.dumpElems_spec ob h.2.rep (by rw [h.2.len])]
  rfl

end

/-- **C77**, integers. Dumping an order is always defined.  What was written by `dump_order` is loaded by `load_order` when the identifiers of the flat levels
are in the range of `int`, with the same identifiers in the same order (and the same nesting, in the conditions of C34); otherwise loading is undefined.

What is missing: larger identifiers (`C77_negation`). -/
theorem C77_integers_partial {ob : OB Int} {o : Ord Int} (ho : Ord.ofBuilder ob = .ok o) (hne : ob ≠ .nil) (d : Int) (c : Nat) :
    ∃ t, o.dumpText decInt = some t ∧
      ((∀ i ∈ ob.flatIds, -(2 ^ 31) ≤ i ∧ i < 2 ^ 31) → ∃ r c', loadText intId d t c = .order (r, c') ∧ r.flatIds = ob.flatIds ∧
        (ob.Branching → (2 ≤ ob.level.length ∨ ∃ i, ob = .node i .nil .nil) → OB.SameNesting ob r)) ∧
      ((∃ i ∈ ob.flatIds, ¬ (-(2 ^ 31) ≤ i ∧ i < 2 ^ 31)) → loadText intId d t c = .ub) := by
  have hr : ∀ i : Int, -(2 ^ 31) ≤ i ∧ i < 2 ^ 31 → readIds intId (.num i) = .order (.leaf i) := fun i hi => by
    rw [readIds, intId, if_pos hi]
  have hu : ∀ i : Int, ¬ (-(2 ^ 31) ≤ i ∧ i < 2 ^ 31) → readIds intId (.num i) = .ub := fun i hi => by
    rw [readIds, intId, if_neg hi]
  refine ⟨_, Ord.dumpText_spec decInt ho, fun h => ?_, fun ⟨i, hi, h⟩ => ?_⟩
  · obtain ⟨r, e, he⟩ := loadText_dump hne (fun i _ => leafText_int i) (fun i hi => hr i (h i hi)) d c
    obtain ⟨r', c', e', h1, h2⟩ := C34_dump_load_partial d hne c
    rw [e] at e'
    cases e'
    exact ⟨r', c', he, h1, h2⟩
  · refine loadText_ub (fun i _ => leafText_int i) (fun j _ => ?_) ⟨i, hi, hu i h⟩ d c
    by_cases hj : -(2 ^ 31) ≤ j ∧ j < 2 ^ 31
    · exact .inl (hr j hj)
    · exact .inr (hu j hj)

/-- **C77**, strings: the same when no identifier of a flat level contains a quote, a backslash or a control character.

What is missing: the other strings (`C77_negation`). -/
theorem C77_strings_partial {ob : OB (List Char)} {o : Ord (List Char)} (ho : Ord.ofBuilder ob = .ok o) (hne : ob ≠ .nil) (d : List Char) (c : Nat)
    (h : ∀ s ∈ ob.flatIds, ∀ a ∈ s, a ≠ '"' ∧ a ≠ '\\' ∧ 32 ≤ a.toNat) :
    ∃ t r c', o.dumpText quoted = some t ∧ loadText strId d t c = .order (r, c') ∧ r.flatIds = ob.flatIds ∧
      (ob.Branching → (2 ≤ ob.level.length ∨ ∃ i, ob = .node i .nil .nil) → OB.SameNesting ob r) := by
  obtain ⟨r, e, he⟩ := loadText_dump (mk := strId) hne (fun s hs => leafText_str fun a ha => by
    simp only [jsonPlain, Bool.and_eq_true, decide_eq_true_eq]
    exact ⟨⟨(h s hs a ha).1, (h s hs a ha).2.1⟩, (h s hs a ha).2.2⟩) (fun s _ => by rw [readIds]; rfl) d c
  obtain ⟨r', c', e', h1, h2⟩ := C34_dump_load_partial d hne c
  rw [e] at e'
  cases e'
  exact ⟨_, r', c', Ord.dumpText_spec quoted ho, he, h1, h2⟩

/-- An order with a hierarchy: 0, then a level which contains -12 and 7, then 3. -/
def dumpOB : OB Int := .node (OB.uid 0) .nil (.node ⟨1, 0⟩ (OB.ofList [-12, 7]) (OB.ofList [3]))

example : ∃ o t, Ord.ofBuilder dumpOB = .ok o ∧ o.dumpText decInt = some t ∧ String.ofList t = "[0\n,[-12\n,7\n]\n,3\n]" ∧
    loadText intId 0 t 1 = .order (.node (OB.uid 0) .nil (.node ⟨2, 0⟩ (OB.ofList [-12, 7]) (OB.ofList [3])), 3) :=
  ⟨_, _, rfl, rfl, by decide +kernel, by decide +kernel⟩

example : ∃ o t r c', Ord.ofBuilder dumpOB = .ok o ∧ o.dumpText decInt = some t ∧ loadText intId 0 t 1 = .order (r, c') ∧
    OB.SameNesting dumpOB r := by
  obtain ⟨t, h1, h2, _⟩ := C77_integers_partial (ob := dumpOB) rfl (by decide) 0 1
  obtain ⟨r, c', h3, _, h4⟩ := h2 (by decide)
  exact ⟨_, t, r, c', rfl, h1, h3, h4 (by simp [dumpOB, OB.Branching, OB.level, OB.ofList, OB.push]) (.inl (by decide))⟩

example : ∃ o t r c', Ord.ofBuilder (OB.ofList ["x".toList, "y z".toList]) = .ok o ∧ o.dumpText quoted = some t ∧
    loadText strId [] t 0 = .order (r, c') ∧ r.flatIds = ["x".toList, "y z".toList] := by
  obtain ⟨t, r, c', h1, h2, h3, _⟩ := C77_strings_partial (ob := OB.ofList ["x".toList, "y z".toList]) rfl (by decide) [] 0 (by decide)
  exact ⟨_, t, r, c', rfl, h1, h2, h3⟩

/-- Texts of other origins: spaces, strings for integers, an empty text. -/
example : loadText intId 0 " [ 1, [\"2\" ,3], [\"-4\"] ]".toList 0 =
      .order (.node (OB.uid 1) .nil (.node ⟨1, 0⟩ (OB.ofList [2, 3]) (OB.ofList [-4])), 2) ∧
    loadText intId 0 [] 0 = .nothing ∧ loadText intId 0 "[]".toList 0 = .ub := by
  decide +kernel

/-- **C77**, negation. Strings are not escaped: the order of the only identifier `a","b` is written as the order of `a` and `b`, and is read as the
latter; `C:\new` is read as another identifier; after an identifier with a quote the text is not JSON any more. An integer which is not an `int` (identifiers may be
of any integral type) is an access to a string in a number.  And an element which is not an integer terminates the program, instead of
raising the `std::runtime_error` written in the code, since the function is `noexcept`. -/
theorem C77_negation :
    (∃ o t, Ord.ofBuilder (OB.ofList ["a\",\"b".toList]) = .ok o ∧ o.dumpText quoted = some t ∧
      loadText strId [] t 0 = .order (OB.ofList ["a".toList, "b".toList], 1)) ∧
    (∃ o t, Ord.ofBuilder (OB.ofList ["C:\\new".toList]) = .ok o ∧ o.dumpText quoted = some t ∧
      loadText strId [] t 0 = .order (OB.ofList ["C:\new".toList], 0)) ∧
    (∃ o t, Ord.ofBuilder (OB.ofList ["\"".toList]) = .ok o ∧ o.dumpText quoted = some t ∧ loadText strId [] t 0 = .ub) ∧
    (∃ o t, Ord.ofBuilder (OB.ofList [(2 ^ 31 : Int)]) = .ok o ∧ o.dumpText decInt = some t ∧ loadText intId 0 t 0 = .ub) ∧
    loadText intId 0 "[1, \"x\"]".toList 0 = .terminate := by
  refine ⟨⟨_, _, rfl, rfl, by decide +kernel⟩, ⟨_, _, rfl, rfl, by decide +kernel⟩, ⟨_, _, rfl, rfl, by decide +kernel⟩,
    ⟨_, _, rfl, rfl, by decide +kernel⟩, by decide +kernel⟩

end Verif
