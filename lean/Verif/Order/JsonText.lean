import Verif.Order.Json
import Verif.Order.Text
/-!
# The JSON texts of orders

`dump_order` and `load_order` of `/repo/sdd/tools/order.hh`, with the characters which are written and read.
-/

set_option autoImplicit false
set_option linter.unusedSectionVars false

namespace Verif

/-! ## Writing -/

section
variable {I : Type}

namespace Ord

/-- `dump_order`, `/repo/sdd/tools/order.hh:151-188`, from the element at a position to the end of its level, with fuel; `pi` is
`print_identifier`; `first` tells the first element (lines 157-168) from the others, which are preceded by a comma (lines
169-185). `none`: dereference of a null pointer. -/
def dumpElems (pi : I → List Char) (nodes : List (Option (ONode I))) : Nat → Bool → Option Nat → Option (List Char)
  | _, _, none => some []
  | 0, _, some _ => none
  | fuel + 1, first, some p =>
    match (nodes[p]?).join with
    | none => none
    | some n =>
      match (if n.nested.isSome then (dumpElems pi nodes fuel true n.nested).map (fun t => '[' :: (t ++ [']'])) else some (pi n.id.user)),
          dumpElems pi nodes fuel false n.next with
      | some a, some b => some ((if first then [] else [',']) ++ (a ++ '\n' :: b))
      | _, _ => none

/-- `dump_order`, `/repo/sdd/tools/order.hh:151-188`: the text which is written. -/
def dumpText (pi : I → List Char) (o : Ord I) : Option (List Char) :=
  (dumpElems pi o.nodes o.nodes.length true o.head).map fun t => '[' :: (t ++ [']'])

end Ord

namespace OB

/-- The text of the elements of a level of a builder. (Specification or proof device, not part of the code.) -/
def dumpChars (pi : I → List Char) : Bool → OB I → List Char
  | _, .nil => []
  | first, .node id nst nxt => (if first then [] else [',']) ++
      ((if nst.isNil then pi id.user else '[' :: (dumpChars pi true nst ++ [']'])) ++ '\n' :: dumpChars pi false nxt)

end OB

theorem Ord.dumpElems_spec {pi : I → List Char} {nodes : List (Option (ONode I))} (ob : OB I) :
    ∀ {fuel p : Nat} {first : Bool} {h : Option Nat} {path : List Nat}, Rep nodes p h ob path → ob.ids.length ≤ fuel →
      dumpElems pi nodes fuel first h = some (ob.dumpChars pi first) := by
  induction ob with
  | nil =>
    intro fuel p first h path hr _
    rw [show h = none from hr]
    cases fuel <;> rfl
  | node id nst nxt ihn ih =>
    intro fuel p first h path hr hf
    obtain ⟨rfl, n, m, h1, h2, h3⟩ := hr
    simp only [OB.ids, List.length_cons, List.length_append] at hf
    cases fuel with
    | zero => omega
    | succ fuel =>
      have e1 := ihn (fuel := fuel) (first := true) h2 (by omega)
      have e2 := ih (fuel := fuel) (first := false) h3 (by omega)
      rw [dumpElems, h1]
      simp only [Option.join_some]
      rw [e2, e1]
      cases nst with
      | nil =>
        rw [show m = none from h2]
        simp [OB.dumpChars, OB.isNil]
      | node a b c =>
        rw [h2.1]
        simp [OB.dumpChars, OB.isNil]

end

/-! ## Reading -/

/-- The values of the JSON documents which are read: rapidjson reads others (objects, fractions, ...), which are refused here.
(Model of rapidjson, called by `/repo/sdd/tools/order.hh:107`.) -/
inductive JVal : Type where
  | num (n : Int)
  | str (s : List Char)
  | arr (l : List JVal)

/-- The spaces of JSON. (Model of rapidjson, called by `/repo/sdd/tools/order.hh:107`.) -/
def isWs (c : Char) : Bool := decide (c = ' ') || decide (c = '\n') || decide (c = '\t') || decide (c = '\r')

/-- The spaces are skipped. (Model of rapidjson, called by `/repo/sdd/tools/order.hh:107`.) -/
def skipWs (l : List Char) : List Char := l.dropWhile isWs

/-- The characters of a string after the opening quote, as rapidjson reads them: escapes are replaced, control characters are refused. The
escapes `\u` are refused here. (Model of rapidjson, called by `/repo/sdd/tools/order.hh:107`.) -/
def readStr : List Char → Option (List Char × List Char)
  | [] => none
  | '"' :: l => some ([], l)
  | '\\' :: [] => none
  | '\\' :: c :: l =>
    match (if c = '"' || c = '\\' || c = '/' then some c else if c = 'b' then some '\x08' else if c = 'f' then some '\x0c'
      else if c = 'n' then some '\n' else if c = 'r' then some '\r' else if c = 't' then some '\t' else none) with
    | none => none
    | some c => (readStr l).map fun r => (c :: r.1, r.2)
  | c :: l => if c.toNat < 32 then none else (readStr l).map fun r => (c :: r.1, r.2)

/-- The digits of a number without fraction, without leading zeros. (Model of rapidjson, called by `/repo/sdd/tools/order.hh:107`.) -/
def readNat (l : List Char) : Option (Nat × List Char) :=
  let ds := l.takeWhile isDig
  let r := l.dropWhile isDig
  if ds ≠ [] ∧ dec (undec ds) = ds ∧ r.head? ≠ some '.' ∧ r.head? ≠ some 'e' ∧ r.head? ≠ some 'E' then some (undec ds, r) else none

/-- A number. (Model of rapidjson, called by `/repo/sdd/tools/order.hh:107`.) -/
def readInt : List Char → Option (Int × List Char)
  | '-' :: l => (readNat l).map fun r => (-(r.1 : Int), r.2)
  | l => (readNat l).map fun r => ((r.1 : Int), r.2)

mutual
/-- A value, with fuel. (Model of rapidjson, called by `/repo/sdd/tools/order.hh:107`.) -/
def readVal : Nat → List Char → Option (JVal × List Char)
  | 0, _ => none
  | f + 1, l =>
    match skipWs l with
    | '[' :: l =>
      match skipWs l with
      | ']' :: l => some (.arr [], l)
      | l => (readElems f l).map fun r => (.arr r.1, r.2)
    | '"' :: l => (readStr l).map fun r => (.str r.1, r.2)
    | l => (readInt l).map fun r => (.num r.1, r.2)
/-- The elements of an array, up to the closing bracket. (Model of rapidjson, called by `/repo/sdd/tools/order.hh:107`.) -/
def readElems : Nat → List Char → Option (List JVal × List Char)
  | 0, _ => none
  | f + 1, l =>
    match readVal f l with
    | none => none
    | some (v, l) =>
      match skipWs l with
      | ',' :: l => (readElems f l).map fun r => (v :: r.1, r.2)
      | ']' :: l => some ([v], l)
      | _ => none
end

/-- `rapidjson::Document::Parse<0>(&buffer[0])`, used in `/repo/sdd/tools/order.hh:106-107`: the text is a C string, thus ends at its first null character;
nothing follows the document. -/
def parseJson (t : List Char) : Option JVal :=
  match readVal (t.length + 1) (t.takeWhile (· ≠ '\x00')) with
  | some (v, r) => if skipWs r = [] then some v else none
  | none => none

/-- What a call to `load_order` does: it returns a builder, or nothing, or the program is terminated, or the behaviour is undefined (a failed
assertion, the access to a string in a number, `height()` of an empty builder). (`/repo/sdd/tools/order.hh:95-114`.) -/
inductive LOut (α : Type) : Type where
  | order (a : α)
  | nothing
  | terminate
  | ub
  deriving DecidableEq

/-- `std::stoi`: spaces are skipped, the number stops at the first character which is not a digit; `none`: an exception is thrown
(`std::invalid_argument` without digits, `std::out_of_range`). (Standard library; used by `/repo/sdd/tools/order.hh:30-55`.) -/
def stoi (s : List Char) : Option Int :=
  let l := s.dropWhile fun c => isWs c || decide (c = '\x0b') || decide (c = '\x0c')
  let (neg, l) := match l with
    | '-' :: l => (true, l)
    | '+' :: l => (false, l)
    | l => (false, l)
  let ds := l.takeWhile isDig
  let n : Int := if neg then -(undec ds : Int) else undec ds
  if ds = [] then none else if -(2 ^ 31) ≤ n ∧ n < 2 ^ 31 then some n else none

/-- `mk_order_identifier<C, true>`, `/repo/sdd/tools/order.hh:30-55`, for a type of identifiers which contains `int`. The function is
`noexcept`: the exceptions of `std::stoi`, and the `std::runtime_error` which replaces one of them, terminate the program. -/
def intId : JVal → LOut Int
  | .num n => if -(2 ^ 31) ≤ n ∧ n < 2 ^ 31 then .order n else .ub
  | .str s => match stoi s with
    | some n => .order n
    | none => .terminate
  | .arr _ => .ub

/-- `mk_order_identifier<C, false>`, `/repo/sdd/tools/order.hh:57-68`. -/
def strId : JVal → LOut (List Char)
  | .str s => .order s
  | _ => .ub

section
variable {I : Type}

mutual
/-- The identifiers of a document (`/repo/sdd/tools/order.hh:86-90`). Simplification: they are all read before the builders are made. -/
def readIds (mk : JVal → LOut I) : JVal → LOut (OB.Json I)
  | .arr l => match readIdsL mk l with
    | .order l => .order (.arr l)
    | .nothing => .nothing
    | .terminate => .terminate
    | .ub => .ub
  | .num n => match mk (.num n) with
    | .order i => .order (.leaf i)
    | .nothing => .nothing
    | .terminate => .terminate
    | .ub => .ub
  | .str s => match mk (.str s) with
    | .order i => .order (.leaf i)
    | .nothing => .nothing
    | .terminate => .terminate
    | .ub => .ub
/-- The identifiers of the elements of an array. (`/repo/sdd/tools/order.hh:78-81`.) -/
def readIdsL (mk : JVal → LOut I) : List JVal → LOut (List (OB.Json I))
  | [] => .order []
  | v :: l => match readIds mk v with
    | .order j => match readIdsL mk l with
      | .order l => .order (j :: l)
      | o => o
    | .nothing => .nothing
    | .terminate => .terminate
    | .ub => .ub
end

/-- `load_order`, `/repo/sdd/tools/order.hh:95-114`, with `mk_order_identifier` and the counter of artificial identifiers. -/
def loadText (mk : JVal → LOut I) (d : I) (t : List Char) (c : Nat) : LOut (OB I × Nat) :=
  if t = [] then .nothing
  else match parseJson t with
    | some (.arr l) => match readIds mk (.arr l) with
      | .order j => match OB.load d j c with
        | some r => .order r
        | none => .ub
      | .nothing => .nothing
      | .terminate => .terminate
      | .ub => .ub
    | _ => .ub

/-! ## What is written is read -/

/-- The text of an identifier is read: `val` is the value read. (Specification or proof device, not part of the code.) -/
structure LeafText (pi : I → List Char) (val : I → JVal) (i : I) : Prop where
  head : ∃ c l, pi i = c :: l ∧ isWs c = false ∧ c ≠ ']'
  nul : '\x00' ∉ pi i
  read : ∀ f rest, readVal (f + 1) (pi i ++ '\n' :: rest) = some (val i, '\n' :: rest)

/-- The values of the document of a level. (Specification or proof device, not part of the code.) -/
def OB.vals (val : I → JVal) : OB I → List JVal
  | .nil => []
  | .node id nst nxt => (if nst.isNil then val id.user else .arr (vals val nst)) :: vals val nxt

variable {pi : I → List Char} {val : I → JVal} {mk : JVal → LOut I}

theorem OB.dumpChars_false {id : OId I} {nst nxt : OB I} : (OB.node id nst nxt).dumpChars pi false = ',' :: (OB.node id nst nxt).dumpChars pi true := by
  simp [OB.dumpChars]

/-- The flat identifiers satisfy a property. -/
theorem OB.flat_node {P : I → Prop} {id : OId I} {nst nxt : OB I} (h : ∀ i ∈ (OB.node id nst nxt).flatIds, P i) :
    (nst = .nil → P id.user) ∧ (∀ i ∈ nst.flatIds, P i) ∧ ∀ i ∈ nxt.flatIds, P i := by
  cases nst with
  | nil => exact ⟨fun _ => h _ (by simp [OB.flatIds]), by simp [OB.flatIds], fun i hi => h i (by simp [OB.flatIds, hi])⟩
  | node a b c =>
    refine ⟨by simp, fun i hi => h i ?_, fun i hi => h i ?_⟩
    · rw [OB.flatIds]; simp; exact .inl hi
    · rw [OB.flatIds]; simp [hi]

theorem OB.dumpChars_head {ob : OB I} (hne : ob ≠ .nil) (h : ∀ i ∈ ob.flatIds, LeafText pi val i) :
    ∃ c l, ob.dumpChars pi true = c :: l ∧ isWs c = false ∧ c ≠ ']' := by
  cases ob with
  | nil => exact absurd rfl hne
  | node id nst nxt =>
    cases nst with
    | nil =>
      obtain ⟨c, l, e, h1, h2⟩ := ((OB.flat_node h).1 rfl).head
      exact ⟨c, _, by simp only [OB.dumpChars, OB.isNil, if_true, e]; rfl, h1, h2⟩
    | node a b c => exact ⟨'[', _, by simp [OB.dumpChars, OB.isNil]; rfl, by decide, by decide⟩

theorem skipWs_cons {c : Char} {l : List Char} (h : isWs c = false) : skipWs (c :: l) = c :: l := by
  simp [skipWs, h]

theorem skipWs_nl {l : List Char} : skipWs ('\n' :: l) = skipWs l := by
  rw [skipWs, List.dropWhile_cons, if_pos (by decide)]; rfl

theorem readVal_arr {f : Nat} {c : Char} {l : List Char} (h : isWs c = false) (hc : c ≠ ']') :
    readVal (f + 1) ('[' :: c :: l) = (readElems f (c :: l)).map fun r => (.arr r.1, r.2) := by
  rw [readVal, skipWs_cons (by decide)]
  simp only
  rw [skipWs_cons h]
  split
  · rename_i heq; simp only [List.cons.injEq] at heq; exact absurd heq.1 hc
  · rfl

theorem OB.isNil_false {ob : OB I} (h : ob ≠ .nil) : ob.isNil = false := by
  cases ob with
  | nil => exact absurd rfl h
  | node _ _ _ => rfl

theorem readElems_dump (ob : OB I) : ob ≠ .nil → (∀ i ∈ ob.flatIds, LeafText pi val i) →
    ∀ f rest, (ob.dumpChars pi true).length < f → readElems f (ob.dumpChars pi true ++ ']' :: rest) = some (ob.vals val, rest) := by
  induction ob with
  | nil => exact fun h => absurd rfl h
  | node id nst nxt ihn ih =>
    intro _ h
    obtain ⟨hl, hn, hx⟩ := OB.flat_node h
    -- the first element
    have hv : ∀ f rest, (if nst.isNil then pi id.user else '[' :: (nst.dumpChars pi true ++ [']'])).length ≤ f →
        readVal (f + 1) ((if nst.isNil then pi id.user else '[' :: (nst.dumpChars pi true ++ [']'])) ++ '\n' :: rest) =
          some (if nst.isNil then val id.user else .arr (nst.vals val), '\n' :: rest) := by
      by_cases hb : nst = .nil
      · subst hb
        exact fun f rest _ => (hl rfl).read f rest
      · have h1 := ihn hb hn
        obtain ⟨c, l, e, hc, hc'⟩ := OB.dumpChars_head hb hn
        rw [OB.isNil_false hb]
        intro f rest hf
        simp only [Bool.false_eq_true, if_false, List.length_cons, List.length_append, List.length_nil] at hf
        have := h1 f ('\n' :: rest) (by omega)
        simp only [Bool.false_eq_true, if_false, List.cons_append, List.append_assoc, List.nil_append]
        rw [e] at this ⊢
        rw [List.cons_append, readVal_arr hc hc', ← List.cons_append, this]
        rfl
    cases nxt with
    | nil =>
      intro f rest hf
      simp only [OB.dumpChars, if_true, List.nil_append, List.length_append, List.length_cons, List.length_nil] at hf
      obtain ⟨f, rfl⟩ : ∃ g, f = g + 2 := ⟨f - 2, by omega⟩
      rw [readElems]
      simp only [OB.dumpChars, if_true, List.nil_append, List.append_assoc, List.cons_append]
      rw [hv f _ (by omega)]
      simp only
      rw [skipWs_nl, skipWs_cons (by decide)]
      rfl
    | node a b c =>
      have h1 := ih (by simp) hx
      intro f rest hf
      rw [OB.dumpChars, OB.dumpChars_false] at hf
      simp only [if_true, List.nil_append, List.length_append, List.length_cons] at hf
      obtain ⟨f, rfl⟩ : ∃ g, f = g + 2 := ⟨f - 2, by omega⟩
      rw [readElems, OB.dumpChars, OB.dumpChars_false]
      simp only [if_true, List.nil_append, List.append_assoc, List.cons_append]
      rw [hv f _ (by omega)]
      simp only
      rw [skipWs_nl, skipWs_cons (by decide)]
      simp only
      rw [h1 (f + 1) rest (by omega)]
      rfl

/-- The identifiers which are read. -/
theorem readIds_vals {ob : OB I} (h : ∀ i ∈ ob.flatIds, readIds mk (val i) = .order (.leaf i)) :
    readIdsL mk (ob.vals val) = .order ob.dumpElems := by
  induction ob with
  | nil => rfl
  | node id nst nxt ihn ih =>
    obtain ⟨hl, hn, hx⟩ := OB.flat_node h
    rw [OB.vals, readIdsL, ih hx]
    by_cases hb : nst = .nil
    · subst hb
      rw [show (OB.nil : OB I).isNil = true from rfl, if_pos rfl, hl rfl]
      rfl
    · rw [OB.isNil_false hb]
      simp only [Bool.false_eq_true, if_false]
      rw [readIds, ihn hn]
      simp [OB.dumpElems, OB.isNil_false hb]

/-- One of them cannot be read. -/
theorem readIds_ub {ob : OB I} (h : ∀ i ∈ ob.flatIds, readIds mk (val i) = .order (.leaf i) ∨ readIds mk (val i) = .ub)
    (he : ∃ i ∈ ob.flatIds, readIds mk (val i) = .ub) : readIdsL mk (ob.vals val) = .ub := by
  induction ob with
  | nil => obtain ⟨i, hi, _⟩ := he; simp [OB.flatIds] at hi
  | node id nst nxt ihn ih =>
    obtain ⟨hl, hn, hx⟩ := OB.flat_node h
    -- the rest
    have hrest : readIdsL mk (nxt.vals val) = .ub ∨ readIdsL mk (nxt.vals val) = .order nxt.dumpElems := by
      by_cases hr : ∃ i ∈ nxt.flatIds, readIds mk (val i) = .ub
      · exact .inl (ih hx hr)
      · exact .inr (readIds_vals fun i hi => (hx i hi).resolve_right fun e => hr ⟨i, hi, e⟩)
    have hfirst : (if nst.isNil then readIds mk (val id.user) else readIds mk (.arr (nst.vals val))) = .ub ∨
        (∃ j, (if nst.isNil then readIds mk (val id.user) else readIds mk (.arr (nst.vals val))) = .order j) ∧
          ∃ i ∈ nxt.flatIds, readIds mk (val i) = .ub := by
      obtain ⟨i, hi, e⟩ := he
      by_cases hb : nst = .nil
      · subst hb
        rw [show (OB.nil : OB I).isNil = true from rfl, if_pos rfl]
        rcases hl rfl with h1 | h1
        · refine .inr ⟨⟨_, h1⟩, i, ?_, e⟩
          simp only [OB.flatIds, List.mem_append, List.mem_singleton] at hi
          rcases hi with hi | hi
          · simp at hi; subst hi; rw [h1] at e; cases e
          · exact hi
        · exact .inl h1
      · rw [OB.isNil_false hb]
        simp only [Bool.false_eq_true, if_false]
        by_cases hr : ∃ i ∈ nst.flatIds, readIds mk (val i) = .ub
        · left; rw [readIds, ihn hn hr]
        · right
          refine ⟨⟨_, by rw [readIds, readIds_vals fun i hi => (hn i hi).resolve_right fun e => hr ⟨i, hi, e⟩]⟩, i, ?_, e⟩
          simp only [OB.flatIds, hb, if_false, List.mem_append] at hi
          rcases hi with hi | hi
          · exact absurd ⟨i, hi, e⟩ hr
          · exact hi
    rw [OB.vals, readIdsL]
    have hsw : readIds mk (if nst.isNil then val id.user else .arr (nst.vals val)) =
        (if nst.isNil then readIds mk (val id.user) else readIds mk (.arr (nst.vals val))) := by split <;> rfl
    rw [hsw]
    rcases hfirst with h1 | ⟨⟨j, h1⟩, h2⟩
    · rw [h1]
    · rw [h1, ih hx h2]

theorem OB.dumpChars_nul {ob : OB I} (h : ∀ i ∈ ob.flatIds, LeafText pi val i) : ∀ first, '\x00' ∉ ob.dumpChars pi first := by
  induction ob with
  | nil => simp [OB.dumpChars]
  | node id nst nxt ihn ih =>
    intro first
    obtain ⟨hl, hn, hx⟩ := OB.flat_node h
    have h1 := ihn hn true
    have h2 := ih hx false
    rw [OB.dumpChars]
    cases nst with
    | nil =>
      have := (hl rfl).nul
      cases first <;> simp [OB.isNil, this, h2]
    | node _ _ _ =>
      cases first <;> simp [OB.isNil, h1, h2]

/-- The text of an order is read. -/
theorem parseJson_dump {ob : OB I} (hne : ob ≠ .nil) (h : ∀ i ∈ ob.flatIds, LeafText pi val i) :
    parseJson ('[' :: (ob.dumpChars pi true ++ [']'])) = some (.arr (ob.vals val)) := by
  have h1 := readElems_dump ob hne h
  obtain ⟨a, l, ea, ha, ha'⟩ := OB.dumpChars_head hne h
  have hz : ('[' :: (ob.dumpChars pi true ++ [']'])).takeWhile (· ≠ '\x00') = '[' :: (ob.dumpChars pi true ++ [']']) := by
    have hn := OB.dumpChars_nul h true
    have hall : ∀ x ∈ '[' :: (ob.dumpChars pi true ++ [']']), decide (x ≠ '\x00') = true := by
      intro x hx
      simp only [decide_eq_true_eq, ne_eq]
      rintro rfl
      simp [hn] at hx
    have := List.takeWhile_append_of_pos (l₂ := []) hall
    rwa [List.append_nil, List.takeWhile_nil, List.append_nil] at this
  rw [parseJson, hz]
  have := h1 (ob.dumpChars pi true ++ [']']).length.succ [] (by simp; omega)
  rw [List.length_cons]
  rw [ea] at this ⊢
  rw [List.cons_append] at this ⊢
  rw [readVal_arr ha ha', this]
  simp [skipWs]

/-- The text of an order is read as the document of this order. -/
theorem loadText_dump {ob : OB I} (hne : ob ≠ .nil) (h : ∀ i ∈ ob.flatIds, LeafText pi val i)
    (hm : ∀ i ∈ ob.flatIds, readIds mk (val i) = .order (.leaf i)) (d : I) (c : Nat) :
    ∃ r, OB.load d ob.dump c = some r ∧ loadText mk d ('[' :: (ob.dumpChars pi true ++ [']'])) c = .order r := by
  obtain ⟨r, c', e, _⟩ := OB.load_dump d hne c
  refine ⟨(r, c'), e, ?_⟩
  have hi : readIds mk (.arr (ob.vals val)) = .order ob.dump := by rw [readIds, readIds_vals hm]; rfl
  rw [loadText, if_neg (by simp), parseJson_dump hne h]
  simp only
  rw [hi]
  simp only
  rw [e]

/-- An identifier cannot be read. -/
theorem loadText_ub {ob : OB I} (h : ∀ i ∈ ob.flatIds, LeafText pi val i)
    (hm : ∀ i ∈ ob.flatIds, readIds mk (val i) = .order (.leaf i) ∨ readIds mk (val i) = .ub)
    (he : ∃ i ∈ ob.flatIds, readIds mk (val i) = .ub) (d : I) (c : Nat) :
    loadText mk d ('[' :: (ob.dumpChars pi true ++ [']'])) c = .ub := by
  have hne : ob ≠ .nil := by
    rintro rfl
    obtain ⟨i, hi, _⟩ := he
    simp [OB.flatIds] at hi
  rw [loadText, if_neg (by simp), parseJson_dump hne h]
  simp only
  rw [readIds, readIds_ub hm he]

/-! ## Identifiers -/

theorem takeWhile_dec (n : Nat) (l : List Char) : (dec n ++ '\n' :: l).takeWhile isDig = dec n ∧ (dec n ++ '\n' :: l).dropWhile isDig = '\n' :: l := by
  have h := isDig_dec n
  constructor
  · rw [List.takeWhile_append_of_pos h, List.takeWhile_cons, if_neg (by decide), List.append_nil]
  · rw [List.dropWhile_append_of_pos h, List.dropWhile_cons, if_neg (by decide)]

theorem readNat_dec (n : Nat) (l : List Char) : readNat (dec n ++ '\n' :: l) = some (n, '\n' :: l) := by
  rw [readNat, (takeWhile_dec n l).1, (takeWhile_dec n l).2]
  simp [dec_ne_nil, undec_dec]

theorem readInt_dec (n : Int) (l : List Char) : readInt (decInt n ++ '\n' :: l) = some (n, '\n' :: l) := by
  cases n with
  | ofNat n =>
    obtain ⟨c, t, e, hc⟩ := dec_head n
    have : readInt (dec n ++ '\n' :: l) = (readNat (dec n ++ '\n' :: l)).map fun r => ((r.1 : Int), r.2) := by
      rw [e]
      have hm : c ≠ '-' := by rintro rfl; exact absurd hc (by decide)
      simp only [List.cons_append]
      rw [readInt]
      intro l' hl
      simp only [List.cons.injEq] at hl
      exact hm hl.1
    rw [decInt, this, readNat_dec]
    rfl
  | negSucc n =>
    rw [decInt, List.cons_append, readInt, readNat_dec]
    simp [Int.negSucc_eq]

theorem not_special {c : Char} (h : isNum c = true) : isWs c = false ∧ c ≠ ']' ∧ c ≠ '[' ∧ c ≠ '"' ∧ c ≠ '\x00' := by
  refine ⟨?_, ?_, ?_, ?_, ?_⟩
  · cases hw : isWs c with
    | false => rfl
    | true =>
      simp only [isWs, Bool.or_eq_true, decide_eq_true_eq] at hw
      rcases hw with ((rfl | rfl) | rfl) | rfl <;> exact absurd h (by decide)
  all_goals (rintro rfl; exact absurd h (by decide))

theorem readVal_num {f : Nat} {c : Char} {l : List Char} (h : isNum c = true) :
    readVal (f + 1) (c :: l) = (readInt (c :: l)).map fun r => (.num r.1, r.2) := by
  obtain ⟨h1, h2, h3, h4, _⟩ := not_special h
  rw [readVal, skipWs_cons h1]
  split
  · rename_i heq; simp only [List.cons.injEq] at heq; exact absurd heq.1 h3
  · rename_i heq; simp only [List.cons.injEq] at heq; exact absurd heq.1 h4
  · rfl

/-- Integers are read. -/
theorem leafText_int (n : Int) : LeafText decInt .num n := by
  obtain ⟨c, l, e⟩ : ∃ c l, decInt n = c :: l := by
    cases hd : decInt n with
    | nil => exact absurd hd (decInt_ne_nil n)
    | cons c l => exact ⟨c, l, rfl⟩
  have hc := isNum_decInt n c (by simp [e])
  refine ⟨⟨c, l, e, (not_special hc).1, (not_special hc).2.1⟩, fun hm => (not_special (isNum_decInt n _ hm)).2.2.2.2 rfl, ?_⟩
  intro f rest
  have := readInt_dec n rest
  rw [e] at this ⊢
  rw [List.cons_append] at this ⊢
  rw [readVal_num hc, this]
  rfl

/-- `print_identifier<false>`, `/repo/sdd/tools/order.hh:135-146`: strings are written between quotes, without escapes. -/
def quoted (s : List Char) : List Char := '"' :: (s ++ ['"'])

/-- The characters which stand for themselves in JSON strings. (Specification or proof device, not part of the code.) -/
def jsonPlain (c : Char) : Bool := decide (c ≠ '"') && decide (c ≠ '\\') && decide (32 ≤ c.toNat)

theorem readStr_plain {s : List Char} (h : ∀ c ∈ s, jsonPlain c = true) (rest : List Char) : readStr (s ++ '"' :: rest) = some (s, rest) := by
  induction s with
  | nil => simp [readStr]
  | cons c s ih =>
    have hc := h c (by simp)
    simp only [jsonPlain, Bool.and_eq_true, decide_eq_true_eq] at hc
    rw [List.cons_append, readStr]
    · rw [if_neg (by omega), ih (fun c hc => h c (by simp [hc]))]
      rfl
    · exact hc.1.1
    · rintro rfl; exact absurd rfl hc.1.2
    · intro _ _ hq; exact absurd hq hc.1.2

/-- Strings without quotes, backslashes and control characters are read back. -/
theorem leafText_str {s : List Char} (h : ∀ c ∈ s, jsonPlain c = true) : LeafText quoted .str s := by
  refine ⟨⟨'"', _, rfl, by decide, by decide⟩, ?_, ?_⟩
  · intro hm
    simp only [quoted, List.mem_cons, List.mem_append, List.not_mem_nil, or_false] at hm
    rcases hm with hm | hm | hm
    · exact absurd hm (by decide)
    · exact absurd (h _ hm) (by decide)
    · exact absurd hm (by decide)
  · intro f rest
    rw [quoted, List.cons_append, List.append_assoc, List.cons_append, List.nil_append, readVal, skipWs_cons (by decide)]
    simp only
    rw [readStr_plain h]
    rfl

end
end Verif
