import Verif.DD.Size
import Verif.DD.Dot
import Verif.Mem.Variant
import Verif.Hom.Export
import Verif.Values.Concrete
/-!
# Properties of the tools on SDDs and homomorphisms, and of variants
-/

set_option autoImplicit false
set_option linter.unusedSectionVars false

namespace Verif

section
variable {V E I : Type} [DecidableEq V]

/-- **C59.** `tools::size` is the sum of the sizes of the different data below an SDD (itself, its successors, its nested SDDs,
terminals), each counted once however many arcs lead to it, modulo 2^64. -/
theorem C59_size (z : Sizes) (s : SDD V) : ∃ l : List (SDD V), l.Nodup ∧ (∀ a, a ∈ l ↔ Sub a s) ∧
    sizeBytes z s = (l.map z.weight).sum % 2 ^ 64 := sizeBytes_spec z s

/-- A node shared by two arcs is counted once: 8 + 8 + 2 (terminals count too), not more. -/
example : sizeBytes ⟨1, 2, 8, 4, 6⟩ (.flat 1 [(1, .flat 0 [(5, .one)]), (2, .flat 0 [(5, .one)])]) =
    (8 + 2 * 4) + (8 + 4) + 2 := by decide +kernel

/-- **C60.** The DOT export of an SDD of an order is always defined, and is the graph of the SDD: up to the order of lines, it has
for each SDD below it exactly one vertex, and exactly one edge by arc with its values (through one intermediate vertex, and
with one more edge to the nested SDD, for hierarchical nodes); each vertex is labelled with the identifier of a level where
its node occurs; all names of vertices are different. Names are made of the texts of addresses, which are different for different SDDs
and contain no `n`. -/
theorem C60_dot_export {C : Cfg V E} (hC : C.Lawful) {x : SDD V} {o : OB I} (hd : Dom C o.ty x) {addr : SDD V → List Char}
    (hinj : ∀ a b, Sub a x → Sub b x → addr a = addr b → a = b) (hn : ∀ a, 'n' ∉ addr a) :
    ∃ out, Dot.dot addr x o = some out ∧ ∃ l : List (SDD V × OB I), (l.map Prod.fst).Nodup ∧
      (∀ a, a ∈ l.map Prod.fst ↔ Sub a x) ∧ (∀ e ∈ l, Dot.Occ o x e.1 e.2) ∧ out.Perm (l.flatMap (Dot.block addr)) ∧
      (out.filterMap Dot.Line.declared).Nodup := Dot.dot_spec hC hd hinj hn

/-- **C60**, labels: where an SDD of an order occurs, a node has the variable of the identifier; so, when the order has no
hierarchy, the label of a node is the identifier of its variable. -/
theorem C60_dot_labels {C : Cfg V E} {x : SDD V} {o : OB I} (hd : Dom C o.ty x) :
    (∀ y arcs o', Dot.Occ o x (.flat y arcs) o' → ∃ id nxt, o' = .node id .nil nxt ∧ y = nxt.level.length) ∧
    (∀ y arcs o', Dot.Occ o x (.hier y arcs) o' → ∃ id nst nxt, o' = .node id nst nxt ∧ nst ≠ .nil ∧ y = nxt.level.length) ∧
    ((∀ e ∈ o.level, e.2 = .nil) → ∀ y arcs o', Dot.Occ o x (.flat y arcs) o' →
      ∃ id nxt, o' = .node id .nil nxt ∧ o.level[o.level.length - 1 - y]? = some (id, .nil)) := by
  refine ⟨?_, ?_, ?_⟩
  · intro y arcs o' h
    obtain ⟨id, nxt, e, h1, _⟩ := Dot.dom_flat (h.dom hd)
    exact ⟨id, nxt, e, h1⟩
  · intro y arcs o' h
    obtain ⟨id, nst, nxt, e, h0, h1, _⟩ := Dot.dom_hier (h.dom hd)
    exact ⟨id, nst, nxt, e, h0, h1⟩
  · intro hf y arcs o' h
    obtain ⟨id, nxt, e, h1, _⟩ := Dot.dom_flat (h.dom hd)
    refine ⟨id, nxt, e, ?_⟩
    have hsuf : ∀ {o o' : OB I} {x a : SDD V}, Dot.Occ o x a o' → Dom C o.ty x → (∀ e ∈ o.level, e.2 = .nil) →
        o'.level <:+ o.level := by
      intro o o' x a h
      induction h with
      | here => intro _ _; exact List.suffix_rfl
      | flat hm _ ih =>
        intro hd hf
        obtain ⟨_, _, e, _, _, h⟩ := Dot.dom_flat hd
        cases e
        exact (ih (h _ hm) fun e he => hf e (by simp [OB.level, he])).trans (List.suffix_cons _ _)
      | hierVal hm _ ih =>
        intro hd hf
        obtain ⟨_, _, _, e, h0, _⟩ := Dot.dom_hier hd
        cases e
        exact absurd (hf _ List.mem_cons_self) h0
      | hierSucc hm _ ih =>
        intro hd hf
        obtain ⟨_, _, _, e, h0, _⟩ := Dot.dom_hier hd
        cases e
        exact absurd (hf _ List.mem_cons_self) h0
    obtain ⟨p, hp⟩ := hsuf h hd hf
    rw [e, OB.level] at hp
    rw [← hp, h1]
    simp only [List.length_append, List.length_cons]
    rw [List.getElem?_append_right (by omega)]
    have : p.length + (nxt.level.length + 1) - 1 - nxt.level.length - p.length = 0 := by omega
    rw [this]
    rfl

end

namespace DemoX

/-- An SDD with one hierarchical variable. -/
def y : SDD (BitVec 8) := .flat 0 [(5#8, .one)]
/-- It is nested in this one. -/
def x : SDD (BitVec 8) := .hier 0 [(y, .one)]
/-- The order. -/
def o : OB Nat := .node ⟨0, 7⟩ (.node ⟨0, 8⟩ .nil .nil) .nil
/-- The texts of addresses. -/
def addr (s : SDD (BitVec 8)) : List Char := if s = x then ['0'] else if s = y then ['1'] else ['2']

theorem sub_x {a : SDD (BitVec 8)} (h : Sub a x) : a = x ∨ a = y ∨ a = .one := by
  have hy : ∀ {a : SDD (BitVec 8)}, Sub a y → a = y ∨ a = .one := by
    intro a h
    cases h with
    | refl => exact .inl rfl
    | flat _ _ arc ha h =>
      rw [List.mem_singleton] at ha
      subst ha
      cases h
      exact .inr rfl
  cases h with
  | refl => exact .inl rfl
  | hierVal _ _ arc ha h =>
    rw [List.mem_singleton] at ha
    subst ha
    exact .inr (hy h)
  | hierSucc _ _ arc ha h =>
    rw [List.mem_singleton] at ha
    subst ha
    cases h
    exact .inr (.inr rfl)

theorem dom_y : Dom (bitCfg none) (.flat 0 .nil) y := by
  refine .flat _ _ _ _ rfl ?_ ?_
  · refine ⟨by simp, ?_, by simp, by simp, by simp⟩
    intro arc harc
    rw [List.mem_singleton] at harc
    subst harc
    exact ⟨2, by show (5#8).getLsbD 2 = true; decide⟩
  · intro arc harc
    rw [List.mem_singleton] at harc
    subst harc
    exact .one _ trivial

theorem dom_x : Dom (bitCfg none) o.ty x := by
  refine .hier _ _ _ _ _ rfl ?_ ?_ ?_
  · refine ⟨by simp, ?_, by simp, by simp, by simp⟩
    intro arc harc
    rw [List.mem_singleton] at harc
    subst harc
    exact ⟨.flat 0 2 .nil, by simp [y, Mem, bitCfg, bitsetCfg]; show (5#8).getLsbD 2 = true; decide⟩
  · intro arc harc
    rw [List.mem_singleton] at harc
    subst harc
    exact dom_y
  · intro arc harc
    rw [List.mem_singleton] at harc
    subst harc
    exact .one _ trivial

/-- The hypotheses of C60 are met by an SDD with a hierarchy. -/
example : Dom (bitCfg none) o.ty x ∧ (∀ a b, Sub a x → Sub b x → addr a = addr b → a = b) ∧ (∀ a, 'n' ∉ addr a) ∧
    ((Dot.dot addr x o).map fun l => l.filterMap Dot.Line.declared) =
      some ["n0".toList, "n2".toList, "n1".toList, "g0n2".toList] := by
  refine ⟨dom_x, ?_, ?_, by decide +kernel⟩
  · intro a b ha hb
    rcases sub_x ha with rfl | rfl | rfl <;> rcases sub_x hb with rfl | rfl | rfl <;> decide +kernel
  · intro a
    unfold addr
    split
    · decide
    · split <;> decide

end DemoX

section
open Var
variable {T : Type} [DecidableEq T] {D : T → Type}

/-- **C61.** A visit calls the handler of the type with which the datum was built, on this datum; the visit of two data, the handler of
both types; for any lists of at most 255 types (the limit checked at compilation). -/
theorem C61_visit {R : Type} {xs ys : List T} (hx : Compiles xs) (hy : Compiles ys) {t u : T} {a : D t} {b : D u}
    {v w : Variant D} (hv : construct xs t a = some v) (hw : construct ys u b = some w) :
    (∀ f : (t : T) → D t → R, applyVisitor xs f v = some (f t a)) ∧
    (∀ f : (t u : T) → D t → D u → R, applyBinaryVisitor xs ys f v w = some (f t u a b)) := by
  obtain ⟨h1, h2, _⟩ := construct_spec hx hv
  obtain ⟨h3, h4, _⟩ := construct_spec hy hw
  constructor
  · intro f
    unfold applyVisitor
    rw [h1]
    dsimp only
    rw [h2, cast_self]
    rfl
  · intro f
    unfold applyBinaryVisitor
    have : w.index.toNat < ys.length := by
      rw [List.getElem?_eq_some_iff] at h3
      exact h3.1
    rw [join_get this, h1, h3]
    dsimp only
    rw [h2, h4, cast_self, cast_self]

/-- **C61**, comparison and type tests: two data are equal exactly when they have the same type and are equal for this type (so
the unreachable case of the comparison is not reached); `is<T>` tells if the datum was built with the type `T`. -/
theorem C61_equality {xs : List T} (hx : Compiles xs) {eq : (t : T) → D t → D t → Bool} {t u : T} {a : D t} {b : D u}
    {v w : Variant D} (hv : construct xs t a = some v) (hw : construct xs u b = some w) :
    (∃ r, eqV xs eq v w = some r ∧ (r = true ↔ ∃ h : t = u, eq u (h ▸ a) b = true)) ∧
    ∀ s ∈ xs, is xs s v = some (decide (s = t)) := by
  have key : ∀ {t u : T} {i : Nat}, indexOf t xs = some i → (indexOf u xs = some i ↔ t = u) := by
    intro t u i h
    constructor
    · intro h'
      have h1 := indexOf_spec h
      rw [indexOf_spec h'] at h1
      cases h1
      rfl
    · rintro rfl; exact h
  obtain ⟨_, _, h1⟩ := construct_spec hx hv
  obtain ⟨_, _, h2⟩ := construct_spec hx hw
  constructor
  · unfold eqV
    by_cases h : v.index = w.index
    · rw [h] at h1
      have e : t = u := (key h1).1 h2
      subst e
      rw [if_pos h, (C61_visit hx hx hv hw).2]
      exact ⟨eq t a b, by simp [eqVisitor], by simp⟩
    · rw [if_neg h]
      refine ⟨false, rfl, by simp, ?_⟩
      rintro ⟨rfl, _⟩
      rw [h1, Option.some.injEq] at h2
      exact absurd (BitVec.eq_of_toNat_eq h2) h
  · intro s hs
    obtain ⟨i, hi⟩ := indexOf_isSome.2 hs
    unfold is
    rw [hi, Option.map_some]
    congr 1
    rw [Bool.eq_iff_iff, beq_iff_eq, decide_eq_true_iff]
    constructor
    · intro e
      rw [← e] at hi
      exact ((key h1).1 hi).symm
    · rintro rfl
      rw [h1] at hi
      cases hi
      rfl

/-- Three types, two data; the handler of the second and the third types is called. -/
example : ∃ v w, construct (D := fun _ : Nat => Nat) [10, 20, 30] 20 7 = some v ∧
    construct (D := fun _ : Nat => Nat) [10, 20, 30] 30 8 = some w ∧ Compiles [10, 20, 30] ∧
    applyBinaryVisitor [10, 20, 30] [10, 20, 30] (fun t u a b => (t, u, a, b)) v w = some (20, 30, 7, 8) :=
  ⟨_, _, rfl, rfl, ⟨by decide, by decide⟩, by decide +kernel⟩

end

section
open HExp
variable {V I U : Type} [DecidableEq V] [DecidableEq I] [DecidableEq U]

/-- **C65 (partial).** The DOT export of a homomorphism is its graph: up to the order of lines, it has exactly one vertex for each
homomorphism reached from it by the operands of compositions, fixpoints, local applications, sums, `if_then_else` and
saturation fixpoints, labelled with its kind (its text for a function), and one edge for each operand, with its role; each
identity used as an operand has a vertex of its own, with a number which no other export uses; all names of vertices are different.
Missing: intersections, constants, `cons`, inductives and the other saturation homomorphisms are not drawn (`C65_negation`). -/
theorem C65_dot_partial {addr : Hom V I U → List Char} {ft : U → List Char} (hinj : ∀ g g', addr g = addr g' → g = g')
    (h : Hom V I U) (n0 : Nat) (hid : h ≠ .id) :
    ∃ l : List (Hom V I U × List Nat), (l.map Prod.fst).Nodup ∧
      (∀ g, g ∈ l.map Prod.fst ↔ Below h g ∧ g ≠ .id ∧ (label ft g).isSome) ∧
      (∀ e ∈ l, e.2.length = idKids (kids e.1)) ∧ (dot addr ft h n0).1.Perm (l.flatMap (block addr ft)) ∧
      (∃ c, (dot addr ft h n0).2 = n0 + c ∧ (l.flatMap Prod.snd).Perm (List.range' n0 c)) ∧
      ((dot addr ft h n0).1.filterMap Line.declared).Nodup := by
  obtain ⟨l, h1, h2, h3, h4, h5⟩ := dot_ok (addr := addr) (ft := ft) h n0 hid
  exact ⟨l, h1, h2, h3, h4, h5, dot_nodup hinj h n0⟩

/-- **C65**, edges: when nothing reached from it is of another kind, every edge joins two declared vertices. -/
theorem C65_edges_partial {addr : Hom V I U → List Char} {ft : U → List Char} (h : Hom V I U) (n0 : Nat)
    (hall : ∀ g, Below h g → (label ft g).isSome) {s t : List Char} {lab : Option (List Char)}
    (he : .edge s t lab ∈ (dot addr ft h n0).1) :
    s ∈ (dot addr ft h n0).1.filterMap Line.declared ∧ t ∈ (dot addr ft h n0).1.filterMap Line.declared :=
  dot_closed h n0 hall he

/-- A text of addresses for the examples. -/
private def exAddr : Hom Nat Nat Nat → List Char
  | .fn x u => 'a' :: (dec x ++ 'b' :: dec u)
  | .sum _ => ['s']
  | .fix _ => ['f']
  | .inter _ => ['n']
  | .comp _ _ => ['c']
  | _ => []

/-- `fixpoint(sum(f, f o id, id))` exported after five identities: `f` has one vertex and two edges to it, each identity has its own. -/
example : dot exAddr dec (.fix (.sum [.fn 0 7, .comp (.fn 0 7) .id, .id])) 5 =
    ([.vertex ['h', 'f'] ['*'], .vertex ['h', 's'] ['+'], .vertex ('h' :: 'a' :: '0' :: 'b' :: ['7']) "fun(0, 7)".toList,
      .edge ['h', 's'] ('h' :: 'a' :: '0' :: 'b' :: ['7']) none,
      .vertex ['h', 'c'] ['o'], .edge ['h', 'c'] ('h' :: 'a' :: '0' :: 'b' :: ['7']) (some ['l']),
      .vertex ['i', 'd', '5'] ['i', 'd'], .edge ['h', 'c'] ['i', 'd', '5'] (some ['r']), .edge ['h', 's'] ['h', 'c'] none,
      .vertex ['i', 'd', '6'] ['i', 'd'], .edge ['h', 's'] ['i', 'd', '6'] none, .edge ['h', 'f'] ['h', 's'] none], 7) := by
  decide +kernel

/-- Nothing below this one is of a kind which is not drawn. -/
example : ∀ g, Below (.fix (.sum [.fn 0 7, .id]) : Hom Nat Nat Nat) g → (label dec g).isSome := by
  intro g h
  cases h with
  | refl => rfl
  | step hk h =>
    simp only [kids, List.mem_singleton] at hk
    subst hk
    cases h with
    | refl => rfl
    | step hk h =>
      simp only [kids, List.map_cons, List.map_nil, List.mem_cons, List.not_mem_nil, or_false] at hk
      rcases hk with rfl | rfl <;>
      · cases h with
        | refl => rfl
        | step hk _ => simp [kids] at hk

/-- **C65, negation.** The export of a fixpoint of an intersection has an edge to a vertex which is not declared, and the operands of the
intersection are missing. -/
theorem C65_negation : ∃ (h : Hom Nat Nat Nat) (s t : List Char), .edge s t none ∈ (dot exAddr dec h 0).1 ∧
    t ∉ (dot exAddr dec h 0).1.filterMap Line.declared ∧ (dot exAddr dec h 0).1.length = 2 :=
  ⟨.fix (.inter [.fn 0 1, .fn 0 2]), ['h', 'f'], ['h', 'n'], by decide +kernel, by decide +kernel, by decide +kernel⟩

/-- **C66 (partial).** The JSON exports of two different homomorphisms made of compositions, fixpoints, functions, identities, local
applications and sums are different, when the texts of different functions are.
Missing: all other homomorphisms have the same export (`C66_negation`). -/
theorem C66_json_partial {ft : U → List Char} (hft : ∀ u u', ft u = ft u' → u = u') {h h' : Hom V I U} (hp : HExp.Plain h)
    (hp' : HExp.Plain h') (e : js ft h = js ft h') : h = h' := js_inj hft hp hp' e

example : HExp.Plain (.fix (.sum [.loc 2 (.fn 0 7), .comp .id (.fn 1 3)]) : Hom Nat Nat Nat) ∧ ∀ u u', dec u = dec u' → u = u' :=
  ⟨.fix (.sum (by
    intro h hh
    simp only [List.mem_cons, List.not_mem_nil, or_false] at hh
    rcases hh with rfl | rfl
    · exact .loc (.fn _ _)
    · exact .comp .id (.fn _ _))), fun _ _ => dec_inj⟩

/-- **C66, negation.** All other homomorphisms are exported in the same way: two intersections, for instance. -/
theorem C66_negation : ∃ h h' : Hom Nat Nat Nat, h ≠ h' ∧ js dec h = js dec h' :=
  ⟨.inter [.fn 0 1, .fn 0 2], .inter [.fn 0 3, .fn 0 4], by decide, rfl⟩

end

end Verif
