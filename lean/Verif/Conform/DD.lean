import Verif.DD.Session
import Verif.DD.Count
import Verif.DD.Paths
import Verif.Values.Concrete
/-!
# The unit tests of operations on SDDs, run on the model

These are tests of the model, not proofs about it: the assertions of the tests of the library (`/repo/tests/dd`) are executed on the
definitions of the model, to check that the model behaves as its authors say the code does.  They are typed tests: they are run with
bitsets and with `flat_set`, as in the library (`/repo/tests/configuration.hh:10-30`).  Each definition below is a test case of the library; the
assertions of a test case share the caches of one manager.
-/

set_option autoImplicit false
set_option linter.unusedSectionVars false

namespace Verif.Conform

/-- The orders of iteration of the hash tables: any would do. (Notation for the tests of `/repo/tests`.) -/
def orc : Nat → Nat → List Nat := fun k n => [k % (n + 1), 1]

/-- The sizes of caches of `small_conf`, `/repo/tests/configuration.hh:13-26`. -/
def cap : OpKind → Nat := fun _ => 1000

section
variable {V E : Type} [DecidableEq V] (C : Cfg V E) (vs : List Nat → V)

/-- A test. (Notation for the tests of `/repo/tests`.) -/
abbrev T (V : Type) := CM orc V

/-- `SDD(x, {…}, succ)`. (Notation for the tests of `/repo/tests`.) -/
def fl (x : Nat) (l : List Nat) (s : SDD V) : SDD V := mkNode1 (m := T V) (flatKind C) x (vs l) s
/-- `SDD(x, val, succ)`. (Notation for the tests of `/repo/tests`.) -/
def hi (x : Nat) (v s : SDD V) : SDD V := mkNode1 (m := T V) (hierKind C fun _ => pure .zero) x v s
/-- `SDD(x, builder)`, flat. (Notation for the tests of `/repo/tests`.) -/
def flB (x : Nat) (l : List (List Nat × SDD V)) : T V (SDD V) :=
  mkNode C SDD.flat x (l.foldl (fun arcs a => alphaAdd C arcs (vs a.1) a.2) [])
/-- `SDD(x, builder)`, hierarchical. (Notation for the tests of `/repo/tests`.) -/
def hiB (x : Nat) (l : List (SDD V × SDD V)) : T V (SDD V) :=
  mkNode C SDD.hier x (l.foldl (fun arcs a => alphaAdd C arcs a.1 a.2) [])

/-- `sum(cxt, {…})`. (Notation for the tests of `/repo/tests`.) -/
def sum (l : List (SDD V)) : T V (SDD V) := sumC C orc cap l
/-- `intersection(cxt, {…})`. (Notation for the tests of `/repo/tests`.) -/
def inter (l : List (SDD V)) : T V (SDD V) := interC C orc cap l
/-- `x - y`. (Notation for the tests of `/repo/tests`.) -/
def diff (x y : SDD V) : T V (SDD V) := diffC C orc cap x y

/-- `ASSERT_EQ`. (Notation for the tests of `/repo/tests`.) -/
def eq (x : SDD V) (y : T V (SDD V)) : T V Bool := do let y ← y; pure (decide (x = y))
/-- `ASSERT_THROW(…, sdd::top<conf>)`, and `ASSERT_NE(t.lhs(), t.rhs())`. (Notation for the tests of `/repo/tests`.) -/
def top (x : T V (SDD V)) : T V Bool := fun s => match x s with
  | (.error (.top l r), s') => (.ok (decide (l ≠ r)), s')
  | (_, s') => (.ok false, s')

/-- All the assertions of a test case hold. (Notation for the tests of `/repo/tests`.) -/
def all : List (T V Bool) → T V Bool
  | [] => pure true
  | t :: ts => do
    let b ← t
    let r ← all ts
    pure (b && r)

/-- Execution of a test case with a new manager. (Notation for the tests of `/repo/tests`.) -/
def run (t : T V Bool) : Bool := match t ⟨fun _ => [], 0⟩ with
  | (.ok b, _) => b
  | _ => false

local notation "o" => (SDD.one : SDD V)
local notation "z" => (SDD.zero : SDD V)
/-- `'a'`. (Notation for the tests of `/repo/tests`.) -/
abbrev va : Nat := 97
/-- `'b'`. (Notation for the tests of `/repo/tests`.) -/
abbrev vb : Nat := 98
/-- `'c'`. (Notation for the tests of `/repo/tests`.) -/
abbrev vc : Nat := 99
/-- `'x'`. (Notation for the tests of `/repo/tests`.) -/
abbrev vx : Nat := 120
/-- `'y'`. (Notation for the tests of `/repo/tests`.) -/
abbrev vy : Nat := 121

/-! ## `/repo/tests/dd/test_sum.cc` -/

/-- `empty_operands`, `one_operand`, `any_with_zero`, `same_operand_n_times`, `/repo/tests/dd/test_sum.cc:43-108`. -/
def sumTrivial : T V Bool :=
  let x := fl C vs 0 [0] o
  let y := hi C 0 (fl C vs 1 [0] o) o
  all [eq z (sum C []), eq o (sum C [o]), eq z (sum C [z]), eq x (sum C [x]), eq y (sum C [y]),
    eq o (sum C [z, o]), eq o (sum C [o, z]), eq x (sum C [x, z]), eq x (sum C [z, x]), eq y (sum C [z, y]), eq y (sum C [y, z]),
    eq o (sum C [o, o, o]), eq z (sum C [z, z, z]), eq x (sum C [x, x, x]), eq y (sum C [y, y]), eq y (sum C [y, y, y])]

/-- `flat_same_partition_different_succesors`, `flat_commutativity`, `/repo/tests/dd/test_sum.cc:112-142`. -/
def sumFlat : T V Bool := do
  let t0 ← eq (fl C vs 0 [0] (fl C vs 1 [0, 1] o)) (sum C [fl C vs 0 [0] (fl C vs 1 [0] o), fl C vs 0 [0] (fl C vs 1 [1] o)])
  let za := fl C vs 0 [1] (fl C vs 1 [1] o)
  let zb := fl C vs 0 [2, 3] (fl C vs 1 [2, 3] o)
  let zc := fl C vs 0 [3, 4] (fl C vs 1 [3, 4] o)
  let ab ← sum C [za, zb]
  let ac ← sum C [za, zc]
  let bc ← sum C [zb, zc]
  let t1 ← sum C [ab, ac]
  let t2 ← sum C [ab, bc]
  let t3 ← sum C [za, zb, zc]
  pure (t0 && decide (t1 = t2) && decide (t1 = t3) && decide (t2 = t3))

/-- `flat_no_successors`, `hierarchical_no_successors`, `/repo/tests/dd/test_sum.cc:146-200`. -/
def sumNoSucc : T V Bool := do
  let f ← flB C vs 0 [([0, 1], o)]
  let h ← hiB C 10 [(fl C vs 0 [0, 1] o, o)]
  let g := fun l => hi C 10 (fl C vs 0 l o) o
  all [eq f (sum C [fl C vs 0 [0] o, fl C vs 0 [1] o]), eq f (sum C [fl C vs 0 [0, 1] o, fl C vs 0 [1] o]),
    eq f (sum C [fl C vs 0 [0, 1] o, fl C vs 0 [0, 1] o]),
    eq (fl C vs 0 [0, 1, 2] o) (sum C [fl C vs 0 [0, 1, 2] o, fl C vs 0 [1, 2] o, fl C vs 0 [0, 1] o]),
    eq h (sum C [g [0], g [1]]), eq h (sum C [g [0, 1], g [1]]), eq h (sum C [g [0, 1], g [0, 1]])]

/-- `flat_partition_changing`, `hierarchical_partition_changing`, `/repo/tests/dd/test_sum.cc:204-226`. -/
def sumPartition : T V Bool := do
  let f ← flB C vs 0 [([1], fl C vs 1 [4] o), ([2], fl C vs 1 [4, 5] o), ([3], fl C vs 1 [5] o)]
  let n := fun l => fl C vs va l o
  let s := fun l => hi C vy (fl C vs vb l o) o
  let h ← hiB C vx [(n [1], s [4]), (n [2], s [4, 5]), (n [3], s [5])]
  all [eq f (sum C [fl C vs 0 [1, 2] (fl C vs 1 [4] o), fl C vs 0 [2, 3] (fl C vs 1 [5] o)]),
    eq h (sum C [hi C vx (n [1, 2]) (s [4]), hi C vx (n [2, 3]) (s [5])])]

/-- `values`, `iterable`, `initializer_list`, `operators`, `/repo/tests/dd/test_sum.cc:230-278`. -/
def sumOthers : T V Bool := do
  let v := fun l : List (List Nat) => valSum C ((l.map vs).foldl (sumAdd C.visEmpty C.vlt) [])
  let a := fun l => fl C vs va l o
  let t ← all [eq (a [0, 1, 2]) (sum C [a [0, 1], a [0, 2], a [0, 1], a [1, 2]]), eq (a [0, 1]) (sum C [a [0], a [1]])]
  pure (t && decide (v [] = C.vempty) && decide (v [[0], [1], [2]] = vs [0, 1, 2]))

/-! ## `/repo/tests/dd/test_difference.cc` -/

/-- `x_minus_zero`, `zero_minus_x`, `x_minus_x`, `/repo/tests/dd/test_difference.cc:39-89`. -/
def diffTrivial : T V Bool :=
  let x := fl C vs 0 [0] o
  let y := fl C vs 0 [0] (fl C vs 1 [0] o)
  let y' := fl C vs 0 [0] (fl C vs 0 [0] o)
  all [eq x (diff C x z), eq y (diff C y z), eq z (diff C z x), eq z (diff C z y), eq z (diff C x x), eq z (diff C y' y')]

/-- `flat_x_minus_y`, `/repo/tests/dd/test_difference.cc:93-177`. -/
def diffFlat : T V Bool := do
  let a := fun l => fl C vs 0 l o
  let b := fun l m => fl C vs 0 l (fl C vs 1 m o)
  let ref ← sum C [b [0] [0], b [0] [1], b [1] [0]]
  all [eq (a [0]) (diff C (a [0]) (a [1])), eq (a [1]) (diff C (a [1]) (a [0])),
    eq (b [0] [0]) (diff C (b [0] [0]) (b [1] [1])), eq (b [1] [1]) (diff C (b [1] [1]) (b [0] [0])),
    eq (a [0]) (diff C (a [0, 1]) (a [1])), eq z (diff C (a [1]) (a [0, 1])),
    eq ref (diff C (b [0, 1] [0, 1]) (b [1] [1])), eq z (diff C (b [1] [1]) (b [0, 1] [0, 1]))]

/-- `hierarchical_x_minus_y`, `/repo/tests/dd/test_difference.cc:181-291`. -/
def diffHier : T V Bool := do
  let a := fun l => hi C 10 (fl C vs 0 l o) o
  let b := fun l => hi C 10 (fl C vs 0 l (fl C vs 0 l o)) o
  let c := fun l => hi C 10 (fl C vs 0 l o) (hi C 11 (fl C vs 0 l o) o)
  let n := fun l m => fl C vs 0 l (fl C vs 1 m o)
  let d := fun l => hi C 10 (n l l) o
  let nref ← sum C [n [0] [0], n [0] [1], n [1] [0]]
  let e := fun l m l' m' => hi C 10 (n l m) (hi C 11 (n l' m') o)
  let ref ← sum C [e [0] [0] [0] [0], e [0] [0] [0] [1], e [0] [0] [1] [0], e [0] [0] [1] [1],
    e [0] [1] [0] [0], e [0] [1] [0] [1], e [0] [1] [1] [0], e [0] [1] [1] [1],
    e [1] [0] [0] [0], e [1] [0] [0] [1], e [1] [0] [1] [0], e [1] [0] [1] [1],
    e [1] [1] [0] [0], e [1] [1] [0] [1], e [1] [1] [1] [0]]
  all [eq (a [0]) (diff C (a [0]) (a [1])), eq (a [1]) (diff C (a [1]) (a [0])),
    eq (b [0]) (diff C (b [0]) (b [1])), eq (b [1]) (diff C (b [1]) (b [0])),
    eq (c [0]) (diff C (c [0]) (c [1])), eq (c [1]) (diff C (c [1]) (c [0])),
    eq (hi C 10 nref o) (diff C (d [0, 1]) (d [1])), eq z (diff C (d [1]) (d [0, 1])),
    eq ref (diff C (e [0, 1] [0, 1] [0, 1] [0, 1]) (e [1] [1] [1] [1])),
    eq z (diff C (e [1] [1] [1] [1]) (e [0, 1] [0, 1] [0, 1] [0, 1]))]

/-- `values`, `operators`, `/repo/tests/dd/test_difference.cc:295-311`. -/
def diffOthers : T V Bool := do
  let a := fun l => fl C vs va l o
  let t ← all [eq z (diff C (a [0]) (a [0])), eq (a [1]) (diff C (a [1]) (a [0])), eq (a [0]) (diff C (a [0, 1]) (a [1, 2])),
    eq (a [0]) (diff C (a [0, 1]) (a [1]))]
  pure (t && decide (C.vdiff (vs [0, 1]) (vs [1]) = vs [0]))

/-! ## `/repo/tests/dd/test_intersection.cc` -/

/-- `empty_operand`, `empty_intersection`, `flat_x_inter_zero`, `/repo/tests/dd/test_intersection.cc:41-100`. -/
def interTrivial : T V Bool :=
  let a := fun l => fl C vs 0 l o
  let b := fun l => fl C vs 0 l (fl C vs 0 l o)
  let l := [0, 1, 2, 3]
  all [eq z (inter C [fl C vs va [] o]), eq z (inter C []), eq z (inter C [a [0], z]), eq z (inter C [z, a l, a l, a l, a l]),
    eq z (inter C [b [0], z]), eq z (inter C [b l, b l, b l, b l, z]), eq z (inter C [z, z])]

/-- `flat_x_inter_y`, `flat_nary`, `/repo/tests/dd/test_intersection.cc:104-239`. -/
def interFlat : T V Bool :=
  let a := fun l => fl C vs 0 l o
  let b := fun l m => fl C vs 0 l (fl C vs 1 m o)
  all [eq (a [1]) (inter C [a [0, 1], a [1, 2]]), eq (a [0, 1]) (sum C [a [1], a [0, 1]]), eq (a [1, 2]) (sum C [a [1], a [1, 2]]),
    eq z (inter C [a [0, 1], a [2, 3]]), eq (b [1] [1]) (inter C [b [0, 1] [0, 1], b [1, 2] [1, 2]]),
    eq z (inter C [b [0, 1] [0, 1], b [2, 3] [2, 3]]), eq (b [1] [3]) (inter C [b [0, 1] [2, 3], b [1, 2] [3, 4]]),
    eq z (inter C [b [0, 1] [2, 3], b [2, 3] [3, 4]]), eq z (inter C [b [0, 1] [2, 3], b [1, 2] [4, 5]]),
    eq (a [2]) (inter C [a [0, 1, 2], a [1, 2, 3], a [2, 3, 4]]),
    eq (b [2] [2]) (inter C [b [0, 1, 2] [0, 1, 2], b [1, 2, 3] [1, 2, 3], b [2, 3, 4] [2, 3, 4]])]

/-- `hierarchical_nary`, `hierarchical_x_inter_y`, `/repo/tests/dd/test_intersection.cc:243-383`. -/
def interHier : T V Bool :=
  let n := fun l => fl C vs vb l o
  let a := fun l => hi C va (n l) o
  let b := fun l => hi C va (n l) (hi C va (n l) o)
  let m := fun l => fl C vs 0 l o
  let c := fun l => hi C 10 (m l) o
  let d := fun l k => hi C 10 (m l) (hi C 11 (m k) o)
  all [eq (a [2]) (inter C [a [0, 1, 2], a [1, 2, 3], a [2, 3, 4], a [2, 3, 5]]),
    eq (b [2]) (inter C [b [0, 1, 2], b [1, 2, 3], b [2, 3, 4]]),
    eq (c [1]) (inter C [c [0, 1], c [1, 2]]), eq z (inter C [c [0, 1], c [2, 3]]),
    eq (d [1] [1]) (inter C [d [0, 1] [0, 1], d [1, 2] [1, 2]]), eq z (inter C [d [0, 1] [0, 1], d [2, 3] [2, 3]]),
    eq (d [1] [3]) (inter C [d [0, 1] [2, 3], d [1, 2] [3, 4]]), eq z (inter C [d [0, 1] [2, 3], d [2, 3] [3, 4]]),
    eq z (inter C [d [0, 1] [2, 3], d [1, 2] [4, 5]])]

/-- `values`, `iterable`, `initializer_list`, `operators`, `/repo/tests/dd/test_intersection.cc:387-435`. -/
def interOthers : T V Bool := do
  let v := fun l : List (List Nat) => valInter C ((l.map vs).foldl (interAdd C.visEmpty C.vlt) {})
  let a := fun l => fl C vs va l o
  let t ← all [eq (a [0]) (inter C [a [0, 1], a [0, 2], a [0, 1], a [0, 1, 2]]), eq z (inter C [a [0], a [1]]),
    eq (a [1]) (inter C [a [0, 1], a [1, 2]]), eq (a [1]) (inter C [a [0, 1], a [1]])]
  pure (t && decide (v [] = C.vempty) && decide (v [[0, 1, 2], [1, 2], [2]] = vs [2]))

/-! ## `/repo/tests/dd/test_definition.cc` -/

/-- `empty_successor`, `empty_valuation`, `/repo/tests/dd/test_definition.cc:40-51`. -/
def defEmpty : Bool :=
  decide (fl C vs va [0] z = z) && decide (fl C vs va [] o = z) && decide (hi C va z o = z)

/-- `check_compatibility`, `/repo/tests/dd/test_definition.cc:88-128`. -/
def defCompatible : Bool :=
  let f := fun x l => fl C vs x l o
  let h := fun x y l => hi C x (fl C vs y l o) o
  let one1 := fun x => hi C x o o
  [(z, z), (o, o), (f 0 [1], f 0 [2]), (h 0 1 [1], h 0 2 [2])].all (fun p => compatible p.1 p.2) &&
  [(z, o), (o, z), (z, f 0 [1]), (f 0 [1], z), (o, f 0 [1]), (f 0 [1], o), (z, h 0 1 [1]), (h 0 1 [1], z), (o, h 0 1 [1]),
    (h 0 1 [1], o), (f 0 [1], f 1 [1]), (f 1 [1], f 0 [1]), (h 0 1 [1], one1 1), (one1 1, h 0 1 [1]), (f 0 [1], one1 1),
    (one1 0, f 1 [1]), (f 0 [1], one1 1), (one1 1, f 0 [1])].all (fun p => !compatible p.1 p.2)

/-! ## `/repo/tests/dd/test_count_combinations.cc` -/

/-- `terminal_zero`, `terminal_one`, `flat`, `hierarchical`, `/repo/tests/dd/test_count_combinations.cc:37-80`. -/
def countAll : T V Bool := do
  let l := [0, 1, 2]
  let a := fun l => fl C vs va l o
  let h := fun l => hi C va (fl C vs vb l o) o
  let n := hi C vb (fl C vs vc l o) o
  let s1 ← sum C [a l, a [3, 4, 5]]
  let s2 ← sum C [h l, h [3, 4, 5]]
  let c := fun x => sizeOfSDD C x
  pure (decide (c z = some 0) && decide (c o = some 1) && decide (c (a l) = some 3) &&
    decide (c (fl C vs va l (fl C vs vb l o)) = some 9) && decide (c s1 = some 6) && decide (c (h l) = some 3) &&
    decide (c (hi C va (fl C vs vb l o) (h l)) = some 9) && decide (c (hi C va n (hi C va n o)) = some 9) && decide (c s2 = some 6))

/-! ## `/repo/tests/dd/test_path_generator.cc` -/

/-- The same paths in some order. (Notation for the tests of `/repo/tests`.) -/
def samePaths (x : SDD V) (l : List (List (List Nat))) : Bool :=
  let p := paths x
  let r := l.map (List.map vs)
  decide (p.length = r.length) && p.all (fun a => decide (p.count a = r.count a))

/-- `terminal_zero`, `terminal_one`, `flat`, `hierarchical`, `/repo/tests/dd/test_path_generator.cc:41-151`. -/
def pathsAll : T V Bool := do
  let p := fun l m => fl C vs va l (fl C vs vb m o)
  let x1 ← sum C [p [0, 1] [0, 1], p [2, 3] [2, 3]]
  let q := fun i j k => fl C vs 2 [i] (fl C vs 1 [j] (fl C vs 0 [k] o))
  let x2 ← sum C [q 0 0 0, q 1 1 0]
  let x2 ← sum C [x2, q 2 2 2]
  let f := fun i => fl C vs 49 [i] (fl C vs 48 [i] o)
  let x ← sum C [f 0, f 1]
  let y ← sum C [f 2, f 3]
  let x3 := hi C 10 x (hi C 11 x o)
  let x4 ← sum C [hi C 10 x (hi C 11 x o), hi C 10 y (hi C 11 y o)]
  let x5 := hi C 100 (hi C 10 x o) (hi C 11 x o)
  let r := [[[0], [0], [0], [0]], [[0], [0], [1], [1]], [[1], [1], [1], [1]], [[1], [1], [0], [0]]]
  let s := [[[2], [2], [2], [2]], [[2], [2], [3], [3]], [[3], [3], [2], [2]], [[3], [3], [3], [3]]]
  pure (decide (paths z = [[]]) && decide (paths o = [[]]) && samePaths vs x1 [[[0, 1], [0, 1]], [[2, 3], [2, 3]]] &&
    samePaths vs x2 [[[0], [0], [0]], [[1], [1], [0]], [[2], [2], [2]]] && samePaths vs x3 r && samePaths vs x4 (r ++ s) &&
    samePaths vs x5 r)

/-! ## `/repo/tests/dd/test_top.cc` -/

/-- `sum_terminal`, `sum`, `sum_different_node_types`, and the same for `-` and `&`, `/repo/tests/dd/test_top.cc:37-491`. -/
def topAll : T V Bool :=
  let a := fl C vs va [0] o
  let h := hi C va (fl C vs vb [1] o) o
  let h1 := fun x => hi C x o o
  let n := fun x => hi C vx (fl C vs x [0] o) o
  let ops := fun (f : SDD V → SDD V → T V (SDD V)) (l : List Nat) =>
    [top (f a o), top (f o a), top (f h o), top (f h (h1 va)), top (f a (fl C vs vb [1] o)),
      top (f (fl C vs va l (fl C vs vb [0] o)) (fl C vs va (l.drop (l.length - 1)) (fl C vs va [1] o))),
      top (f (n va) (n vb)), top (f (h1 vx) (h1 vy)), top (f a (hi C va (fl C vs vb [0] o) o)),
      top (f (hi C va (fl C vs vb [0] o) o) a)]
  all (ops (fun x y => sum C [x, y]) [0] ++ ops (diff C) [0, 1] ++ ops (fun x y => inter C [x, y]) [0, 1])

/-- All the tests. (Notation for the tests of `/repo/tests`.) -/
def suite : List Bool :=
  [run (sumTrivial C vs), run (sumFlat C vs), run (sumNoSucc C vs), run (sumPartition C vs), run (sumOthers C vs),
    run (diffTrivial C vs), run (diffFlat C vs), run (diffHier C vs), run (diffOthers C vs),
    run (interTrivial C vs), run (interFlat C vs), run (interHier C vs), run (interOthers C vs),
    defEmpty C vs, defCompatible C vs, run (countAll C vs), run (pathsAll C vs), run (topAll C vs)]

end

/-- `conf0` of `/repo/sdd/conf/default_configurations.hh:84-89`: bitsets of 64 bits (limit of a node: 2^16 - 1 arcs). -/
def conf0 : Cfg (BitVec 64) Nat := bitsetCfg 64 (serLt fun v : BitVec 64 => [v.toNat]) (some 65535)

/-- A bitset given by its elements. (Notation for the tests of `/repo/tests`.) -/
def bs (l : List Nat) : BitVec 64 := match (Bitset.ofList l : BOut (BitVec 64)) with
  | .ok v => v
  | _ => Bitset.empty

/-- `conf1` of `/repo/sdd/conf/default_configurations.hh:93-98`: `flat_set<unsigned int>`. -/
def conf1 : Cfg NSet Nat := natCfg (some 65535)

example : (suite conf0 bs).all id = true := by decide +kernel
example : (suite conf1 ns).all id = true := by decide +kernel

end Verif.Conform
