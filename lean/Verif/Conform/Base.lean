import Verif.Conform.Hom
import Verif.DD.Stats
import Verif.Mem.HeapStats
import Verif.Mem.CacheStats
/-!
# The other unit tests, run on the model

As `Verif.Conform.DD`, with the tests of `/repo/tests/order`, `/repo/tests/tools`, `/repo/tests/values`, `/repo/tests/util` and
`/repo/tests/mem`.  These are tests of the model, not proofs about it.  Left out: `test_variant.cc` and `test_typelist.cc`, which test the
dispatch on types of C++; the tests of the filters alone in `test_cache.cc`; in `test_ptr.cc`, objects are those of a unique table and the count of
deletions is that of the objects which are not in memory any more.
-/

set_option autoImplicit false
set_option linter.unusedSectionVars false

namespace Verif.Conform

/-! ## `/repo/tests/order` -/

/-- The order of a builder. (Notation for the tests of `/repo/tests`.) -/
def ordOf (b : OB Nat) : Option (Ord Nat) := (Ord.ofBuilder b).toOption

/-- `order_builder(i, nested)`. (Notation for the tests of `/repo/tests`.) -/
def sub (i : Nat) (n : OB Nat) : OB Nat := .node (OB.uid i) n .nil

/-- The user part of the identifier of the head of a builder. (Notation for the tests of `/repo/tests`.) -/
def obId : OB Nat → Option Nat
  | .node i _ _ => if i.artificial = 0 then some i.user else none
  | .nil => none
/-- `next()` of a builder. (Notation for the tests of `/repo/tests`.) -/
def obNext : OB Nat → OB Nat
  | .node _ _ x => x
  | .nil => .nil
/-- `nested()` of a builder. (Notation for the tests of `/repo/tests`.) -/
def obNested : OB Nat → OB Nat
  | .node _ n _ => n
  | .nil => .nil

/-- `builder`, `/repo/tests/order/test_order.cc`. -/
def testBuilder : Bool :=
  let b := ob [na, nb]
  let p := (OB.nil.push (OB.uid nb) .nil).push (OB.uid na) .nil
  let h := (OB.nil.push (OB.uid ny) (ob [nb])).push (OB.uid nx) (ob [na])
  (OB.nil : OB Nat).isNil && obId (ob [na]) == some na && (obNested (ob [na])).isNil && (obNext (ob [na])).isNil &&
  [b, p].all (fun b => obId b == some na && (obNested b).isNil && !(obNext b).isNil && obId (obNext b) == some nb &&
    (obNext (obNext b)).isNil) &&
  obId h == some nx && !(obNested h).isNil && !(obNext h).isNil && obId (obNested h) == some na && (obNested (obNested h)).isNil &&
  (obNext (obNested h)).isNil && obId (obNext h) == some ny && !(obNested (obNext h)).isNil && (obNext (obNext h)).isNil &&
  obId (obNested (obNext h)) == some nb && (obNested (obNested (obNext h))).isNil && (obNext (obNested (obNext h))).isNil

/-- `o.node(i) < o.node(j)`: the positions are compared. (Notation for the tests of `/repo/tests`.) -/
def before (o : Ord Nat) (ij : Nat × Nat) : Bool := match o.node ij.1, o.node ij.2 with
  | some n, some m => decide (n.position < m.position)
  | _, _ => false

/-- `order_node_relative_order`, `/repo/tests/order/test_order.cc`. -/
def testRelative : Bool :=
  [(ob [na, nb], [(na, nb)]), (ob [na, nb, nc], [(na, nb), (na, nc), (nb, nc)]),
    (OB.concat (sub na (ob [nx, ny])) (ob [nb]), [(na, nx), (na, ny), (nx, ny), (na, nb), (nx, nb), (ny, nb)])].all fun t =>
      match ordOf t.1 with
      | some o => t.2.all (before o)
      | none => false

/-- `empty()`, when the pointer is not null. (Notation for the tests of `/repo/tests`.) -/
def em (o : Option (Ord Nat)) : Option Bool := o.map Ord.empty
/-- The identifier of the head. (Notation for the tests of `/repo/tests`.) -/
def hid (o : Option (Ord Nat)) : Option Nat := (o.bind Ord.identifier).map OId.user

/-- `constructed_order`, `/repo/tests/order/test_order.cc`. -/
def testConstructed : Bool :=
  let e := ordOf .nil
  let o := ordOf (ob [0, 1, 2])
  let x := fun o : Option (Ord Nat) => o.bind Ord.next
  let n := fun o : Option (Ord Nat) => o.bind Ord.nested
  let nz := 15
  let h := ordOf (((OB.nil.push (OB.uid ny) (ob [nc])).push (OB.uid nx) (sub nz (ob [nb]))).push (OB.uid na) .nil)
  let cont := fun i j => match h with
    | some h => match h.node i, h.node j with
      | some p, some q => h.contains p.position q.position
      | _, _ => none
    | none => none
  em e == some true && em o == some false && em (x o) == some false && em (x (x o)) == some false && em (x (x (x o))) == some true &&
  em (n o) == some true && em (n (x o)) == some true && em (n (x (x o))) == some true && hid o == some 0 && hid (x o) == some 1 &&
  hid (x (x o)) == some 2 &&
  [(ny, nc), (nx, nz), (nx, nb), (nz, nb)].all (fun p => cont p.1 p.2 == some true) &&
  [(ny, nb), (nx, nc), (nx, ny), (nx, nx), (ny, na), (na, na)].all (fun p => cont p.1 p.2 == some false) &&
  em h == some false && hid h == some na && em (n h) == some true && em (x h) == some false && hid (x h) == some nx &&
  em (n (x h)) == some false && hid (n (x h)) == some nz && em (x (n (x h))) == some true && em (n (n (x h))) == some false &&
  hid (n (n (x h))) == some nb && em (x (n (n (x h)))) == some true && em (n (n (n (x h)))) == some true

/-- `strategy_flatten`, `/repo/tests/order/test_order_strategy.cc`. -/
def testFlatten : Bool :=
  let i := 1
  let j := 2
  let k := 3
  [(OB.nil, OB.nil), (ob [i, j, k], ob [i, j, k]), (OB.concat (sub nx (ob [i])) (ob [j]), ob [i, j]),
    (OB.concat (ob [i]) (sub ny (ob [j])), ob [i, j]), (OB.concat (sub nx (ob [i])) (sub ny (ob [j])), ob [i, j]),
    (OB.concat (OB.concat (sub nx (ob [i])) (ob [j])) (sub ny (ob [k])), ob [i, j, k])].all fun t =>
      match ordOf t.1.flatten, ordOf t.2 with
      | some a, some b => b.eq a == some true
      | _, _ => false

/-- `inductive`, `/repo/tests/order/test_carrier.cc`. -/
def testCarrier : Bool :=
  let a := 1; let b := 2; let c := 3; let d := 4; let e := 5; let f := 6; let g := 7
  let fg := (OB.nil.push (OB.uid f) .nil).push (OB.uid g) .nil
  let de := (OB.nil.push (OB.uid d) .nil).push (OB.uid e) fg
  match ordOf (((OB.nil.push (OB.uid a) .nil).push (OB.uid b) .nil).push (OB.uid c) de) with
  | some o =>
    let h := fun x => (ti x 1 : TH NSet)
    let r := fun x => (hlocal o e (h x)).bind fun k => hlocal o c k
    decide (carrier o a (h a) = some (h a)) && decide (carrier o d (h d) = hlocal o c (h d)) && (hlocal o c (h d)).isSome &&
    decide (carrier o g (h g) = r g) && (r g).isSome && decide (carrier o f (h f) = r f) && (r f).isSome
  | none => false

section
variable {V E : Type} [DecidableEq V] (C : Cfg V E) (vs : List Nat → V)
local notation "o" => (SDD.one : SDD V)

/-- `empty`, `sdd_initializer_flat`, `sdd_initializer_hierarchical`, `/repo/tests/order/test_utility.cc`. -/
def testInit : Bool :=
  let s := fun b => (ordOf b).bind (sddOfOrder C (T V) (fun _ => vs [0]) 20)
  let f := fl C vs 0 [0] o
  decide (s .nil = some o) && decide (s (ob [na]) = some f) && decide (s (sub na .nil) = some f) &&
  decide (s (ob [nb, na]) = some (fl C vs 1 [0] f)) && decide (s (sub nx (ob [na])) = some (hi C 0 f o)) &&
  decide (s (sub nx (ob [nb, na])) = some (hi C 0 (fl C vs 1 [0] f) o)) &&
  decide (s (OB.concat (sub nx (ob [na])) (sub ny (ob [nb]))) = some (hi C 1 f (hi C 0 f o)))

/-! ## `/repo/tests/tools` -/

/-- The numbers of nodes, the frequencies of the numbers of arcs and the numbers of arcs. (Notation for the tests of `/repo/tests`.) -/
def report (x : SDD V) (n : Nat × Nat) (f : List (Nat × Nat × Nat)) (a : Nat × Nat) : Bool :=
  let g := arcsFreq x
  decide (nodes x = n) && decide (g.length = f.length) && f.all (fun e => decide (g.get e.1 = e.2)) && decide (numberOfArcs g = a)

/-- `/repo/tests/tools/test_nodes.cc` and `/repo/tests/tools/test_arcs.cc`. -/
def testTools : T V Bool := do
  let q := fun i j k l => fl C vs 3 [i] (fl C vs 2 [j] (fl C vs 1 [k] (fl C vs 0 [l] o)))
  let n := fun i => q i i i i
  let x1 ← sum C [n 0, n 1]
  let x2 ← sum C [n 0, q 1 1 1 0]
  let x3 ← sum C [n 0, q 0 1 1 0]
  let x3 ← sum C [x3, n 2]
  let x3 ← sum C [x3, q 2 3 3 2]
  let x4 := hi C 1 (n 0) (hi C 0 (n 0) o)
  let x5 ← sum C [hi C 1 (n 0) (hi C 0 (n 0) o), hi C 1 (n 1) (hi C 0 (n 1) o)]
  let x6 := hi C 1 x4 (hi C 0 x4 o)
  pure (report (SDD.zero : SDD V) (0, 0) [] (0, 0) && report o (0, 0) [] (0, 0) && report (n 0) (4, 0) [(1, 4, 0)] (4, 0) &&
    report x1 (7, 0) [(1, 6, 0), (2, 1, 0)] (8, 0) && report x2 (6, 0) [(1, 5, 0), (2, 1, 0)] (7, 0) &&
    report x3 (9, 0) [(1, 6, 0), (2, 3, 0)] (12, 0) && report (hi C 0 o o) (0, 1) [(1, 0, 1)] (0, 1) &&
    report (hi C 1 o (hi C 0 o o)) (0, 2) [(1, 0, 2)] (0, 2) && report x4 (4, 2) [(1, 4, 2)] (4, 2) &&
    report x5 (8, 3) [(1, 8, 2), (2, 0, 1)] (8, 4) && report x6 (4, 4) [(1, 4, 4)] (4, 4))

end

/-! ## `/repo/tests/values` and `/repo/tests/util` -/

/-- `/repo/tests/values/test_bitset.cc`. -/
def testBitset : Bool :=
  let e : BitVec 64 := bs []
  Bitset.isEmpty (Bitset.empty : BitVec 64) && Bitset.size e == 0 && Bitset.size (bs [1, 2, 10]) == 3 && bs [10, 1, 2] == bs [1, 2, 10] &&
  Bitset.shl (bs [0, 1, 2]) 1 == bs [1, 2, 3] && Bitset.shr (bs [0, 1, 2]) 1 == bs [0, 1] &&
  Bitset.sum e e == e && Bitset.sum (bs [0]) e == bs [0] && Bitset.sum (bs [0]) (bs [0]) == bs [0] &&
  Bitset.sum (bs [0]) (bs [1]) == bs [0, 1] && Bitset.sum (bs [0]) (bs [0, 1]) == bs [0, 1] &&
  Bitset.inter e e == e && Bitset.inter (bs [0]) e == e && Bitset.inter (bs [0]) (bs [0]) == bs [0] &&
  Bitset.inter (bs [0]) (bs [1]) == e && Bitset.inter (bs [0]) (bs [0, 1]) == bs [0] && Bitset.inter (bs [0, 2]) (bs [0, 1]) == bs [0] &&
  Bitset.inter (bs [0, 1, 2]) (bs [0, 1, 3]) == bs [0, 1] &&
  Bitset.diff e e == e && Bitset.diff (bs [0]) e == bs [0] && Bitset.diff (bs [0]) (bs [0]) == e && Bitset.diff (bs [0]) (bs [1]) == bs [0] &&
  Bitset.diff (bs [0]) (bs [0, 1]) == e && Bitset.diff (bs [0, 2]) (bs [0, 1]) == bs [2] &&
  Bitset.diff (bs [0, 1, 2]) (bs [0, 1, 3]) == bs [2]

/-- `/repo/tests/values/test_flat_set.cc`. -/
def testFlatSet : Bool :=
  let e : NSet := ns []
  let i := [10, 1, 42, 1, 42].foldl (fun v x => (v.insert natLt_st' x).1) (FSet.empty : NSet)
  let v1 := ((ns [1, 33, 42]).erase 1).1
  let v2 := (v1.erase 42).1
  let v3 := (v2.erase 42).1
  let v4 := (v3.erase 33).1
  let a := ns [1, 2, 3]
  let b := ns [2, 3, 5]
  let d := fun x y : NSet => x.diff natLt_st' y
  let n := fun x y : NSet => x.inter natLt_st' y
  let s := fun x y : NSet => x.sum natLt_st' y
  (FSet.empty : NSet).isEmpty && decide (i = ns [1, 10, 42]) && i.size == 3 && decide (v1 = ns [33, 42]) && decide (v2 = ns [33]) &&
  decide (v3 = ns [33]) && decide (v4 = e) && v4.isEmpty && (d e e).isEmpty && decide (d a e = a) && decide (d e a = e) && decide (d a a = e) &&
  decide (d a b = ns [1]) && decide (d b a = ns [5]) && (n e e).isEmpty && decide (n e a = e) && decide (n a e = e) &&
  decide (n a b = ns [2, 3]) && decide (n b a = ns [2, 3]) && (s e e).isEmpty && decide (s e a = a) && decide (s a e = a) &&
  decide (s a b = ns [1, 2, 3, 5]) && decide (s b a = ns [1, 2, 3, 5])

/-- `/repo/tests/util/test_next_power.cc`. -/
def testNextPower : Bool :=
  [(1, 1), (2, 2), (3, 4), (4, 4), (5, 8), (8, 8), (9, 16), (16, 16), (17, 32), (32, 32), (65, 128), (128, 128), (2149, 4096),
    (4096, 4096)].all fun p : Nat × Nat => nextPower32 (BitVec.ofNat 32 p.1) == BitVec.ofNat 32 p.2 &&
      nextPower64 (BitVec.ofNat 64 p.1) == BitVec.ofNat 64 p.2

/-! ## `/repo/tests/mem` -/

/-- An object of the tests of `/repo/tests/mem/test_hash_table.cc`: its address, its datum and its hash. -/
structure Foo where
  addr : Nat
  data : Nat
  hash : Nat
  deriving DecidableEq

/-- `operator==` on objects. (Notation for the tests of `/repo/tests`.) -/
def Foo.eq (x y : Foo) : Bool := x.data == y.data

/-- `ht.insert(&f)`: the size, whether it was inserted and the address of the element. (Notation for the tests of `/repo/tests`.) -/
def ins (f : Foo) (t : Option (Verif.HT Foo)) : Option ((Nat × Bool × Nat) × Verif.HT Foo) :=
  t.bind fun t => (Verif.HT.insert Foo.hash Foo.eq f t).map fun r => ((r.2.size, r.1.2, r.1.1.addr), r.2)

/-- `ht.erase(&f)`. (Notation for the tests of `/repo/tests`.) -/
def era (f : Foo) (t : Option (Verif.HT Foo)) : Option (Verif.HT Foo) := t.bind (Verif.HT.erase Foo.hash Foo.eq f)

/-- `/repo/tests/mem/test_hash_table.cc`. -/
def testHashTable : Bool :=
  let new := fun n => some (Verif.HT.new (BitVec.ofNat 64 n) : Verif.HT Foo)
  let f1 : Foo := ⟨1, 42, 42⟩
  let f2 : Foo := ⟨2, 42, 42⟩
  let f3 : Foo := ⟨3, 43, 43⟩
  let t1 := ins f1 (new 10)
  let t2 := ins f1 (t1.map Prod.snd)
  let t3 := ins f2 (t2.map Prod.snd)
  let t4 := ins f3 (t3.map Prod.snd)
  let b1 : Foo := ⟨1, 0, 7⟩
  let b2 : Foo := ⟨2, 1, 7⟩
  let u1 := ins b1 (new 16)
  let u2 := ins b2 (u1.map Prod.snd)
  let many := (List.range 100).foldl (fun t i => (ins ⟨i, i, i % 16⟩ t).map Prod.snd) (new 16)
  let c := ins ⟨1, 33, 33⟩ (new 10)
  let chk := fun k => (c.map Prod.snd).bind fun t => Verif.HT.insertCheck (fun k => k) (fun k (f : Foo) => decide (k = f.data)) k t
  let com := (c.map Prod.snd).bind fun t => (chk 42).bind fun r => Verif.HT.insertCommit ⟨2, 42, 42⟩ r.2 t
  let d1 : Foo := ⟨1, 42, 0⟩
  let d2 : Foo := ⟨2, 43, 0⟩
  let two := (ins d2 ((ins d1 (new 2)).map Prod.snd)).map Prod.snd
  let sixteen := (List.range 16).foldl (fun t i => (ins ⟨i, i, i⟩ t).map Prod.snd) (new 8)
  (new 100).map Verif.HT.size == some 0 && t1.map Prod.fst == some (1, true, 1) && t2.map Prod.fst == some (1, false, 1) &&
  t3.map Prod.fst == some (1, false, 1) && t4.map Prod.fst == some (2, true, 3) && u1.map Prod.fst == some (1, true, 1) &&
  u2.map Prod.fst == some (2, true, 2) && many.map Verif.HT.size == some 100 && (chk 42).map (fun r => r.1.isNone) == some true &&
  com.map Verif.HT.size == some 2 && (chk 33).map (fun r => r.1.isNone) == some false &&
  (era f1 (t1.map Prod.snd)).map Verif.HT.size == some 0 && (era d1 two).map Verif.HT.size == some 1 && (era d2 (era d1 two)).map Verif.HT.size == some 0 &&
  (era d2 two).map Verif.HT.size == some 1 && (era d1 (era d2 two)).map Verif.HT.size == some 0 &&
  sixteen.map (fun t => (t.clear.1.length, t.clear.2.size)) == some (16, 0)

/-- A cache of operations on natural numbers and its counters. (Notation for the tests of `/repo/tests`.) -/
abbrev CC := Cache.State Nat Nat × Cache.CStats

/-- `c(operation(i))` where the operations of `flt` are filtered: the result (`i + 1`), and the counters of hits, misses and filtered
operations. (Notation for the tests of `/repo/tests`.) -/
def ccall (flt : List Nat) (i : Nat) (c : Option CC) : Option ((Nat × Nat × Nat × Nat) × CC) :=
  c.bind fun c =>
    let r := if i ∈ flt then (Cache.execC (fun k => k) c.1 c.2 (.filtered i)).map fun p => (i + 1, p.2)
      else (Cache.execC (fun k => k) c.1 c.2 (.ev (.lookup i))).bind fun p =>
        match p.1 with
        | some (.found (some r)) => some (r, p.2)
        | _ => (Cache.execC (fun k => k) p.2.1 p.2.2 (.ev (.store i (i + 1)))).map fun q => (i + 1, q.2)
    r.map fun r => ((r.1, r.2.2.hits, r.2.2.misses, r.2.2.filtered), r.2)

/-- Successive calls. (Notation for the tests of `/repo/tests`.) -/
def ccalls (flt : List Nat) : List Nat → Option CC → List (Option (Nat × Nat × Nat × Nat))
  | [], _ => []
  | i :: l, c => let r := ccall flt i c; r.map Prod.fst :: ccalls flt l (r.map Prod.snd)

/-- `creation`, `insertion` and the caches of `filters`, `/repo/tests/mem/test_cache.cc`. -/
def testCache : Bool :=
  let c : Option CC := (Cache.new 100#64).map fun c => (c, ⟨0, 0, 0, 0⟩)
  decide (ccalls [] [1, 1, 2, 2, 3, 3] c =
    [some (2, 0, 1, 0), some (2, 1, 1, 0), some (3, 1, 2, 0), some (3, 2, 2, 0), some (4, 2, 3, 0), some (4, 3, 3, 0)]) &&
  decide (ccalls [0] [1, 0, 0] c = [some (2, 0, 1, 0), some (1, 0, 1, 1), some (1, 0, 1, 2)]) &&
  decide (ccalls [0, 1] [1, 0, 0, 2, 2] c =
    [some (2, 0, 0, 1), some (1, 0, 0, 2), some (1, 0, 0, 3), some (3, 0, 1, 3), some (3, 1, 1, 3)])

/-- Statements on handles: the number of references of the object at each of the two addresses 0 and 1 (`none`: not in memory), after each
statement. (Notation for the tests of `/repo/tests`.) -/
def hruns : Option (Heap.State Nat) → List (Heap.Op Nat) → List (Option (List (Option Nat)))
  | _, [] => []
  | s, op :: l =>
    let s' := s.bind fun s => Heap.exec (fun k => k.1) (fun _ => 1) s op
    s'.map (fun s => [0, 1].map fun a => (s.cells a).map fun _ => s.refs a) :: hruns s' l

/-- `/repo/tests/mem/test_ptr.cc`. -/
def testPtr : Bool :=
  let s : Option (Heap.State Nat) := some (Heap.init 100#64 3)
  let mk := fun v i => Heap.Op.create v i [] i
  let u := fun n => some [some n, none]
  -- two handles
  decide (hruns s [mk 0 0, .create 1 0 [] 7, .destroy 1, .destroy 0] = [u 1, u 2, u 1, some [none, none]]) &&
  -- copy
  decide (hruns s [mk 0 0, .copy 1 0, .destroy 1, .destroy 0] = [u 1, u 2, u 1, some [none, none]]) &&
  -- copy operator
  decide (hruns s [mk 0 0, mk 1 1, .copyAssign 0 1, .destroy 1, .destroy 0] =
    [u 1, some [some 1, some 1], some [none, some 2], some [none, some 1], some [none, none]]) &&
  -- move
  decide (hruns s [mk 0 0, .move 1 0, .destroy 1, .destroy 0] = [u 1, u 1, some [none, none], some [none, none]]) &&
  -- move operator
  decide (hruns s [mk 0 0, mk 1 1, .moveAssign 0 1, .destroy 1, .destroy 0] =
    [u 1, some [some 1, some 1], some [none, some 1], some [none, some 1], some [none, none]]) &&
  -- swap
  decide (hruns s [mk 0 0, .copy 1 0, mk 2 1, .swap 0 2, .destroy 0] =
    [u 1, u 2, some [some 2, some 1], some [some 2, some 1], some [some 2, none]])

/-- Statements on handles with the counters of the table: the sizes and the peaks. (Notation for the tests of `/repo/tests`.) -/
def truns : Option (Heap.State Nat × Heap.TStats) → List (Heap.Op Nat) → List (Option (Nat × Nat))
  | _, [] => []
  | s, op :: l =>
    let s' := s.bind fun s => Heap.execT (fun k => k.1) (fun _ => 1) s.1 s.2 op
    s'.map (fun s => (s.1.table.size, s.2.peak)) :: truns s' l

/-- `/repo/tests/mem/test_unique_table.cc`. -/
def testUniqueTable : Bool :=
  let s : Option (Heap.State Nat × Heap.TStats) := some (Heap.init 100#64 2, ⟨0, 0, 0, 0⟩)
  decide (truns s [.create 0 42 [] 0, .create 1 42 [] 1, .destroy 0, .destroy 1] = [some (1, 1), some (1, 1), some (1, 1), some (0, 1)]) &&
  decide (truns s [.create 0 42 [] 0, .create 1 43 [] 1, .destroy 0, .destroy 1] = [some (1, 1), some (2, 2), some (1, 2), some (0, 2)])

/-- All the tests. (Notation for the tests of `/repo/tests`.) -/
def bsuite : List Bool :=
  [testBuilder, testRelative, testConstructed, testFlatten, testCarrier, testInit conf0 bs, testInit conf1 ns, run (testTools conf0 bs),
    run (testTools conf1 ns), testBitset, testFlatSet, testNextPower, testHashTable, testCache, testPtr, testUniqueTable]

example : bsuite.all id = true := by decide +kernel

end Verif.Conform
