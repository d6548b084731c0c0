import Verif.DD.Config
/-!
# The operations on SDDs: sum, intersection, difference

Each operation is written with open recursion: the nested calls that the C++ code makes through the
caches (`cxt.sum_cache()(...)`, ...) are calls of the parameter `rec`.  The code is polymorphic in the
monad, so that it can be run without cache, with caches, and with any hash-table iteration order.

The containers of the C++ code which are sorted by address (the arcs of a node, the operands of an operation, the elements of a
square union) are sorted by `C.lt` in the model.  The addresses of two nodes may be in a different order each time these nodes are
created, also in the middle of an operation, when they have been destroyed in between: each time the code iterates on such a
container, the model iterates in any order (`DDMonad.ord`).
The template parameter `Valuation` of the C++ code is the type `α` below (`V` for flat nodes, `SDD V`
for hierarchical nodes).
-/

set_option autoImplicit false

namespace Verif
open SDD

/-- The operations stored in the caches: `sum_op`, `intersection_op` (`/repo/sdd/dd/nary.hh:25-60`,
`operands` and `size`) and `difference_op` (`/repo/sdd/dd/difference.hh:135-142`).  The number of
operands is a `C::operands_size_type` in C++; here it is not bounded (see `Verif.DD.Width`). -/
inductive Op (V : Type) : Type where
  | sum (xs : List (SDD V))
  | inter (xs : List (SDD V))
  | diff (l r : SDD V)
  deriving DecidableEq

/-- `sum_builder_policy::add`, `/repo/sdd/dd/sum.hh:303-314`: empty operands are ignored. -/
def sumAdd {α : Type} (isEmpty : α → Bool) (lt : α → α → Bool) (set : List α) (x : α) : List α :=
  if isEmpty x then set else insertBy lt x set

/-- The state of an `intersection_builder`: `/repo/sdd/dd/intersection.hh:109-131` and
`/repo/sdd/dd/nary.hh:150-166`. -/
structure InterB (α : Type) where
  hasZero : Bool := false
  set : List α := []

/-- `intersection_builder_policy::add`, `/repo/sdd/dd/intersection.hh:115-130`. -/
def interAdd {α : Type} (isEmpty : α → Bool) (lt : α → α → Bool) (b : InterB α) (x : α) : InterB α :=
  if b.hasZero then b
  else if isEmpty x then { hasZero := true, set := [] }
  else { b with set := insertBy lt x b.set }

/-- `SDD::empty()`, `/repo/sdd/dd/definition.hh:218-225`. -/
def SDD.isZero {V : Type} : SDD V → Bool
  | .zero => true
  | _ => false

/-- `check_compatibility`, `/repo/sdd/dd/check_compatibility.hh:15-70`: whether nothing is thrown. -/
def compatible {V : Type} : SDD V → SDD V → Bool
  | .zero, .zero => true
  | .one, .one => true
  | .flat x _, .flat y _ => x == y
  | .hier x _, .hier y _ => x == y
  | _, _ => false

section
variable {V E : Type} {m : Type → Type} [DecidableEq V] [DDMonad V m]

open DDMonad (raise ord)

/-- What an operation needs to know of a type of valuations (the C++ code resolves these by
overloading): `isEmpty` is `values::empty_values`, `lt` is `std::less`, `inter`, `diff`, `sum` are
`dd::intersection` of a builder with two operands, `dd::difference` and `dd::sum` of a builder; `node`
and `view` are the construction of a node and the access to its variable and arcs (`variant_cast`).
(Overloads of `/repo/sdd/dd/operations_fwd.hh`, lines 19-83, and of `/repo/sdd/values/empty.hh`.) -/
structure Kind (V : Type) (m : Type → Type) (α : Type) where
  isEmpty : α → Bool
  lt : α → α → Bool
  inter : InterB α → m α
  diff : α → α → m α
  sum : List α → m α
  node : Nat → List (α × SDD V) → SDD V
  view : SDD V → Option (Nat × List (α × SDD V))

/-- `dd::sum` on SDDs, `/repo/sdd/dd/sum.hh:321-335`. -/
def ddSum (rec : Op V → m (SDD V)) : List (SDD V) → m (SDD V)
  | [] => pure .zero
  | [x] => pure x
  | b => rec (.sum b)

/-- `dd::intersection` on SDDs, `/repo/sdd/dd/intersection.hh:137-151`. -/
def ddInter (rec : Op V → m (SDD V)) (b : InterB (SDD V)) : m (SDD V) :=
  match b.set with
  | [] => pure .zero
  | [x] => pure x
  | b => rec (.inter b)

/-- `dd::difference` on SDDs, `/repo/sdd/dd/difference.hh:179-193`. -/
def ddDiff (rec : Op V → m (SDD V)) (l r : SDD V) : m (SDD V) :=
  if l = r ∨ l = .zero then pure .zero
  else if r = .zero then pure l
  else rec (.diff l r)

/-- `dd::sum` on values, `/repo/sdd/dd/sum.hh:342-368`. -/
def valSum (C : Cfg V E) : List V → V
  | [] => C.vempty
  | x :: xs => xs.foldl C.vsum x

/-- The loop of `dd::intersection` on values, `/repo/sdd/dd/intersection.hh:175-180`. -/
def valInterLoop (C : Cfg V E) (res : V) : List V → V
  | [] => res
  | x :: xs => if C.visEmpty res then res else valInterLoop C (C.vinter res x) xs

/-- `dd::intersection` on values, `/repo/sdd/dd/intersection.hh:157-183`. -/
def valInter (C : Cfg V E) (b : InterB V) : V :=
  match b.set with
  | [] => C.vempty
  | x :: xs => valInterLoop C x xs

/-- The operations for flat nodes.
(`/repo/sdd/dd/sum.hh`, lines 342-368; `/repo/sdd/dd/intersection.hh`, lines 157-183; `/repo/sdd/dd/difference.hh`, lines 198-204.) -/
def flatKind (C : Cfg V E) : Kind V m V where
  isEmpty := C.visEmpty
  lt := C.vlt
  inter b := do
    let set ← ord b.set
    pure (valInter C { b with set := set })
  diff v w := pure (C.vdiff v w)
  sum b := do
    let b ← ord b
    pure (valSum C b)
  node := .flat
  view | .flat x a => some (x, a) | _ => none

/-- The operations for hierarchical nodes.
(`/repo/sdd/dd/sum.hh`, lines 321-335; `/repo/sdd/dd/intersection.hh`, lines 137-151; `/repo/sdd/dd/difference.hh`, lines 179-193.) -/
def hierKind (C : Cfg V E) (rec : Op V → m (SDD V)) : Kind V m (SDD V) where
  isEmpty := SDD.isZero
  lt := C.lt
  inter := ddInter rec
  diff := ddDiff rec
  sum := ddSum rec
  node := .hier
  view | .hier x a => some (x, a) | _ => none

/-- `alpha_builder::add`, `/repo/sdd/dd/alpha.hh:132-137`: emplace in a map sorted by successor. -/
def alphaAdd {α : Type} (C : Cfg V E) (arcs : List (α × SDD V)) (val : α) (succ : SDD V) :
    List (α × SDD V) :=
  ((upsert C.lt succ val id (arcs.map Prod.swap)).map Prod.swap)

/-- Whether a number of arcs does not fit `C::alpha_size_type` (`/repo/sdd/dd/node.hh:62-63`). -/
def tooMany : Option Nat → Nat → Bool
  | none, _ => false
  | some n, k => decide (n < k)

/-- `create_node(var, builder)`, `/repo/sdd/dd/definition.hh:454-467`, and the constructor of a node,
`/repo/sdd/dd/node.hh:72-78`. -/
def mkNode {α : Type} (C : Cfg V E) (mk : Nat → List (α × SDD V) → SDD V) (x : Nat)
    (arcs : List (α × SDD V)) : m (SDD V) :=
  if arcs.isEmpty then pure .zero
  else if tooMany C.limit arcs.length then
    raise .overflow
  else pure (mk x arcs)

/-- `create_node(var, val, succ)`, `/repo/sdd/dd/definition.hh:412-448`. -/
def mkNode1 {α : Type} (k : Kind V m α) (x : Nat) (val : α) (succ : SDD V) : SDD V :=
  if succ.isZero || k.isEmpty val then .zero else k.node x [(val, succ)]

/-- `square_union::add`, `/repo/sdd/dd/square_union.hh:52-68`. -/
def suAdd {α : Type} (C : Cfg V E) (k : Kind V m α) (su : List (SDD V × List α)) (succ : SDD V)
    (val : α) : List (SDD V × List α) :=
  upsert C.lt succ (sumAdd k.isEmpty k.lt [] val) (fun b => sumAdd k.isEmpty k.lt b val) su

/-- The loop of `square_union::operator()`, `/repo/sdd/dd/square_union.hh:101-111`. -/
def suFinish {α : Type} (C : Cfg V E) (k : Kind V m α) :
    List (SDD V × List α) → List (α × SDD V) → m (List (α × SDD V))
  | [], arcs => pure arcs
  | (succ, vals) :: su, arcs => do
    let v ← k.sum vals
    suFinish C k su (alphaAdd C arcs v succ)

/-- `square_union::operator()`, `/repo/sdd/dd/square_union.hh:96-111`. -/
def suEnd {α : Type} (C : Cfg V E) (k : Kind V m α) (su : List (SDD V × List α)) : m (List (α × SDD V)) := do
  let su ← ord su
  suFinish C k su []

/-- The loop (C) of the generic sum and the test (I), `/repo/sdd/dd/sum.hh:117-186`.

`todo` are the elements of `res` from `res_cit` to the end, `kept` the elements already passed (H) and
left in `res`.  The result is the new contents of `res`, `save` and `remainder`.

* (D), lines 127-134: same valuations, nothing else is done for this arc (`goto equality`);
* (E)-(F), lines 142-160: the common part goes to `save`, the rest of the valuation of `res` to
  `remainder`;
* (G), lines 163-167: `break`; note that `current_val` is not emptied, so that (I) will append it
  once more to `save`;
* (I), lines 181-186. -/
def scan {α : Type} [DecidableEq α] (C : Cfg V E) (k : Kind V m α) (succ : SDD V) :
    (cur : α) → (todo kept save rem : List (α × List (SDD V))) →
    m (List (α × List (SDD V)) × List (α × List (SDD V)) × List (α × List (SDD V)))
  | cur, [], kept, save, rem =>
    pure (kept, if k.isEmpty cur then save else save ++ [(cur, sumAdd SDD.isZero C.lt [] succ)], rem)
  | cur, (rv, rs) :: todo, kept, save, rem =>
    if k.isEmpty cur then pure (kept ++ (rv, rs) :: todo, save, rem)
    else if cur = rv then
      pure (kept ++ todo, save ++ [(rv, sumAdd SDD.isZero C.lt rs succ)], rem)
    else do
      let inter ← k.inter (interAdd k.isEmpty k.lt (interAdd k.isEmpty k.lt {} cur) rv)
      if k.isEmpty inter then scan C k succ cur todo (kept ++ [(rv, rs)]) save rem
      else do
        let save := save ++ [(inter, sumAdd SDD.isZero C.lt rs succ)]
        let d ← k.diff rv inter
        let rem := if k.isEmpty d then rem else rem ++ [(d, rs)]
        if cur = inter then
          pure (kept ++ todo, save ++ [(cur, sumAdd SDD.isZero C.lt [] succ)], rem)
        else do
          let cur ← k.diff cur inter
          scan C k succ cur todo kept save rem

/-- The loop (B) of the generic sum, `/repo/sdd/dd/sum.hh:111-198`. The result is `res` and `save`. -/
def sumArcs {α : Type} [DecidableEq α] (C : Cfg V E) (k : Kind V m α) :
    (arcs : List (α × SDD V)) → (res save : List (α × List (SDD V))) →
    m (List (α × List (SDD V)) × List (α × List (SDD V)))
  | [], res, save => pure (res, save)
  | (val, succ) :: arcs, res, save => do
    let res ← ord res
    let (res, save, rem) ← scan C k succ val res [] save []
    sumArcs C k arcs (emplaceAll res rem) save

/-- The loop (A) of the generic sum, `/repo/sdd/dd/sum.hh:100-207`. -/
def sumOperands {α : Type} [DecidableEq α] (C : Cfg V E) (k : Kind V m α) (head : SDD V) :
    (xs : List (SDD V)) → (res : List (α × List (SDD V))) → m (List (α × List (SDD V)))
  | [], res => pure res
  | x :: xs, res =>
    if compatible head x then
      match k.view x with
      | none => raise .ub
      | some (_, arcs) => do
        let arcs ← ord arcs
        let (res, save) ← sumArcs C k arcs res []
        sumOperands C k head xs (emplaceAll res save)
    else raise (.top head x)

/-- The loop filling the square union, `/repo/sdd/dd/sum.hh:209-215`. -/
def sumSquare {α : Type} (C : Cfg V E) (k : Kind V m α) (rec : Op V → m (SDD V)) :
    List (α × List (SDD V)) → List (SDD V × List α) → m (List (SDD V × List α))
  | [], su => pure su
  | (val, succs) :: res, su => do
    let s ← ddSum rec succs
    sumSquare C k rec res (suAdd C k su s val)

/-- `sum_op_impl::work`, generic version, `/repo/sdd/dd/sum.hh:45-218`. -/
def sumWork {α : Type} [DecidableEq α] (C : Cfg V E) (k : Kind V m α) (rec : Op V → m (SDD V))
    (head : SDD V) (xs : List (SDD V)) : m (SDD V) :=
  match k.view head with
  | none => raise .ub
  | some (x, arcs) => do
    let arcs ← ord arcs
    let res := emplaceAll [] (arcs.map fun a => (a.1, sumAdd SDD.isZero C.lt [] a.2))
    let res ← sumOperands C k head xs res
    let res ← ord res
    let su ← sumSquare C k rec res []
    let alpha ← suEnd C k su
    mkNode C k.node x alpha

/-- The insertion of the values of an arc in `value_to_succ`, `/repo/sdd/dd/sum.hh:250-261`. -/
def fastArc (C : Cfg V E) (succ : SDD V) (vals : List E) (map : List (E × List (SDD V))) :
    List (E × List (SDD V)) :=
  vals.foldl (fun map v => upsert C.elt v (sumAdd SDD.isZero C.lt [] succ)
    (fun b => sumAdd SDD.isZero C.lt b succ) map) map

/-- The loop on operands of the linear sum, `/repo/sdd/dd/sum.hh:242-263`. -/
def fastOperands (C : Cfg V E) (head : SDD V) :
    List (SDD V) → List (E × List (SDD V)) → m (List (E × List (SDD V)))
  | [], map => pure map
  | x :: xs, map =>
    if compatible head x then
      match x with
      | .flat _ arcs => do
        let arcs ← ord arcs
        fastOperands C head xs (arcs.foldl (fun map a => fastArc C a.2 (C.velems a.1) map) map)
      | _ => raise .ub
    else raise (.top head x)

/-- The loop building `succ_to_value`, `/repo/sdd/dd/sum.hh:272-286`; a values builder is the list of
the values inserted so far. -/
def fastSquare (C : Cfg V E) (rec : Op V → m (SDD V)) :
    List (E × List (SDD V)) → List (SDD V × List E) → m (List (SDD V × List E))
  | [], map => pure map
  | (v, succs) :: l, map => do
    let s ← ddSum rec succs
    fastSquare C rec l (upsert C.lt s [v] (fun b => b ++ [v]) map)

/-- `sum_op_impl::work` for fast iterable values, `/repo/sdd/dd/sum.hh:221-296`. -/
def fastWork (C : Cfg V E) (rec : Op V → m (SDD V)) (x : Nat) (xs : List (SDD V)) : m (SDD V) :=
  match xs with
  | [] => raise .ub
  | head :: _ => do
    let map ← fastOperands C head xs []
    let map ← fastSquare C rec map []
    let map ← ord map
    let alpha := map.foldl (fun arcs e => alphaAdd C arcs (C.vbuild e.2) e.1) []
    mkNode C .flat x alpha

/-- The inner loop of the intersection, `/repo/sdd/dd/intersection.hh:70-88`. -/
def interArc {α : Type} (C : Cfg V E) (k : Kind V m α) (rec : Op V → m (SDD V))
    (lval : α) (lsucc : SDD V) :
    List (α × SDD V) → List (SDD V × List α) → m (List (SDD V × List α))
  | [], su => pure su
  | (rval, rsucc) :: rhs, su => do
    let v ← k.inter (interAdd k.isEmpty k.lt (interAdd k.isEmpty k.lt {} lval) rval)
    if k.isEmpty v then interArc C k rec lval lsucc rhs su
    else do
      let s ← ddInter rec (interAdd SDD.isZero C.lt (interAdd SDD.isZero C.lt {} lsucc) rsucc)
      if s.isZero then interArc C k rec lval lsucc rhs su
      else interArc C k rec lval lsucc rhs (suAdd C k su s v)

/-- The outer loop of the intersection, `/repo/sdd/dd/intersection.hh:68-89`. -/
def interArcs {α : Type} (C : Cfg V E) (k : Kind V m α) (rec : Op V → m (SDD V))
    (rhs : List (α × SDD V)) :
    List (α × SDD V) → List (SDD V × List α) → m (List (SDD V × List α))
  | [], su => pure su
  | (lval, lsucc) :: lhs, su => do
    let su ← interArc C k rec lval lsucc rhs su
    interArcs C k rec rhs lhs su

/-- The loop on operands of the intersection, `/repo/sdd/dd/intersection.hh:57-101`. -/
def interWork {α : Type} (C : Cfg V E) (k : Kind V m α) (rec : Op V → m (SDD V)) (x : Nat) :
    (res : SDD V) → List (SDD V) → m (SDD V)
  | res, [] => pure res
  | res, y :: ys =>
    if compatible res y then
      match k.view res, k.view y with
      | some (_, lhs), some (_, rhs) => do
        let lhs ← ord lhs
        let rhs ← ord rhs
        let su ← interArcs C k rec rhs lhs []
        if su.isEmpty then pure .zero
        else do
          let alpha ← suEnd C k su
          let res ← mkNode C k.node x alpha
          interWork C k rec x res ys
      | _, _ => raise .ub
    else raise (.top res y)

/-- The first loop of the difference, `/repo/sdd/dd/difference.hh:68-75`. -/
def diffFirst {α : Type} (C : Cfg V E) (k : Kind V m α) (un : α) :
    List (α × SDD V) → List (SDD V × List α) → m (List (SDD V × List α))
  | [], su => pure su
  | (val, succ) :: lhs, su => do
    let tmp ← k.diff val un
    if k.isEmpty tmp then diffFirst C k un lhs su
    else diffFirst C k un lhs (suAdd C k su succ tmp)

/-- The inner loop of the second loop of the difference, `/repo/sdd/dd/difference.hh:80-94`. -/
def diffArc {α : Type} (C : Cfg V E) (k : Kind V m α) (rec : Op V → m (SDD V))
    (lval : α) (lsucc : SDD V) :
    List (α × SDD V) → List (SDD V × List α) → m (List (SDD V × List α))
  | [], su => pure su
  | (rval, rsucc) :: rhs, su => do
    let v ← k.inter (interAdd k.isEmpty k.lt (interAdd k.isEmpty k.lt {} lval) rval)
    if k.isEmpty v then diffArc C k rec lval lsucc rhs su
    else do
      let s ← ddDiff rec lsucc rsucc
      if s.isZero then diffArc C k rec lval lsucc rhs su
      else diffArc C k rec lval lsucc rhs (suAdd C k su s v)

/-- The second loop of the difference, `/repo/sdd/dd/difference.hh:78-95`. -/
def diffArcs {α : Type} (C : Cfg V E) (k : Kind V m α) (rec : Op V → m (SDD V))
    (rhs : List (α × SDD V)) :
    List (α × SDD V) → List (SDD V × List α) → m (List (SDD V × List α))
  | [], su => pure su
  | (lval, lsucc) :: lhs, su => do
    let su ← diffArc C k rec lval lsucc rhs su
    diffArcs C k rec rhs lhs su

/-- `difference_visitor` on two nodes, `/repo/sdd/dd/difference.hh:38-100`. -/
def diffWork {α : Type} (C : Cfg V E) (k : Kind V m α) (rec : Op V → m (SDD V))
    (l r : SDD V) (x y : Nat) (lhs rhs : List (α × SDD V)) : m (SDD V) :=
  if x = y then do
    let lhs ← ord lhs
    let rhs ← ord rhs
    let un ← k.sum (rhs.foldl (fun b a => sumAdd k.isEmpty k.lt b a.1) [])
    let su ← diffFirst C k un lhs []
    let su ← diffArcs C k rec rhs lhs su
    if su.isEmpty then pure .zero
    else do
      let alpha ← suEnd C k su
      mkNode C k.node x alpha
  else raise (.top l r)

/-- `sum_op::operator()` on its operands, `/repo/sdd/dd/nary.hh:103-121`. -/
def sumStep (C : Cfg V E) (rec : Op V → m (SDD V)) : List (SDD V) → m (SDD V)
  | [] => raise .ub
  | head :: xs =>
    match head with
    | .flat x _ =>
      if C.fast then fastWork C rec x (head :: xs)
      else sumWork C (flatKind C) rec head xs
    | .hier _ _ => sumWork C (hierKind C rec) rec head xs
    | _ => match xs with
      | [] => raise .ub
      | y :: _ => raise (.top head y)

/-- `intersection_op::operator()` on its operands, `/repo/sdd/dd/nary.hh:103-121`. -/
def interStep (C : Cfg V E) (rec : Op V → m (SDD V)) : List (SDD V) → m (SDD V)
  | [] => raise .ub
  | head :: xs =>
    match head with
    | .flat x _ => interWork C (flatKind C) rec x head xs
    | .hier x _ => interWork C (hierKind C rec) rec x head xs
    | _ => match xs with
      | [] => raise .ub
      | y :: _ => raise (.top head y)

/-- `difference_op::operator()`, `/repo/sdd/dd/difference.hh:147-152`, with the dispatch on types at lines 37-128. -/
def diffStep (C : Cfg V E) (rec : Op V → m (SDD V)) (l r : SDD V) : m (SDD V) :=
  match l, r with
  | .flat x a, .flat y b => diffWork C (flatKind C) rec l r x y a b
  | .hier x a, .hier y b => diffWork C (hierKind C rec) rec l r x y a b
  | .zero, .zero => raise .ub
  | .one, .one => raise .ub
  | _, _ => raise (.top l r)

/-- The evaluation of a cached operation: `nary_op::operator()` (`/repo/sdd/dd/nary.hh:103-121`) and
`difference_op::operator()` (`/repo/sdd/dd/difference.hh:147-152`). The operands of a sum and of an intersection are visited in
any order. -/
def step (C : Cfg V E) (rec : Op V → m (SDD V)) : Op V → m (SDD V)
  | .sum xs => do
    let xs ← ord xs
    sumStep C rec xs
  | .inter xs => do
    let xs ← ord xs
    interStep C rec xs
  | .diff l r => diffStep C rec l r

/-- `sum` of a range of SDDs, `/repo/sdd/dd/sum.hh:399-422`; `operator+` (lines 374-397) is the case
of two operands. -/
def opSum (C : Cfg V E) (rec : Op V → m (SDD V)) (xs : List (SDD V)) : m (SDD V) :=
  ddSum rec (xs.foldl (sumAdd SDD.isZero C.lt) [])

/-- `intersection` of a range of SDDs, `/repo/sdd/dd/intersection.hh:216-239`; `operator&` (lines
189-214) is the case of two operands. -/
def opInter (C : Cfg V E) (rec : Op V → m (SDD V)) (xs : List (SDD V)) : m (SDD V) :=
  ddInter rec (xs.foldl (interAdd SDD.isZero C.lt) {})

end
end Verif
