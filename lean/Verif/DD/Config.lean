import Verif.DD.Syntax
/-!
# Configurations and monads

A configuration gathers what the C++ templates take from `C` (`/repo/sdd/conf/`): the type of values,
the limit on the number of arcs, and what the run-time environment decides: the relative positions
in memory of the nodes (`lt`).
-/

set_option autoImplicit false

namespace Verif

/-- What can go wrong.  `top` is the exception of `/repo/sdd/dd/top.hh`; `overflow` stands for the
creation of a node with more arcs than `alpha_size_type` can count (`/repo/sdd/dd/node.hh:72-78`, the
conversion is silent in C++; see `Verif.DD.Node` for its effect); `ub` for undefined behaviours
(`__builtin_unreachable`, bad `variant_cast`, ...); `invalid` for `std::invalid_argument` (raised by
the constructors of homomorphisms); `fuel` for an exhausted recursion bound of the model. -/
inductive Err (V : Type) : Type where
  | top (l r : SDD V)
  | overflow
  | invalid
  | ub
  | fuel

/-- The parameters of the library.

* `V` is the type of sets of values `C::Values`, `E` its `value_type`;
* `vmem` is the specification of a set of values: which elements it contains;
* `vempty`: `Values()`; `visEmpty`: `/repo/sdd/values/empty.hh`; `vsize`: `/repo/sdd/values/size.hh`;
  `vsum`, `vinter`, `vdiff`: the free functions `sum`, `intersection`, `difference` provided by the
  values (e.g. `/repo/sdd/values/flat_set.hh:475-515`);
* `velems`: iteration from `begin()` to `end()`; `vbuild l`: successive `insert`s of the elements of
  `l` in a `values_traits<Values>::builder`, then conversion to `Values`
  (`/repo/sdd/values/values_traits.hh`);
* `fast`: `values_traits<Values>::fast_iterable`;
* `vlt`, `elt`: `operator<` on values and on elements;
* `lt`: `operator<` on SDDs, the comparison of addresses (`/repo/sdd/dd/definition.hh:389-395`);
* `limit`: the greatest value of `C::alpha_size_type` (`none`: unlimited). -/
structure Cfg (V E : Type) where
  vmem : E → V → Prop
  vempty : V
  visEmpty : V → Bool
  vsize : V → Nat
  vsum : V → V → V
  vinter : V → V → V
  vdiff : V → V → V
  velems : V → List E
  vbuild : List E → V
  fast : Bool
  vlt : V → V → Bool
  elt : E → E → Bool
  lt : SDD V → SDD V → Bool
  limit : Option Nat

/-- A comparison is a strict total order. (Specification, not part of the code.) -/
structure StrictTotal {α : Type} (lt : α → α → Bool) : Prop where
  irrefl : ∀ a, lt a a = false
  trans : ∀ a b c, lt a b = true → lt b c = true → lt a c = true
  total : ∀ a b, lt a b = true ∨ a = b ∨ lt b a = true

/-- What is asked of the values and of the comparisons: the set operations are right, equality of
values is equality of sets, comparisons are strict total orders. (Specification, not part of the code.) -/
structure Cfg.Lawful {V E : Type} (C : Cfg V E) : Prop where
  ext : ∀ v w, (∀ a, C.vmem a v ↔ C.vmem a w) → v = w
  mem_empty : ∀ a, ¬ C.vmem a C.vempty
  isEmpty_iff : ∀ v, C.visEmpty v = true ↔ ∀ a, ¬ C.vmem a v
  mem_sum : ∀ a v w, C.vmem a (C.vsum v w) ↔ C.vmem a v ∨ C.vmem a w
  mem_inter : ∀ a v w, C.vmem a (C.vinter v w) ↔ C.vmem a v ∧ C.vmem a w
  mem_diff : ∀ a v w, C.vmem a (C.vdiff v w) ↔ C.vmem a v ∧ ¬ C.vmem a w
  mem_elems : ∀ a v, a ∈ C.velems v ↔ C.vmem a v
  nodup_elems : ∀ v, (C.velems v).Nodup
  size_eq : ∀ v, C.vsize v = (C.velems v).length
  mem_build : C.fast = true → ∀ a l, C.vmem a (C.vbuild l) ↔ a ∈ l
  vlt_st : StrictTotal C.vlt
  elt_st : StrictTotal C.elt
  lt_st : StrictTotal C.lt

/-- The effects used by the operations: raising an exception, and `ord`, the order in which a container
is iterated.  It may be any permutation of the elements and may change from one iteration to the next:
* for a hash table (`std::unordered_map` of `/repo/sdd/dd/sum.hh:69-76`), it is not specified;
* for a container sorted by address (the arcs of a node, the operands of an operation, a square union),
  it depends on the places where the allocator has put the nodes when they were last created. -/
class DDMonad (V : outParam Type) (m : Type → Type) extends Monad m where
  raise : {α : Type} → Err V → m α
  ord : {β : Type} → List β → m (List β)

/-- Insertion in a `boost::container::flat_set` (sorted by `lt`, no insertion if an equivalent element
is present): `/repo/sdd/dd/sum.hh:311`, `/repo/sdd/dd/intersection.hh:129`. -/
def insertBy {α : Type} (lt : α → α → Bool) (x : α) : List α → List α
  | [] => [x]
  | y :: ys =>
    if lt x y then x :: y :: ys
    else if lt y x then y :: insertBy lt x ys
    else y :: ys

/-- `find` in a `boost::container::flat_map` followed by an update of the value found, or the insertion
of a new value at its sorted position: `/repo/sdd/dd/square_union.hh:58-67`. -/
def upsert {κ β : Type} (lt : κ → κ → Bool) (k : κ) (new : β) (upd : β → β) :
    List (κ × β) → List (κ × β)
  | [] => [(k, new)]
  | (k', b) :: l =>
    if lt k k' then (k, new) :: (k', b) :: l
    else if lt k' k then (k', b) :: upsert lt k new upd l
    else (k', upd b) :: l

/-- `std::unordered_map::emplace`: nothing happens if the key is present.  The position of the new
element is irrelevant (see `DDMonad.ord`). Used by `/repo/sdd/dd/sum.hh:96,194`. -/
def emplace {κ β : Type} [DecidableEq κ] (res : List (κ × β)) (e : κ × β) : List (κ × β) :=
  if e.1 ∈ res.map Prod.fst then res else res ++ [e]

/-- `std::unordered_map::insert(first, last)`: the first of two equal keys is kept (libstdc++ and
libc++; unspecified by the C++ standard). Used by `/repo/sdd/dd/sum.hh:203`. -/
def emplaceAll {κ β : Type} [DecidableEq κ] (res : List (κ × β)) (es : List (κ × β)) :
    List (κ × β) :=
  es.foldl emplace res

end Verif
