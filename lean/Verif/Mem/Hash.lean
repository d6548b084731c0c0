import Verif.Order.Order
/-!
# Equality and hashes

`operator==` and `std::hash` of everything the library stores in its hash tables, on 64 bits.  Handles (`SDD`, `homomorphism`, `flat_set`) are
pointers: they are represented by addresses.
-/

set_option autoImplicit false
set_option linter.unusedSectionVars false

namespace Verif

/-- `std::size_t`. (`/repo/sdd/util/hash.hh`.) -/
abbrev Word := BitVec 64

/-- `hash_combine`, `/repo/sdd/util/hash.hh:23-30`; `h` is the hash of the combined value. -/
def hashCombine (s h : Word) : Word := s ^^^ (h + 0x9e3779b9#64 + (s <<< 6) + (s >>> 2))

/-- `hash_combine` on a range, `/repo/sdd/util/hash.hh:35-44`. -/
def hashRange (s : Word) (l : List Word) : Word := l.foldl hashCombine s

/-- `val` of an optional value, `/repo/sdd/util/hash.hh:91-97`. -/
def hashOpt (s : Word) : Option Word → Word
  | some h => hashCombine s h
  | none => s

/-- The hashes of the standard library (pointers, integers), of the user's identifiers, values, functions and inductives, and the equality
of the latter (`typeid`s are part of the values); the numbers of bits of `alpha_size_type` and of `operands_size_type` (`/repo/sdd/conf/default_configurations.hh:28-32`). -/
structure StdHash (I A U : Type) where
  ptr : Nat → Word
  int : Nat → Word
  ident : I → Word
  value : A → Word
  user : U → Word
  userEq : U → U → Bool
  arcsBits : Nat
  opsBits : Nat

variable {I A U : Type} (H : StdHash I A U)

/-! ## Values -/

/-- `hash<boost::container::flat_set>`, `/repo/sdd/values/flat_set.hh:525-537`. -/
def flatSetHash (l : List A) : Word := hashRange 0 (l.map H.value)

/-- `operator==` of `boost::container::flat_set`: same sizes, same elements. (Boost; used by `/repo/sdd/values/flat_set.hh`, lines 240-250.) -/
def flatSetEq [DecidableEq A] : List A → List A → Bool
  | [], [] => true
  | a :: l, b :: m => a == b && flatSetEq l m
  | _, _ => false

/-- `hash<bitset>`, `/repo/sdd/values/bitset.hh:209-219`; `none`: `to_ulong` throws in a `noexcept` function. -/
def bitsetHash {n : Nat} (b : BitVec n) : Option Word := if b.toNat < 2 ^ 64 then some (H.int b.toNat) else none

/-! ## Orders -/

/-- An order and the address of its vector of nodes (`nodes_ptr_`). (`/repo/sdd/order/order.hh`, member `nodes_ptr_`.) -/
structure OrdObj (I : Type) where
  addr : Nat
  ord : Ord I

/-- `operator==`, `/repo/sdd/order/order.hh:194-210`. `none`: access outside of the vectors. -/
def OrdObj.eq [DecidableEq I] (a b : OrdObj I) : Option Bool := a.ord.eq b.ord

/-- `hash<order>`, `/repo/sdd/order/order.hh:360-370`. -/
def OrdObj.hash (o : OrdObj I) : Word := hashOpt (H.ptr o.addr) (o.ord.head.map H.int)

/-- `hash<order_identifier>`, `/repo/sdd/order/order_identifier.hh:129-139`. -/
def OId.hash (i : OId I) : Word := hashCombine (H.int i.artificial) (H.ident i.user)

/-! ## SDDs -/

/-- What a `mem::unique` of SDD holds: `/repo/sdd/dd/definition.hh:53-54`, `/repo/sdd/dd/node.hh:56-76`, `/repo/sdd/dd/terminal.hh`.  A node has a
variable and arcs: (valuation, successor), both handles; its number of arcs is truncated (`node.hh:71`).  (With bitsets, valuations are not handles:
this is not represented.) -/
inductive SDDData : Type where
  | zero
  | one
  | node (hier : Bool) (var : Nat) (arcs : List (Nat × Nat))

/-- The elements between `begin()` and `end()`: their number is stored on `bits` bits. (`/repo/sdd/hom/sum.hh`, lines 36-60.) -/
def stored {α : Type} (bits : Nat) (l : List α) : List α := l.take (l.length % 2 ^ bits)

/-- `operator==` of arcs, `/repo/sdd/dd/alpha.hh:60-67`. -/
def arcEq (a b : Nat × Nat) : Bool := a.2 == b.2 && a.1 == b.1

/-- `std::equal` on two ranges, the second one at least as long as the first.
(Standard library; used by the `operator==` of `/repo/sdd/dd/node.hh` and `/repo/sdd/dd/nary.hh`.) -/
def rangeEq {α : Type} (eq : α → α → Bool) : List α → List α → Bool
  | [], _ => true
  | a :: l, b :: m => eq a b && rangeEq eq l m
  | _ :: _, [] => false

/-- `hash<arc>`, `/repo/sdd/dd/alpha.hh:172-183`. -/
def arcHash (a : Nat × Nat) : Word := hashCombine (H.ptr a.1) (H.ptr a.2)

/-- `variant::index`, `/repo/sdd/mem/variant.hh:56-76`. -/
def SDDData.index : SDDData → Nat
  | .zero => 0
  | .one => 1
  | .node false _ _ => 2
  | .node true _ _ => 3

/-- `operator==` of variants (`/repo/sdd/mem/variant.hh:91-97`), of nodes (`/repo/sdd/dd/node.hh:132-143`) and of terminals. -/
def SDDData.eq (a b : SDDData) : Bool :=
  a.index == b.index && match a, b with
    | .node _ x l, .node _ y m =>
      (l.length % 2 ^ H.arcsBits == m.length % 2 ^ H.arcsBits) && x == y && rangeEq arcEq (stored H.arcsBits l) (stored H.arcsBits m)
    | _, _ => true

/-- `hash<variant>` (`/repo/sdd/mem/variant.hh:175-186`) of nodes (`/repo/sdd/dd/node.hh:182-192`) and of terminals (`/repo/sdd/dd/terminal.hh:69-95`). -/
def SDDData.hash (a : SDDData) : Word :=
  hashCombine (match a with
    | .zero => 0
    | .one => 1
    | .node _ x l => hashRange (H.int x) ((stored H.arcsBits l).map (arcHash H))) (H.int a.index)

/-! ## Operations -/

/-- The keys of the caches: `nary_op` (its number of operands is truncated, `/repo/sdd/dd/nary.hh:53-61`), `difference_op`, `cached_homomorphism`. -/
inductive OpKey : Type where
  | nary (ops : List Nat)
  | diff (l r : Nat)
  | hom (h x : Nat)

/-- `operator==`: `/repo/sdd/dd/nary.hh:123-129`, `/repo/sdd/dd/difference.hh:154-160`, `/repo/sdd/hom/evaluation.hh:115-121` (keys of the same cache). -/
def OpKey.eq : OpKey → OpKey → Bool
  | .nary l, .nary m => (l.length % 2 ^ H.opsBits == m.length % 2 ^ H.opsBits) && rangeEq (· == ·) (stored H.opsBits l) (stored H.opsBits m)
  | .diff l r, .diff l' r' => l == l' && r == r'
  | .hom h x, .hom h' x' => h == h' && x == x'
  | _, _ => false

/-- `std::hash`: `/repo/sdd/dd/nary.hh:268-278`, `/repo/sdd/dd/difference.hh:243-253`, `/repo/sdd/hom/evaluation.hh:161-171`; `hash<cache_entry>`
(`/repo/sdd/mem/cache_entry.hh:72-83`) is the hash of the operation. -/
def OpKey.hash : OpKey → Word
  | .nary l => hashRange 0 ((stored H.opsBits l).map H.ptr)
  | .diff l r => hashCombine (H.ptr l) (H.ptr r)
  | .hom h x => hashCombine (H.ptr h) (H.ptr x)

/-! ## Homomorphisms -/

/-- What a `mem::unique` of homomorphism holds, `/repo/sdd/hom/definition.hh:44-58`, in the order of the variant. -/
inductive HomData (I U : Type) : Type where
  | comp (l r : Nat)
  | consH (o : OrdObj I) (v next : Nat)
  | consF (o : OrdObj I) (v next : Nat)
  | const (x : Nat)
  | fix (h : Nat)
  | fn (target : Nat) (u : U)
  | id
  | ite (i t e : Nat)
  | ind (u : U)
  | inter (ops : List Nat)
  | loc (target h : Nat)
  | satFix (var F : Nat) (G : List Nat) (L : Nat)
  | satInter (var : Nat) (F : Option Nat) (G : List Nat) (L : Option Nat)
  | satSum (var : Nat) (F : Option Nat) (G : List Nat) (L : Option Nat)
  | sum (ops : List Nat)

/-- `variant::index`. (`/repo/sdd/mem/variant.hh`, lines 56-57.) -/
def HomData.index : HomData I U → Nat
  | .comp .. => 0
  | .consH .. => 1
  | .consF .. => 2
  | .const .. => 3
  | .fix .. => 4
  | .fn .. => 5
  | .id => 6
  | .ite .. => 7
  | .ind .. => 8
  | .inter .. => 9
  | .loc .. => 10
  | .satFix .. => 11
  | .satInter .. => 12
  | .satSum .. => 13
  | .sum .. => 14

/-- `operator==` of homomorphisms: in `/repo/sdd/hom`, `composition.hh:59`, `cons.hh:61`, `constant.hh:55`, `fixpoint.hh:70`, `function.hh:312` and `113`,
`identity.hh:57`, `if_then_else.hh:76`, `inductive.hh:312` and `139`, `intersection.hh:103`, `local.hh:110`, `saturation_fixpoint.hh:145`,
`saturation_intersection.hh:88`, `saturation_sum.hh:88`, `sum.hh:125`; and `/repo/sdd/mem/variant.hh:91-97`. -/
def HomData.eq [DecidableEq I] : HomData I U → HomData I U → Bool
  | .comp l r, .comp l' r' => l == l' && r == r'
  | .consH o v n, .consH o' v' n' => v == v' && n == n' && o.eq o' == some true
  | .consF o v n, .consF o' v' n' => v == v' && n == n' && o.eq o' == some true
  | .const x, .const x' => x == x'
  | .fix h, .fix h' => h == h'
  | .fn t u, .fn t' u' => t == t' && H.userEq u u'
  | .id, .id => true
  | .ite i t e, .ite i' t' e' => i == i' && t == t' && e == e'
  | .ind u, .ind u' => H.userEq u u'
  | .inter l, .inter m => flatSetEq l m
  | .loc t h, .loc t' h' => t == t' && h == h'
  | .satFix x F G L, .satFix x' F' G' L' => x == x' && F == F' && L == L' && (G.length % 2 ^ H.opsBits == G'.length % 2 ^ H.opsBits) &&
      rangeEq (· == ·) (stored H.opsBits G) (stored H.opsBits G')
  | .satInter x F G L, .satInter x' F' G' L' => x == x' && F == F' && L == L' && flatSetEq G G'
  | .satSum x F G L, .satSum x' F' G' L' => x == x' && F == F' && L == L' && flatSetEq G G'
  | .sum l, .sum m => (l.length % 2 ^ H.opsBits == m.length % 2 ^ H.opsBits) && rangeEq (· == ·) (stored H.opsBits l) (stored H.opsBits m)
  | _, _ => false

/-- `std::hash` of the alternatives: in `/repo/sdd/hom`, `composition.hh:154`, `cons.hh:112`, `constant.hh:105`, `fixpoint.hh:138`, `function.hh:362`,
`identity.hh:99`, `if_then_else.hh:137`, `inductive.hh:353`, `intersection.hh:231`, `local.hh:163`, `saturation_fixpoint.hh:222`,
`saturation_intersection.hh:156`, `saturation_sum.hh:153`, `sum.hh:268`. -/
def HomData.hash0 : HomData I U → Word
  | .comp l r => hashCombine (H.ptr l) (H.ptr r)
  | .consH o v n => hashCombine (hashCombine (o.hash H) (H.ptr v)) (H.ptr n)
  | .consF o v n => hashCombine (hashCombine (o.hash H) (H.ptr v)) (H.ptr n)
  | .const x => H.ptr x
  | .fix h => hashCombine (H.int 345789) (H.ptr h)
  | .fn t u => hashCombine (H.user u) (H.int t)
  | .id => 607769
  | .ite i t e => hashCombine (hashCombine (H.ptr i) (H.ptr t)) (H.ptr e)
  | .ind u => H.user u
  | .inter l => hashRange 0 (l.map H.ptr)
  | .loc t h => hashCombine (H.int t) (H.ptr h)
  | .satFix x F G L => hashRange (hashCombine (hashCombine (H.int x) (H.ptr F)) (H.ptr L)) ((stored H.opsBits G).map H.ptr)
  | .satInter x F G L => hashRange (hashOpt (hashOpt (H.int x) (F.map H.ptr)) (L.map H.ptr)) (G.map H.ptr)
  | .satSum x F G L => hashRange (hashOpt (hashOpt (H.int x) (F.map H.ptr)) (L.map H.ptr)) (G.map H.ptr)
  | .sum l => hashRange 0 ((stored H.opsBits l).map H.ptr)

/-- `hash<variant>`, `/repo/sdd/mem/variant.hh:175-186`. -/
def HomData.hash (h : HomData I U) : Word := hashCombine (h.hash0 H) (H.int h.index)

/-! ## Lemmas -/

theorem flatSetEq_iff [DecidableEq A] {l m : List A} : flatSetEq l m = true ↔ l = m := by
  induction l generalizing m with
  | nil => cases m <;> simp [flatSetEq]
  | cons a l ih => cases m <;> simp [flatSetEq, ih]

theorem rangeEq_take {α : Type} {eq : α → α → Bool} (heq : ∀ a b, eq a b = true → a = b) {l m : List α} (h : rangeEq eq l m = true) :
    l = m.take l.length := by
  induction l generalizing m with
  | nil => simp
  | cons a l ih =>
    cases m with
    | nil => simp [rangeEq] at h
    | cons b m =>
      simp only [rangeEq, Bool.and_eq_true] at h
      simp only [List.length_cons, List.take_succ_cons, List.cons.injEq]
      exact ⟨heq _ _ h.1, ih h.2⟩

theorem stored_eq {α : Type} {eq : α → α → Bool} (heq : ∀ a b, eq a b = true → a = b) {bits : Nat} {l m : List α}
    (hl : l.length % 2 ^ bits = m.length % 2 ^ bits) (h : rangeEq eq (stored bits l) (stored bits m) = true) : stored bits l = stored bits m := by
  rw [rangeEq_take heq h]
  apply List.take_of_length_le
  simp only [stored, List.length_take]
  have h1 := Nat.mod_le l.length (2 ^ bits)
  have h2 := Nat.mod_le m.length (2 ^ bits)
  omega

end Verif
