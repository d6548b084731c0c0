import Verif.Conform.DD
import Verif.Hom.History
import Verif.Hom.Carrier
/-!
# The unit tests of homomorphisms, run on the model

As `Verif.Conform.DD`, with the tests of `/repo/tests/hom`.  These are tests of the model, not proofs about it.  The tests of
`test_hom_interrupt.cc` are left out: the exceptions of users are, in the model, raised at chosen moments (`Lib.applyX`) and not when a chosen
value is met.
-/

set_option autoImplicit false
set_option linter.unusedSectionVars false

namespace Verif.Conform

/-- The functions and inductives of the tests: `targeted_incr`, `targeted_noop`, `ind` (`/repo/tests/hom/common_inductives.hh:14-256`), `f0`,
`f1`, `cut`, `id_prime`, `consume` (`test_hom_inductive.cc:36-311`), `threshold_fun` (`test_hom_function.cc:37-86`), `filter`, `no_selector`,
`incr_fun` (`test_hom_if_then_else.cc:46-137`). -/
inductive TU : Type where
  | tincr (x v : Nat)
  | tnoop (x : Nat)
  | ind (x : Nat)
  | f0
  | f1
  | cut
  | idPrime
  | consume
  | threshold (sel : Bool) (m : Nat)
  | filter (v : Nat)
  | noSelector
  | incrFun (v : Nat)
  deriving DecidableEq

/-- The code of a user's function. (Notation for the tests of `/repo/tests`.) -/
def TU.ser : TU → List Nat
  | .tincr x v => [0, x, v]
  | .tnoop x => [1, x]
  | .ind x => [2, x]
  | .f0 => [3]
  | .f1 => [4]
  | .cut => [5]
  | .idPrime => [6]
  | .consume => [7]
  | .threshold s m => [8, s.toNat, m]
  | .filter v => [9, v]
  | .noSelector => [10]
  | .incrFun v => [11, v]

section
variable {V E : Type} [DecidableEq V] (C : Cfg V E) (vs : List Nat → V) (el : V → List Nat)

/-- The homomorphisms of the tests. (Notation for the tests of `/repo/tests`.) -/
abbrev TH (V : Type) := Hom V Nat TU

/-- The behaviour of the functions and inductives of the tests. (Notation for the tests of `/repo/tests`.) -/
def tenv : User V Nat TU where
  fn u v := match u with
    | .threshold _ m => vs ((el v).filter (· ≤ m))
    | .filter w => vs ((el v).filter (w ≤ ·))
    | .incrFun w => vs ((el v).map (· + w))
    | _ => v
  fnSel u := match u with
    | .threshold s _ => s
    | .filter _ => true
    | .incrFun _ => true
    | _ => false
  fnShift _ := false
  indOne u := match u with
    | .cut => .zero
    | _ => .one
  indF u o v := match u with
    | .tincr _ w => if 2 ∈ el v then .consF o v .id else .consF o (vs ((el v).map (· + w))) .id
    | .tnoop _ => .consF o v .id
    | .f0 => .consF o (vs ((el v).map (· + 1))) .id
    | .f1 => .consF o (vs ((el v).map (· + 2))) .id
    | .cut => .consF o (vs []) .id
    | .idPrime => .consF o v (.ind u)
    | .consume => .ind u
    | _ => .id
  indH u o x := match u with
    | .tincr _ _ => .consH o x (.ind u)
    | .tnoop _ => .consH o x .id
    | .cut => .consH o .zero .id
    | .idPrime => .consH o x (.ind u)
    | .consume => .ind u
    | _ => .id
  indSkip u i := match u with
    | .tincr x _ => i.user != x
    | .tnoop x => i.user != x
    | .ind x => i.user != x
    | .f0 => i.user != 0
    | .f1 => i.user != 1
    | _ => false
  indSel u := match u with
    | .tnoop _ => true
    | .idPrime => true
    | _ => false

/-- The code of an order. (Notation for the tests of `/repo/tests`.) -/
def obSer : OB Nat → List Nat
  | .nil => [0]
  | .node i n x => 1 :: i.artificial :: i.user :: (obSer n ++ obSer x)

mutual
/-- The code of a homomorphism: its address, for the purposes of the tests. (Notation for the tests of `/repo/tests`.) -/
def hser (serV : V → List Nat) : TH V → List Nat
  | .id => [0]
  | .comp l r => 1 :: (hser serV l ++ hser serV r)
  | .consF o v n => 2 :: (obSer o ++ serV v ++ hser serV n)
  | .consH o v n => 3 :: (obSer o ++ v.ser serV ++ hser serV n)
  | .const s => 4 :: s.ser serV
  | .fix h => 5 :: hser serV h
  | .fn x u => 6 :: x :: u.ser
  | .ite i t e => 7 :: (hser serV i ++ hser serV t ++ hser serV e)
  | .ind u => 8 :: u.ser
  | .inter hs => 9 :: hserL serV hs
  | .loc x h => 10 :: x :: hser serV h
  | .satFix x F G L => 11 :: x :: (hser serV F ++ hserL serV G ++ hser serV L)
  | .satInter x F G L => 12 :: x :: (hserL serV F ++ hserL serV G ++ hserL serV L)
  | .satSum x F G L => 13 :: x :: (hserL serV F ++ hserL serV G ++ hserL serV L)
  | .sum hs => 14 :: hserL serV hs
/-- The codes of operands. (Notation for the tests of `/repo/tests`.) -/
def hserL (serV : V → List Nat) : List (TH V) → List Nat
  | [] => [0]
  | h :: hs => 1 :: (hser serV h ++ hserL serV hs)
end

/-- The comparison of addresses. (Notation for the tests of `/repo/tests`.) -/
def hlt (h g : TH V) : Bool := lexLt (hser (fun v => (el v).length :: el v) h) (hser (fun v => (el v).length :: el v) g)

/-- A test. (Notation for the tests of `/repo/tests`.) -/
abbrev HT (V : Type) := HM orc V Nat TU

/-- `h(o, x)`. (Notation for the tests of `/repo/tests`.) -/
def ap (h : TH V) (o : OB Nat) (x : SDD V) : HT V (SDD V) := homC (tenv vs el) C orc cap 1000 30 h o x
/-- `sum(o, {…})`. (Notation for the tests of `/repo/tests`.) -/
def hsm (l : List (TH V)) : HT V (TH V) := match hsum (hlt el) id l with
  | .ok h => pure h
  | .error e => DDMonad.raise e
/-- `intersection(o, {…})`. (Notation for the tests of `/repo/tests`.) -/
def hin (l : List (TH V)) : HT V (TH V) := match hinter (hlt el) id l with
  | .ok h => pure h
  | .error e => DDMonad.raise e
/-- `if_then_else`. (Notation for the tests of `/repo/tests`.) -/
def hif (i t e : TH V) : HT V (TH V) := match hite (tenv vs el) i t e with
  | .ok h => pure h
  | .error e => DDMonad.raise e
/-- A function which throws when the identifier is not found. (Notation for the tests of `/repo/tests`.) -/
def ofOrd (b : OB Nat) (f : Ord Nat → Option (TH V)) : HT V (TH V) := match Ord.ofBuilder b with
  | .ok o => match f o with
    | some h => pure h
    | none => DDMonad.raise .invalid
  | .error _ => DDMonad.raise .invalid
/-- `function(o, i, u)`. (Notation for the tests of `/repo/tests`.) -/
def hfu (b : OB Nat) (i : Nat) (u : TU) : HT V (TH V) := ofOrd b fun o => hfunction o i u
/-- `local(i, o, h)`. (Notation for the tests of `/repo/tests`.) -/
def hlo (b : OB Nat) (i : Nat) (h : TH V) : HT V (TH V) := ofOrd b fun o => hlocal o i h
/-- `rewrite(o, h)`. (Notation for the tests of `/repo/tests`.) -/
def hrw (b : OB Nat) (h : TH V) : TH V := hrewrite (tenv vs el) (hlt el) id b h

/-- An operation on SDDs. (Notation for the tests of `/repo/tests`.) -/
def dd (x : T V (SDD V)) : HT V (SDD V) := HM.lift x

/-- `ASSERT_EQ`. (Notation for the tests of `/repo/tests`.) -/
def heq (x : SDD V) (y : HT V (SDD V)) : HT V Bool := do let y ← y; pure (decide (x = y))
/-- `ASSERT_THROW(…, std::invalid_argument)`. (Notation for the tests of `/repo/tests`.) -/
def inval {α : Type} (x : HT V α) : HT V Bool := fun s => match x s with
  | (.error .invalid, s') => (.ok true, s')
  | (_, s') => (.ok false, s')
/-- `cxt.cache().size()`. (Notation for the tests of `/repo/tests`.) -/
def hsize : HT V Nat := fun s => (.ok s.homs.length, s)

/-- All the assertions of a test case hold. (Notation for the tests of `/repo/tests`.) -/
def hall : List (HT V Bool) → HT V Bool
  | [] => pure true
  | t :: ts => do
    let b ← t
    let r ← hall ts
    pure (b && r)

/-- Execution of a test case with a new manager. (Notation for the tests of `/repo/tests`.) -/
def hrun (t : HT V Bool) : Bool := match t ⟨⟨fun _ => [], 0⟩, []⟩ with
  | (.ok b, _) => b
  | _ => false

local notation "o" => (SDD.one : SDD V)
local notation "z" => (SDD.zero : SDD V)
/-- `inductive(targeted_incr(x, v))`. (Notation for the tests of `/repo/tests`.) -/
def ti (x v : Nat) : TH V := .ind (.tincr x v)
/-- `order_builder {…}`. (Notation for the tests of `/repo/tests`.) -/
abbrev ob (l : List Nat) : OB Nat := OB.ofList l
/-- An identifier. (Notation for the tests of `/repo/tests`.) -/
abbrev na : Nat := 10
/-- An identifier. (Notation for the tests of `/repo/tests`.) -/
abbrev nb : Nat := 11
/-- An identifier. (Notation for the tests of `/repo/tests`.) -/
abbrev nc : Nat := 12
/-- An identifier. (Notation for the tests of `/repo/tests`.) -/
abbrev nx : Nat := 13
/-- An identifier. (Notation for the tests of `/repo/tests`.) -/
abbrev ny : Nat := 14

/-- `construction`, `evaluation`, `/repo/tests/hom/test_hom_composition.cc:42-74`. -/
def composition : HT V Bool := do
  let h1 : TH V := ti 0 1
  let h2 : TH V := ti 0 2
  let a : TH V := ti na 1
  let t ← heq (fl C vs 0 [2] o) (ap C vs el (hcomp a a) (ob [na]) (fl C vs 0 [0] o))
  pure (t && decide (hcomp (.id : TH V) .id = .id) && decide (hcomp .id h1 = h1) && decide (hcomp h1 .id = h1) &&
    decide (hcomp h2 h1 ≠ hcomp h1 h2))

/-- `construction`, `evaluation`, `no_cache`, `/repo/tests/hom/test_hom_cons.cc:43-104`. -/
def cons : HT V Bool := do
  let b := ob [na]
  let e := ob [0]
  let n0 ← hsize
  let t ← hall [heq (fl C vs 0 [0, 1, 2] o) (ap C vs el (.consF b (vs [0, 1, 2]) .id) b o),
    heq z (ap C vs el (.consF b (vs []) .id) b o), heq (hi C 0 o o) (ap C vs el (.consH b o .id) b o)]
  let n1 ← hsize
  pure (t && decide (n0 = 0 ∧ n1 = 0) && decide ((.consF e (vs [0, 1, 3]) .id : TH V) ≠ .consF e (vs [0, 1, 2]) .id) &&
    decide ((.consH e o .id : TH V) ≠ .consH e z .id) && decide ((.consH e o .id : TH V) ≠ .consF e (vs [0, 1, 2]) .id))

/-- `construction`, `evaluation`, `/repo/tests/hom/test_hom_fixpoint.cc:42-74`. -/
def fixpoint : HT V Bool := do
  let h : TH V := ti 0 1
  let s ← hsm el [h, .id]
  let t ← heq (fl C vs 0 [0, 1, 2] o) (ap C vs el (hfix s) (ob [0]) (fl C vs 0 [0] o))
  pure (t && decide (hfix (.id : TH V) = .id) && decide (hfix h ≠ hfix (ti 0 2)) && decide (hfix h = hfix (hfix h)))

/-- `construction`, `evaluation_selector`, `evaluation_no_selector`, `/repo/tests/hom/test_hom_function.cc:121-240`. -/
def function (sel : Bool) : HT V Bool := do
  let b1 := ob [na]
  let b := ob [na, nb]
  let th := TU.threshold sel
  let h0 ← hfu b na (.threshold true 3)
  let h0' ← hfu b na (.threshold true 0)
  let h1 ← hfu b nb (.threshold true 3)
  let a2 ← hfu b1 na (th 2)
  let p := fun l => fl C vs 1 l (fl C vs 0 l o)
  let s ← dd (sum C [p [1, 2, 3], p [4, 5, 6]])
  let f ← hfu b na (th 2)
  let g ← hfu b nb (th 2)
  let f0 ← hfu b na (th 0)
  let g0 ← hfu b nb (th 0)
  let t ← hall [heq (fl C vs 0 [1, 2] o) (ap C vs el a2 b1 (fl C vs 0 [1, 2, 3] o)),
    heq (fl C vs 0 [0, 1] o) (ap C vs el a2 b1 (fl C vs 0 [0, 1, 3] o)),
    heq (fl C vs 1 [1, 2] (fl C vs 0 [1, 2, 3] o)) (ap C vs el f b s),
    heq (fl C vs 1 [1, 2, 3] (fl C vs 0 [1, 2] o)) (ap C vs el g b s),
    heq z (ap C vs el f0 b s), heq z (ap C vs el g0 b s)]
  pure (t && decide ((h0 : TH V) ≠ h0') && decide (h0 ≠ h1))

/-- `evaluation`, `no_cache`, `/repo/tests/hom/test_hom_identity.cc:49-65`. -/
def identity : HT V Bool := do
  let n0 ← hsize
  let t ← heq o (ap C vs el .id .nil o)
  let n1 ← hsize
  pure (t && decide (n0 = 0 ∧ n1 = 0))

/-- `construction`, `construction_error`, `evaluation`, `/repo/tests/hom/test_hom_if_then_else.cc:187-264`. -/
def ifThenElse : HT V Bool := do
  let i0 : TH V := ti na 1
  let i1 : TH V := ti nb 1
  let e0 ← hif vs el .id i0 i1
  let e1 ← hif vs el .id i1 i0
  let k ← hfu (ob [na]) na .noSelector
  let t0 ← inval (hif vs el k .id .id)
  let b := ob [na, nb, nc]
  let p := fun i j k => fl C vs 2 [i] (fl C vs 1 [j] (fl C vs 0 [k] o))
  let s ← dd (sum C [p 0 0 0, p 1 1 1, p 2 2 2])
  let pa ← hfu b na (.filter 1)
  let pb ← hfu b nb (.filter 1)
  let inc ← hfu b na (.incrFun 1)
  let inc1 ← hfu b nc (.incrFun 2)
  let c0 ← hif vs el pa .id .id
  let c1 ← hif vs el pb inc .id
  let c2 ← hif vs el pb .id inc
  let c3 ← hif vs el pb inc1 inc
  let r1 ← dd (sum C [p 0 0 0, p 2 1 1, p 3 2 2])
  let r2 ← dd (sum C [p 1 0 0, p 1 1 1, p 2 2 2])
  let r3 ← dd (sum C [p 1 0 0, p 1 1 3, p 2 2 4])
  let t ← hall [heq s (ap C vs el c0 b s), heq r1 (ap C vs el c1 b s), heq r2 (ap C vs el c2 b s), heq r3 (ap C vs el c3 b s)]
  pure (t0 && t && decide (e0 = i0) && decide (e0 ≠ e1))

/-- `construction`, `evaluation_flat`, `evaluation_hierarchical`, `cut_path`, `/repo/tests/hom/test_hom_inductive.cc:392-497`. -/
def inductives : HT V Bool := do
  let f0 : TH V := .ind .f0
  let f1 : TH V := .ind .f1
  let p := fun l k => fl C vs 1 l (fl C vs 0 k o)
  let b := ob [0, 1]
  let b' := ob [1, 0]
  let s0 ← dd (sum C [p [0] [0], p [1] [1]])
  let s1 ← dd (sum C [p [1] [0], p [2] [1]])
  hall [pure (decide (f0 ≠ f1)), heq (fl C vs 0 [1, 2, 3] o) (ap C vs el f0 (ob [0]) (fl C vs 0 [0, 1, 2] o)),
    heq (p [1, 2, 3] [2, 3, 4]) (do ap C vs el f1 b (← ap C vs el f0 b (p [0, 1, 2] [0, 1, 2]))),
    heq (p [1, 2, 3] [2, 3, 4]) (do ap C vs el f0 b (← ap C vs el f1 b (p [0, 1, 2] [0, 1, 2]))),
    heq s1 (ap C vs el f0 b s0),
    heq (fl C vs 0 [0, 1, 2] o) (ap C vs el (.ind .idPrime) (ob [0]) (fl C vs 0 [0, 1, 2] o)),
    heq o (ap C vs el (.ind .consume) b' (fl C vs 1 [0, 1, 2] (hi C 0 o o))),
    heq z (ap C vs el (.ind .cut) .nil o), heq z (ap C vs el (.ind .cut) (ob [na]) (fl C vs 0 [0] o)),
    heq z (ap C vs el (.ind .cut) (ob [na]) (hi C 0 o o))]

/-- `evaluation_hierarchical`, `/repo/tests/hom/test_hom_inductive.cc:445-479`. -/
def inductives' : HT V Bool := do
  let f0 : TH V := .ind .f0
  let f1 : TH V := .ind .f1
  let p := fun l k => fl C vs 1 l (fl C vs 0 k o)
  let b' := ob [1, 0]
  hall [heq (p [1, 2, 3] [2, 3, 4]) (ap C vs el f0 b' (p [1, 2, 3] [1, 2, 3])),
    heq (p [3, 4, 5] [1, 2, 3]) (ap C vs el f1 b' (p [1, 2, 3] [1, 2, 3])),
    heq (p [2, 3, 4] [1, 2, 3]) (do ap C vs el f1 b' (← ap C vs el f0 b' (p [0, 1, 2] [0, 1, 2]))),
    heq (p [2, 3, 4] [1, 2, 3]) (do ap C vs el f0 b' (← ap C vs el f1 b' (p [0, 1, 2] [0, 1, 2])))]

/-- `construction`, `evaluation`, `/repo/tests/hom/test_hom_local.cc:42-77`. -/
def locals : HT V Bool := do
  let b := ob [0]
  let l0 ← hlo b 0 .id
  let l1 ← hlo b 0 (ti 0 1)
  let l2 ← hlo b 0 (ti 0 2)
  let c := OB.concat (.node (OB.uid nx) (ob [na]) .nil) (.node (OB.uid ny) (ob [nb]) .nil)
  let g := fun i j => hi C 1 (fl C vs 0 [i] o) (hi C 0 (fl C vs 0 [j] o) o)
  let h1 ← hlo c nx (ti na 1)
  let h2 ← hlo c ny (ti nb 1)
  let t ← hall [heq (g 1 1) (ap C vs el h1 c (g 0 1)), heq (g 0 2) (ap C vs el h2 c (g 0 1))]
  pure (t && decide ((l0 : TH V) = .id) && decide ((l1 : TH V) ≠ l2))

/-- `construction`, `evaluation`, `/repo/tests/hom/test_hom_saturation_fixpoint.cc:45-93`. -/
def satFixpoint : HT V Bool := do
  let g1 := hsatFix (hlt el) 0 .id [.id, (.ind (.tnoop 0) : TH V)] .id
  let g2 := hsatFix (hlt el) 0 .id [.id, (.ind (.tnoop 2) : TH V)] .id
  let b := ob [na, nb, nc]
  let p := fun i j k => fl C vs 2 i (fl C vs 1 j (fl C vs 0 k o))
  let f ← hsm el [ti nc 1, .id]
  let h := hsatFix (hlt el) 1 (hfix f) [ti nb 2] .id
  let r ← hsm el [ti nc 1, ti nb 2, .id]
  let r0 ← ap C vs el (hfix r) b (p [0] [0] [0])
  let c := ((OB.nil.push (OB.uid nc) .nil).push (OB.uid nb) (ob [nx])).push (OB.uid na) .nil
  let s := fl C vs 2 [0] (hi C 1 (fl C vs 0 [0] o) (fl C vs 0 [0] o))
  let k ← hsm el [ti nx 2, .id]
  let l ← hlo c nb k
  let h' := hsatFix (hlt el) 1 (hfix f) [] l
  let l' ← hlo c nb (ti nx 2)
  let r' ← hsm el [ti nc 1, l', .id]
  let r1 ← ap C vs el (hfix r') c s
  let t ← hall [heq r0 (ap C vs el h b (p [0] [0] [0])), heq (p [0] [0, 2] [0, 1, 2]) (ap C vs el h b (p [0] [0] [0])),
    heq r1 (ap C vs el h' c s)]
  pure (t && decide (g1 ≠ g2))

/-- `construction`, `evaluation`, `/repo/tests/hom/test_hom_saturation_sum.cc:44-77`. -/
def satSums : HT V Bool := do
  let g1 := hsatSum (hlt el) 0 none [.id, (.ind (.tnoop 0) : TH V)] none
  let g2 := hsatSum (hlt el) 0 none [.id, (.ind (.tnoop 2) : TH V)] none
  let b := ob [na, nb, nc]
  let p := fun i j k => fl C vs 2 [i] (fl C vs 1 [j] (fl C vs 0 [k] o))
  let h := hsatSum (hlt el) 1 (some (hsatSum (hlt el) 0 (some (ti nc 1)) [] none)) [ti nb 1] none
  let r ← dd (sum C [p 0 1 0, p 0 0 1])
  let t ← heq r (ap C vs el h b (p 0 0 0))
  pure (t && decide (g1 ≠ g2))

/-- `construction`, `evaluation`, `/repo/tests/hom/test_hom_sum.cc:42-129`. -/
def sums : HT V Bool := do
  let i := fun x => (.ind (.ind x) : TH V)
  let b := ob [0]
  let c := ob [0, 1, 2]
  let s1 ← hsm el [(.id : TH V)]
  let k := (.consF b (vs [0, 1]) .id : TH V)
  let s2 ← hsm el [k]
  let s3 ← hsm el [(.id : TH V), .id]
  let s4 ← hsm el [.id, k]
  let s5 ← hsm el [.id, (.consF b (vs [0, 2]) .id : TH V)]
  let h1 ← hsm el [.id, i 0, .id]
  let h2 ← hsm el [i 1, i 2]
  let h3 ← hsm el [h1, h2, .id]
  let h4 ← hsm el [.id, i 0, i 1, i 2]
  let l1 ← hlo c 0 (i 0)
  let l2 ← hlo c 0 (i 1)
  let l3 ← hlo c 1 (i 2)
  let s6 ← hsm el [l1, l2]
  let s01 ← hsm el [i 0, i 1]
  let s7 ← hlo c 0 s01
  let s8 ← hsm el [l1, l2, l3]
  let s9 ← hsm el [s7, l3]
  let t ← hall [inval (hsm el ([] : List (TH V))), heq o (ap C vs el s1 .nil o), heq z (ap C vs el s1 .nil z)]
  pure (t && decide (s1 = .id) && decide (s2 = k) && decide (s3 = s1) && decide (s4 ≠ s5) && decide (h3 = h4) && decide (s6 = s7) &&
    decide (s8 = s9))

/-- `partition`, `sum`, `intersection`, `transitive_closure`, `/repo/tests/hom/test_rewriting.cc:46-176`. -/
def rewriting : HT V Bool := do
  let a := ob [na]
  let l ← hlo a na (ti na 0)
  let p := hparts (tenv vs el) 0 (OB.uid na) [(.id : TH V), ti na 0, ti nb 0, l]
  let b := OB.concat (.node (OB.uid na) (ob [nx]) .nil) (ob [nb])
  let c := ob [na, nb, nc]
  let lx ← hlo b na (ti nx 0)
  let sb := hi C 1 (fl C vs 0 [0] o) (fl C vs 0 [0] o)
  let sc := fl C vs 2 [0] (fl C vs 1 [0] (fl C vs 0 [0] o))
  let same := fun b (h : TH V) s => do
    let r ← ap C vs el h b s
    let t ← heq r (ap C vs el (hrw vs el b h) b s)
    pure (t && decide (hrw vs el b h ≠ h))
  let h0 ← hsm el [.id, ti nb 0, lx]
  let h1 ← hsm el [ti na 0, ti nb 0, ti nc 0]
  let h2 ← hin el [ti nb 0, lx]
  let h3 ← hin el [ti na 0, ti nb 0, ti nc 0]
  let h4 ← hsm el [ti nb 0, lx]
  let r := hsatInter (hlt el) 2 (some (hsatInter (hlt el) 1 (some (ti nc 0)) [ti nb 0] none)) [ti na 0] none
  let t ← hall [same b h0 sb, same c h1 sc, same b h2 sb, same c h3 sc, same b (hfix h0) sb]
  pure (t && decide (p.F.length = 1 ∧ p.G.length = 1 ∧ p.L.length = 1 ∧ p.hasId = true) && decide (hrw vs el c h3 = r) &&
    decide (hrw vs el b (hfix h4) = hfix h4))

/-- All the tests. (Notation for the tests of `/repo/tests`.) -/
def hsuite : List Bool :=
  [hrun (composition C vs el), hrun (cons C vs el), hrun (fixpoint C vs el), hrun (function C vs el true), hrun (function C vs el false),
    hrun (identity C vs el), hrun (ifThenElse C vs el), hrun (inductives C vs el), hrun (inductives' C vs el), hrun (locals C vs el),
    hrun (satFixpoint C vs el), hrun (satSums C vs el), hrun (sums C vs el), hrun (rewriting C vs el)]

end

/-- The elements of a bitset. (Notation for the tests of `/repo/tests`.) -/
def bel (v : BitVec 64) : List Nat := (List.range 64).filter fun i => v.getLsbD i

example : (hsuite conf0 bs bel).all id = true := by decide +kernel
example : (hsuite conf1 ns fun v => v.data).all id = true := by decide +kernel

end Verif.Conform
