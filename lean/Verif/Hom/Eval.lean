import Verif.Hom.Syntax
/-!
# Evaluation of homomorphisms

The evaluation is written with open recursion: `rec h o x` is the application of a homomorphism to an SDD
(`homomorphism::operator()`), `dd` the evaluation of the operations on SDDs.  Orders are seen as trees (`OB`): the variable of
the first level is the number of levels after it (see `Ord.View`).  As for operations on SDDs, the arcs of a node are visited in any
order (`DDMonad.ord`).
-/

set_option autoImplicit false
set_option linter.unusedSectionVars false

namespace Verif

variable {V E I U : Type} {m : Type → Type} [DecidableEq V] [DecidableEq I] [DecidableEq U] [DDMonad V m]

open DDMonad (raise ord)

/-- `order::variable` of an order which is not empty, from the rest of the order. (`/repo/sdd/order/order.hh`, `variable()`.) -/
def OB.lvl (nxt : OB I) : Nat := nxt.level.length

/-- The loop filling the square union when a level is skipped, `/repo/sdd/hom/evaluation.hh:69-77`. -/
def skipArcs {α : Type} (C : Cfg V E) (k : Kind V m α) (f : SDD V → m (SDD V)) :
    List (α × SDD V) → List (SDD V × List α) → m (List (SDD V × List α))
  | [], su => pure su
  | (v, s) :: arcs, su => do
    let r ← f s
    if r.isZero then skipArcs C k f arcs su
    else skipArcs C k f arcs (suAdd C k su r v)

/-- A skipped level, `/repo/sdd/hom/evaluation.hh:62-79`. -/
def skipNode {α : Type} (C : Cfg V E) (k : Kind V m α) (f : SDD V → m (SDD V)) (x : Nat) (arcs : List (α × SDD V)) :
    m (SDD V) := do
  let arcs ← ord arcs
  let su ← skipArcs C k f arcs []
  let alpha ← suEnd C k su
  mkNode C k.node x alpha

/-- The application of several homomorphisms to the same operand: the loops of `/repo/sdd/hom/sum.hh:69-72` and
`/repo/sdd/hom/saturation_sum.hh:52-65`, `/repo/sdd/hom/saturation_intersection.hh:52-65`. -/
def applyAll (rec : Hom V I U → OB I → SDD V → m (SDD V)) (o : OB I) (x : SDD V) : List (Hom V I U) → m (List (SDD V))
  | [] => pure []
  | h :: hs => do
    let r ← rec h o x
    let rs ← applyAll rec o x hs
    pure (r :: rs)

/-- The loop of `/repo/sdd/hom/intersection.hh:51-60`, which stops on the first empty result. -/
def applyInter (C : Cfg V E) (dd : Op V → m (SDD V)) (rec : Hom V I U → OB I → SDD V → m (SDD V)) (o : OB I) (x : SDD V) :
    List (Hom V I U) → List (SDD V) → m (SDD V)
  | [], acc => opInter C dd acc
  | h :: hs, acc => do
    let r ← rec h o x
    if r.isZero then pure .zero else applyInter C dd rec o x hs (acc ++ [r])

/-- The loop of `/repo/sdd/hom/fixpoint.hh:41-48`, with a bound on the number of iterations. -/
def fixLoop (f : SDD V → m (SDD V)) : Nat → SDD V → m (SDD V)
  | 0, _ => raise .fuel
  | n + 1, x => do
    let y ← f x
    if y = x then pure y else fixLoop f n y

/-- The loop on the part `G` of a saturation fixpoint, `/repo/sdd/hom/saturation_fixpoint.hh:96-100`. -/
def chain (C : Cfg V E) (dd : Op V → m (SDD V)) (rec : Hom V I U → OB I → SDD V → m (SDD V)) (o : OB I) :
    List (Hom V I U) → SDD V → m (SDD V)
  | [], s => pure s
  | g :: G, s => do
    let r ← rec g o s
    let s ← opSum C dd [s, r]
    chain C dd rec o G s

/-- One iteration of a saturation fixpoint, `/repo/sdd/hom/saturation_fixpoint.hh:91-100`. -/
def satRound (C : Cfg V E) (dd : Op V → m (SDD V)) (rec : Hom V I U → OB I → SDD V → m (SDD V)) (o : OB I)
    (F : Hom V I U) (G : List (Hom V I U)) (L : Hom V I U) (s : SDD V) : m (SDD V) := do
  let s ← rec F o s
  let s ← rec L o s
  chain C dd rec o G s

/-- The loop filling the alpha of a user's function, `/repo/sdd/hom/function.hh:262-269`. -/
def fnAlpha (C : Cfg V E) (f : V → V) : List (V × SDD V) → List (V × SDD V) → List (V × SDD V)
  | [], alpha => alpha
  | (v, s) :: arcs, alpha =>
    if C.visEmpty (f v) then fnAlpha C f arcs alpha else fnAlpha C f arcs (alphaAdd C alpha (f v) s)

/-- The loop of a local whose operand is a selector, `/repo/sdd/hom/local.hh:50-57`. -/
def locSquare (C : Cfg V E) (k : Kind V m (SDD V)) (f : SDD V → m (SDD V)) :
    List (SDD V × SDD V) → List (SDD V × List (SDD V)) → m (List (SDD V × List (SDD V)))
  | [], su => pure su
  | (v, s) :: arcs, su => do
    let r ← f v
    if r.isZero then locSquare C k f arcs su
    else locSquare C k f arcs (suAdd C k su s r)

/-- The loop of a local in the general case, `/repo/sdd/hom/local.hh:64-68`: the operands of the sum. -/
def locSum (C : Cfg V E) (k : Kind V m (SDD V)) (f : SDD V → m (SDD V)) (x : Nat) :
    List (SDD V × SDD V) → m (List (SDD V))
  | [] => pure []
  | (v, s) :: arcs => do
    let r ← f v
    let rs ← locSum C k f x arcs
    pure (mkNode1 k x r s :: rs)

/-- The loop of an inductive homomorphism, `/repo/sdd/hom/inductive.hh:276-280`: the operands of the sum. -/
def indArcs {α : Type} (f : α → SDD V → m (SDD V)) : List (α × SDD V) → m (List (SDD V))
  | [] => pure []
  | (v, s) :: arcs => do
    let r ← f v s
    let rs ← indArcs f arcs
    pure (r :: rs)

/-- The `operator()` of each homomorphism. `n` bounds the number of iterations of fixpoints.
(`/repo/sdd/hom/*.hh`, the `operator()` of each file; see the comments of each case.) -/
def homWork (env : User V I U) (C : Cfg V E) (dd : Op V → m (SDD V)) (n : Nat)
    (rec : Hom V I U → OB I → SDD V → m (SDD V)) (h : Hom V I U) (o : OB I) (x : SDD V) : m (SDD V) :=
  match h with
  -- `/repo/sdd/hom/identity.hh:31-37`
  | .id => raise .ub
  -- `/repo/sdd/hom/composition.hh:33-39`
  | .comp l r => do
    let y ← rec r o x
    rec l o y
  -- `/repo/sdd/hom/cons.hh:36-41`
  | .consF o v h =>
    match o with
    | .nil => raise .ub
    | .node _ _ nxt => do
      let r ← rec h nxt x
      pure (mkNode1 (m := m) (flatKind C) nxt.lvl v r)
  | .consH o v h =>
    match o with
    | .nil => raise .ub
    | .node _ _ nxt => do
      let r ← rec h nxt x
      pure (mkNode1 (hierKind C dd) nxt.lvl v r)
  -- `/repo/sdd/hom/constant.hh:30-35`
  | .const s => pure s
  -- `/repo/sdd/hom/fixpoint.hh:38-50`
  | .fix h => fixLoop (rec h o) n x
  -- `/repo/sdd/hom/function.hh:225-283,303-308`
  | .fn _ u =>
    match x, o with
    | .one, _ => pure .one
    | .flat _ arcs, .node _ _ nxt => do
      let arcs ← ord arcs
      if env.fnSel u || env.fnShift u then mkNode C .flat nxt.lvl (fnAlpha C (env.fn u) arcs [])
      else opSum C dd (arcs.map fun a => mkNode1 (m := m) (flatKind C) nxt.lvl (env.fn u a.1) a.2)
    | _, _ => raise .ub
  -- `/repo/sdd/hom/if_then_else.hh:37-54`
  | .ite i t e => do
    let tmp ← rec i o x
    let a ← rec t o tmp
    let d ← ddDiff dd x tmp
    let b ← rec e o d
    opSum C dd [a, b]
  -- `/repo/sdd/hom/inductive.hh:249-292`
  | .ind u =>
    match x, o with
    | .one, _ => pure (env.indOne u)
    | .flat _ arcs, .node id nst nxt => do
      let arcs ← ord arcs
      let rs ← indArcs (fun v s => rec (env.indF u (.node id nst nxt) v) nxt s) arcs
      opSum C dd rs
    | .hier _ arcs, .node id nst nxt => do
      let arcs ← ord arcs
      let rs ← indArcs (fun v s => rec (env.indH u (.node id nst nxt) v) nxt s) arcs
      opSum C dd rs
    | _, _ => raise .ub
  -- `/repo/sdd/hom/intersection.hh:45-61`
  | .inter hs => applyInter C dd rec o x hs []
  -- `/repo/sdd/hom/local.hh:34-90`
  | .loc _ h =>
    match x, o with
    | .hier y arcs, .node _ nst _ => do
      let arcs ← ord arcs
      if h.selector env then do
        let su ← locSquare C (hierKind C dd) (rec h nst) arcs []
        let alpha ← suEnd C (hierKind C dd) su
        mkNode C .hier y alpha
      else do
        let rs ← locSum C (hierKind C dd) (rec h nst) y arcs
        opSum C dd rs
    | _, _ => raise .ub
  -- `/repo/sdd/hom/saturation_fixpoint.hh:80-104`
  | .satFix _ F G L => fixLoop (satRound C dd rec o F G L) n x
  -- `/repo/sdd/hom/saturation_intersection.hh:45-67`
  | .satInter _ F G L => do
    let rs ← applyAll rec o x (F ++ G ++ L)
    opInter C dd rs
  -- `/repo/sdd/hom/saturation_sum.hh:45-67`
  | .satSum _ F G L => do
    let rs ← applyAll rec o x (F ++ G ++ L)
    opSum C dd rs
  -- `/repo/sdd/hom/sum.hh:63-74`
  | .sum hs => do
    let rs ← applyAll rec o x hs
    opSum C dd rs

/-- `evaluation::operator()`, `/repo/sdd/hom/evaluation.hh:25-86`: dispatch on the kind of the operand. The two assertions
(lines 58-59) are undefined behaviours when violated. -/
def homEval (env : User V I U) (C : Cfg V E) (dd : Op V → m (SDD V)) (n : Nat)
    (rec : Hom V I U → OB I → SDD V → m (SDD V)) (h : Hom V I U) (o : OB I) (x : SDD V) : m (SDD V) :=
  match x, o with
  | .zero, _ => raise .ub
  | .one, _ => homWork env C dd n rec h o x
  | .flat y arcs, .node id _ nxt =>
    if y ≠ nxt.lvl then raise .ub
    else if h.skip env nxt.lvl id then skipNode C (flatKind C) (rec h nxt) y arcs
    else homWork env C dd n rec h o x
  | .hier y arcs, .node id _ nxt =>
    if y ≠ nxt.lvl then raise .ub
    else if h.skip env nxt.lvl id then skipNode C (hierKind C dd) (rec h nxt) y arcs
    else homWork env C dd n rec h o x
  | _, .nil => raise .ub

/-- `homomorphism::operator()`, `/repo/sdd/hom/definition.hh:192-205`, with a bound on the depth of recursive applications (and on the
iterations of fixpoints); `call` is the cache of homomorphisms. -/
def runH (env : User V I U) (C : Cfg V E) (dd : Op V → m (SDD V))
    (call : (Hom V I U → OB I → SDD V → m (SDD V)) → Hom V I U → OB I → SDD V → m (SDD V)) :
    Nat → Hom V I U → OB I → SDD V → m (SDD V)
  | 0, _, _, _ => raise .fuel
  | n + 1, h, o, x =>
    if h.isId || x.isZero then pure x
    else call (homEval env C dd n (runH env C dd call n)) h o x

/-- The heights of the operands of an operation: a bound on the number of nested calls it makes. (Proof device, not part of the code.) -/
def Op.bound : Op V → Nat
  | .sum xs => maxHeight xs
  | .inter xs => maxHeight xs
  | .diff l r => maxHeight [l, r]

/-- An operation evaluated with enough nested calls. (Proof device, not part of the code.) -/
def autoRun (run : Nat → Op V → m (SDD V)) (op : Op V) : m (SDD V) := run op.bound op

/-- Application of a homomorphism without any cache. (`/repo/sdd/hom/definition.hh`, lines 192-205, without cache.) -/
def homP (env : User V I U) (C : Cfg V E) (c : Nat → List Nat) :
    Nat → Hom V I U → OB I → SDD V → Plain c V (SDD V) :=
  runH env C (autoRun (runP C c)) fun f => f

/-! ## With caches -/

/-- The state: the caches of operations on SDDs and the cache of homomorphisms (`/repo/sdd/hom/context.hh:27-82`). The key of an
entry is the homomorphism and its operand, without the order (`/repo/sdd/hom/evaluation.hh:115-121`). -/
structure HMach (V I U : Type) where
  dd : Mach V
  homs : Lru (Hom V I U × SDD V) (SDD V)

/-- Evaluation with caches. (Effects of `/repo/sdd/mem/cache.hh`, lines 211-261, for `/repo/sdd/hom/evaluation.hh`.) -/
def HM (_orc : Nat → Nat → List Nat) (V I U : Type) (α : Type) : Type :=
  HMach V I U → Except (Err V) α × HMach V I U

instance (orc : Nat → Nat → List Nat) (V I U : Type) : DDMonad V (HM orc V I U) where
  pure a := fun s => (.ok a, s)
  bind x f := fun s => match x s with
    | (.ok a, s') => f a s'
    | (.error e, s') => (.error e, s')
  raise e := fun s => (.error e, s)
  ord l := fun s => (.ok (permBy (orc s.dd.tick l.length) l), { s with dd := { s.dd with tick := s.dd.tick + 1 } })

/-- An evaluation which does not use the cache of homomorphisms. (Proof device, not part of the code.) -/
def HM.lift {orc : Nat → Nat → List Nat} {α : Type} (x : CM orc V α) : HM orc V I U α := fun s =>
  ((x s.dd).1, { s with dd := (x s.dd).2 })

/-- `should_cache`, `/repo/sdd/hom/evaluation.hh:126-147`: all homomorphisms but `cons` (`/repo/sdd/hom/cons.hh:80-84`) and `constant`
(`/repo/sdd/hom/constant.hh:73-77`). -/
def Hom.shouldCache : Hom V I U → Bool
  | .consF _ _ _ => false
  | .consH _ _ _ => false
  | .const _ => false
  | _ => true

/-- `cache::operator()`, `/repo/sdd/mem/cache.hh:211-261`, for homomorphisms; `cap` is the maximal size. The discarded entry is chosen
by `orc`. -/
def homCache {orc : Nat → Nat → List Nat} (cap : Nat) (f : Hom V I U → OB I → SDD V → HM orc V I U (SDD V))
    (h : Hom V I U) (o : OB I) (x : SDD V) : HM orc V I U (SDD V) := fun s =>
  if h.shouldCache then
    match lruFind s.homs (h, x) with
    | some r => (.ok r, { s with homs := lruTouch s.homs (h, x) })
    | none =>
      match f h o x s with
      | (.error e, s') => (.error e, s')
      | (.ok r, s') =>
        match lruInsert cap ((orc s'.dd.tick 0).headD 0) s'.homs (h, x) r with
        | none => (.error .ub, s')
        | some c => (.ok r, { dd := { s'.dd with tick := s'.dd.tick + 1 }, homs := c })
  else f h o x s

/-- Application of a homomorphism, with caches (`homomorphism::operator()(o, x)`, `/repo/sdd/hom/definition.hh:105-119`). -/
def homC (env : User V I U) (C : Cfg V E) (orc : Nat → Nat → List Nat) (cap : OpKind → Nat) (hcap : Nat) :
    Nat → Hom V I U → OB I → SDD V → HM orc V I U (SDD V) :=
  runH env C (fun op => HM.lift (autoRun (runC C orc cap) op)) (homCache hcap)

end Verif
