import Verif.Examples.Tasks
import Verif.Hom.Carrier
import Verif.Hom.History
import Verif.Values.FlatSet
/-!
# The example of scheduling

The program `/repo/examples/scheduling/scheduling.cpp`, with `Config.hpp`, `Filters.hpp` and `Schedulers.hpp`, for a given task model.
-/

set_option autoImplicit false
set_option linter.unusedSectionVars false

namespace Verif
namespace Scheduling

open Tasks

/-- `uint32_t`. (`/repo/examples/scheduling/Config.hpp`.) -/
abbrev U32 : Type := Fin (2 ^ 32)

/-- `Arc`, `/repo/examples/scheduling/Config.hpp:13-43`. -/
structure Arc : Type where
  core : U32
  time : U32
  deriving DecidableEq, Repr

/-- `Arc::epsilon()`, `/repo/examples/scheduling/Config.hpp:37-41`: no core is assigned. -/
def epsilon : Arc := ⟨Fin.ofNat _ (2 ^ 32 - 1), 0⟩

/-- `operator<`, `/repo/examples/scheduling/Config.hpp:24-27`. -/
def Arc.lt (a b : Arc) : Bool := decide (a.core < b.core) || (decide (a.core = b.core) && decide (a.time < b.time))

theorem Arc.lt_st : StrictTotal Arc.lt where
  irrefl a := by simp [Arc.lt]
  trans a b c := by
    simp only [Arc.lt, Bool.or_eq_true, Bool.and_eq_true, decide_eq_true_eq, Fin.lt_def, Fin.ext_iff]
    omega
  total a b := by
    obtain ⟨c, t⟩ := a
    obtain ⟨c', t'⟩ := b
    simp only [Arc.lt, Bool.or_eq_true, Bool.and_eq_true, decide_eq_true_eq, Arc.mk.injEq, Fin.lt_def, Fin.ext_iff]
    omega

/-- `conf::Values`, `/repo/examples/scheduling/Config.hpp:59-68`. -/
abbrev Values : Type := FSet Arc Arc.lt

/-- The user's functions and inductive homomorphism: `filter_constant` (`/repo/examples/scheduling/Filters.hpp:22-55`), `filter_constraints` (61-92),
`schedule_tau` (`/repo/examples/scheduling/Schedulers.hpp:26-53`) and `schedule` (58-101). The task model they refer to is a parameter of `env`. -/
inductive Act : Type where
  | constant (a : Arc) (keep : Bool)
  | constraints (task : Nat)
  | tau (task core : Nat) (tau : Nat)
  | schedule (task core : Nat)
  deriving DecidableEq

/-- `core | (1 << 31)`, the identifier of a core. (`/repo/examples/scheduling/Schedulers.hpp:65`, `/repo/examples/scheduling/scheduling.cpp:58,91`.) -/
def coreId (c : Nat) : Nat := c ||| 2 ^ 31

/-- The code of the functions: `filter_constant`, `/repo/examples/scheduling/Filters.hpp:28-46`; `filter_constraints`, 65-83; `schedule_tau`,
`/repo/examples/scheduling/Schedulers.hpp:31-41`. -/
def fn (tm : Model) : Act → Values → Values
  | .constant a keep, v => FSet.ofList Arc.lt_st (v.data.filter fun x => decide (x = a) == keep)
  | .constraints t, v => FSet.ofList Arc.lt_st (v.data.filter fun x => decide (tm.eta t x.time ≤ (tm.task t).deadline))
  | .tau _ c tau, v => FSet.ofList Arc.lt_st (v.data.map fun _ => ⟨Fin.ofNat _ c, Fin.ofNat _ tau⟩)
  | .schedule _ _, v => v

/-- The code of the user, for a task model. All the functions say that they are selectors (`/repo/examples/scheduling/Filters.hpp:48-50,85-87`,
`/repo/examples/scheduling/Schedulers.hpp:43-45`). `schedule`: `/repo/examples/scheduling/Schedulers.hpp:63-90`; `function` looks for the variable
of the task in the whole order: `var` gives it. (`*val.begin()` of an empty set is undefined: there are no empty sets on arcs.) -/
def env (tm : Model) (var : Nat → Nat) : User Values Nat Act where
  fn := fn tm
  fnSel _ := true
  fnShift _ := false
  indOne _ := .zero
  indF u o val := match u, val.data with
    | .schedule t c, a :: _ => .consF o (FSet.ofList Arc.lt_st [⟨a.core, Fin.ofNat _ (tm.eta t a.time)⟩]) (.fn (var t) (.tau t c (tm.ets t a.time)))
    | _, _ => .const .zero
  indH _ _ _ := .id
  indSkip u id := match u with
    | .schedule _ c => decide (id.user ≠ coreId c)
    | _ => false
  indSel _ := false

/-- The order, `/repo/examples/scheduling/scheduling.cpp:48-60`: the tasks, the first one of `tasks` above the others, then the cores. -/
def builder (tasks : List Nat) (cores : Nat) : OB Nat :=
  (List.range cores).foldl (fun ob c => ob.push (OB.uid (coreId c)) .nil) (tasks.reverse.foldl (fun ob t => ob.push (OB.uid t) .nil) .nil)

/-- The initial values, `/repo/examples/scheduling/scheduling.cpp:62-71`. -/
def initial (e : Nat) : Values := FSet.ofList Arc.lt_st (if e &&& 2 ^ 31 ≠ 0 then [⟨0, 0⟩] else [epsilon])

section
variable (lt : Hom Values Nat Act → Hom Values Nat Act → Bool)
  (ord : List (Nat × List (Hom Values Nat Act)) → List (Nat × List (Hom Values Nat Act)))

/-- The homomorphism of the task `t` on the core `c`, `/repo/examples/scheduling/scheduling.cpp:78-101`. The set of filters is declared outside of the loop on cores:
it has the timing constraints of all the cores up to `c`. -/
def onCore (tm : Model) (o : Ord Nat) (t c : Nat) : Option (Hom Values Nat Act) := do
  let deps ← (tm.dependenciesOf t).mapM fun u => hfunction o u (.constant epsilon false)
  let self ← hfunction o t (.constant epsilon true)
  let times ← (List.range (c + 1)).mapM fun d => hfunction o (coreId d) (.constraints t)
  pure (hcomp (.ind (.schedule t c)) (hnary .inter lt ord (deps ++ [self] ++ times)))

/-- All the homomorphisms of a task, `/repo/examples/scheduling/scheduling.cpp:76-107`. -/
def ofTask (tm : Model) (o : Ord Nat) (cores t : Nat) : Option (Hom Values Nat Act) :=
  ((List.range cores).mapM fun c => onCore lt ord tm o t c).bind fun hs => (hsum lt ord hs).toOption

/-- `all_schedulers` before it is rewritten, `/repo/examples/scheduling/scheduling.cpp:73-112`. -/
def allSchedulers (tm : Model) (o : Ord Nat) (cores : Nat) : Option (Hom Values Nat Act) :=
  ((List.range tm.tasks.length).mapM fun t => ofTask lt ord tm o cores t).map fun hs => hfix (hnary .sum lt ord (hs ++ [.id]))

/-- `feasible` before it is rewritten, `/repo/examples/scheduling/scheduling.cpp:122-127`. -/
def feasible (tm : Model) (o : Ord Nat) : Option (Hom Values Nat Act) :=
  ((List.range tm.tasks.length).mapM fun t => hfunction o t (.constant epsilon false)).bind fun hs => (hinter lt ord hs).toOption

/-- The variable of an identifier in an order. (`/repo/sdd/hom/function.hh:338-349`.) -/
def varIn (o : Ord Nat) (t : Nat) : Nat := ((o.node t).map fun n => n.var).getD 0

/-- The program, `/repo/examples/scheduling/scheduling.cpp:48-129`, for the task model `tm` and the order `tasks` given by `build_order`; `n` bounds the
depth of evaluations. The result is the SDD of the schedulings. `none`: something throws or is undefined. -/
def schedulings (L : (Nat → Nat) → Lib Values Arc Nat Act) (n : Nat) (tm : Model) (tasks : List Nat) (cores : Nat) (s : HMach Values Nat Act) :
    Option (SDD Values) := do
  let o ← (Ord.ofBuilder (builder tasks cores)).toOption
  let L := L (varIn o)
  let ob := builder tasks cores
  let m0 ← sddOfOrder L.C (HM L.orc Values Nat Act) initial (tasks.length + cores) o
  let all ← allSchedulers lt ord tm o cores
  let r := L.apply n (hrewrite L.env lt ord ob all) ob m0 s
  let x ← r.1.toOption
  let f ← feasible lt ord tm o
  (L.apply n (hrewrite L.env lt ord ob f) ob x r.2).1.toOption

end

end Scheduling
end Verif
