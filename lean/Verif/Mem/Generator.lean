import Verif.Mem.SddHeap
import Verif.DD.Paths
import Mathlib.Data.Nat.Find
/-!
# Enumerating paths, step by step, in a memory which changes

`/repo/sdd/dd/path_generator.hh`: `paths()` gives a coroutine, which holds a copy of the SDD (`/repo/sdd/dd/definition.hh:209-215`) and which is
suspended each time a path is yielded.  Meanwhile, the program goes on: it creates, assigns and destroys handles, the one on which `paths()` was called
included.  `DD/Paths` gives the paths yielded by a traversal; here, the steps of the traversal are separate, and read what they need in the memory
(`Mem/Heap`) at the time they are done.
-/

set_option autoImplicit false
set_option linter.unusedSectionVars false

namespace Verif
namespace PathGen
open Heap

/-- What is read at a node when the arc number `i` is looked for: `none` when there is no such arc. (`/repo/sdd/dd/path_generator.hh:23-69`: the node and,
in the loops of lines 30 and 42, its arcs.) -/
inductive Look (V N : Type) : Type where
  | zero
  | one
  | flat (arc : Option (V × N))
  | hier (arc : Option (N × N))

/-- A loop in progress, on the arcs of a node: the number of the next arc, and the stack of successors given to the visit
(`/repo/sdd/dd/path_generator.hh:25-46`). -/
structure Frame (N : Type) where
  node : N
  next : Nat
  stack : List N

/-- The state of the coroutine: the visit to do (`none`: the last one returns), the loops in progress, the current path, and the paths yielded.
Simplification: the stack of successors holds handles (`/repo/sdd/dd/sdd_stack.hh:18-27`), here it has pointers which are not counted. -/
structure Gen (V N : Type) where
  ctl : Option (N × List N)
  frames : List (Frame N)
  path : List V
  out : List (List V)

section
variable {V N : Type}

/-- The coroutine before it runs, `/repo/sdd/dd/path_generator.hh:76-84`. -/
def Gen.start (a : N) : Gen V N := ⟨some (a, []), [], [], []⟩

/-- The coroutine is finished. (`/repo/sdd/dd/path_generator.hh:83`.) -/
def Gen.done (g : Gen V N) : Bool := g.ctl.isNone && g.frames.isEmpty

/-- A step of the coroutine, `/repo/sdd/dd/path_generator.hh:23-69`: a visit begins, or an iteration of the last loop begins; nothing is done when the
coroutine is finished.  `look` reads a node; `none`: it cannot be read.  The visits of line 55 are done in place of the visit of `|1|`, where nothing
remains to be done.
Simplification: the first arc is read with the node. -/
def step (look : N → Nat → Option (Look V N)) (g : Gen V N) : Option (Gen V N) :=
  match g.ctl with
  | some (a, st) =>
    match look a 0 with
    | none => none
    | some .zero => some ⟨none, g.frames, g.path, g.out ++ [g.path]⟩
    | some .one =>
      match st with
      | [] => some ⟨none, g.frames, g.path, g.out ++ [g.path]⟩
      | b :: st => some ⟨some (b, st), g.frames, g.path, g.out⟩
    | some (.flat _) => some ⟨none, ⟨a, 0, st⟩ :: g.frames, g.path, g.out⟩
    | some (.hier _) => some ⟨none, ⟨a, 0, st⟩ :: g.frames, g.path, g.out⟩
  | none =>
    match g.frames with
    | [] => some g
    | f :: fs =>
      match look f.node f.next with
      | some (.flat arc) =>
        -- `pop_back`, line 46, when an iteration ends
        let path := if f.next = 0 then g.path else g.path.dropLast
        match arc with
        | some (v, b) => some ⟨some (b, f.stack), ⟨f.node, f.next + 1, f.stack⟩ :: fs, path ++ [v], g.out⟩
        | none => some ⟨none, fs, path, g.out⟩
      | some (.hier arc) =>
        match arc with
        | some (v, b) => some ⟨some (v, b :: f.stack), ⟨f.node, f.next + 1, f.stack⟩ :: fs, g.path, g.out⟩
        | none => some ⟨none, fs, g.path, g.out⟩
      | _ => none

/-- Several steps of the coroutine. (`/repo/sdd/dd/path_generator.hh:23-69`.) -/
def steps (look : N → Nat → Option (Look V N)) : Nat → Gen V N → Option (Gen V N)
  | 0, g => some g
  | n + 1, g => (steps look n g).bind (step look)

end

section
variable {V : Type} [DecidableEq V]

/-- Reading a node in memory; `none`: the object is not there any more, or is not a node. (`visit`, `/repo/sdd/dd/definition.hh:431-480`, and the
iterations on arcs, `/repo/sdd/dd/node.hh:103-119`.) -/
def lookM (s : State (SLabel V)) (a : Addr) (i : Nat) : Option (Look V Addr) :=
  (s.cells a).bind fun c =>
    match c.key.1 with
    | .zero => some .zero
    | .one => some .one
    | .flat _ =>
      match c.key.2[2 * i]?, c.key.2[2 * i + 1]? with
      | some v, some b => (s.cells v).bind fun d =>
        match d.key.1 with
        | .values w => some (.flat (some (w, b)))
        | _ => none
      | _, _ => some (.flat none)
    | .hier _ =>
      match c.key.2[2 * i]?, c.key.2[2 * i + 1]? with
      | some v, some b => some (.hier (some (v, b)))
      | _, _ => some (.hier none)
    | .values _ => none

variable (hash : Key (SLabel V) → Nat) (bytes : Key (SLabel V) → Nat)

/-- `paths()`, `/repo/sdd/dd/definition.hh:209-215`: `std::bind` copies the handle `w` into the coroutine (variable `gv`). -/
def start (gv w : Nat) (s : State (SLabel V)) : Option (State (SLabel V) × Gen V Addr) :=
  (exec hash bytes s (.copy gv w)).bind fun s' => (target s' gv).map fun a => (s', Gen.start a)

/-- What may happen once the coroutine exists: it does `n` steps; between them, the program does any statements which do not
assign or destroy the handle `gv` held by the coroutine. (Model of the environment: what the user or the system does.) -/
inductive Run (gv : Nat) (s : State (SLabel V)) (g : Gen V Addr) : Nat → State (SLabel V) → Gen V Addr → Prop where
  | refl : Run gv s g 0 s g
  | user {n : Nat} {s' s'' : State (SLabel V)} {g' : Gen V Addr} {op : Heap.Op (SLabel V)} : Run gv s g n s' g' → Valid s' op →
      exec hash bytes s' op = some s'' → s''.vars[gv]? = s'.vars[gv]? → Run gv s g n s'' g'
  | gen {n : Nat} {s' : State (SLabel V)} {g' g'' : Gen V Addr} : Run gv s g n s' g' → step (lookM s') g' = some g'' →
      Run gv s g (n + 1) s' g''

end

/-! ## The traversal of a term -/

section
variable {V : Type} [DecidableEq V]

/-- Reading a node of a term. (Specification or proof device, not part of the code.) -/
def lookT : SDD V → Nat → Look V (SDD V)
  | .zero, _ => .zero
  | .one, _ => .one
  | .flat _ arcs, i => .flat arcs[i]?
  | .hier _ arcs, i => .hier arcs[i]?

/-- The traversal of a term. (Specification or proof device, not part of the code.) -/
def stepsT (n : Nat) (g : Gen V (SDD V)) : Option (Gen V (SDD V)) := steps (fun x i => some (lookT x i)) n g

theorem steps_add {N : Type} (look : N → Nat → Option (Look V N)) (n m : Nat) (g : Gen V N) :
    steps look (n + m) g = (steps look n g).bind (steps look m) := by
  induction m with
  | zero => cases steps look n g <;> rfl
  | succ m ih =>
    rw [Nat.add_succ, steps, ih]
    cases steps look n g <;> rfl

theorem steps_succ {N : Type} (look : N → Nat → Option (Look V N)) (n : Nat) (g : Gen V N) :
    steps look (n + 1) g = (step look g).bind (steps look n) := by
  rw [Nat.add_comm, steps_add]
  rfl

theorem stepsT_trans {n m : Nat} {a b c : Gen V (SDD V)} (h : stepsT n a = some b) (h' : stepsT m b = some c) :
    stepsT (n + m) a = some c := by
  rw [stepsT, steps_add, show steps _ n a = some b from h]
  exact h'

theorem stepsT_head {n : Nat} {a b c : Gen V (SDD V)} (h : step (fun x i => some (lookT x i)) a = some b) (h' : stepsT n b = some c) :
    stepsT (n + 1) a = some c := by
  rw [stepsT, steps_succ, h]
  exact h'

/-- The loop on the arcs of a flat node. -/
theorem flat_run {x : Nat} {arcs : List (V × SDD V)} {st : List (SDD V)} {fs : List (Frame (SDD V))} {p : List V}
    (ih : ∀ arc ∈ arcs, ∀ (fs : List (Frame (SDD V))) (q : List V) (out : List (List V)), ∃ n,
      stepsT n ⟨some (arc.2, st), fs, q, out⟩ = some ⟨none, fs, q, out ++ pathsV arc.2 q st⟩) :
    ∀ (k i : Nat), arcs.length - i = k → ∀ (q : List V) (out : List (List V)), (if i = 0 then q else q.dropLast) = p →
    ∃ n, stepsT n ⟨none, ⟨.flat x arcs, i, st⟩ :: fs, q, out⟩ =
      some ⟨none, fs, p, out ++ (arcs.drop i).flatMap fun arc => pathsV arc.2 (p ++ [arc.1]) st⟩ := by
  intro k
  induction k with
  | zero =>
    intro i hi q out hq
    have hn : arcs[i]? = none := List.getElem?_eq_none (by omega)
    refine ⟨1, stepsT_head (b := ⟨none, fs, p, out⟩) ?_ ?_⟩
    · simp [step, lookT, hn, hq]
    · rw [List.drop_eq_nil_of_le (by omega)]
      simp [stepsT, steps]
  | succ k ihk =>
    intro i hi q out hq
    have hlt : i < arcs.length := by omega
    have hs : arcs[i]? = some arcs[i] := List.getElem?_eq_getElem hlt
    obtain ⟨n, hn⟩ := ih arcs[i] (List.getElem_mem hlt) (⟨.flat x arcs, i + 1, st⟩ :: fs) (p ++ [arcs[i].1]) out
    obtain ⟨m, hm⟩ := ihk (i + 1) (by omega) (p ++ [arcs[i].1]) (out ++ pathsV arcs[i].2 (p ++ [arcs[i].1]) st) (by simp)
    refine ⟨n + m + 1, stepsT_head (b := ⟨some (arcs[i].2, st), ⟨.flat x arcs, i + 1, st⟩ :: fs, p ++ [arcs[i].1], out⟩) ?_ ?_⟩
    · simp [step, lookT, hs, hq]
    · rw [stepsT_trans hn hm, List.drop_eq_getElem_cons hlt, List.flatMap_cons, List.append_assoc]

/-- The loop on the arcs of a hierarchical node. -/
theorem hier_run {x : Nat} {arcs : List (SDD V × SDD V)} {st : List (SDD V)} {fs : List (Frame (SDD V))} {p : List V}
    (ih : ∀ arc ∈ arcs, ∀ (fs : List (Frame (SDD V))) (out : List (List V)), ∃ n,
      stepsT n ⟨some (arc.1, arc.2 :: st), fs, p, out⟩ = some ⟨none, fs, p, out ++ pathsV arc.1 p (arc.2 :: st)⟩) :
    ∀ (k i : Nat), arcs.length - i = k → ∀ (out : List (List V)),
    ∃ n, stepsT n ⟨none, ⟨.hier x arcs, i, st⟩ :: fs, p, out⟩ =
      some ⟨none, fs, p, out ++ (arcs.drop i).flatMap fun arc => pathsV arc.1 p (arc.2 :: st)⟩ := by
  intro k
  induction k with
  | zero =>
    intro i hi out
    have hn : arcs[i]? = none := List.getElem?_eq_none (by omega)
    refine ⟨1, stepsT_head (b := ⟨none, fs, p, out⟩) ?_ ?_⟩
    · simp [step, lookT, hn]
    · rw [List.drop_eq_nil_of_le (by omega)]
      simp [stepsT, steps]
  | succ k ihk =>
    intro i hi out
    have hlt : i < arcs.length := by omega
    have hs : arcs[i]? = some arcs[i] := List.getElem?_eq_getElem hlt
    obtain ⟨n, hn⟩ := ih arcs[i] (List.getElem_mem hlt) (⟨.hier x arcs, i + 1, st⟩ :: fs) out
    obtain ⟨m, hm⟩ := ihk (i + 1) (by omega) (out ++ pathsV arcs[i].1 p (arcs[i].2 :: st))
    refine ⟨n + m + 1, stepsT_head (b := ⟨some (arcs[i].1, arcs[i].2 :: st), ⟨.hier x arcs, i + 1, st⟩ :: fs, p, out⟩) ?_ ?_⟩
    · simp [step, lookT, hs]
    · rw [stepsT_trans hn hm, List.drop_eq_getElem_cons hlt, List.flatMap_cons, List.append_assoc]

/-- A visit yields what `pathsV` says, then returns. -/
theorem visit_run (k : Nat) : ∀ (x : SDD V) (st : List (SDD V)), sizeOf x + stackSize st ≤ k →
    ∀ (fs : List (Frame (SDD V))) (p : List V) (out : List (List V)),
    ∃ n, stepsT n ⟨some (x, st), fs, p, out⟩ = some ⟨none, fs, p, out ++ pathsV x p st⟩ := by
  induction k with
  | zero =>
    intro x st h
    cases x <;> simp at h
  | succ k ih =>
    intro x st hk fs p out
    cases x with
    | zero => exact ⟨1, by simp [stepsT, steps, step, lookT, pathsV]⟩
    | one =>
      cases st with
      | nil => exact ⟨1, by simp [stepsT, steps, step, lookT, pathsV]⟩
      | cons y st =>
        obtain ⟨n, hn⟩ := ih y st (by simp [stackSize] at hk ⊢; omega) fs p out
        refine ⟨n + 1, stepsT_head (b := ⟨some (y, st), fs, p, out⟩) (by simp [step, lookT]) ?_⟩
        rw [hn, pathsV]
    | flat x arcs =>
      obtain ⟨n, hn⟩ := flat_run (x := x) (arcs := arcs) (st := st) (fs := fs) (p := p)
        (fun arc ha fs q out => ih arc.2 st (by have := sizeOf_flat_lt (x := x) ha; omega) fs q out) arcs.length 0 (by omega) p out
        (by simp)
      refine ⟨n + 1, stepsT_head (b := ⟨none, ⟨.flat x arcs, 0, st⟩ :: fs, p, out⟩) (by simp [step, lookT]) ?_⟩
      rw [hn, pathsV, attach_flatMap arcs fun arc => pathsV arc.2 (p ++ [arc.1]) st]
      simp
    | hier x arcs =>
      obtain ⟨n, hn⟩ := hier_run (x := x) (arcs := arcs) (st := st) (fs := fs) (p := p)
        (fun arc ha fs out => ih arc.1 (arc.2 :: st) (by
          have := List.sizeOf_lt_of_mem ha
          obtain ⟨v, s⟩ := arc
          simp [stackSize] at *
          omega) fs p out) arcs.length 0 (by omega) out
      refine ⟨n + 1, stepsT_head (b := ⟨none, ⟨.hier x arcs, 0, st⟩ :: fs, p, out⟩) (by simp [step, lookT]) ?_⟩
      rw [hn, pathsV, attach_flatMap arcs fun arc => pathsV arc.1 p (arc.2 :: st)]
      simp

/-- The whole traversal. -/
theorem start_run (x : SDD V) : ∃ n, stepsT n (Gen.start x) = some ⟨none, [], [], paths x⟩ := by
  obtain ⟨n, hn⟩ := visit_run _ x [] (Nat.le_refl _) [] [] []
  exact ⟨n, by simpa [Gen.start, paths] using hn⟩

/-- Steps add paths at the end. -/
theorem step_out {N : Type} {look : N → Nat → Option (Look V N)} {g g' : Gen V N} (h : step look g = some g') : g.out <+: g'.out := by
  unfold step at h
  repeat' split at h
  all_goals first
    | (cases h; done)
    | (cases h; exact List.prefix_rfl)
    | (cases h; exact List.prefix_append _ _)

theorem steps_out {N : Type} {look : N → Nat → Option (Look V N)} {n : Nat} : ∀ {g g' : Gen V N}, steps look n g = some g' →
    g.out <+: g'.out := by
  induction n with
  | zero => intro g g' h; cases h; exact List.prefix_rfl
  | succ n ih =>
    intro g g' h
    rw [steps, Option.bind_eq_some_iff] at h
    obtain ⟨g1, h1, h2⟩ := h
    exact (ih h1).trans (step_out h2)

theorem step_done {N : Type} {look : N → Nat → Option (Look V N)} {g : Gen V N} (h : g.done = true) : step look g = some g := by
  obtain ⟨ctl, frames, p, out⟩ := g
  simp only [Gen.done, Bool.and_eq_true, Option.isNone_iff_eq_none, List.isEmpty_iff] at h
  obtain ⟨rfl, rfl⟩ := h
  rfl

theorem steps_done {N : Type} {look : N → Nat → Option (Look V N)} {g : Gen V N} (h : g.done = true) (n : Nat) : steps look n g = some g := by
  induction n with
  | zero => rfl
  | succ n ih => rw [steps, ih]; exact step_done h

/-- The traversal of a term never stops before its end, which is after a number of steps which only depends on the term. -/
theorem start_steps (x : SDD V) : ∃ N, ∀ n, ∃ g, stepsT n (Gen.start x) = some g ∧ g.out <+: paths x ∧ (g.done = true ↔ N ≤ n) ∧
    (N ≤ n → g.out = paths x) := by
  obtain ⟨m, hm⟩ := start_run x
  have hdone : ∃ N, ∃ g, stepsT N (Gen.start x) = some g ∧ g.done = true := ⟨m, _, hm, rfl⟩
  classical
  obtain ⟨g, hg, hd⟩ := Nat.find_spec hdone
  have hge : ∀ n, Nat.find hdone ≤ n → stepsT n (Gen.start x) = some g := by
    intro n hn
    obtain ⟨k, rfl⟩ := Nat.exists_eq_add_of_le hn
    exact stepsT_trans hg (steps_done hd k)
  have hgm : g = ⟨none, [], [], paths x⟩ := by
    have h1 := hge m (Nat.find_min' hdone ⟨_, hm, rfl⟩)
    rw [hm] at h1
    exact (Option.some.inj h1).symm
  refine ⟨Nat.find hdone, fun n => ?_⟩
  by_cases hn : Nat.find hdone ≤ n
  · exact ⟨g, hge n hn, by rw [hgm]; exact List.prefix_rfl, by simp [hd, hn], fun _ => by rw [hgm]⟩
  · have hnot : ¬ ∃ g, stepsT n (Gen.start x) = some g ∧ g.done = true := Nat.find_min hdone (by omega)
    obtain ⟨k, hk⟩ := Nat.exists_eq_add_of_le (show n ≤ Nat.find hdone by omega)
    rw [hk, stepsT, steps_add, Option.bind_eq_some_iff] at hg
    obtain ⟨g1, h1, h2⟩ := hg
    refine ⟨g1, h1, ?_, ?_, fun h => absurd h hn⟩
    · have := steps_out h2
      rwa [hgm] at this
    · constructor
      · intro h; exact absurd ⟨g1, h1, h⟩ hnot
      · intro h; exact absurd h hn

end

/-! ## The traversal in memory -/

section
variable {V : Type} [DecidableEq V] {hash : Key (SLabel V) → Nat} {bytes : Key (SLabel V) → Nat}

/-- The objects which can be reached from an address. (Specification or proof device, not part of the code.) -/
inductive Below (s : State (SLabel V)) (r : Addr) : Addr → Prop where
  | refl : Below s r r
  | kid {a k : Addr} {c : Cell (SLabel V)} : Below s r a → s.cells a = some c → k ∈ c.key.2 → Below s r k

/-- The node at an address, reached from `r`, is a term. (Specification or proof device, not part of the code.) -/
def At (s : State (SLabel V)) (r : Addr) (x : SDD V) (a : Addr) : Prop := Denotes s x.tree a ∧ Below s r a

theorem Below.keeps {s s' : State (SLabel V)} (h' : Inv hash [] s') (hk : Keeps s s') {r : Addr} (hr : (s'.cells r).isSome) {a : Addr}
    (h : Below s r a) : Below s' r a ∧ (s'.cells a).isSome := by
  induction h with
  | refl => exact ⟨.refl, hr⟩
  | kid _ hc hm ih =>
    obtain ⟨ih1, ih2⟩ := ih
    rcases hk _ _ hc with e | e
    · refine ⟨.kid ih1 e hm, ?_⟩
      obtain ⟨c', hc', _⟩ := h'.kids _ _ e (by simp) _ hm
      rw [hc']; rfl
    · rw [e] at ih2; cases ih2

theorem At.keeps {s s' : State (SLabel V)} (h' : Inv hash [] s') (hk : Keeps s s') {r : Addr} (hr : (s'.cells r).isSome) {x : SDD V} {a : Addr}
    (h : At s r x a) : At s' r x a := by
  obtain ⟨h1, h2⟩ := h.2.keeps h' hk hr
  exact ⟨denotes_keeps h' hk _ h.1 h2, h1⟩

/-- The coroutine is at the same point as the traversal of a term. (Specification or proof device, not part of the code.) -/
structure Sim (s : State (SLabel V)) (r : Addr) (g : Gen V Addr) (t : Gen V (SDD V)) : Prop where
  ctl : Option.Rel (fun a x => At s r x.1 a.1 ∧ List.Forall₂ (fun x a => At s r x a) x.2 a.2) g.ctl t.ctl
  frames : List.Forall₂ (fun f f' => At s r f'.node f.node ∧ f.next = f'.next ∧ List.Forall₂ (fun x a => At s r x a) f'.stack f.stack)
    g.frames t.frames
  path : g.path = t.path
  out : g.out = t.out

theorem Sim.keeps {s s' : State (SLabel V)} (h' : Inv hash [] s') (hk : Keeps s s') {r : Addr} (hr : (s'.cells r).isSome)
    {g : Gen V Addr} {t : Gen V (SDD V)} (h : Sim s r g t) : Sim s' r g t := by
  have hl : ∀ {xs : List (SDD V)} {as : List Addr}, List.Forall₂ (fun x a => At s r x a) xs as →
      List.Forall₂ (fun x a => At s' r x a) xs as := fun h => h.imp fun _ _ ha => ha.keeps h' hk hr
  refine ⟨?_, h.frames.imp fun f f' hf => ⟨hf.1.keeps h' hk hr, hf.2.1, hl hf.2.2⟩, h.path, h.out⟩
  obtain ⟨gc, gf, gp, go⟩ := g
  obtain ⟨tc, tf, tp, tq⟩ := t
  obtain ⟨hc, -, -, -⟩ := h
  dsimp only at hc ⊢
  cases hc with
  | none => exact .none
  | some hc => exact .some ⟨hc.1.keeps h' hk hr, hl hc.2⟩

theorem kidsF {s : State (SLabel V)} : ∀ {arcs : List (V × SDD V)} {kids : List Addr}, DenotesL s (SDD.treeF arcs) kids → ∀ i,
    match arcs[i]? with
    | some (v, y) => ∃ a b, kids[2 * i]? = some a ∧ kids[2 * i + 1]? = some b ∧ Denotes s (.node (.values v) []) a ∧ Denotes s y.tree b
    | none => kids[2 * i]? = none
  | [], [], _, i => by simp
  | [], _ :: _, h, _ => by simp [SDD.treeF, DenotesL] at h
  | (v, y) :: arcs, [], h, _ => by simp [SDD.treeF, DenotesL] at h
  | (v, y) :: arcs, [_], h, _ => by simp [SDD.treeF, DenotesL] at h
  | (v, y) :: arcs, a :: b :: kids, h, i => by
    simp only [SDD.treeF, DenotesL] at h
    cases i with
    | zero => simpa using ⟨h.1, h.2.1⟩
    | succ i =>
      have := kidsF h.2.2 i
      simpa [Nat.mul_add] using this

theorem kidsH {s : State (SLabel V)} : ∀ {arcs : List (SDD V × SDD V)} {kids : List Addr}, DenotesL s (SDD.treeH arcs) kids → ∀ i,
    match arcs[i]? with
    | some (v, y) => ∃ a b, kids[2 * i]? = some a ∧ kids[2 * i + 1]? = some b ∧ Denotes s v.tree a ∧ Denotes s y.tree b
    | none => kids[2 * i]? = none
  | [], [], _, i => by simp
  | [], _ :: _, h, _ => by simp [SDD.treeH, DenotesL] at h
  | (v, y) :: arcs, [], h, _ => by simp [SDD.treeH, DenotesL] at h
  | (v, y) :: arcs, [_], h, _ => by simp [SDD.treeH, DenotesL] at h
  | (v, y) :: arcs, a :: b :: kids, h, i => by
    simp only [SDD.treeH, DenotesL] at h
    cases i with
    | zero => simpa using ⟨h.1, h.2.1⟩
    | succ i =>
      have := kidsH h.2.2 i
      simpa [Nat.mul_add] using this

/-- What is read in memory is what the term has. (Specification or proof device, not part of the code.) -/
inductive LookRel (s : State (SLabel V)) (r : Addr) : Look V Addr → Look V (SDD V) → Prop where
  | zero : LookRel s r .zero .zero
  | one : LookRel s r .one .one
  | flatNone : LookRel s r (.flat none) (.flat none)
  | flat {v : V} {b : Addr} {y : SDD V} : At s r y b → LookRel s r (.flat (some (v, b))) (.flat (some (v, y)))
  | hierNone : LookRel s r (.hier none) (.hier none)
  | hier {a b : Addr} {v y : SDD V} : At s r v a → At s r y b → LookRel s r (.hier (some (a, b))) (.hier (some (v, y)))

theorem look_rel {s : State (SLabel V)} {r : Addr} {x : SDD V} {a : Addr} (h : At s r x a) (i : Nat) :
    ∃ l, lookM s a i = some l ∧ LookRel s r l (lookT x i) := by
  obtain ⟨hd, hb⟩ := h
  cases x with
  | zero =>
    simp only [SDD.tree, Denotes] at hd
    obtain ⟨kids, b, hc, _⟩ := hd
    exact ⟨.zero, by simp [lookM, hc], .zero⟩
  | one =>
    simp only [SDD.tree, Denotes] at hd
    obtain ⟨kids, b, hc, _⟩ := hd
    exact ⟨.one, by simp [lookM, hc], .one⟩
  | flat x arcs =>
    simp only [SDD.tree, Denotes] at hd
    obtain ⟨kids, b, hc, hk⟩ := hd
    have hi := kidsF hk i
    rw [lookT]
    rcases ha : arcs[i]? with _ | ⟨v, y⟩
    · rw [ha] at hi
      exact ⟨.flat none, by simp [lookM, hc, hi], .flatNone⟩
    · rw [ha] at hi
      obtain ⟨a1, b1, e1, e2, ⟨_, _, hv, _⟩, dy⟩ := hi
      exact ⟨.flat (some (v, b1)), by simp [lookM, hc, e1, e2, hv], .flat ⟨dy, .kid hb hc (List.mem_of_getElem? e2)⟩⟩
  | hier x arcs =>
    simp only [SDD.tree, Denotes] at hd
    obtain ⟨kids, b, hc, hk⟩ := hd
    have hi := kidsH hk i
    rw [lookT]
    rcases ha : arcs[i]? with _ | ⟨v, y⟩
    · rw [ha] at hi
      exact ⟨.hier none, by simp [lookM, hc, hi], .hierNone⟩
    · rw [ha] at hi
      obtain ⟨a1, b1, e1, e2, dv, dy⟩ := hi
      exact ⟨.hier (some (a1, b1)), by simp [lookM, hc, e1, e2],
        .hier ⟨dv, .kid hb hc (List.mem_of_getElem? e1)⟩ ⟨dy, .kid hb hc (List.mem_of_getElem? e2)⟩⟩

/-- A step in memory is a step of the traversal of the term. -/
theorem sim_step {s : State (SLabel V)} {r : Addr} {g : Gen V Addr} {t : Gen V (SDD V)} (h : Sim s r g t) :
    Option.Rel (Sim s r) (step (lookM s) g) (step (fun x i => some (lookT x i)) t) := by
  obtain ⟨gc, gf, gp, go⟩ := g
  obtain ⟨tc, tf, tp, tq⟩ := t
  obtain ⟨hc, hf, hp, ho⟩ := h
  dsimp only at hc hf hp ho
  subst hp ho
  cases hc with
  | none =>
    cases hf with
    | nil => exact .some ⟨.none, .nil, rfl, rfl⟩
    | @cons f f' fs fs' hff hfs =>
      obtain ⟨fn, fi, fst⟩ := f
      obtain ⟨fn', fi', fst'⟩ := f'
      obtain ⟨h1, h2, h3⟩ := hff
      dsimp only at h1 h2 h3
      subst h2
      obtain ⟨l, hl, hrel⟩ := look_rel h1 fi
      simp only [step, hl]
      revert hrel
      generalize lookT fn' fi = l'
      intro hrel
      cases hrel with
      | zero => exact .none
      | one => exact .none
      | flatNone => exact .some ⟨.none, hfs, rfl, rfl⟩
      | flat hb => exact .some ⟨.some ⟨hb, h3⟩, .cons ⟨h1, rfl, h3⟩ hfs, rfl, rfl⟩
      | hierNone => exact .some ⟨.none, hfs, rfl, rfl⟩
      | hier ha hb => exact .some ⟨.some ⟨ha, .cons hb h3⟩, .cons ⟨h1, rfl, h3⟩ hfs, rfl, rfl⟩
  | @some a x hc =>
    obtain ⟨a, as⟩ := a
    obtain ⟨x, xs⟩ := x
    obtain ⟨h1, h3⟩ := hc
    dsimp only at h1 h3
    obtain ⟨l, hl, hrel⟩ := look_rel h1 0
    simp only [step, hl]
    revert hrel
    generalize lookT x 0 = l'
    intro hrel
    cases hrel with
    | zero => exact .some ⟨.none, hf, rfl, rfl⟩
    | one =>
      cases h3 with
      | nil => exact .some ⟨.none, hf, rfl, rfl⟩
      | cons hb hs => exact .some ⟨.some ⟨hb, hs⟩, hf, rfl, rfl⟩
    | flatNone => exact .some ⟨.none, .cons ⟨h1, rfl, h3⟩ hf, rfl, rfl⟩
    | flat hb => exact .some ⟨.none, .cons ⟨h1, rfl, h3⟩ hf, rfl, rfl⟩
    | hierNone => exact .some ⟨.none, .cons ⟨h1, rfl, h3⟩ hf, rfl, rfl⟩
    | hier ha hb => exact .some ⟨.none, .cons ⟨h1, rfl, h3⟩ hf, rfl, rfl⟩

/-- Whatever the program does, the coroutine does the traversal of the term. -/
theorem run_sim {gv : Nat} {s : State (SLabel V)} (hi : Inv hash [] s) {r : Addr} (hv : s.vars[gv]? = some (.live r)) {g : Gen V Addr}
    {t : Gen V (SDD V)} (hs : Sim s r g t) (ht : ∀ n, ∃ t', stepsT n t = some t') {n : Nat} {s' : State (SLabel V)} {g' : Gen V Addr}
    (h : Run hash bytes gv s g n s' g') :
    Inv hash [] s' ∧ s'.vars[gv]? = some (.live r) ∧ ∃ t', stepsT n t = some t' ∧ Sim s' r g' t' := by
  induction h with
  | refl => exact ⟨hi, hv, t, rfl, hs⟩
  | @user n s1 s2 g1 op _ hval he hkeep ih =>
    obtain ⟨i1, v1, t1, e1, sim1⟩ := ih
    obtain ⟨s3, e3, i3, hk⟩ := exec_inv (bytes := bytes) i1 hval
    rw [he] at e3
    cases e3
    have v2 : s2.vars[gv]? = some (.live r) := hkeep.trans v1
    obtain ⟨c, hc⟩ := i3.cell_of_var v2
    exact ⟨i3, v2, t1, e1, sim1.keeps i3 hk (by rw [hc]; rfl)⟩
  | @gen n s1 g1 g2 _ hst ih =>
    obtain ⟨i1, v1, t1, e1, sim1⟩ := ih
    have hrel := sim_step sim1
    rw [hst] at hrel
    obtain ⟨t2, e2⟩ := ht (n + 1)
    have e2' := e2
    rw [stepsT, steps, show steps _ n t = some t1 from e1, Option.bind_some] at e2'
    rw [e2'] at hrel
    cases hrel with
    | some h => exact ⟨i1, v1, t2, e2, h⟩

theorem Sim.done {s : State (SLabel V)} {r : Addr} {g : Gen V Addr} {t : Gen V (SDD V)} (h : Sim s r g t) : g.done = t.done := by
  obtain ⟨gc, gf, gp, go⟩ := g
  obtain ⟨tc, tf, tp, tq⟩ := t
  obtain ⟨hc, hf, _, _⟩ := h
  dsimp only at hc hf
  cases hc <;> cases hf <;> rfl

end
end PathGen
end Verif
