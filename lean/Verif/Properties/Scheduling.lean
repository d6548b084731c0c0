import Verif.Examples.Scheduling
import Verif.Values.Concrete
import Verif.DD.Count
/-!
# Properties of the example of scheduling
-/

set_option autoImplicit false
set_option linter.unusedSectionVars false

namespace Verif
open Tasks

/-! ## C88: the order of tasks -/

/-- **C88**, negation. `build_order()` is undefined as soon as one task has no dependency; otherwise it returns an empty order, without any of the tasks. -/
theorem C88_negation {it : List Nat → List Nat} (hit : ∀ l, (it l).Perm l) (m : Model) :
    ((∃ i < m.deps.length, m.dependenciesOf i = []) → buildOrder m it = .error .ub) ∧
    ((¬ ∃ i < m.deps.length, m.dependenciesOf i = []) → buildOrder m it = .ok []) := by
  rw [buildOrder, buildOrderWith, kahn]
  have hp := hit ((List.range m.deps.length).filter fun i => (m.dependenciesOf i).isEmpty)
  constructor
  · rintro ⟨i, hi, h⟩
    have := hp.symm.subset (mem_free.2 ⟨hi, h⟩)
    cases hc : it ((List.range m.deps.length).filter fun i => (m.dependenciesOf i).isEmpty) with
    | nil => rw [hc] at this; simp at this
    | cons a l => rfl
  · intro h
    have : it ((List.range m.deps.length).filter fun i => (m.dependenciesOf i).isEmpty) = [] := by
      rw [List.eq_nil_iff_forall_not_mem]
      exact fun i hi => h ⟨i, mem_free.1 (hp.subset hi)⟩
    rw [this]

/-- A chain of three tasks. -/
def chain3 : Model := ⟨[⟨0, 5, 12⟩, ⟨0, 6, 15⟩, ⟨1, 7, 18⟩], [[], [0], [1]]⟩

/-- **C88**, negation. Even when the memory of erased elements keeps its content, a task may come before one it depends on, in a model without cycles,
for some order of iteration of hash tables. -/
theorem C88_negation_kept : (∀ t, ∀ u ∈ chain3.dependenciesOf t, u < t) ∧ buildOrderKept chain3 id = .ok [0, 1, 2] ∧ (∀ l : List Nat, l.reverse.Perm l) ∧
    buildOrderKept chain3 List.reverse = .ok [0, 2, 1] ∧ 1 ∈ chain3.dependenciesOf 2 := by
  refine ⟨fun t => ?_, by decide +kernel, List.reverse_perm, by decide +kernel, by decide +kernel⟩
  match t with
  | 0 => decide
  | 1 => decide
  | 2 => decide
  | t + 3 => exact fun u hu => by simp [Model.dependenciesOf, chain3] at hu

/-- **C88**, what holds. When the memory of erased elements keeps its content, and one task at least has no dependency, the order contains every task exactly
once; every task comes after the tasks it depends on if these do not depend on other ones. -/
theorem C88_order_partial {it : List Nat → List Nat} (hit : ∀ l, (it l).Perm l) (m : Model) (hfree : ∃ i < m.deps.length, m.dependenciesOf i = []) :
    ∃ l, buildOrderKept m it = .ok l ∧ l.Perm (List.range m.deps.length) ∧
      ((∀ t, ∀ u ∈ m.dependenciesOf t, u < m.deps.length ∧ m.dependenciesOf u = []) → ∀ l1 t l2, l = l1 ++ t :: l2 → ∀ u ∈ m.dependenciesOf t, u ∈ l1) := by
  obtain ⟨i, hi, h0⟩ := hfree
  have hperm : ((List.range m.deps.length).filter (fun i => (m.dependenciesOf i).isEmpty) ++
      (List.range m.deps.length).filter (fun i => !(m.dependenciesOf i).isEmpty)).Perm (List.range m.deps.length) := List.filter_append_perm _ _
  obtain ⟨l, h1, h2⟩ := kahn_kept hit (m.deps.length + 1) ((List.range m.deps.length).filter fun i => (m.dependenciesOf i).isEmpty)
    ((List.range m.deps.length).filter fun i => !(m.dependenciesOf i).isEmpty) []
    (by have := hperm.length_eq; simp only [List.length_append, List.length_range] at this; omega)
    (fun h => absurd (mem_free.2 ⟨hi, h0⟩) (by rw [h]; simp))
  refine ⟨l, h1, h2.trans hperm, fun hl => ?_⟩
  refine kahn_topo hit hl _ _ _ _ _ (fun u hu h => .inr (mem_free.2 ⟨hu, h⟩)) (fun t ht u hu => ?_) ?_ h1
  · rw [(mem_free.1 ht).2] at hu
    simp at hu
  · intro l1 t l2 e
    simp at e

/-! ## C89: generated models -/

/-- **C89.** For all numbers drawn, when no number of tasks overflows: nothing is undefined; each task depends on the drawn number of different previous tasks,
can be released as soon as the deadlines of its dependencies allow it, up to twice its execution time, and can be run between its release and its deadline. In
particular the dependencies have no cycle and the order of tasks has all of them. -/
theorem C89_generated {n : Nat} (hn : n ≠ 0) (hb : 5 * n + 20 < 2 ^ 32) {ds : Nat → Draws} (hd : ∀ i < n, (ds i).OK n) :
    generate n ds ≠ .error .ub ∧ ∀ m, generate n ds = .ok m → m.tasks.length = n ∧ m.deps.length = n ∧
      (∀ i < n, (m.dependenciesOf i).Nodup ∧ (∀ u ∈ m.dependenciesOf i, u < i) ∧ (m.dependenciesOf i).length = min (ds i).dep i ∧
        (m.task i).wcet = (ds i).wcet ∧ (∀ u ∈ m.dependenciesOf i, (m.task u).deadline ≤ (m.task i).release + 2 * (m.task i).wcet) ∧
        ((m.task i).release = 0 ∨ ∃ u ∈ m.dependenciesOf i, (m.task u).deadline = (m.task i).release + 2 * (m.task i).wcet) ∧
        (m.task i).deadline = (m.task i).release + 5 * (m.task i).wcet / 2 ∧ m.eta i 0 ≤ (m.task i).deadline) ∧
      ∃ i < m.deps.length, m.dependenciesOf i = [] := by
  have h31 : ¬ (n = 0 ∨ 2 ^ 31 ≤ n) := by omega
  obtain ⟨h1, h2⟩ := genFrom_spec hd hb n 0 _ (by omega) (gen_init n ds)
  rw [generate, if_neg h31]
  refine ⟨h1, fun m hm => ?_⟩
  have g := h2 m hm
  refine ⟨g.tasks, g.deps, fun i hi => ?_, 0, by rw [g.deps]; omega, ?_⟩
  · have gi := g.good i hi
    refine ⟨gi.nodup, gi.lt, gi.length, gi.wcet, gi.hard, gi.release, gi.deadline, ?_⟩
    have := gi.bound
    rw [Model.eta, Model.ets, gi.deadline]
    refine (Nat.mod_le _ _).trans ?_
    omega
  · exact List.eq_nil_iff_forall_not_mem.2 fun u hu => absurd ((g.good 0 (by omega)).lt u hu) (by omega)

/-- Draws for the chain of three tasks. -/
example : generate 3 (fun i => ⟨1, [i - 1], 5 + i⟩) = .ok chain3 ∧ (∀ i < 3, (⟨1, [i - 1], 5 + i⟩ : Draws).OK 3) ∧
    ∃ i < chain3.deps.length, chain3.dependenciesOf i = [] := by
  refine ⟨by decide +kernel, fun i hi => ⟨by simp, by simp; omega, by simp; omega⟩, 0, by decide, rfl⟩

/-- A model whose dependencies have no dependencies. -/
example : (∃ i < (⟨[⟨0, 5, 12⟩, ⟨0, 6, 15⟩, ⟨0, 7, 18⟩], [[], [0, 2], []]⟩ : Model).deps.length,
      (⟨[⟨0, 5, 12⟩, ⟨0, 6, 15⟩, ⟨0, 7, 18⟩], [[], [0, 2], []]⟩ : Model).dependenciesOf i = []) ∧
    buildOrderKept ⟨[⟨0, 5, 12⟩, ⟨0, 6, 15⟩, ⟨0, 7, 18⟩], [[], [0, 2], []]⟩ List.reverse = .ok [2, 0, 1] :=
  ⟨⟨0, by decide, rfl⟩, by decide +kernel⟩

/-! ## C90: the schedulings -/

namespace Scheduling

/-- Serialisation of the values, for the comparisons. -/
def ser (v : Values) : List Nat := v.data.length :: v.data.flatMap fun a => [a.core.val, a.time.val]

theorem ser_prefix (v w : Values) (a b : List Nat) (h : ser v ++ a = ser w ++ b) : v = w ∧ a = b := by
  have key : ∀ (l l' : List Arc), l.length = l'.length →
      l.flatMap (fun a => [a.core.val, a.time.val]) ++ a = l'.flatMap (fun a => [a.core.val, a.time.val]) ++ b → l = l' ∧ a = b := by
    intro l
    induction l with
    | nil =>
      intro l' h1 h2
      rw [List.length_nil, eq_comm, List.length_eq_zero_iff] at h1
      subst h1
      exact ⟨rfl, by simpa using h2⟩
    | cons x l ih =>
      intro l' h1 h2
      cases l' with
      | nil => simp at h1
      | cons y l' =>
        simp only [List.flatMap_cons, List.cons_append, List.nil_append, List.cons.injEq] at h2
        obtain ⟨h3, h4⟩ := ih l' (by simpa using h1) h2.2.2
        have hxy : x = y := by
          obtain ⟨c, t⟩ := x
          obtain ⟨c', t'⟩ := y
          simp only [Arc.mk.injEq]
          exact ⟨Fin.ext h2.1, Fin.ext h2.2.1⟩
        exact ⟨by rw [hxy, h3], h4⟩
  simp only [ser, List.cons_append, List.cons.injEq] at h
  obtain ⟨h1, h2⟩ := key v.data w.data h.1 h.2
  cases v; cases w
  simp only at h1
  subst h1
  exact ⟨rfl, h2⟩

/-- A configuration. -/
def cfg : Cfg Values Arc := flatSetCfg Arc.lt Arc.lt_st (fun v w => lexLt (ser v) (ser w)) (serLt ser) none

/-- Serialisation of the functions, for the comparisons. -/
def serAct : Act → List Nat
  | .constant a k => [0, a.core.val, a.time.val, if k then 1 else 0]
  | .constraints t => [1, t]
  | .tau t c u => [2, t, c, u]
  | .schedule t c => [3, t, c]

mutual
/-- Serialisation of the homomorphisms of the program, for the comparisons. -/
def serHom : Hom Values Nat Act → List Nat
  | .comp l r => 1 :: serHom l ++ serHom r
  | .fix h => 2 :: serHom h
  | .fn x u => [3, x] ++ serAct u
  | .ind u => 4 :: serAct u
  | .inter hs => 5 :: hs.length :: serHoms hs
  | .sum hs => 6 :: hs.length :: serHoms hs
  | .satFix x F G L => [7, x] ++ serHom F ++ [G.length] ++ serHoms G ++ serHom L
  | .satInter x F G L => [8, x] ++ F.length :: serHoms F ++ [G.length] ++ serHoms G ++ L.length :: serHoms L
  | .satSum x F G L => [9, x] ++ F.length :: serHoms F ++ [G.length] ++ serHoms G ++ L.length :: serHoms L
  | _ => [0]
/-- Serialisation of several homomorphisms. -/
def serHoms : List (Hom Values Nat Act) → List Nat
  | [] => []
  | h :: hs => serHom h ++ serHoms hs
end

/-- The library at the beginning of the program; homomorphisms are sorted by their serialisations. -/
def run (tm : Model) (tasks : List Nat) (cores : Nat) : Option (SDD Values) :=
  schedulings (fun a b => lexLt (serHom a) (serHom b)) id (fun var => ⟨env tm var, cfg, fun _ _ => [], fun _ => 100, 100⟩) 100 tm tasks cores
    ⟨⟨fun _ => [], 0⟩, []⟩

/-- The path of a scheduling of two tasks on two cores: the times of the cores, and for each task its core and the time of its start. -/
def path2 (time0 time1 : U32) (t0 t1 : Arc) : Path Arc := .flat 3 ⟨0, time1⟩ (.flat 2 ⟨0, time0⟩ (.flat 1 t0 (.flat 0 t1 .nil)))

/-- A task, and another one which depends on it. This model is generated (see the example below). -/
def pair : Model := ⟨[⟨0, 5, 12⟩, ⟨0, 6, 15⟩], [[], [0]]⟩

/-- A task, and another one which depends on it and has little time. -/
def urgent : Model := ⟨[⟨0, 5, 12⟩, ⟨0, 10, 12⟩], [[], [0]]⟩

end Scheduling

open Scheduling in
theorem Scheduling.lawful : cfg.Lawful :=
  flatSetCfg_lawful _ (lexLt_st.comap _ fun v w h => (Scheduling.ser_prefix v w [] [] (by rw [h])).1) (serLt_st Scheduling.ser_prefix)

open Scheduling in
/-- **C90**, negation. A counted scheduling may start a task before the end of a task it depends on: four schedulings are counted for two tasks and two cores;
in two of them the second task starts at the end of the first one, on the same core, and in two of them both start at time 0. A scheduling may
be counted and not the one in which cores are exchanged: here the second task is in time when it runs on the core which has done nothing. -/
theorem C90_negation : (∃ r, run pair [0, 1] 2 = some r ∧ 0 ∈ pair.dependenciesOf 1 ∧ ∀ p, Mem cfg p r ↔
      p = path2 0 11 ⟨1, 0⟩ ⟨1, 5⟩ ∨ p = path2 5 6 ⟨0, 0⟩ ⟨1, 0⟩ ∨ p = path2 6 5 ⟨1, 0⟩ ⟨0, 0⟩ ∨ p = path2 11 0 ⟨0, 0⟩ ⟨0, 5⟩) ∧
    ∃ r, run urgent [0, 1] 2 = some r ∧ Mem cfg (path2 10 5 ⟨1, 0⟩ ⟨0, 0⟩) r ∧ ¬ Mem cfg (path2 5 10 ⟨0, 0⟩ ⟨1, 0⟩) r ∧
      urgent.eta 1 0 ≤ (urgent.task 1).deadline := by
  have key : ∃ r, run pair [0, 1] 2 = some r ∧ pathList cfg r =
      [path2 0 11 ⟨1, 0⟩ ⟨1, 5⟩, path2 5 6 ⟨0, 0⟩ ⟨1, 0⟩, path2 6 5 ⟨1, 0⟩ ⟨0, 0⟩, path2 11 0 ⟨0, 0⟩ ⟨0, 5⟩] :=
    Option.map_eq_some_iff.1 (by decide +kernel)
  refine ⟨?_, _, Option.eq_some_of_isSome (o := run urgent [0, 1] 2) (by decide +kernel), ?_, ?_, by decide +kernel⟩
  · obtain ⟨r, h1, h2⟩ := key
    refine ⟨r, h1, by decide, fun p => ?_⟩
    rw [← mem_pathList lawful, h2]
    rw [List.mem_cons, List.mem_cons, List.mem_cons, List.mem_singleton]
  · rw [← mem_pathList lawful]; decide +kernel
  · rw [← mem_pathList lawful]; decide +kernel

open Scheduling in
/-- **C90**, negation. The function which records the core and the time of a task says that it is a selector, and is not one, for all task models. -/
theorem C90_negation_selector (tm : Model) (var : Nat → Nat) (t c : Nat) : (env tm var).fnSel (.tau t c 0) = true ∧ ¬ Honest (env tm var) cfg := by
  refine ⟨rfl, fun h => ?_⟩
  have h1 : (⟨0, 0⟩ : Arc) ∈ (FSet.ofList Arc.lt_st [epsilon]).data :=
    h.fnSel (.tau 0 0 0) rfl (FSet.ofList Arc.lt_st [epsilon]) ⟨0, 0⟩ (show (⟨0, 0⟩ : Arc) ∈ (fn Scheduling.pair (.tau 0 0 0) (FSet.ofList Arc.lt_st [epsilon])).data by decide +kernel)
  exact absurd h1 (by decide +kernel)

/-- The first model is generated. -/
example : generate 2 (fun i => ⟨1, [0], 5 + i⟩) = .ok Scheduling.pair ∧ ∀ i < 2, (⟨1, [0], 5 + i⟩ : Draws).OK 2 := by
  refine ⟨by decide +kernel, fun i hi => ⟨by simp, by simp, by simp; omega⟩⟩

end Verif
