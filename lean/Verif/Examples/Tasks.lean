import Mathlib.Data.List.Perm.Basic
import Mathlib.Data.List.Nodup
import Mathlib.Data.List.Range
/-!
# Tasks and their dependencies

The task models of `/repo/examples/scheduling/`: `TaskModel.hpp` and `TaskModelGenerator.hpp`.
-/

set_option autoImplicit false
set_option linter.unusedSectionVars false

namespace Verif
namespace Tasks

/-- A task, `/repo/examples/scheduling/TaskModel.hpp:104-122`. (Its criticality is never read.) The fields are natural numbers below `2 ^ 32`. -/
structure Task : Type where
  release : Nat
  wcet : Nat
  deadline : Nat
  deriving DecidableEq, Repr

/-- `TaskModel`, `/repo/examples/scheduling/TaskModel.hpp:14-126`: the tasks, and for each one the tasks it depends on (an `unordered_set`: a list
without duplicates, whose order is not specified). -/
structure Model : Type where
  tasks : List Task
  deps : List (List Nat)
  deriving DecidableEq, Repr

/-- What goes wrong: an undefined behaviour; or the model is not told enough to go on. (Model of the environment: what the user or the system does.) -/
inductive Fault : Type where
  | ub
  | fuel
  deriving DecidableEq

namespace Model

/-- `task(t)`, `/repo/examples/scheduling/TaskModel.hpp:26-32`. (Undefined outside of the vector: a task with no time is returned here.) -/
def task (m : Model) (t : Nat) : Task := m.tasks.getD t ⟨0, 0, 0⟩

/-- `dependencies_of(t)`, `/repo/examples/scheduling/TaskModel.hpp:38-40`. (Undefined outside of the vector: empty here.) -/
def dependenciesOf (m : Model) (t : Nat) : List Nat := m.deps.getD t []

/-- `add_dependency(t, u)`, `/repo/examples/scheduling/TaskModel.hpp:34-36`. -/
def addDependency (m : Model) (t u : Nat) : Model :=
  { m with deps := m.deps.modify t fun s => if u ∈ s then s else s ++ [u] }

/-- `ets`, `/repo/examples/scheduling/TaskModel.hpp:44-46`. -/
def ets (m : Model) (t tau : Nat) : Nat := max tau (m.task t).release

/-- `eta`, `/repo/examples/scheduling/TaskModel.hpp:50-52`: the sum is modulo `2 ^ 32`. -/
def eta (m : Model) (t tau : Nat) : Nat := (m.ets t tau + (m.task t).wcet) % 2 ^ 32

end Model

/-! ## The order of tasks -/

/-- The loop on the tasks which have dependencies, `/repo/examples/scheduling/TaskModel.hpp:79-95`: those with no dependency in `free` become free. The
first argument is what remains of the iteration; returns the sets `free_tasks` and `dependent_tasks`. -/
def promote (m : Model) : List Nat → List Nat → List Nat × List Nat
  | [], free => (free, [])
  | t :: ts, free =>
    if (m.dependenciesOf t).any fun u => decide (u ∈ free) then ((promote m ts free).1, t :: (promote m ts free).2)
    else promote m ts (t :: free)

/-- The main loop of `build_order`, `/repo/examples/scheduling/TaskModel.hpp:71-96`, with a bound on the number of iterations. `it` gives the order of
iteration of an `unordered_set`; `stale next` is what is read at line 75 through the iterator which was on `next` and has been erased at line 74. -/
def kahn (m : Model) (it : List Nat → List Nat) (stale : Nat → Except Fault Nat) : Nat → List Nat → List Nat → List Nat → Except Fault (List Nat)
  | 0, _, _, _ => .error .fuel
  | n + 1, free, dependent, rv =>
    match it free with
    | [] => .ok rv
    | next :: free =>
      (stale next).bind fun v => kahn m it stale n (promote m (it dependent) free).1 (promote m (it dependent) free).2 (rv ++ [v])

/-- `build_order`, `/repo/examples/scheduling/TaskModel.hpp:55-99`. Each iteration takes one task, so that one more iteration than tasks is enough. -/
def buildOrderWith (m : Model) (it : List Nat → List Nat) (stale : Nat → Except Fault Nat) : Except Fault (List Nat) :=
  kahn m it stale (m.deps.length + 1) ((List.range m.deps.length).filter fun i => (m.dependenciesOf i).isEmpty)
    ((List.range m.deps.length).filter fun i => !(m.dependenciesOf i).isEmpty) []

/-- `build_order`, `/repo/examples/scheduling/TaskModel.hpp:55-99`: reading through an erased iterator is undefined. -/
def buildOrder (m : Model) (it : List Nat → List Nat) : Except Fault (List Nat) := buildOrderWith m it fun _ => .error .ub

/-- `build_order` on a machine where the memory of an erased element keeps its content. (`/repo/examples/scheduling/TaskModel.hpp:55-99`, as if lines 74 and 75
were exchanged.) -/
def buildOrderKept (m : Model) (it : List Nat → List Nat) : Except Fault (List Nat) := buildOrderWith m it .ok

/-! ## Random task models -/

/-- The loop choosing the dependencies of the task `i`, `/repo/examples/scheduling/TaskModelGenerator.hpp:35-39`, on the numbers drawn by `task_dist`:
the tasks chosen (`deps`). -/
def draw (i number : Nat) : List Nat → List Nat → Except Fault (List Nat)
  | [], deps => if number ≤ deps.length then .ok deps else .error .fuel
  | d :: ds, deps => if number ≤ deps.length then .ok deps else draw i number ds (if d % i ∈ deps then deps else deps ++ [d % i])

/-- What is drawn for a task: by `dep_dist`, by the successive calls of `task_dist`, by `wcet_dist`. (Model of the environment: what the user or the system
does.) -/
structure Draws : Type where
  dep : Nat
  tasks : List Nat
  wcet : Nat

/-- The task `i`, given the previous ones, `/repo/examples/scheduling/TaskModelGenerator.hpp:31-57`. The deadline is computed with floating-point numbers,
exactly (the numbers are below `2 ^ 53`), and truncated; its conversion is undefined when it does not fit. -/
def genTask (m : Model) (i : Nat) (d : Draws) : Except Fault Model :=
  (draw i (min d.dep i) d.tasks []).bind fun deps =>
    let hard := deps.foldl (fun h j => if (m.task j).deadline > h then (m.task j).deadline else h) 0
    let release := max hard (2 * d.wcet) - 2 * d.wcet
    let deadline := (2 * release + 5 * d.wcet) / 2
    if deadline < 2 ^ 32 then
      .ok { tasks := m.tasks.set i ⟨release, d.wcet, deadline⟩, deps := (deps.foldl (fun m j => m.addDependency i j) m).deps }
    else .error .ub

/-- The loop on the tasks, `/repo/examples/scheduling/TaskModelGenerator.hpp:30`. -/
def genFrom (ds : Nat → Draws) : Nat → Nat → Model → Except Fault Model
  | 0, _, m => .ok m
  | k + 1, i, m => (genTask m i (ds i)).bind fun m => genFrom ds k (i + 1) m

/-- `generate_task_model`, `/repo/examples/scheduling/TaskModelGenerator.hpp:18-63`. The distributions at lines 22 and 23 are on `int`, and must not be
empty. -/
def generate (n : Nat) (ds : Nat → Draws) : Except Fault Model :=
  if n = 0 ∨ 2 ^ 31 ≤ n then .error .ub else genFrom ds n 0 ⟨List.replicate n ⟨0, 0, 0⟩, List.replicate n []⟩

/-- The draws are those of the distributions, `/repo/examples/scheduling/TaskModelGenerator.hpp:22-24`. (Model of the environment: what the user or the system
does.) -/
structure Draws.OK (n : Nat) (d : Draws) : Prop where
  dep : n / 2 ≤ d.dep ∧ d.dep ≤ n
  tasks : ∀ t ∈ d.tasks, t < n
  wcet : 5 ≤ d.wcet ∧ d.wcet ≤ 10

/-! ## Lemmas -/

theorem promote_perm (m : Model) : ∀ ts free, ((promote m ts free).1 ++ (promote m ts free).2).Perm (free ++ ts)
  | [], free => by simp [promote]
  | t :: ts, free => by
    rw [promote]
    split
    · exact List.perm_middle.trans ((promote_perm m ts free).cons t |>.trans List.perm_middle.symm)
    · exact (promote_perm m ts (t :: free)).trans (by simpa using List.perm_middle.symm)

theorem promote_sub (m : Model) : ∀ ts free, ∀ t ∈ free, t ∈ (promote m ts free).1
  | [], _, _, h => h
  | t :: ts, free, u, h => by
    rw [promote]
    split
    · exact promote_sub m ts free u h
    · exact promote_sub m ts _ u (by simp [h])

theorem promote_nil (m : Model) {ts : List Nat} (h : ts ≠ []) : (promote m ts []).1 ≠ [] := by
  obtain ⟨t, ts, rfl⟩ := List.exists_cons_of_ne_nil h
  rw [promote, if_neg (by simp)]
  exact List.ne_nil_of_mem (promote_sub m ts [t] t (by simp))

/-- What becomes free has no dependency in the set of free tasks. -/
theorem promote_new (m : Model) : ∀ ts free, ∀ t ∈ (promote m ts free).1, t ∈ free ∨ (t ∈ ts ∧ ∀ u ∈ m.dependenciesOf t, u ∉ free)
  | [], _, _, h => .inl h
  | t :: ts, free, v, h => by
    rw [promote] at h
    split at h
    · exact (promote_new m ts free v h).imp_right fun ⟨h1, h2⟩ => ⟨by simp [h1], h2⟩
    · next hn =>
      rcases promote_new m ts _ v h with h | ⟨h1, h2⟩
      · rcases List.mem_cons.1 h with rfl | h
        · exact .inr ⟨by simp, by simpa using hn⟩
        · exact .inl h
      · exact .inr ⟨by simp [h1], fun u hu h3 => h2 u hu (by simp [h3])⟩

/-- A list in which every task comes after the tasks it depends on. (Specification or proof device, not part of the code.) -/
def Topo (m : Model) (rv : List Nat) : Prop := ∀ l t l', rv = l ++ t :: l' → ∀ u ∈ m.dependenciesOf t, u ∈ l

theorem Topo.snoc {m : Model} {rv : List Nat} (h : Topo m rv) {t : Nat} (ht : ∀ u ∈ m.dependenciesOf t, u ∈ rv) : Topo m (rv ++ [t]) := by
  intro l v l' e u hu
  rcases List.eq_nil_or_concat l' with rfl | ⟨l'', w, rfl⟩
  · obtain ⟨rfl, h2⟩ := List.append_inj' e rfl
    simp only [List.cons.injEq, and_true] at h2
    exact ht u (h2 ▸ hu)
  · rw [List.concat_eq_append, ← List.cons_append, ← List.append_assoc] at e
    exact h l v l'' (List.append_inj' e rfl).1 u hu

theorem kahn_kept {m : Model} {it : List Nat → List Nat} (hit : ∀ l, (it l).Perm l) : ∀ (n : Nat) (free dependent rv : List Nat),
    free.length + dependent.length < n → (free = [] → dependent = []) →
    ∃ l, kahn m it .ok n free dependent rv = .ok (rv ++ l) ∧ l.Perm (free ++ dependent)
  | 0, _, _, _, h, _ => absurd h (by omega)
  | n + 1, free, dependent, rv, h, hf => by
    rw [kahn]
    have hp := hit free
    have hd := hit dependent
    split
    · next e =>
      rw [e] at hp
      have e1 := hp.symm.eq_nil
      exact ⟨[], by simp, by simp [e1, hf e1]⟩
    · next next rest e =>
      rw [e] at hp
      have hq := promote_perm m (it dependent) rest
      have hl := hq.length_eq
      have hl1 := hp.length_eq
      have hl2 := hd.length_eq
      simp only [List.length_append, List.length_cons] at hl hl1
      obtain ⟨l, h1, h2⟩ := kahn_kept hit n (promote m (it dependent) rest).1 (promote m (it dependent) rest).2 (rv ++ [next]) (by omega)
        (fun h3 => by
          by_contra h4
          by_cases h5 : it dependent = []
          · rw [h5, promote] at h4
            exact h4 rfl
          · cases rest with
            | nil => exact promote_nil m h5 h3
            | cons r rest => exact absurd h3 (List.ne_nil_of_mem (promote_sub m _ _ r (by simp))))
      refine ⟨next :: l, by rw [Except.bind, h1]; simp, ?_⟩
      refine ((h2.trans hq).cons next).trans ?_
      rw [← List.cons_append]
      exact hp.append hd

theorem kahn_topo {m : Model} {it : List Nat → List Nat} (hit : ∀ l, (it l).Perm l)
    (h2 : ∀ t, ∀ u ∈ m.dependenciesOf t, u < m.deps.length ∧ m.dependenciesOf u = []) : ∀ (n : Nat) (free dependent rv l : List Nat),
    (∀ u, u < m.deps.length → m.dependenciesOf u = [] → u ∈ rv ∨ u ∈ free) → (∀ t ∈ free, ∀ u ∈ m.dependenciesOf t, u ∈ rv) → Topo m rv →
    kahn m it .ok n free dependent rv = .ok l → Topo m l
  | 0, _, _, _, _, _, _, _, h => by simp [kahn] at h
  | n + 1, free, dependent, rv, l, ha, hb, ht, h => by
    rw [kahn] at h
    have hp := hit free
    have hd := hit dependent
    split at h
    · cases h; exact ht
    · next next rest e =>
      rw [e] at hp
      rw [Except.bind] at h
      refine kahn_topo hit h2 n _ _ _ _ ?_ ?_ (ht.snoc (hb next (hp.subset (by simp)))) h
      · intro u hu h3
        rcases ha u hu h3 with h4 | h4
        · exact .inl (by simp [h4])
        · rcases List.mem_cons.1 (hp.symm.subset h4) with rfl | h4
          · exact .inl (by simp)
          · exact .inr (promote_sub m _ _ u h4)
      · intro t h3 u hu
        rcases promote_new m _ _ t h3 with h4 | ⟨_, h4⟩
        · simpa using .inl (hb t (hp.subset (by simp [h4])) u hu)
        · rcases ha u (h2 t u hu).1 (h2 t u hu).2 with h5 | h5
          · simp [h5]
          · rcases List.mem_cons.1 (hp.symm.subset h5) with rfl | h5
            · simp
            · exact absurd h5 (h4 u hu)

theorem mem_free {m : Model} {i : Nat} : i ∈ (List.range m.deps.length).filter (fun i => (m.dependenciesOf i).isEmpty) ↔
    i < m.deps.length ∧ m.dependenciesOf i = [] := by simp

/-! ## Generated models -/

theorem draw_spec {i number : Nat} (hn : number ≤ i) : ∀ {ds deps l : List Nat}, draw i number ds deps = .ok l → deps.Nodup → (∀ j ∈ deps, j < i) →
    deps.length ≤ number → l.Nodup ∧ (∀ j ∈ l, j < i) ∧ l.length = number
  | [], deps, l, h, h1, h2, h3 => by
    rw [draw] at h
    split at h
    · cases h; exact ⟨h1, h2, by omega⟩
    · cases h
  | d :: ds, deps, l, h, h1, h2, h3 => by
    rw [draw] at h
    split at h
    · cases h; exact ⟨h1, h2, by omega⟩
    · have hi : d % i < i := Nat.mod_lt _ (by omega)
      split at h
      · exact draw_spec hn h h1 h2 h3
      · next hd =>
        refine draw_spec hn h ?_ ?_ (by simp; omega)
        · rw [List.nodup_append]
          exact ⟨h1, by simp, by rintro a ha b hb rfl; simp at hb; exact hd (hb ▸ ha)⟩
        · intro j hj
          rcases List.mem_append.1 hj with hj | hj
          · exact h2 j hj
          · simp at hj; omega

theorem draw_error {i number : Nat} : ∀ {ds deps : List Nat} {e : Fault}, draw i number ds deps = .error e → e = .fuel
  | [], deps, e, h => by
    rw [draw] at h
    split at h
    · cases h
    · cases h; rfl
  | d :: ds, deps, e, h => by
    rw [draw] at h
    split at h
    · cases h
    · exact draw_error h

theorem addAll {m : Model} {i : Nat} (hi : i < m.deps.length) : ∀ (l : List Nat), (l ++ m.dependenciesOf i).Nodup →
    (l.foldl (fun m j => m.addDependency i j) m).deps = m.deps.set i (m.dependenciesOf i ++ l)
  | [], _ => by simp [Model.dependenciesOf, List.getD_eq_getElem?_getD, hi]
  | j :: l, h => by
    have hj : j ∉ m.dependenciesOf i := by simp at h; tauto
    have e : m.addDependency i j = { m with deps := m.deps.set i (m.dependenciesOf i ++ [j]) } := by
      have h1 : m.deps[i] = m.dependenciesOf i := by simp [Model.dependenciesOf, List.getD_eq_getElem?_getD, hi]
      simp only [Model.addDependency, List.modify_eq_set_getElem?, List.getElem?_eq_getElem hi, Option.map_eq_map, Option.map_some, Option.getD_some, h1, if_neg hj]
    rw [List.foldl_cons, addAll (by rw [e]; simpa using hi)]
    · rw [e]
      simp [Model.dependenciesOf, List.getD_eq_getElem?_getD, hi]
    · rw [e]
      simp only [Model.dependenciesOf, List.getD_eq_getElem?_getD, List.getElem?_set_self hi, Option.getD_some]
      rw [← List.append_assoc]
      refine (List.perm_append_comm.nodup_iff).1 ?_
      simpa [Model.dependenciesOf, List.getD_eq_getElem?_getD] using h

/-- What is known of the task `j` of a generated model. (Specification or proof device, not part of the code.) -/
structure Task.Good (ds : Nat → Draws) (m : Model) (j : Nat) : Prop where
  nodup : (m.dependenciesOf j).Nodup
  lt : ∀ u ∈ m.dependenciesOf j, u < j
  length : (m.dependenciesOf j).length = min (ds j).dep j
  wcet : (m.task j).wcet = (ds j).wcet
  hard : ∀ u ∈ m.dependenciesOf j, (m.task u).deadline ≤ (m.task j).release + 2 * (m.task j).wcet
  release : (m.task j).release = 0 ∨ ∃ u ∈ m.dependenciesOf j, (m.task u).deadline = (m.task j).release + 2 * (m.task j).wcet
  deadline : (m.task j).deadline = (m.task j).release + 5 * (m.task j).wcet / 2
  bound : (m.task j).deadline ≤ 25 + 5 * j

/-- What is known while tasks are generated, `i` tasks being done. (Specification or proof device, not part of the code.) -/
structure Gen (n : Nat) (ds : Nat → Draws) (m : Model) (i : Nat) : Prop where
  tasks : m.tasks.length = n
  deps : m.deps.length = n
  empty : ∀ j, i ≤ j → m.dependenciesOf j = []
  good : ∀ j < i, Task.Good ds m j

theorem foldl_hard (f : Nat → Nat) : ∀ (l : List Nat) (a : Nat), (l.foldl (fun h j => if f j > h then f j else h) a = a ∨
      ∃ u ∈ l, l.foldl (fun h j => if f j > h then f j else h) a = f u) ∧ a ≤ l.foldl (fun h j => if f j > h then f j else h) a ∧
      ∀ u ∈ l, f u ≤ l.foldl (fun h j => if f j > h then f j else h) a
  | [], a => by simp
  | j :: l, a => by
    obtain ⟨h1, h2, h3⟩ := foldl_hard f l (if f j > a then f j else a)
    rw [List.foldl_cons]
    refine ⟨?_, ?_, fun u hu => ?_⟩
    · rcases h1 with h1 | ⟨u, hu, h1⟩
      · rw [h1]
        split
        · exact .inr ⟨j, by simp, rfl⟩
        · exact .inl rfl
      · exact .inr ⟨u, by simp [hu], h1⟩
    · refine le_trans ?_ h2
      split <;> omega
    · rcases List.mem_cons.1 hu with rfl | hu
      · refine le_trans ?_ h2
        split <;> omega
      · exact h3 u hu

theorem genTask_spec {n i : Nat} {ds : Nat → Draws} {m : Model} (hd : (ds i).OK n) (hn : 5 * n + 20 < 2 ^ 32) (hi : i < n) (hm : Gen n ds m i) :
    genTask m i (ds i) ≠ .error .ub ∧ ∀ m', genTask m i (ds i) = .ok m' → Gen n ds m' (i + 1) := by
  rw [genTask]
  cases hc : draw i (min (ds i).dep i) (ds i).tasks [] with
  | error e => rw [draw_error hc]; simp [Except.bind]
  | ok l =>
    obtain ⟨h1, h2, h3⟩ := draw_spec (Nat.min_le_right _ _) hc (by simp) (by simp) (by simp)
    simp only [Except.bind]
    obtain ⟨h4, -, h5⟩ := foldl_hard (fun j => (m.task j).deadline) l 0
    generalize hh : l.foldl (fun h j => if (m.task j).deadline > h then (m.task j).deadline else h) 0 = hard at h4 h5 ⊢
    have hw := hd.wcet
    generalize hwc : (ds i).wcet = w at hw ⊢
    have hb : hard = 0 ∨ (hard ≤ 25 + 5 * (i - 1) ∧ 0 < i) := by
      rcases h4 with h4 | ⟨u, hu, h4⟩
      · exact .inl h4
      · have := (hm.good u (h2 u hu)).bound
        have := h2 u hu
        exact .inr ⟨by omega, by omega⟩
    have hlt : (2 * (max hard (2 * w) - 2 * w) + 5 * w) / 2 < 2 ^ 32 := by omega
    rw [if_pos hlt]
    refine ⟨by simp, fun m' e => ?_⟩
    cases e
    rw [addAll (by rw [hm.deps]; exact hi) _ (by rw [hm.empty i (Nat.le_refl _)]; simpa using h1), hm.empty i (Nat.le_refl _)]
    generalize hR : max hard (2 * w) - 2 * w = R at *
    generalize hm' : (⟨m.tasks.set i ⟨R, w, (2 * R + 5 * w) / 2⟩, m.deps.set i ([] ++ l)⟩ : Model) = m'
    have t1 : m'.task i = ⟨R, w, (2 * R + 5 * w) / 2⟩ := by
      subst hm'; simp [Model.task, List.getD_eq_getElem?_getD, hm.tasks, hi]
    have t2 : ∀ j, j ≠ i → m'.task j = m.task j := by
      intro j hj; subst hm'; simp [Model.task, List.getD_eq_getElem?_getD, List.getElem?_set_ne (Ne.symm hj)]
    have d1 : m'.dependenciesOf i = l := by
      subst hm'; simp [Model.dependenciesOf, List.getD_eq_getElem?_getD, hm.deps, hi]
    have d2 : ∀ j, j ≠ i → m'.dependenciesOf j = m.dependenciesOf j := by
      intro j hj; subst hm'; simp [Model.dependenciesOf, List.getD_eq_getElem?_getD, List.getElem?_set_ne (Ne.symm hj)]
    refine ⟨by subst hm'; simp [hm.tasks], by subst hm'; simp [hm.deps], fun j hj => by rw [d2 j (by omega), hm.empty j (by omega)], fun j hj => ?_⟩
    by_cases hji : j = i
    · subst hji
      refine ⟨by rw [d1]; exact h1, by rw [d1]; exact h2, by rw [d1]; exact h3, by rw [t1, hwc], ?_, ?_, ?_, ?_⟩
      · intro u hu
        rw [d1] at hu
        rw [t1, t2 u (by have := h2 u hu; omega)]
        have := h5 u hu
        simp only
        omega
      · rw [t1, d1]
        simp only
        rcases Nat.eq_zero_or_pos R with h | h
        · exact .inl h
        · rcases h4 with h4 | ⟨u, hu, h4⟩
          · omega
          · exact .inr ⟨u, hu, by rw [t2 u (by have := h2 u hu; omega)]; omega⟩
      · rw [t1]; simp only; omega
      · rw [t1]; simp only; omega
    · have g := hm.good j (by omega)
      have hne : ∀ u ∈ m.dependenciesOf j, u ≠ i := fun u hu => by have := g.lt u hu; omega
      refine ⟨?_, ?_, ?_, ?_, ?_, ?_, ?_, ?_⟩
      · rw [d2 j hji]; exact g.nodup
      · rw [d2 j hji]; exact g.lt
      · rw [d2 j hji]; exact g.length
      · rw [t2 j hji]; exact g.wcet
      · rw [d2 j hji, t2 j hji]; intro u hu; rw [t2 u (hne u hu)]; exact g.hard u hu
      · rw [d2 j hji, t2 j hji]
        exact g.release.imp_right fun ⟨u, hu, h⟩ => ⟨u, hu, by rw [t2 u (hne u hu)]; exact h⟩
      · rw [t2 j hji]; exact g.deadline
      · rw [t2 j hji]; exact g.bound

theorem genFrom_spec {n : Nat} {ds : Nat → Draws} (hd : ∀ i < n, (ds i).OK n) (hn : 5 * n + 20 < 2 ^ 32) : ∀ (k i : Nat) (m : Model), i + k = n → Gen n ds m i →
    genFrom ds k i m ≠ .error .ub ∧ ∀ m', genFrom ds k i m = .ok m' → Gen n ds m' n
  | 0, i, m, h, hm => by
    rw [genFrom]
    exact ⟨by simp, fun m' e => by cases e; rw [Nat.add_zero] at h; subst h; exact hm⟩
  | k + 1, i, m, h, hm => by
    obtain ⟨h1, h2⟩ := genTask_spec (hd i (by omega)) hn (by omega) hm
    rw [genFrom]
    cases hc : genTask m i (ds i) with
    | error e => rw [hc] at h1; exact ⟨by simpa [Except.bind] using h1, by simp [Except.bind]⟩
    | ok m' => exact genFrom_spec hd hn k (i + 1) m' (by omega) (h2 m' hc)

theorem gen_init (n : Nat) (ds : Nat → Draws) : Gen n ds ⟨List.replicate n ⟨0, 0, 0⟩, List.replicate n []⟩ 0 where
  tasks := by simp
  deps := by simp
  empty j _ := by
    simp only [Model.dependenciesOf, List.getD_eq_getElem?_getD, List.getElem?_replicate]
    split <;> rfl
  good j h := absurd h (by omega)

end Tasks
end Verif
