import Mathlib.Logic.Function.Basic
import Mathlib.Tactic.Common
/-!
# Initialisation of the library

`/repo/sdd/manager.hh`.  A configuration is a type with a type of values; the globals are one pointer per
type (`global_ptr`, `/repo/sdd/internal_manager.hh:134-142`, and `global_values_ptr`,
`/repo/sdd/values_manager.hh:96-107`).  Managers are numbered in the order of their creation.
-/

set_option autoImplicit false
set_option linter.unusedSectionVars false

namespace Verif
namespace Manager

/-- The globals, and the managers which are alive.
(`/repo/sdd/internal_manager_fwd.hh`, `/repo/sdd/values_manager_fwd.hh`, `/repo/sdd/manager.hh`, lines 168-174.) -/
structure State (T : Type) where
  internal : T → Option Nat
  values : T → Option Nat
  alive : List (Nat × T)
  next : Nat

section
variable {T : Type} [DecidableEq T] (valuesOf : T → T)

/-- What is done with the library: `init` for a configuration; `init` interrupted by an exception while the
internal manager is built; the destruction of the last copy of a manager. (`/repo/sdd/manager.hh`, lines 34-53 and 183-187.) -/
inductive Op (T : Type) where
  | init (c : T)
  | initFails (c : T)
  | destroy (m : Nat)

/-- What is observed. (`/repo/sdd/manager.hh`, lines 47-51.) -/
inductive Out where
  | created (m : Nat)
  | error
  | failed
  | destroyed
  deriving DecidableEq

/-- The test done by `init`, `/repo/sdd/manager.hh:39` (the second pointer is that of an internal manager, not of
a values manager). -/
def ready (s : State T) (c : T) : Bool := (s.internal c).isNone && (s.internal (valuesOf c)).isNone

/-- `init`, `/repo/sdd/manager.hh:34-53`, and `~manager_impl`, `/repo/sdd/manager.hh:183-187`. -/
def exec (s : State T) : Op T → Option (Out × State T)
  | .init c =>
    if ready valuesOf s c then
      some (.created s.next, {
        internal := Function.update s.internal c (some s.next)
        values := Function.update s.values (valuesOf c) (some s.next)
        alive := (s.next, c) :: s.alive
        next := s.next + 1 })
    else some (.error, s)
  | .initFails c =>
    if ready valuesOf s c then
      some (.failed, { s with
        values := Function.update s.values (valuesOf c) (some s.next)
        next := s.next + 1 })
    else some (.error, s)
  | .destroy m =>
    match s.alive.find? (fun p => p.1 == m) with
    | none => none
    | some p => some (.destroyed, { s with
        internal := Function.update s.internal p.2 none
        values := Function.update s.values (valuesOf p.2) none
        alive := s.alive.filter (fun q => q.1 != m) })

/-- The initial globals.
(`/repo/sdd/internal_manager.hh`, lines 134-142, `/repo/sdd/values_manager.hh`, lines 99-107: the static pointers are null.) -/
def start : State T := ⟨fun _ => none, fun _ => none, [], 0⟩

/-- The states reached when only configurations satisfying `P` are used. (Model of the environment: what the user or the system does.) -/
inductive Reach (P : T → Prop) : State T → Prop where
  | start : Reach P start
  | step {s s' : State T} {op : Op T} {o : Out} : Reach P s →
      (∀ c, op = .init c ∨ op = .initFails c → P c) → exec valuesOf s op = some (o, s') → Reach P s'

/-- The invariant when configurations do not share their types of values. (Proof device, not part of the code.) -/
structure Inv (P : T → Prop) (s : State T) : Prop where
  used : ∀ p ∈ s.alive, P p.2 ∧ p.1 < s.next
  one : s.alive.Pairwise fun p q => p.1 ≠ q.1 ∧ p.2 ≠ q.2
  internal : ∀ c m, s.internal c = some m ↔ (m, c) ∈ s.alive
  values : ∀ p ∈ s.alive, s.values (valuesOf p.2) = some p.1

/-- Configurations of which no two share a type of values, and none is a type of values. (Specification, not part of the code.) -/
def Separate (P : T → Prop) : Prop :=
  (∀ c d, P c → P d → valuesOf c = valuesOf d → c = d) ∧ ∀ c d, P c → P d → valuesOf c ≠ d

variable {valuesOf} {P : T → Prop}

theorem ready_iff (hP : Separate valuesOf P) {s : State T} (h : Inv valuesOf P s) {c : T} (hc : P c) :
    ready valuesOf s c = true ↔ ∀ p ∈ s.alive, p.2 ≠ c := by
  have h2 : s.internal (valuesOf c) = none := by
    cases hi : s.internal (valuesOf c) with
    | none => rfl
    | some m =>
      have := (h.internal _ _).1 hi
      exact absurd rfl (hP.2 c (valuesOf c) hc (h.used _ this).1)
  simp only [ready, h2, Option.isNone_none, Bool.and_true, Option.isNone_iff_eq_none]
  constructor
  · rintro hn ⟨m, d⟩ hp rfl
    rw [(h.internal _ m).2 hp] at hn
    cases hn
  · intro hn
    cases hi : s.internal c with
    | none => rfl
    | some m => exact absurd rfl (hn (m, c) ((h.internal _ _).1 hi))

theorem find_alive {l : List (Nat × T)} (h : l.Pairwise fun p q => p.1 ≠ q.1 ∧ p.2 ≠ q.2) {p : Nat × T}
    (hp : p ∈ l) : l.find? (fun q => q.1 == p.1) = some p := by
  induction l with
  | nil => simp at hp
  | cons q l ih =>
    obtain ⟨h1, h2⟩ := List.pairwise_cons.1 h
    rcases List.mem_cons.1 hp with rfl | hp'
    · simp
    · rw [List.find?_cons, beq_eq_false_iff_ne.2 (h1 p hp').1]
      exact ih h2 hp'

theorem exec_inv (hP : Separate valuesOf P) {s s' : State T} {op : Op T} {o : Out} (h : Inv valuesOf P s)
    (hv : ∀ c, op = .init c ∨ op = .initFails c → P c) (he : exec valuesOf s op = some (o, s')) :
    Inv valuesOf P s' := by
  have hfresh : ∀ p ∈ s.alive, p.1 ≠ s.next := fun p hp => Nat.ne_of_lt (h.used p hp).2
  cases op with
  | init c =>
    have hc := hv c (.inl rfl)
    have hr := ready_iff hP h hc
    simp only [exec] at he
    split at he
    · rename_i hrd
      have hne := hr.1 hrd
      cases he
      refine ⟨?_, ?_, ?_, ?_⟩
      · intro p hp
        rcases List.mem_cons.1 hp with rfl | hp
        · exact ⟨hc, Nat.lt_succ_self _⟩
        · exact ⟨(h.used p hp).1, Nat.lt_succ_of_lt (h.used p hp).2⟩
      · exact List.pairwise_cons.2 ⟨fun p hp => ⟨(hfresh p hp).symm, (hne p hp).symm⟩, h.one⟩
      · intro d m
        simp only
        rw [List.mem_cons]
        by_cases hd : d = c
        · subst hd
          rw [Function.update_self, Option.some.injEq, Prod.mk.injEq]
          constructor
          · rintro rfl
            exact .inl ⟨rfl, rfl⟩
          · rintro (⟨rfl, _⟩ | hm)
            · rfl
            · exact absurd rfl (hne _ hm)
        · rw [Function.update_of_ne hd, h.internal]
          simp [hd]
      · intro p hp
        simp only
        rcases List.mem_cons.1 hp with rfl | hp
        · rw [Function.update_self]
        · rw [Function.update_of_ne]
          · exact h.values p hp
          · intro e
            exact hne p hp (hP.1 _ _ (h.used p hp).1 hc e)
    · cases he
      exact h
  | initFails c =>
    have hc := hv c (.inr rfl)
    have hr := ready_iff hP h hc
    simp only [exec] at he
    split at he
    · rename_i hrd
      have hne := hr.1 hrd
      cases he
      refine ⟨fun p hp => ⟨(h.used p hp).1, Nat.lt_succ_of_lt (h.used p hp).2⟩, h.one, h.internal, ?_⟩
      intro p hp
      simp only
      rw [Function.update_of_ne]
      · exact h.values p hp
      · intro e
        exact hne p hp (hP.1 _ _ (h.used p hp).1 hc e)
    · cases he
      exact h
  | destroy m =>
    simp only [exec] at he
    split at he
    · cases he
    · rename_i q hf
      cases he
      have hq := List.mem_of_find?_eq_some hf
      have hm : q.1 = m := by simpa using List.find?_some hf
      have hmem : ∀ p, p ∈ s.alive.filter (fun q => q.1 != m) ↔ p ∈ s.alive ∧ p.1 ≠ m := by
        intro p
        simp [List.mem_filter]
      have hoth : ∀ p ∈ s.alive, p.1 ≠ m → p.2 ≠ q.2 := by
        intro p hp hpm e
        have hpq : p ≠ q := by
          rintro rfl
          exact hpm hm
        have hone := h.one
        revert hp hq hone
        generalize s.alive = l
        intro hq hp hone
        induction l with
        | nil => simp at hp
        | cons z l ih =>
          obtain ⟨h1, h2⟩ := List.pairwise_cons.1 hone
          rcases List.mem_cons.1 hp with e1 | hp'
          · rcases List.mem_cons.1 hq with e2 | hq'
            · exact hpq (e1.trans e2.symm)
            · exact (h1 q hq').2 (e1 ▸ e)
          · rcases List.mem_cons.1 hq with e2 | hq'
            · exact (h1 p hp').2 (e2 ▸ e.symm)
            · exact ih hq' hp' h2
      refine ⟨fun p hp => h.used p ((hmem p).1 hp).1, h.one.sublist List.filter_sublist, ?_, ?_⟩
      · intro d k
        simp only
        rw [hmem]
        by_cases hd : d = q.2
        · subst hd
          rw [Function.update_self]
          simp only [reduceCtorEq, false_iff, not_and, not_not]
          intro hk
          by_contra hkm
          exact hoth _ hk hkm rfl
        · rw [Function.update_of_ne hd, h.internal]
          constructor
          · intro hk
            refine ⟨hk, ?_⟩
            rintro rfl
            have := find_alive h.one hk
            simp only at this
            rw [this] at hf
            cases hf
            exact hd rfl
          · exact fun hk => hk.1
      · intro p hp
        obtain ⟨hp1, hp2⟩ := (hmem p).1 hp
        simp only
        rw [Function.update_of_ne]
        · exact h.values p hp1
        · intro e
          exact hoth p hp1 hp2 (hP.1 _ _ (h.used p hp1).1 (h.used q hq).1 e)

theorem Reach.inv (hP : Separate valuesOf P) {s : State T} (h : Reach valuesOf P s) : Inv valuesOf P s := by
  induction h with
  | start => exact ⟨by simp [Manager.start], by simp [Manager.start], by simp [Manager.start], by simp [Manager.start]⟩
  | step _ hv he ih => exact exec_inv hP ih hv he

end
end Manager
end Verif
