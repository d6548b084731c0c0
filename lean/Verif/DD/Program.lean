import Verif.DD.Transparent
import Verif.DD.Heads
import Verif.DD.Count
/-!
# Programs

A straight-line program creates handles from previous ones.  It is executed by a manager, between the
calls of which the caches may be cleared and nodes not in memory may get other addresses.  The
specification of a program is a computation on sets of paths.
-/

set_option autoImplicit false
set_option linter.unusedSectionVars false

namespace Verif

/-- Instructions; a handle is designated by its position, the last created one being the number 0.
(Model of the environment: what the user or the system does.) -/
inductive Instr (V : Type) : Type where
  | zero
  | one
  | flat (x : Nat) (v : V) (succ : Nat)
  | hier (x : Nat) (v succ : Nat)
  | sum (is : List Nat)
  | inter (is : List Nat)
  | diff (i j : Nat)

section
variable {V E : Type}

/-- The handle at a position (`|0|` when there is none). (Model of the environment: what the user or the system does.) -/
def reg (hs : List (SDD V)) (i : Nat) : SDD V := hs.getD i .zero

/-- The call made by an instruction. (Model of the environment: what the user or the system does.) -/
def Instr.call (hs : List (SDD V)) : Instr V → Call V
  | .zero => .zero
  | .one => .one
  | .flat x v i => .flat x v (reg hs i)
  | .hier x i j => .hier x (reg hs i) (reg hs j)
  | .sum is => .sum (is.map (reg hs))
  | .inter is => .inter (is.map (reg hs))
  | .diff i j => .diff (reg hs i) (reg hs j)

/-- Sets of paths. (Specification, not part of the code.) -/
abbrev PSet (E : Type) := Path E → Prop

/-- The set at a position. (Specification, not part of the code.) -/
def regS (hs : List (PSet E)) (i : Nat) : PSet E := hs.getD i fun _ => False

/-- The set computed by an instruction. (Specification, not part of the code.) -/
def Instr.denote (C : Cfg V E) (hs : List (PSet E)) : Instr V → PSet E
  | .zero => fun _ => False
  | .one => fun p => p = .nil
  | .flat x v i => fun p => ∃ a q, p = .flat x a q ∧ C.vmem a v ∧ regS hs i q
  | .hier x i j => fun p => ∃ a q, p = .hier x a q ∧ regS hs i a ∧ regS hs j q
  | .sum is => fun p => ∃ i ∈ is, regS hs i p
  | .inter is => fun p => is ≠ [] ∧ ∀ i ∈ is, regS hs i p
  | .diff i j => fun p => regS hs i p ∧ ¬ regS hs j p

/-- The sets computed by a program (last instruction first). (Specification, not part of the code.) -/
def denote (C : Cfg V E) : List (Instr V) → List (PSet E)
  | [] => []
  | i :: is => i.denote C (denote C is) :: denote C is

variable [DecidableEq V]

/-- The executions of a program (last instruction first) which do not raise. (Model of the environment: what the user or the system does.) -/
inductive Exec (C : Cfg V E) (orc : Nat → Nat → List Nat) (cap : OpKind → Nat) :
    List (Instr V) → Sess V → Prop where
  | init (lt : SDD V → SDD V → Bool) : StrictTotal lt → Exec C orc cap [] ⟨lt, ⟨fun _ => [], 0⟩, []⟩
  | instr (is : List (Instr V)) (i : Instr V) (s : Sess V) (r : SDD V) (m : Mach V) :
      Exec C orc cap is s →
      (i.call s.handles).run (C.withLt s.lt) orc cap s.mach = (.ok r, m) →
      Exec C orc cap (i :: is) ⟨s.lt, m, r :: s.handles⟩
  | clear (is : List (Instr V)) (s : Sess V) : Exec C orc cap is s →
      Exec C orc cap is { s with mach := ⟨fun _ => [], s.mach.tick⟩ }
  | realloc (is : List (Instr V)) (s : Sess V) (lt : SDD V → SDD V → Bool) : Exec C orc cap is s →
      StrictTotal lt → (∀ a b, s.Live a → s.Live b → s.lt a b = lt a b) →
      Exec C orc cap is { s with lt := lt }

variable {C : Cfg V E} {orc : Nat → Nat → List Nat} {cap : OpKind → Nat}

theorem reg_wf {C : Cfg V E} {hs : List (SDD V)} (h : ∀ x ∈ hs, WF C x) (i : Nat) : WF C (reg hs i) := by
  unfold reg
  rw [List.getD_eq_getElem?_getD]
  rcases hi : hs[i]? with _ | x
  · exact ⟨0, .zero _⟩
  · exact h x (List.mem_of_getElem? hi)

theorem Instr.args_wf {C : Cfg V E} {hs : List (SDD V)} (h : ∀ x ∈ hs, WF C x) (i : Instr V) :
    ∀ x ∈ (i.call hs).args, WF C x := by
  have hr := reg_wf h
  cases i <;> simp [Instr.call, Call.args] <;> intros <;> simp [hr]

theorem reg_denote {hs : List (SDD V)} {d : List (PSet E)}
    (hd : List.Forall₂ (fun x P => ∀ p, Mem C p x ↔ P p) hs d) (i : Nat) (q : Path E) :
    Mem C q (reg hs i) ↔ regS d i q := by
  unfold reg regS
  rw [List.getD_eq_getElem?_getD, List.getD_eq_getElem?_getD]
  revert i
  induction hd with
  | nil => intro i; simp [not_mem_zero]
  | cons h1 _ ih =>
    intro i
    cases i with
    | zero => simpa using h1 q
    | succ i => simpa using ih i

theorem Call.spec_withLt {lt : SDD V → SDD V → Bool} (c : Call V) (p : Path E) :
    c.Spec (C.withLt lt) p ↔ c.Spec C p := by
  have e : (C.withLt lt).vmem = C.vmem := rfl
  cases c <;> simp [Call.Spec, mem_withLt, e]

/-- The invariant of executions. -/
theorem Exec.inv (hC : C.Lawful) (hcap : ∀ k, 0 < cap k) {is : List (Instr V)} {s : Sess V}
    (h : Exec C orc cap is s) : s.Inv C ∧ HeadsOK s.mach ∧
      List.Forall₂ (fun x P => ∀ p, Mem C p x ↔ P p) s.handles (denote C is) := by
  induction h with
  | init lt hlt => exact ⟨⟨hlt, fun k e he => by simp at he, by simp⟩, fun k e he => by simp at he, .nil⟩
  | clear is s _ ih =>
    exact ⟨⟨ih.1.st, fun k e he => by simp at he, ih.1.wf⟩, fun k e he => by simp at he, ih.2.2⟩
  | realloc is s lt _ h1 h2 ih =>
    exact ⟨Sess.Step.inv (orc := orc) hC hcap (.realloc s lt h1 h2) ih.1, ih.2⟩
  | instr is i s r m _ hr ih =>
    obtain ⟨hi, hh, hd⟩ := ih
    have hsat := Call.run_sat (orc := orc) (allow := fun _ => True) (hC.withLt hi.st) hcap
      (Or.inr trivial) (.all fun _ _ => trivial) (i.args_wf hi.wf) s.mach hi.cache
    have hheads := (i.call s.handles).run_heads (C := C.withLt s.lt) (orc := orc) (cap := cap) hh
    rw [hr] at hsat hheads
    refine ⟨⟨hi.st, hsat.1, ?_⟩, hheads, .cons ?_ hd⟩
    · intro h hm
      rw [List.mem_cons] at hm
      rcases hm with rfl | hm
      · exact hsat.2.1
      · exact hi.wf h hm
    · intro p
      have h2 := hsat.2.2 p
      rw [mem_withLt] at h2
      have hreg : ∀ i q, Mem C q (reg s.handles i) ↔ regS (denote C is) i q := by
        intro i q
        exact reg_denote hd i q
      rw [h2, Call.spec_withLt]
      cases i <;> simp [Instr.call, Call.Spec, Instr.denote, hreg]

end
end Verif
