import Mathlib.Data.List.Basic
import Mathlib.Data.List.Pairwise
import Mathlib.Data.Nat.Basic
import Mathlib.Order.Lattice
import Mathlib.Tactic.Common
/-!
# SDD terms

A unified SDD (`/repo/sdd/dd/definition.hh:30-300`, a pointer to a unified variant of `|0|`, `|1|`,
flat node, hierarchical node) is modelled by a term.  Unification (`/repo/sdd/mem/unique_table.hh`)
makes equality of pointers (`definition.hh:366-372`) the structural equality of the data: it is the
equality of terms (the unification itself is the object of `Verif.Mem`).
-/

set_option autoImplicit false

namespace Verif

/-- `/repo/sdd/dd/definition.hh:40-76` (the variant type), `/repo/sdd/dd/node.hh:29-70` (a node is a
variable and an array of arcs), `/repo/sdd/dd/alpha.hh:25-70` (an arc is a valuation and a
successor), `/repo/sdd/dd/terminal.hh`. Variables are `unsigned int` in the default configurations
(`/repo/sdd/conf/default_configurations.hh`); here natural numbers. -/
inductive SDD (V : Type) : Type where
  | zero : SDD V
  | one : SDD V
  | flat (x : Nat) (arcs : List (V × SDD V)) : SDD V
  | hier (x : Nat) (arcs : List (SDD V × SDD V)) : SDD V

namespace SDD
variable {V : Type}

/-- Induction principle seeing the arcs as lists. -/
theorem ind {P : SDD V → Prop} (h0 : P zero) (h1 : P one)
    (hf : ∀ x arcs, (∀ a ∈ arcs, P a.2) → P (flat x arcs))
    (hh : ∀ x arcs, (∀ a ∈ arcs, P a.1 ∧ P a.2) → P (hier x arcs)) : ∀ s, P s
  | zero => h0
  | one => h1
  | flat x arcs => hf x arcs fun a ha => by
      have := List.sizeOf_lt_of_mem ha
      have : sizeOf a.2 < 1 + sizeOf x + sizeOf arcs := by
        obtain ⟨v, s⟩ := a; simp at *; omega
      exact ind h0 h1 hf hh a.2
  | hier x arcs => hh x arcs fun a ha => by
      have := List.sizeOf_lt_of_mem ha
      have h1' : sizeOf a.2 < 1 + sizeOf x + sizeOf arcs := by
        obtain ⟨v, s⟩ := a; simp at *; omega
      have h2' : sizeOf a.1 < 1 + sizeOf x + sizeOf arcs := by
        obtain ⟨v, s⟩ := a; simp at *; omega
      exact ⟨ind h0 h1 hf hh a.1, ind h0 h1 hf hh a.2⟩
  termination_by s => sizeOf s

variable [DecidableEq V]

mutual
/-- Structural equality test (`/repo/sdd/dd/node.hh:136-143`, `/repo/sdd/dd/alpha.hh:61-67`). -/
def beq : SDD V → SDD V → Bool
  | zero, zero => true
  | one, one => true
  | flat x a, flat y b => x == y && beqF a b
  | hier x a, hier y b => x == y && beqH a b
  | _, _ => false
/-- Equality of the arcs of flat nodes. (Unified data: equality of pointers, `/repo/sdd/mem/ptr.hh`, lines 195-201, is equality of contents.) -/
def beqF : List (V × SDD V) → List (V × SDD V) → Bool
  | [], [] => true
  | (v, s) :: a, (w, t) :: b => decide (v = w) && beq s t && beqF a b
  | _, _ => false
/-- Equality of the arcs of hierarchical nodes.
(Unified data: equality of pointers, `/repo/sdd/mem/ptr.hh`, lines 195-201, is equality of contents.) -/
def beqH : List (SDD V × SDD V) → List (SDD V × SDD V) → Bool
  | [], [] => true
  | (v, s) :: a, (w, t) :: b => beq v w && beq s t && beqH a b
  | _, _ => false
end

theorem beq_iff (s t : SDD V) : beq s t = true ↔ s = t := by
  induction s using ind generalizing t with
  | h0 => cases t <;> simp [beq]
  | h1 => cases t <;> simp [beq]
  | hf x a ih =>
    cases t with
    | flat y b =>
      have key : beqF a b = true ↔ a = b := by
        induction a generalizing b with
        | nil => cases b <;> simp [beqF]
        | cons p a iha =>
          obtain ⟨v, s⟩ := p
          cases b with
          | nil => simp [beqF]
          | cons q b =>
            obtain ⟨w, t⟩ := q
            have h1 := ih (v, s) (by simp) t
            have h2 := iha (fun a ha => ih a (by simp [ha])) b
            simp [beqF, h2]
            simp at h1
            simp [h1]
      simp [beq, key]
    | _ => simp [beq]
  | hh x a ih =>
    cases t with
    | hier y b =>
      have key : beqH a b = true ↔ a = b := by
        induction a generalizing b with
        | nil => cases b <;> simp [beqH]
        | cons p a iha =>
          obtain ⟨v, s⟩ := p
          cases b with
          | nil => simp [beqH]
          | cons q b =>
            obtain ⟨w, t⟩ := q
            have h1 := (ih (v, s) (by simp)).2 t
            have h0 := (ih (v, s) (by simp)).1 w
            have h2 := iha (fun a ha => ih a (by simp [ha])) b
            simp [beqH, h2]
            simp at h1 h0
            simp [h1, h0]
      simp [beq, key]
    | _ => simp [beq]

instance : DecidableEq (SDD V) := fun s t =>
  decidable_of_iff (beq s t = true) (beq_iff s t)

end SDD
end Verif
