import Verif.DD.Ops
/-!
# Specification: paths, canonical form, shapes

Independent of the algorithms: an SDD denotes a set of paths; a path is a sequence of levels carrying
the variable of the level and either a value or, for a hierarchical level, a nested path.
-/

set_option autoImplicit false

namespace Verif

/-- A path of an SDD. (Specification or proof device, not part of the code.) -/
inductive Path (E : Type) : Type where
  | nil : Path E
  | flat (x : Nat) (a : E) (p : Path E) : Path E
  | hier (x : Nat) (n : Path E) (p : Path E) : Path E
  deriving DecidableEq

section
variable {V E : Type}

/-- `Mem C p s`: the path `p` is in the set denoted by `s`. (Specification or proof device, not part of the code.) -/
def Mem (C : Cfg V E) : Path E → SDD V → Prop
  | .nil, s => s = .one
  | .flat x a p, s => match s with
    | .flat y arcs => x = y ∧ ∃ arc ∈ arcs, C.vmem a arc.1 ∧ Mem C p arc.2
    | _ => False
  | .hier x n p, s => match s with
    | .hier y arcs => x = y ∧ ∃ arc ∈ arcs, Mem C n arc.1 ∧ Mem C p arc.2
    | _ => False

/-- A type of SDDs, describing their levels: `nil` (terminals only), `flat x t` (a flat level of
variable `x` above `t`), `hier x n t` (a hierarchical level of variable `x` containing `n`, above `t`)
and `any n`: anything of depth at most `n`. The types without `any` are the shapes given by orders.
(Specification or proof device, not part of the code.) -/
inductive Ty : Type where
  | any (n : Nat)
  | nil
  | flat (x : Nat) (next : Ty)
  | hier (x : Nat) (nested next : Ty)
  deriving DecidableEq

/-- The type of what is below a flat node of variable `x`. (Specification or proof device, not part of the code.) -/
def Ty.flatNext : Ty → Nat → Option Ty
  | .any (n + 1), _ => some (.any n)
  | .flat x t, y => if x = y then some t else none
  | _, _ => none

/-- The types of what is inside and below a hierarchical node of variable `x`. (Specification or proof device, not part of the code.) -/
def Ty.hierNext : Ty → Nat → Option (Ty × Ty)
  | .any (n + 1), _ => some (.any n, .any n)
  | .hier x n t, y => if x = y then some (n, t) else none
  | _, _ => none

/-- Types of which `|1|` is an element. (Specification or proof device, not part of the code.) -/
def Ty.hasOne : Ty → Prop
  | .any _ => True
  | .nil => True
  | _ => False

/-- The types given by orders. (Specification or proof device, not part of the code.) -/
def Ty.IsShape : Ty → Prop
  | .any _ => False
  | .nil => True
  | .flat _ t => t.IsShape
  | .hier _ n t => n.IsShape ∧ t.IsShape

/-- Number of nested recursive calls needed on SDDs of a given type. (Specification or proof device, not part of the code.) -/
def Ty.depth : Ty → Nat
  | .any n => n
  | .nil => 0
  | .flat _ t => t.depth + 1
  | .hier _ n t => max n.depth t.depth + 1

/-- The canonical form of the arcs of a node: at least one arc; valuations are non-empty (`memV` is the
membership in a valuation) and pairwise disjoint; successors are not `|0|`, pairwise different, and
sorted by address. (Specification or proof device, not part of the code.) -/
structure GoodArcs {A α : Type} (C : Cfg V E) (memV : A → α → Prop) (arcs : List (α × SDD V)) :
    Prop where
  ne : arcs ≠ []
  valNe : ∀ arc ∈ arcs, ∃ a, memV a arc.1
  succNe : ∀ arc ∈ arcs, arc.2 ≠ .zero
  disj : arcs.Pairwise fun b c => ∀ a, ¬ (memV a b.1 ∧ memV a c.1)
  sorted : arcs.Pairwise fun b c => C.lt b.2 c.2 = true

/-- `Dom C t s`: `s` is in canonical form and has the type `t`. (Specification or proof device, not part of the code.) -/
inductive Dom (C : Cfg V E) : Ty → SDD V → Prop where
  | zero (t : Ty) : Dom C t .zero
  | one (t : Ty) : t.hasOne → Dom C t .one
  | flat (t t' : Ty) (x : Nat) (arcs : List (V × SDD V)) :
      t.flatNext x = some t' → GoodArcs C C.vmem arcs → (∀ arc ∈ arcs, Dom C t' arc.2) →
      Dom C t (.flat x arcs)
  | hier (t tn t' : Ty) (x : Nat) (arcs : List (SDD V × SDD V)) :
      t.hierNext x = some (tn, t') → GoodArcs C (Mem C) arcs → (∀ arc ∈ arcs, Dom C tn arc.1) →
      (∀ arc ∈ arcs, Dom C t' arc.2) → Dom C t (.hier x arcs)

/-- Canonical form, whatever the levels. (Specification or proof device, not part of the code.) -/
def WF (C : Cfg V E) (s : SDD V) : Prop := ∃ n, Dom C (.any n) s

/-- Two paths are compatible: read together, they have levels of the same kind and variable as long as they have the
same elements; nested paths are compatible. (Specification or proof device, not part of the code.) -/
def Compat : Path E → Path E → Prop
  | .nil, .nil => True
  | .flat x a p, .flat y b q => x = y ∧ (a = b → Compat p q)
  | .hier x n p, .hier y m q => x = y ∧ Compat n m ∧ (n = m → Compat p q)
  | _, _ => False

end
end Verif
