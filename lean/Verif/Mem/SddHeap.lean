import Verif.Mem.HeapSem
import Verif.DD.Canon
/-!
# SDDs in memory

What the terms of `Verif.DD` are in the memory of `Verif.Mem.Heap`: each node is a unified datum whose pointers are those of
its arcs, in the order of its arcs.
-/

set_option autoImplicit false
set_option linter.unusedSectionVars false

namespace Verif
open Heap

/-- What the data of the library hold besides pointers: the type (the `index` of the variant, `/repo/sdd/mem/variant.hh:57`),
the variable of a node (`/repo/sdd/dd/node.hh:60`), or the elements of a set of values
(`/repo/sdd/values/flat_set.hh:311-320`). -/
inductive SLabel (V : Type) : Type where
  | zero
  | one
  | flat (x : Nat)
  | hier (x : Nat)
  | values (v : V)
  deriving DecidableEq

namespace SDD
variable {V : Type}

mutual
/-- The data of an SDD, `/repo/sdd/dd/node.hh:58-63` (arcs are stored after the node: valuation, successor) and
`/repo/sdd/dd/terminal.hh:20-60`. -/
def tree : SDD V → Tree (SLabel V)
  | .zero => .node .zero []
  | .one => .node .one []
  | .flat x arcs => .node (.flat x) (treeF arcs)
  | .hier x arcs => .node (.hier x) (treeH arcs)
/-- The pointers of the arcs of a flat node. (`/repo/sdd/dd/alpha.hh`, lines 22-60.) -/
def treeF : List (V × SDD V) → List (Tree (SLabel V))
  | [] => []
  | (v, s) :: arcs => .node (.values v) [] :: s.tree :: treeF arcs
/-- The pointers of the arcs of a hierarchical node. (`/repo/sdd/dd/alpha.hh`, lines 22-60.) -/
def treeH : List (SDD V × SDD V) → List (Tree (SLabel V))
  | [] => []
  | (v, s) :: arcs => v.tree :: s.tree :: treeH arcs
end

mutual
/-- The data determine the SDD. -/
theorem tree_inj : ∀ (x y : SDD V), x.tree = y.tree → x = y
  | .zero, y, h => by cases y <;> simp [tree] at h ⊢
  | .one, y, h => by cases y <;> simp [tree] at h ⊢
  | .flat x arcs, y, h => by
    cases y with
    | flat y brcs =>
      simp only [tree, Tree.node.injEq, SLabel.flat.injEq] at h
      rw [h.1, treeF_inj arcs brcs h.2]
    | _ => simp [tree] at h
  | .hier x arcs, y, h => by
    cases y with
    | hier y brcs =>
      simp only [tree, Tree.node.injEq, SLabel.hier.injEq] at h
      rw [h.1, treeH_inj arcs brcs h.2]
    | _ => simp [tree] at h
theorem treeF_inj : ∀ (a b : List (V × SDD V)), treeF a = treeF b → a = b
  | [], b, h => by cases b <;> simp [treeF] at h ⊢
  | (v, s) :: a, b, h => by
    cases b with
    | nil => simp [treeF] at h
    | cons e b =>
      obtain ⟨w, t⟩ := e
      simp only [treeF, List.cons.injEq, Tree.node.injEq, SLabel.values.injEq, and_true] at h
      rw [h.1, tree_inj s t h.2.1, treeF_inj a b h.2.2]
theorem treeH_inj : ∀ (a b : List (SDD V × SDD V)), treeH a = treeH b → a = b
  | [], b, h => by cases b <;> simp [treeH] at h ⊢
  | (v, s) :: a, b, h => by
    cases b with
    | nil => simp [treeH] at h
    | cons e b =>
      obtain ⟨w, t⟩ := e
      simp only [treeH, List.cons.injEq] at h
      rw [tree_inj v w h.1, tree_inj s t h.2.1, treeH_inj a b h.2.2]
end

end SDD
end Verif
