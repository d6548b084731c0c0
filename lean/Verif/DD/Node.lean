import Verif.DD.Count
/-!
# The number of arcs of a node
-/

set_option autoImplicit false
set_option linter.unusedSectionVars false

namespace Verif

/-- The arcs seen by iterating over a node built from `arcs`: `size_` is converted to
`C::alpha_size_type`, the greatest value of which is `limit`, an unsigned type
(`/repo/sdd/dd/node.hh:62-63,72-78`), and iterators are computed from `size_`
(`/repo/sdd/dd/node.hh:101-120`). -/
def nodeArcs {α : Type} (limit : Option Nat) (arcs : List α) : List α :=
  match limit with
  | none => arcs
  | some m => arcs.take (arcs.length % (m + 1))

theorem nodeArcs_of_le {α : Type} {limit : Option Nat} {arcs : List α}
    (h : tooMany limit arcs.length = false) : nodeArcs limit arcs = arcs := by
  cases limit with
  | none => rfl
  | some m =>
    simp [tooMany] at h
    simp [nodeArcs, Nat.mod_eq_of_lt (show arcs.length < m + 1 by omega)]

theorem nodeArcs_eq_iff {α : Type} {limit : Option Nat} {arcs : List α} :
    nodeArcs limit arcs = arcs ↔ tooMany limit arcs.length = false := by
  refine ⟨fun h => ?_, nodeArcs_of_le⟩
  cases limit with
  | none => rfl
  | some m =>
    have hl := congrArg List.length h
    simp only [nodeArcs, List.length_take] at hl
    have := Nat.mod_lt arcs.length (show m + 1 > 0 by omega)
    simp [tooMany]
    omega

end Verif
