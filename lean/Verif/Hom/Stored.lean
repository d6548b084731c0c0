import Verif.Hom.Build
import Verif.Hom.Ev
/-!
# The number of operands of a homomorphism

Sums and saturations of fixpoints store their number of operands in a `C::operands_size_type`, whose width is chosen by the user.
-/

set_option autoImplicit false
set_option linter.unusedSectionVars false

namespace Verif
namespace Hom
variable {V I U : Type}

/-- What is between `begin()` and `end()` for an array of operands whose number is stored with `bits` bits:
`static_cast<operands_size_type>(operands.size())`, `/repo/sdd/hom/sum.hh:45-51,100-115`,
`saturation_fixpoint.hh:56-69,122-140`. -/
def keep {α : Type} (bits : Nat) (l : List α) : List α := l.take (l.length % 2 ^ bits)

mutual
/-- A homomorphism as it is stored: `_sum` (`/repo/sdd/hom/sum.hh:34-51`) and `_saturation_fixpoint`
(`/repo/sdd/hom/saturation_fixpoint.hh:34-69`) have arrays of operands; the other homomorphisms have their operands as members or
in containers which know their sizes. -/
def stored (bits : Nat) : Hom V I U → Hom V I U
  | .id => .id
  | .comp l r => .comp (l.stored bits) (r.stored bits)
  | .consF o v n => .consF o v (n.stored bits)
  | .consH o v n => .consH o v (n.stored bits)
  | .const s => .const s
  | .fix h => .fix (h.stored bits)
  | .fn x u => .fn x u
  | .ite i t e => .ite (i.stored bits) (t.stored bits) (e.stored bits)
  | .ind u => .ind u
  | .inter hs => .inter (storedL bits hs)
  | .loc x h => .loc x (h.stored bits)
  | .satFix x F G L => .satFix x (F.stored bits) (keep bits (storedL bits G)) (L.stored bits)
  | .satInter x F G L => .satInter x (storedL bits F) (storedL bits G) (storedL bits L)
  | .satSum x F G L => .satSum x (storedL bits F) (storedL bits G) (storedL bits L)
  | .sum hs => .sum (keep bits (storedL bits hs))
/-- The operands as they are stored. (`/repo/sdd/hom/sum.hh`, lines 36-60.) -/
def storedL (bits : Nat) : List (Hom V I U) → List (Hom V I U)
  | [] => []
  | h :: hs => h.stored bits :: storedL bits hs
end

/-- The arrays of operands which occur in a homomorphism have less than `2 ^ bits` elements. (Specification, not part of the code.) -/
inductive Fits (bits : Nat) : Hom V I U → Prop where
  | id : Fits bits .id
  | comp {l r} : Fits bits l → Fits bits r → Fits bits (.comp l r)
  | consF {o v n} : Fits bits n → Fits bits (.consF o v n)
  | consH {o v n} : Fits bits n → Fits bits (.consH o v n)
  | const {s} : Fits bits (.const s)
  | fix {h} : Fits bits h → Fits bits (.fix h)
  | fn {x u} : Fits bits (.fn x u)
  | ite {i t e} : Fits bits i → Fits bits t → Fits bits e → Fits bits (.ite i t e)
  | ind {u} : Fits bits (.ind u)
  | inter {hs} : (∀ h ∈ hs, Fits bits h) → Fits bits (.inter hs)
  | loc {x h} : Fits bits h → Fits bits (.loc x h)
  | satFix {x F G L} : Fits bits F → (∀ h ∈ G, Fits bits h) → Fits bits L → G.length < 2 ^ bits → Fits bits (.satFix x F G L)
  | satInter {x F G L} : (∀ h ∈ F, Fits bits h) → (∀ h ∈ G, Fits bits h) → (∀ h ∈ L, Fits bits h) → Fits bits (.satInter x F G L)
  | satSum {x F G L} : (∀ h ∈ F, Fits bits h) → (∀ h ∈ G, Fits bits h) → (∀ h ∈ L, Fits bits h) → Fits bits (.satSum x F G L)
  | sum {hs} : (∀ h ∈ hs, Fits bits h) → hs.length < 2 ^ bits → Fits bits (.sum hs)

theorem storedL_eq (bits : Nat) (hs : List (Hom V I U)) : storedL bits hs = hs.map (stored bits) := by
  induction hs with
  | nil => rfl
  | cons h hs ih => rw [storedL, ih, List.map_cons]

theorem keep_eq_iff {α : Type} {bits : Nat} {l : List α} : keep bits l = l ↔ l.length < 2 ^ bits := by
  have hp : 0 < 2 ^ bits := Nat.pow_pos (by omega)
  constructor
  · intro h
    have := congrArg List.length h
    rw [keep, List.length_take] at this
    have := Nat.mod_lt l.length hp
    omega
  · intro h
    rw [keep, Nat.mod_eq_of_lt h, List.take_length]

theorem map_self_iff {hs : List (Hom V I U)} {bits : Nat} (ih : ∀ h ∈ hs, h.stored bits = h ↔ Fits bits h) :
    hs.map (stored bits) = hs ↔ ∀ h ∈ hs, Fits bits h := by
  induction hs with
  | nil => simp
  | cons h hs ihl =>
    rw [List.map_cons, List.cons.injEq, ih h (by simp), ihl fun g hg => ih g (by simp [hg]), List.forall_mem_cons]

/-- If the array which is kept is the array of operands, then its elements are kept too. -/
theorem keep_map_iff {hs : List (Hom V I U)} {bits : Nat} (ih : ∀ h ∈ hs, h.stored bits = h ↔ Fits bits h) :
    keep bits (hs.map (stored bits)) = hs ↔ (∀ h ∈ hs, Fits bits h) ∧ hs.length < 2 ^ bits := by
  have hp : 0 < 2 ^ bits := Nat.pow_pos (by omega)
  constructor
  · intro h
    have hl := congrArg List.length h
    rw [keep, List.length_take, List.length_map] at hl
    have := Nat.mod_lt hs.length hp
    have hlt : hs.length < 2 ^ bits := by omega
    rw [keep_eq_iff.2 (by rwa [List.length_map])] at h
    exact ⟨(map_self_iff ih).1 h, hlt⟩
  · rintro ⟨h1, h2⟩
    rw [(map_self_iff ih).2 h1, keep_eq_iff.2 h2]

/-- A homomorphism is stored as it is exactly when its arrays of operands are not too long. -/
theorem stored_iff {bits : Nat} (h : Hom V I U) : h.stored bits = h ↔ Fits bits h := by
  induction h using induct with
  | id => exact ⟨fun _ => .id, fun _ => rfl⟩
  | comp l r ih1 ih2 =>
    rw [stored, Hom.comp.injEq, ih1, ih2]
    exact ⟨fun h => .comp h.1 h.2, fun h => by cases h; exact ⟨‹_›, ‹_›⟩⟩
  | consF o v n ih =>
    rw [stored, Hom.consF.injEq, ih]
    exact ⟨fun h => .consF h.2.2, fun h => by cases h; exact ⟨rfl, rfl, ‹_›⟩⟩
  | consH o v n ih =>
    rw [stored, Hom.consH.injEq, ih]
    exact ⟨fun h => .consH h.2.2, fun h => by cases h; exact ⟨rfl, rfl, ‹_›⟩⟩
  | const s => exact ⟨fun _ => .const, fun _ => rfl⟩
  | fix h ih =>
    rw [stored, Hom.fix.injEq, ih]
    exact ⟨fun h => .fix h, fun h => by cases h; assumption⟩
  | fn x u => exact ⟨fun _ => .fn, fun _ => rfl⟩
  | ite i t e ih1 ih2 ih3 =>
    rw [stored, Hom.ite.injEq, ih1, ih2, ih3]
    exact ⟨fun h => .ite h.1 h.2.1 h.2.2, fun h => by cases h; exact ⟨‹_›, ‹_›, ‹_›⟩⟩
  | ind u => exact ⟨fun _ => .ind, fun _ => rfl⟩
  | inter hs ih =>
    rw [stored, Hom.inter.injEq, storedL_eq, map_self_iff ih]
    exact ⟨fun h => .inter h, fun h => by cases h; assumption⟩
  | loc x h ih =>
    rw [stored, Hom.loc.injEq, ih]
    exact ⟨fun h => .loc h.2, fun h => by cases h; exact ⟨rfl, ‹_›⟩⟩
  | satFix x F G L ih1 ih2 ih3 =>
    rw [stored, Hom.satFix.injEq, storedL_eq, ih1, ih3, keep_map_iff ih2]
    exact ⟨fun h => .satFix h.2.1 h.2.2.1.1 h.2.2.2 h.2.2.1.2, fun h => by cases h; exact ⟨rfl, ‹_›, ⟨‹_›, ‹_›⟩, ‹_›⟩⟩
  | satInter x F G L ih1 ih2 ih3 =>
    rw [stored, Hom.satInter.injEq, storedL_eq, storedL_eq, storedL_eq, map_self_iff ih1, map_self_iff ih2, map_self_iff ih3]
    exact ⟨fun h => .satInter h.2.1 h.2.2.1 h.2.2.2, fun h => by cases h; exact ⟨rfl, ‹_›, ‹_›, ‹_›⟩⟩
  | satSum x F G L ih1 ih2 ih3 =>
    rw [stored, Hom.satSum.injEq, storedL_eq, storedL_eq, storedL_eq, map_self_iff ih1, map_self_iff ih2, map_self_iff ih3]
    exact ⟨fun h => .satSum h.2.1 h.2.2.1 h.2.2.2, fun h => by cases h; exact ⟨rfl, ‹_›, ‹_›, ‹_›⟩⟩
  | sum hs ih =>
    rw [stored, Hom.sum.injEq, storedL_eq, keep_map_iff ih]
    exact ⟨fun h => .sum h.1 h.2, fun h => by cases h; exact ⟨‹_›, ‹_›⟩⟩

end Hom
end Verif
