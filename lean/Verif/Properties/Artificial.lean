import Verif.Hom.SkipUser
import Verif.Properties.Hom
/-!
# Identifiers received by the code of the user
-/

set_option autoImplicit false
set_option linter.unusedSectionVars false

namespace Verif

section
variable {V E I U : Type} [DecidableEq V] [DecidableEq I] [DecidableEq U]

/-- **C101**, the part which holds for initializers. `SDD(o, init)` only calls `init` with identifiers the user gave (those of `S`), even if levels of the order have been
made by strategies or by `load_order`: two initializers which agree on `S` give the same SDD (whatever they do with other identifiers).

Missing: the `skip` of inductive homomorphisms (`C101_negation`). -/
theorem C101_initializer_partial {C : Cfg V E} (m : Type → Type) [DDMonad V m] {S : I → Prop} {d : I} {ob : OB I} (hob : OB.Made S d ob)
    {o : Ord I} (ho : Ord.ofBuilder ob = .ok o) {init init' : I → V} (hi : ∀ i, S i → init i = init' i) (fuel : Nat) :
    sddOfOrder C m init fuel o = sddOfOrder C m init' fuel o :=
  sddOfOrder_congr m hi ob o 0 [] fuel (C27_order_mirrors_builder ho).1 hob.given

/-- **C101**, the part which holds for all orders. The `skip` of inductive homomorphisms only receives identifiers the user gave (those of `S`) and the
default constructed identifier: two `skip` which agree on them give the same results, in all states of the caches. (The `operator()` of the user's inductive homomorphisms only gives
to `cons` identifiers which are in the orders it received.)

Missing: the default constructed identifier, which the user may not have given (`C101_negation`). -/
theorem C101_skip_default_partial {L : Lib V E I U} {S : I → Prop} {d : I} {sk sk' : U → I → Bool} (hs : ∀ u i, S i ∨ i = d → sk u i = sk' u i)
    (hF : ∀ u o v o', Hom.Cons o' (L.env.indF u o v) → ∀ i ∈ o'.ids, i ∈ o.ids)
    (hH : ∀ u o v o', Hom.Cons o' (L.env.indH u o v) → ∀ i ∈ o'.ids, i ∈ o.ids)
    {h : Hom V I U} (hh : ∀ o', Hom.Cons o' h → OB.Made S d o') {o : OB I} (ho : OB.Made S d o) (n : Nat) (x : SDD V) (s : HMach V I U) :
    (L.withSkip sk).apply n h o x s = (L.withSkip sk').apply n h o x s := by
  refine apply_congr (P := fun i => (i.artificial = 0 ∧ S i.user) ∨ (i.artificial ≠ 0 ∧ i.user = d)) ?_ ?_ ?_ n ?_ ?_ x s
  · rintro u i (hi | hi)
    · exact hs u _ (.inl hi.2)
    · exact hs u _ (.inr hi.2)
  · exact fun u o v ho o' hc i hi => ho i (hF u o v o' hc i hi)
  · exact fun u o v ho o' hc i hi => ho i (hH u o v o' hc i hi)
  · exact fun o' hc => (hh o' hc).given.ids
  · exact ho.given.ids

/-- **C101**, the part which holds for orders without artificial identifiers. The `skip` of inductive homomorphisms only receives identifiers the user
gave: two `skip` which agree on them give the same results.

Missing: the orders made by `identifiers_per_hierarchy` and `load_order` (`C101_negation`). -/
theorem C101_skip_partial {L : Lib V E I U} {S : I → Prop} {d : I} {sk sk' : U → I → Bool} (hs : ∀ u i, S i → sk u i = sk' u i)
    (hF : ∀ u o v o', Hom.Cons o' (L.env.indF u o v) → ∀ i ∈ o'.ids, i ∈ o.ids)
    (hH : ∀ u o v o', Hom.Cons o' (L.env.indH u o v) → ∀ i ∈ o'.ids, i ∈ o.ids)
    {h : Hom V I U} (hh : ∀ o', Hom.Cons o' h → OB.Made S d o' ∧ ∀ i ∈ o'.ids, i.artificial = 0) {o : OB I} (ho : OB.Made S d o)
    (ha : ∀ i ∈ o.ids, i.artificial = 0) (n : Nat) (x : SDD V) (s : HMach V I U) :
    (L.withSkip sk).apply n h o x s = (L.withSkip sk').apply n h o x s := by
  have key : ∀ o : OB I, OB.Made S d o → (∀ i ∈ o.ids, i.artificial = 0) → o.All fun i => S i.user := by
    intro o ho ha i hi
    rcases ho.given.ids i hi with h | h
    · exact h.2
    · exact absurd (ha i hi) h.1
  exact apply_congr (P := fun i => S i.user) (fun u i hi => hs u _ hi) (fun u o v ho o' hc i hi => ho i (hF u o v o' hc i hi))
    (fun u o v ho o' hc i hi => ho i (hH u o v o' hc i hi)) n (fun o' hc => key o' (hh o' hc).1 (hh o' hc).2) (key o ho ha) x s

end

namespace DemoA

/-- A user's inductive homomorphism which keeps flat levels, and has no result on hierarchical levels (unless they are skipped). -/
def env : User NSet Nat Unit where
  fn _ v := v
  fnSel _ := false
  fnShift _ := false
  indOne _ := .one
  indF _ o v := .consF o v (.ind ())
  indH _ _ _ := .const .zero
  indSkip _ _ := false
  indSel _ := false

/-- A library. -/
def L : Lib NSet Nat Nat Unit := ⟨env, natCfg none, fun k n => [k + n, 1], fun _ => 2, 2⟩

/-- The identifiers of the user. -/
def S (i : Nat) : Prop := i = 1 ∨ i = 2 ∨ i = 3 ∨ i = 4

/-- The builder with four levels, from which `identifiers_per_hierarchy(2)` makes `packed`. -/
def flat : OB Nat := OB.ofList [1, 2, 3, 4]

/-- Two levels of two levels; the identifiers of the former are artificial. -/
def packed : OB Nat := .node ⟨2, 0⟩ (.node (OB.uid 1) .nil (.node (OB.uid 2) .nil .nil))
  (.node ⟨1, 0⟩ (.node (OB.uid 3) .nil (.node (OB.uid 4) .nil .nil)) .nil)

theorem flat_made : OB.Made S 0 flat := .ofList (by simp [S])

theorem packed_made : OB.Made S 0 packed := .perHierarchy (nb := 2) (fuel := 9) (c := 0) (c' := 2) flat_made (by decide +kernel)

/-- Two levels. -/
def two (a b : Nat) : SDD NSet := .flat 1 [(ns [a], .flat 0 [(ns [b], .one)])]

/-- An SDD of `packed`. -/
def x : SDD NSet := .hier 1 [(two 1 2, .hier 0 [(two 3 4, .one)])]

theorem dom_two (a b : Nat) : Dom L.C (.flat 1 (.flat 0 .nil)) (two a b) := by
  refine .flat _ _ _ _ (by simp [Ty.flatNext]; rfl) ⟨by simp, ?_, by simp, by simp, by simp⟩ ?_
  · simp only [List.mem_singleton, forall_eq]
    exact ⟨a, DemoH.vmem.2 (DemoH.mem_ns.2 (by simp))⟩
  · simp only [List.mem_singleton, forall_eq]
    exact DemoH.dom_f

theorem dom_x : Dom L.C packed.ty x :=
  DemoH.dom_h (dom_two 1 2) (DemoH.dom_h (dom_two 3 4) (.one _ trivial) (by simp [two]) (by simp)) (by simp [two]) (by simp)

/-- A new manager. -/
def s0 : HMach NSet Nat Unit := ⟨⟨fun _ => [], 0⟩, []⟩

/-- This `skip` never skips a level. -/
def never : Unit → Nat → Bool := fun _ _ => false

/-- This `skip` only skips the identifier 0. -/
def zero : Unit → Nat → Bool := fun _ i => i == 0

theorem agree (u : Unit) (i : Nat) (hi : S i) : zero u i = never u i := by
  rcases hi with rfl | rfl | rfl | rfl <;> rfl

end DemoA

/-- **C101**, negation. On levels made by `identifiers_per_hierarchy`, `skip` receives the user part of an artificial identifier, which is default constructed
(`/repo/sdd/hom/inductive.hh:190-199`; an assertion fails when they are enabled): the user only gave the identifiers 1 to 4, but the result of an application depends on what
`skip` returns for the identifier 0. -/
theorem C101_negation : ∃ (L : Lib NSet Nat Nat Unit) (S : Nat → Prop) (o : OB Nat) (sk sk' : Unit → Nat → Bool) (x : SDD NSet) (s : HMach NSet Nat Unit),
    OB.Made S 0 o ∧ o.userIds.Nodup ∧ (∀ i, S i ↔ i ∈ o.userIds) ∧ (∀ u i, S i → sk u i = sk' u i) ∧ Dom L.C o.ty x ∧
    ((L.withSkip sk).apply 50 (.ind ()) o x s).1 = .ok x ∧ ((L.withSkip sk').apply 50 (.ind ()) o x s).1 = .ok .zero ∧ x ≠ .zero := by
  refine ⟨DemoA.L, DemoA.S, DemoA.packed, DemoA.zero, DemoA.never, DemoA.x, DemoA.s0, DemoA.packed_made, by decide, fun i => ?_, DemoA.agree, ?_, ?_, ?_, by simp [DemoA.x]⟩
  · have : DemoA.packed.userIds = [1, 2, 3, 4] := by decide
    simp [this, DemoA.S]
  · exact DemoA.dom_x
  · decide +kernel
  · decide +kernel

/-! ## Concrete cases -/

/-- `C101_initializer_partial`: the order has levels made by a strategy; the initializers differ on the identifier 0, which is in the artificial identifiers. -/
example : OB.Made DemoA.S 0 DemoA.packed ∧ (∃ o, Ord.ofBuilder DemoA.packed = .ok o) ∧
    (∀ i, DemoA.S i → ns [i] = (if i = 0 then ns [7] else ns [i])) ∧ (⟨1, 0⟩ : OId Nat) ∈ DemoA.packed.ids :=
  ⟨DemoA.packed_made, ⟨_, rfl⟩, by rintro i (rfl | rfl | rfl | rfl) <;> rfl, by decide⟩

/-- `C101_skip_default_partial` and `C101_skip_partial`: the user's inductive homomorphism gives to `cons` the order it receives. -/
example : (∀ u o v o', Hom.Cons o' (DemoA.L.env.indF u o v) → ∀ i ∈ o'.ids, i ∈ o.ids) ∧
    (∀ u o v o', Hom.Cons o' (DemoA.L.env.indH u o v) → ∀ i ∈ o'.ids, i ∈ o.ids) ∧ (∀ o', ¬ Hom.Cons o' (.ind () : Hom NSet Nat Unit)) ∧
    OB.Made DemoA.S 0 DemoA.flat ∧ (∀ i ∈ DemoA.flat.ids, i.artificial = 0) ∧ (∀ u i, DemoA.S i → DemoA.zero u i = DemoA.never u i) := by
  refine ⟨?_, ?_, ?_, DemoA.flat_made, by decide, DemoA.agree⟩
  · intro u o v o' hc i hi
    cases hc with
    | consFO => exact hi
    | consF h => cases h
  · intro u o v o' hc
    cases hc
  · intro o' hc
    cases hc

end Verif
