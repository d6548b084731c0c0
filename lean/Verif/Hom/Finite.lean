import Verif.Hom.Total
import Verif.Hom.FixTerm
import Verif.Hom.RelBuild
import Mathlib.Data.Fintype.EquivFin
/-!
# Additive homomorphisms over finitely many values always return

When there are finitely many values (all the integral types of C++, `bitset`), an order has finitely many paths.  The iterations of
fixpoints and of saturations only add paths, hence stop.
-/

set_option autoImplicit false
set_option linter.unusedSectionVars false

namespace Verif

variable {V E I U : Type} [DecidableEq V] [DecidableEq I] [DecidableEq U] {env : User V I U} {C : Cfg V E} {sc : Scope I U}

/-- There are finitely many paths of a shape. -/
theorem exists_paths [Finite E] {t : Ty} (ht : t.IsShape) : ∃ S : List (Path E), ∀ p, PTy t p → p ∈ S := by
  classical
  have := Fintype.ofFinite E
  exact ⟨t.paths Finset.univ.toList, fun p hp => Ty.mem_paths ht hp fun a _ => by simp⟩

/-- Induction on the paths which are missing. -/
theorem missing_induction (hC : C.Lawful) {t : Ty} (S : List (Path E)) (hS : ∀ p, PTy t p → p ∈ S) {P : SDD V → Prop}
    (step : ∀ x, Dom C t x → ∃ z, Dom C t z ∧ (∀ p, Mem C p x → Mem C p z) ∧ ((z ≠ x → P z) → P x)) : ∀ x, Dom C t x → P x := by
  classical
  have key : ∀ k x, Dom C t x → (S.filter fun p => ¬ Mem C p x).length ≤ k → P x := by
    intro k
    induction k with
    | zero =>
      intro x hx hk
      obtain ⟨z, hz, h1, h2⟩ := step x hx
      refine h2 fun hne => absurd (canonical_ext hC hz.wf hx.wf fun p => ⟨fun hp => ?_, h1 p⟩) hne
      by_contra hc
      have : p ∈ S.filter fun p => ¬ Mem C p x := List.mem_filter.2 ⟨hS p (hz.pty p hp), by simpa using hc⟩
      rw [List.length_eq_zero_iff.1 (Nat.le_zero.1 hk)] at this
      simp at this
    | succ k ih =>
      intro x hx hk
      obtain ⟨z, hz, h1, h2⟩ := step x hx
      refine h2 fun hne => ?_
      have hex : ∃ p, Mem C p z ∧ ¬ Mem C p x := by
        by_contra hc
        push Not at hc
        exact hne (canonical_ext hC hz.wf hx.wf fun p => ⟨hc p, h1 p⟩)
      obtain ⟨p, hp, hp'⟩ := hex
      have hlt : (S.filter fun p => ¬ Mem C p z).length < (S.filter fun p => ¬ Mem C p x).length :=
        length_filter_lt (P := fun p => ¬ Mem C p z) (Q := fun p => ¬ Mem C p x) S (fun a _ ha hc => ha (h1 a hc)) (hS p (hz.pty p hp))
          (fun hc => hc hp) hp'
      exact ih z hz (by omega)
  exact fun x hx => key _ x hx (Nat.le_refl _)

/-- One round of the chained homomorphisms of a saturation. -/
theorem exists_round (hC : C.Lawful) {o : OB I} (G : List (Hom V I U)) (hG : ∀ g ∈ G, HTy env C sc o g o.ty)
    (hd : ∀ g ∈ G, ∀ x, Dom C o.ty x → Def env C g o x) {s : SDD V} (hs : Dom C o.ty s) :
    ∃ c d : Nat → SDD V, c 0 = s ∧ (∀ i, (hi : i < G.length) → Ev env C G[i] o (c i) (d i)) ∧
      (∀ i, i < G.length → Is C (c (i + 1)) (fun p => Mem C p (c i) ∨ Mem C p (d i))) ∧ Dom C o.ty (c G.length) ∧
      ∀ p, Mem C p s → Mem C p (c G.length) := by
  induction G generalizing s with
  | nil => exact ⟨fun _ => s, fun _ => s, rfl, fun i hi => absurd hi (by simp), fun i hi => absurd hi (by simp), hs, fun _ h => h⟩
  | cons g G ih =>
    obtain ⟨y, ey⟩ := hd g (by simp) s hs
    have hy := ey.dom (hG g (by simp)) hs
    obtain ⟨z, hz, hz'⟩ := exists_union hC (OB.ty_shape o) [s, y] (by simpa using ⟨hs, hy⟩)
    obtain ⟨c, d, h0, h1, h2, h3, h4⟩ := ih (fun g hg => hG g (by simp [hg])) (fun g hg => hd g (by simp [hg])) hz
    refine ⟨fun i => if i = 0 then s else c (i - 1), fun i => if i = 0 then y else d (i - 1), rfl, ?_, ?_, by simpa using h3, ?_⟩
    · intro i hi
      cases i with
      | zero => simpa using ey
      | succ i => simpa using h1 i (by simpa using hi)
    · intro i hi
      cases i with
      | zero => exact ⟨by simpa [h0] using hz.wf, by simpa [h0] using hz'⟩
      | succ i => simpa using h2 i (by simpa using hi)
    · intro p hp
      simpa using h4 p ((hz' p).2 ⟨s, by simp, hp⟩)

/-- Additive homomorphisms over finitely many values have a result. -/
theorem HRel.def [Finite E] (hC : C.Lawful) {o : OB I} {h : Hom V I U} {t : Ty} {R : PRel E} (hr : HRel env C sc o h t R) :
    ∀ {x : SDD V}, Dom C o.ty x → Def env C h o x := by
  induction hr with
  | id => intro x _; exact ⟨x, .id _ _⟩
  | skip _ hs ht ih => intro x hx; exact (Def.skip_iff hC ht.hty hs hx).2 fun hd s ha => ih (ha.dom hx).1
  | comp hs hr hl ihr ihl =>
    intro x hx
    obtain ⟨y, ey⟩ := ihr hx
    obtain ⟨z, ez⟩ := ihl (ey.dom hr.hty hx)
    by_cases h0 : x = .zero
    · subst h0; exact ⟨_, .zero _ _⟩
    · exact ⟨z, .comp (hs.here hx h0) ey ez⟩
  | @consF o id nst nxt v h t R hS hty ht ih =>
    intro x hx
    by_cases h0 : x = .zero
    · subst h0; exact ⟨_, .zero _ _⟩
    obtain ⟨y, ey⟩ := ih (x := x) (hty ▸ hx)
    obtain ⟨h1, h2⟩ := mkNode1_flat (m := Plain (fun _ => []) V) hC (x := nxt.lvl) (v := v) (ey.dom ht.hty (hty ▸ hx)).wf
    exact ⟨_, .consF ((stop_of (fun _ _ => by simp [Hom.skip]) o).here hx h0) ey ⟨h1, h2⟩⟩
  | @consH o id nst nxt v h tn t R hS hty h3 h4 ht ih =>
    intro x hx
    by_cases h0 : x = .zero
    · subst h0; exact ⟨_, .zero _ _⟩
    obtain ⟨y, ey⟩ := ih (x := x) (hty ▸ hx)
    obtain ⟨h1, h2⟩ := mkNode1_hier (m := Plain (fun _ => []) V) (C := C) (rec := fun _ => pure .zero) (x := nxt.lvl) h4.wf
      (ey.dom ht.hty (hty ▸ hx)).wf
    exact ⟨_, .consH ((stop_of (fun _ _ => by simp [Hom.skip]) o).here hx h0) ey ⟨h1, h2⟩⟩
  | @const o s t h1 h2 =>
    intro x hx
    by_cases h0 : x = .zero
    · subst h0; exact ⟨_, .zero _ _⟩
    exact ⟨_, .const ((stop_of (fun _ _ => by simp [Hom.skip]) o).here hx h0)⟩
  | @fix o h R hst hr hrefl ih =>
    intro x hx
    obtain ⟨S, hS⟩ := exists_paths (E := E) (OB.ty_shape o)
    refine missing_induction hC S hS (fun x hx => ?_) x hx
    obtain ⟨y, ey⟩ := ih hx
    refine ⟨y, ey.dom hr.hty hx, fun p hp => (hr.image hx ey p).2 ⟨p, hp, hrefl p (hx.pty p hp)⟩, fun hP => ?_⟩
    by_cases h0 : x = .zero
    · subst h0; exact ⟨_, .zero _ _⟩
    by_cases hne : y = x
    · subst hne; exact ⟨_, .fixDone (hst.here hx h0) ey⟩
    · obtain ⟨r, er⟩ := hP hne; exact ⟨r, .fixStep (hst.here hx h0) ey hne er⟩
  | @fixSel o h R hst hr hsub ih =>
    intro x hx
    have key : ∀ {x y}, Dom C o.ty x → Ev env C h o x y → ∀ p, Mem C p y ↔ Mem C p x ∧ R p p := by
      intro x y hx e p
      rw [hr.image hx e]
      constructor
      · rintro ⟨q, h1, h2⟩; cases hsub _ (hx.pty q h1) _ h2; exact ⟨h1, h2⟩
      · rintro ⟨h1, h2⟩; exact ⟨p, h1, h2⟩
    obtain ⟨y, ey⟩ := ih hx
    have hy := ey.dom hr.hty hx
    by_cases h0 : x = .zero
    · subst h0; exact ⟨_, .zero _ _⟩
    by_cases hne : y = x
    · subst hne; exact ⟨_, .fixDone (hst.here hx h0) ey⟩
    refine ⟨y, .fixStep (hst.here hx h0) ey hne ?_⟩
    by_cases hy0 : y = .zero
    · subst hy0; exact .zero _ _
    obtain ⟨z, ez⟩ := ih hy
    have : z = y := canonical_ext hC (ez.dom hr.hty hy).wf hy.wf fun p => by
      rw [key hy ez, key hx ey, and_assoc, and_self_iff]
    subst this
    exact .fixDone (hst.here hy hy0) ez
  | fnNil =>
    intro x hx
    rcases dom_cases hx with rfl | ⟨_, rfl⟩ | ⟨_, _, _, h, _⟩ | ⟨_, _, _, _, h, _⟩
    · exact ⟨_, .zero _ _⟩
    · exact ⟨_, .fnOne⟩
    · cases h
    · cases h
  | @fn id nxt u f hf =>
    intro x hx
    rcases dom_cases hx with rfl | ⟨h, rfl⟩ | ⟨_, _, arcs, h, rfl, _, h2⟩ | ⟨_, _, _, _, h, h', _⟩
    · exact ⟨_, .zero _ _⟩
    · cases h
    · cases h
      obtain ⟨r, hr⟩ := exists_flat hC (OB.ty_shape nxt) nxt.lvl arcs (env.fn u) h2
      exact ⟨r, .fn ⟨rfl, by simp [Hom.skip]⟩ hr⟩
    · cases h; exact absurd rfl h'
  | @ite o i t e ty Ri Rt Re hs hsel hi hsub ht he ihi iht ihe =>
    intro x hx
    by_cases h0 : x = .zero
    · subst h0; exact ⟨_, .zero _ _⟩
    obtain ⟨y, ey⟩ := ihi hx
    have hy := ey.dom hi.hty hx
    obtain ⟨d, hd, hd'⟩ := exists_diff hC (OB.ty_shape o) hx hy
    obtain ⟨a, ea⟩ := iht hy
    obtain ⟨b, eb⟩ := ihe hd
    obtain ⟨r, hr, hr'⟩ := exists_union hC ht.hty.shape [a, b] (by simpa using ⟨ea.dom ht.hty hy, eb.dom he.hty hd⟩)
    exact ⟨r, .ite hsel (hs.here hx h0) ey ⟨hd.wf, hd'⟩ ea eb ⟨hr.wf, by simpa using hr'⟩⟩
  | indNil =>
    intro x hx
    rcases dom_cases hx with rfl | ⟨_, rfl⟩ | ⟨_, _, _, h, _⟩ | ⟨_, _, _, _, h, _⟩
    · exact ⟨_, .zero _ _⟩
    · exact ⟨_, .indOne⟩
    · cases h
    · cases h
  | @indF id nxt u t T hA hsh hs hT ht ih =>
    intro x hx
    rcases dom_cases hx with rfl | ⟨h, rfl⟩ | ⟨_, _, arcs, h, rfl, h1, h2⟩ | ⟨_, _, _, _, h, h', _⟩
    · exact ⟨_, .zero _ _⟩
    · cases h
    · cases h
      have hd : ∀ arc ∈ arcs, Def env C (env.indF u (.node id .nil nxt) arc.1) nxt arc.2 := fun arc ha =>
        ih _ (h1.valNe arc ha) (h2 arc ha)
      obtain ⟨r, hr⟩ := exists_fam hC hsh arcs (fun arc => evOf env C (env.indF u (.node id .nil nxt) arc.1) nxt arc.2) fun arc ha =>
        ((hd arc ha).ev hC).dom (ht _ (h1.valNe arc ha)).hty (h2 arc ha)
      exact ⟨r, .indF _ ⟨rfl, hs⟩ (fun arc ha => (hd arc ha).ev hC) hr⟩
    · cases h; exact absurd rfl h'
  | @indH id nst nxt u t T hA hsh hne hs hT ht ih =>
    intro x hx
    rcases dom_cases hx with rfl | ⟨h, rfl⟩ | ⟨_, _, arcs, h, rfl, h1, h2⟩ | ⟨_, _, _, arcs, h, h', rfl, h1, h2, h3⟩
    · exact ⟨_, .zero _ _⟩
    · cases h
    · cases h; exact absurd rfl hne
    · cases h
      have hz : ∀ arc ∈ arcs, arc.1 ≠ .zero := by
        intro arc ha h0
        obtain ⟨p, hp⟩ := h1.valNe arc ha
        rw [h0] at hp
        exact not_mem_zero p hp
      have hd : ∀ arc ∈ arcs, Def env C (env.indH u (.node id nst nxt) arc.1) nxt arc.2 := fun arc ha =>
        ih _ (h2 arc ha) (hz arc ha) (h3 arc ha)
      obtain ⟨r, hr⟩ := exists_fam hC hsh arcs (fun arc => evOf env C (env.indH u (.node id nst nxt) arc.1) nxt arc.2) fun arc ha =>
        ((hd arc ha).ev hC).dom (ht _ (h2 arc ha) (hz arc ha)).hty (h3 arc ha)
      exact ⟨r, .indH _ ⟨rfl, hs⟩ (fun arc ha => (hd arc ha).ev hC) hr⟩
  | @inter o hs t R hsh hne hst ht hsub ih =>
    intro x hx
    by_cases h0 : x = .zero
    · subst h0; exact ⟨_, .zero _ _⟩
    have hd : ∀ h ∈ hs, Def env C h o x := fun h hh => ih h hh hx
    obtain ⟨r, hr⟩ := exists_all hC hsh hs (fun h => evOf env C h o x) fun h hh => ((hd h hh).ev hC).dom (ht h hh).hty hx
    exact ⟨r, .inter _ (hst.here hx h0) (fun h hh => (hd h hh).ev hC) hr⟩
  | @loc id nst nxt h tn R hne ht ih =>
    intro x hx
    rcases dom_cases hx with rfl | ⟨h, rfl⟩ | ⟨_, _, arcs, h, rfl, h1, h2⟩ | ⟨_, _, _, arcs, h, h', rfl, h1, h2, h3⟩
    · exact ⟨_, .zero _ _⟩
    · cases h
    · cases h; exact absurd rfl hne
    · cases h
      exact (Def.loc_here hC ht.hty hx).2 fun arc ha => ih (h2 arc ha)
  | @satFix o y F G L RF RL R hst hF hFr hL hLr hG ihF ihL ihG =>
    intro x hx
    obtain ⟨S, hS⟩ := exists_paths (E := E) (OB.ty_shape o)
    refine missing_induction hC S hS (fun x hx => ?_) x hx
    obtain ⟨a, ea⟩ := ihF hx
    have ha := ea.dom hF.hty hx
    obtain ⟨b, eb⟩ := ihL ha
    have hb := eb.dom hL.hty ha
    obtain ⟨c, d, h0, h1, h2, h3, h4⟩ := exists_round hC G (fun g hg => (hG g hg).hty) (fun g hg x hx => ihG g hg hx) hb
    refine ⟨_, h3, fun p hp => h4 p ?_, fun hP => ?_⟩
    · exact (hL.image ha eb p).2 ⟨p, (hF.image hx ea p).2 ⟨p, hp, hFr p (hx.pty p hp)⟩, hLr p (ha.pty p ((hF.image hx ea p).2 ⟨p, hp, hFr p (hx.pty p hp)⟩))⟩
    · by_cases h0' : x = .zero
      · subst h0'; exact ⟨_, .zero _ _⟩
      by_cases hne : c G.length = x
      · exact ⟨_, .satDone c d (hst.here hx h0') ea (h0 ▸ eb) h1 h2 hne⟩
      · obtain ⟨r, er⟩ := hP hne; exact ⟨r, .satStep c d (hst.here hx h0') ea (h0 ▸ eb) h1 h2 hne er⟩
  | @satInter o x F G L t R hsh hne hst ht hsub ih =>
    intro x hx
    by_cases h0 : x = .zero
    · subst h0; exact ⟨_, .zero _ _⟩
    have hd : ∀ h ∈ F ++ G ++ L, Def env C h o x := fun h hh => ih h hh hx
    obtain ⟨r, hr⟩ := exists_all hC hsh (F ++ G ++ L) (fun h => evOf env C h o x) fun h hh => ((hd h hh).ev hC).dom (ht h hh).hty hx
    exact ⟨r, .satInter _ (hst.here hx h0) (fun h hh => (hd h hh).ev hC) hr⟩
  | @satSum o x F G L t R hsh hst ht ih =>
    intro x hx
    by_cases h0 : x = .zero
    · subst h0; exact ⟨_, .zero _ _⟩
    have hd : ∀ h ∈ F ++ G ++ L, Def env C h o x := fun h hh => ih h hh hx
    obtain ⟨r, hr⟩ := exists_fam hC hsh (F ++ G ++ L) (fun h => evOf env C h o x) fun h hh => ((hd h hh).ev hC).dom (ht h hh).hty hx
    exact ⟨r, .satSum _ (hst.here hx h0) (fun h hh => (hd h hh).ev hC) hr⟩
  | @sum o hs t R hsh hst ht ih =>
    intro x hx
    by_cases h0 : x = .zero
    · subst h0; exact ⟨_, .zero _ _⟩
    have hd : ∀ h ∈ hs, Def env C h o x := fun h hh => ih h hh hx
    obtain ⟨r, hr⟩ := exists_fam hC hsh hs (fun h => evOf env C h o x) fun h hh => ((hd h hh).ev hC).dom (ht h hh).hty hx
    exact ⟨r, .sum _ (hst.here hx h0) (fun h hh => (hd h hh).ev hC) hr⟩

/-- The same, up to the relation. -/
theorem Rl.def [Finite E] (hC : C.Lawful) {o : OB I} {h : Hom V I U} {t : Ty} {R : PRel E} (hr : Rl env C sc o h t R) {x : SDD V}
    (hx : Dom C o.ty x) : Def env C h o x := by
  obtain ⟨R', hr', _⟩ := hr
  exact hr'.def hC hx

end Verif
