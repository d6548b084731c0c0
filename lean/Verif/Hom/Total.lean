import Verif.Hom.Built
/-!
# Homomorphisms without fixpoints always return

Only fixpoints may run forever: any other homomorphism has a result on any SDD of the order under which it may be used.
-/

set_option autoImplicit false
set_option linter.unusedSectionVars false

namespace Verif

variable {V E I U : Type} [DecidableEq V] [DecidableEq I] [DecidableEq U]

mutual
/-- There is no fixpoint in a homomorphism (inductives are not inspected). (Specification or proof device, not part of the code.) -/
def Hom.noFix : Hom V I U → Bool
  | .id => true
  | .comp l r => l.noFix && r.noFix
  | .consF _ _ h => h.noFix
  | .consH _ _ h => h.noFix
  | .const _ => true
  | .fix _ => false
  | .fn _ _ => true
  | .ite i t e => i.noFix && t.noFix && e.noFix
  | .ind _ => true
  | .inter hs => noFixAll hs
  | .loc _ h => h.noFix
  | .satFix _ _ _ _ => false
  | .satInter _ F G L => noFixAll F && noFixAll G && noFixAll L
  | .satSum _ F G L => noFixAll F && noFixAll G && noFixAll L
  | .sum hs => noFixAll hs
/-- There is no fixpoint in a list of homomorphisms. (Specification or proof device, not part of the code.) -/
def noFixAll : List (Hom V I U) → Bool
  | [] => true
  | h :: hs => h.noFix && noFixAll hs
end

theorem noFixAll_iff {hs : List (Hom V I U)} : noFixAll hs = true ↔ ∀ h ∈ hs, h.noFix = true := by
  induction hs with
  | nil => simp [noFixAll]
  | cons h hs ih => simp [noFixAll, ih]

section
variable {env : User V I U} {C : Cfg V E} {sc : Scope I U}

theorem exists_flat (hC : C.Lawful) {t : Ty} (ht : t.IsShape) (y : Nat) (arcs : List (V × SDD V)) (g : V → V) (ha : ∀ arc ∈ arcs, Dom C t arc.2) :
    ∃ r, Is C r fun p => ∃ b q, p = .flat y b q ∧ ∃ arc ∈ arcs, C.vmem b (g arc.1) ∧ Mem C q arc.2 := by
  have key : ∀ v s, Dom C t s → ∃ r, Dom C (.flat y t) r ∧ ∀ p, Mem C p r ↔ ∃ b q, p = .flat y b q ∧ C.vmem b v ∧ Mem C q s := by
    intro v s hs
    obtain ⟨h1, h2⟩ := mkNode1_flat (m := Plain (fun _ => []) V) hC (x := y) (v := v) hs.wf
    refine ⟨_, Is.dom (S := fun p => ∃ b q, p = .flat y b q ∧ C.vmem b v ∧ Mem C q s) ⟨h1, h2⟩ ?_, h2⟩
    rintro p ⟨n, q, rfl, hn, hq⟩
    exact ⟨t, by simp [Ty.flatNext], hs.pty q hq⟩
  have : ∀ arc : V × SDD V, ∃ r, arc ∈ arcs → Dom C (.flat y t) r ∧
      ∀ p, Mem C p r ↔ ∃ b q, p = .flat y b q ∧ C.vmem b (g arc.1) ∧ Mem C q arc.2 := by
    intro arc
    by_cases hm : arc ∈ arcs
    · obtain ⟨r, hr⟩ := key (g arc.1) _ (ha arc hm)
      exact ⟨r, fun _ => hr⟩
    · exact ⟨.zero, fun h => absurd h hm⟩
  choose pr hpr using this
  obtain ⟨r, h1, h2⟩ := exists_union hC (t := .flat y t) ht (arcs.map pr) (by
    intro x hx
    obtain ⟨arc, hm, rfl⟩ := List.mem_map.1 hx
    exact (hpr arc hm).1)
  refine ⟨r, h1.wf, fun p => ?_⟩
  rw [h2]
  constructor
  · rintro ⟨x, hx, hp⟩
    obtain ⟨arc, hm, rfl⟩ := List.mem_map.1 hx
    obtain ⟨b, q, rfl, h3, h4⟩ := ((hpr arc hm).2 p).1 hp
    exact ⟨b, q, rfl, arc, hm, h3, h4⟩
  · rintro ⟨b, q, rfl, arc, hm, h3, h4⟩
    exact ⟨_, List.mem_map_of_mem hm, ((hpr arc hm).2 _).2 ⟨b, q, rfl, h3, h4⟩⟩

theorem exists_fam (hC : C.Lawful) {α : Type} {t : Ty} (ht : t.IsShape) (l : List α) (f : α → SDD V) (hf : ∀ a ∈ l, Dom C t (f a)) :
    ∃ r, Is C r fun p => ∃ a ∈ l, Mem C p (f a) := by
  obtain ⟨r, h1, h2⟩ := exists_union hC ht (l.map f) (by
    intro x hx
    obtain ⟨a, hm, rfl⟩ := List.mem_map.1 hx
    exact hf a hm)
  exact ⟨r, h1.wf, fun p => by rw [h2]; simp⟩

theorem exists_all (hC : C.Lawful) {α : Type} {t : Ty} (ht : t.IsShape) (l : List α) (f : α → SDD V) (hf : ∀ a ∈ l, Dom C t (f a)) :
    ∃ r, Is C r fun p => l ≠ [] ∧ ∀ a ∈ l, Mem C p (f a) := by
  obtain ⟨r, h1, h2⟩ := exists_inter hC ht (l.map f) (by
    intro x hx
    obtain ⟨a, hm, rfl⟩ := List.mem_map.1 hx
    exact hf a hm)
  exact ⟨r, h1.wf, fun p => by rw [h2]; simp⟩

theorem stop_of {h : Hom V I U} (hs : ∀ x i, h.skip env x i = false) (o : OB I) : Stop env h o := by
  cases o with
  | nil => trivial
  | node => exact hs _ _

/-- Homomorphisms without fixpoints have a result. -/
theorem HTy.def (hC : C.Lawful) (hF : ∀ u, sc.A u → ∀ o v, (env.indF u o v).noFix = true)
    (hH : ∀ u, sc.A u → ∀ o v, (env.indH u o v).noFix = true) {o : OB I} {h : Hom V I U} {t : Ty} (ht : HTy env C sc o h t) :
    h.noFix = true → ∀ {x : SDD V}, Dom C o.ty x → Def env C h o x := by
  induction ht with
  | id => intro _ x _; exact ⟨x, .id _ _⟩
  | skip _ hs ht ih => intro hn x hx; exact (Def.skip_iff hC ht hs hx).2 fun hd s ha => ih hn (ha.dom hx).1
  | comp hs hr hl ihr ihl =>
    intro hn x hx
    simp only [Hom.noFix, Bool.and_eq_true] at hn
    obtain ⟨y, ey⟩ := ihr hn.2 hx
    obtain ⟨z, ez⟩ := ihl hn.1 (ey.dom hr hx)
    by_cases h0 : x = .zero
    · subst h0; exact ⟨_, .zero _ _⟩
    · exact ⟨z, .comp (hs.here hx h0) ey ez⟩
  | @consF o id nst nxt v h t hS hty ht ih =>
    intro hn x hx
    by_cases h0 : x = .zero
    · subst h0; exact ⟨_, .zero _ _⟩
    obtain ⟨y, ey⟩ := ih hn (x := x) (hty ▸ hx)
    obtain ⟨h1, h2⟩ := mkNode1_flat (m := Plain (fun _ => []) V) hC (x := nxt.lvl) (v := v) (ey.dom ht (hty ▸ hx)).wf
    exact ⟨_, .consF ((stop_of (fun _ _ => by simp [Hom.skip]) o).here hx h0) ey ⟨h1, h2⟩⟩
  | @consH o id nst nxt v h tn t hS hty h3 h4 ht ih =>
    intro hn x hx
    by_cases h0 : x = .zero
    · subst h0; exact ⟨_, .zero _ _⟩
    obtain ⟨y, ey⟩ := ih hn (x := x) (hty ▸ hx)
    obtain ⟨h1, h2⟩ := mkNode1_hier (m := Plain (fun _ => []) V) (C := C) (rec := fun _ => pure .zero) (x := nxt.lvl) h4.wf
      (ey.dom ht (hty ▸ hx)).wf
    exact ⟨_, .consH ((stop_of (fun _ _ => by simp [Hom.skip]) o).here hx h0) ey ⟨h1, h2⟩⟩
  | @const o s t h1 h2 =>
    intro hn x hx
    by_cases h0 : x = .zero
    · subst h0; exact ⟨_, .zero _ _⟩
    exact ⟨_, .const ((stop_of (fun _ _ => by simp [Hom.skip]) o).here hx h0)⟩
  | fix => intro hn; simp [Hom.noFix] at hn
  | fnNil =>
    intro hn x hx
    rcases dom_cases hx with rfl | ⟨_, rfl⟩ | ⟨_, _, _, h, _⟩ | ⟨_, _, _, _, h, _⟩
    · exact ⟨_, .zero _ _⟩
    · exact ⟨_, .fnOne⟩
    · cases h
    · cases h
  | @fn id nxt u =>
    intro hn x hx
    rcases dom_cases hx with rfl | ⟨h, rfl⟩ | ⟨_, _, arcs, h, rfl, _, h2⟩ | ⟨_, _, _, _, h, h', _⟩
    · exact ⟨_, .zero _ _⟩
    · cases h
    · cases h
      obtain ⟨r, hr⟩ := exists_flat hC (OB.ty_shape nxt) nxt.lvl arcs (env.fn u) h2
      exact ⟨r, .fn ⟨rfl, by simp [Hom.skip]⟩ hr⟩
    · cases h; exact absurd rfl h'
  | @ite o i t e ty hs hsel hi ht he ihi iht ihe =>
    intro hn x hx
    simp only [Hom.noFix, Bool.and_eq_true] at hn
    by_cases h0 : x = .zero
    · subst h0; exact ⟨_, .zero _ _⟩
    obtain ⟨y, ey⟩ := ihi hn.1.1 hx
    have hy := ey.dom hi hx
    obtain ⟨d, hd, hd'⟩ := exists_diff hC (OB.ty_shape o) hx hy
    obtain ⟨a, ea⟩ := iht hn.1.2 hy
    obtain ⟨b, eb⟩ := ihe hn.2 hd
    obtain ⟨r, hr, hr'⟩ := exists_union hC ht.shape [a, b] (by simpa using ⟨ea.dom ht hy, eb.dom he hd⟩)
    exact ⟨r, .ite hsel (hs.here hx h0) ey ⟨hd.wf, hd'⟩ ea eb ⟨hr.wf, by simpa using hr'⟩⟩
  | indNil =>
    intro hn x hx
    rcases dom_cases hx with rfl | ⟨_, rfl⟩ | ⟨_, _, _, h, _⟩ | ⟨_, _, _, _, h, _⟩
    · exact ⟨_, .zero _ _⟩
    · exact ⟨_, .indOne⟩
    · cases h
    · cases h
  | @indF id nxt u t hA hsh hs ht ih =>
    intro hn x hx
    rcases dom_cases hx with rfl | ⟨h, rfl⟩ | ⟨_, _, arcs, h, rfl, h1, h2⟩ | ⟨_, _, _, _, h, h', _⟩
    · exact ⟨_, .zero _ _⟩
    · cases h
    · cases h
      have hd : ∀ arc ∈ arcs, Def env C (env.indF u (.node id .nil nxt) arc.1) nxt arc.2 := fun arc ha =>
        ih _ (h1.valNe arc ha) (hF u hA _ _) (h2 arc ha)
      obtain ⟨r, hr⟩ := exists_fam hC hsh arcs (fun arc => evOf env C (env.indF u (.node id .nil nxt) arc.1) nxt arc.2) fun arc ha =>
        ((hd arc ha).ev hC).dom (ht _ (h1.valNe arc ha)) (h2 arc ha)
      exact ⟨r, .indF _ ⟨rfl, hs⟩ (fun arc ha => (hd arc ha).ev hC) hr⟩
    · cases h; exact absurd rfl h'
  | @indH id nst nxt u t hA hsh hne hs ht ih =>
    intro hn x hx
    rcases dom_cases hx with rfl | ⟨h, rfl⟩ | ⟨_, _, arcs, h, rfl, h1, h2⟩ | ⟨_, _, _, arcs, h, h', rfl, h1, h2, h3⟩
    · exact ⟨_, .zero _ _⟩
    · cases h
    · cases h; exact absurd rfl hne
    · cases h
      have hz : ∀ arc ∈ arcs, arc.1 ≠ .zero := by
        intro arc ha h0
        obtain ⟨p, hp⟩ := h1.valNe arc ha
        rw [h0] at hp
        exact not_mem_zero p hp
      have hd : ∀ arc ∈ arcs, Def env C (env.indH u (.node id nst nxt) arc.1) nxt arc.2 := fun arc ha =>
        ih _ (h2 arc ha) (hz arc ha) (hH u hA _ _) (h3 arc ha)
      obtain ⟨r, hr⟩ := exists_fam hC hsh arcs (fun arc => evOf env C (env.indH u (.node id nst nxt) arc.1) nxt arc.2) fun arc ha =>
        ((hd arc ha).ev hC).dom (ht _ (h2 arc ha) (hz arc ha)) (h3 arc ha)
      exact ⟨r, .indH _ ⟨rfl, hs⟩ (fun arc ha => (hd arc ha).ev hC) hr⟩
  | @inter o hs t hsh hst ht ih =>
    intro hn x hx
    by_cases h0 : x = .zero
    · subst h0; exact ⟨_, .zero _ _⟩
    have hd : ∀ h ∈ hs, Def env C h o x := fun h hh => ih h hh (noFixAll_iff.1 hn h hh) hx
    obtain ⟨r, hr⟩ := exists_all hC hsh hs (fun h => evOf env C h o x) fun h hh => ((hd h hh).ev hC).dom (ht h hh) hx
    exact ⟨r, .inter _ (hst.here hx h0) (fun h hh => (hd h hh).ev hC) hr⟩
  | @loc id nst nxt h tn hne ht ih =>
    intro hn x hx
    rcases dom_cases hx with rfl | ⟨h, rfl⟩ | ⟨_, _, arcs, h, rfl, h1, h2⟩ | ⟨_, _, _, arcs, h, h', rfl, h1, h2, h3⟩
    · exact ⟨_, .zero _ _⟩
    · cases h
    · cases h; exact absurd rfl hne
    · cases h
      exact (Def.loc_here hC ht hx).2 fun arc ha => ih hn (h2 arc ha)
  | satFix => intro hn; simp [Hom.noFix] at hn
  | @satInter o x F G L t hsh hst ht ih =>
    intro hn x hx
    by_cases h0 : x = .zero
    · subst h0; exact ⟨_, .zero _ _⟩
    have hn' : ∀ h ∈ F ++ G ++ L, h.noFix = true := by
      simp only [Hom.noFix, Bool.and_eq_true, noFixAll_iff] at hn
      simpa [or_imp, forall_and, and_assoc] using hn
    have hd : ∀ h ∈ F ++ G ++ L, Def env C h o x := fun h hh => ih h hh (hn' h hh) hx
    obtain ⟨r, hr⟩ := exists_all hC hsh (F ++ G ++ L) (fun h => evOf env C h o x) fun h hh => ((hd h hh).ev hC).dom (ht h hh) hx
    exact ⟨r, .satInter _ (hst.here hx h0) (fun h hh => (hd h hh).ev hC) hr⟩
  | @satSum o x F G L t hsh hst ht ih =>
    intro hn x hx
    by_cases h0 : x = .zero
    · subst h0; exact ⟨_, .zero _ _⟩
    have hn' : ∀ h ∈ F ++ G ++ L, h.noFix = true := by
      simp only [Hom.noFix, Bool.and_eq_true, noFixAll_iff] at hn
      simpa [or_imp, forall_and, and_assoc] using hn
    have hd : ∀ h ∈ F ++ G ++ L, Def env C h o x := fun h hh => ih h hh (hn' h hh) hx
    obtain ⟨r, hr⟩ := exists_fam hC hsh (F ++ G ++ L) (fun h => evOf env C h o x) fun h hh => ((hd h hh).ev hC).dom (ht h hh) hx
    exact ⟨r, .satSum _ (hst.here hx h0) (fun h hh => (hd h hh).ev hC) hr⟩
  | @sum o hs t hsh hst ht ih =>
    intro hn x hx
    by_cases h0 : x = .zero
    · subst h0; exact ⟨_, .zero _ _⟩
    have hd : ∀ h ∈ hs, Def env C h o x := fun h hh => ih h hh (noFixAll_iff.1 hn h hh) hx
    obtain ⟨r, hr⟩ := exists_fam hC hsh hs (fun h => evOf env C h o x) fun h hh => ((hd h hh).ev hC).dom (ht h hh) hx
    exact ⟨r, .sum _ (hst.here hx h0) (fun h hh => (hd h hh).ev hC) hr⟩

end
end Verif
