import Verif.Hom.Laws
/-!
# Termination of fixpoints

A homomorphism which keeps its operand, and stays inside a finite set of paths, has a fixpoint.
-/

set_option autoImplicit false
set_option linter.unusedSectionVars false

namespace Verif

variable {V E I U : Type} [DecidableEq V] [DecidableEq I] [DecidableEq U] {env : User V I U} {C : Cfg V E} {sc : Scope I U}

theorem FixSpec.step {h : Hom V I U} {o : OB I} {x y r : SDD V} (e : Ev env C h o x y) (hf : FixSpec env C h o y r) :
    FixSpec env C h o x r := by
  obtain ⟨n, c, h0, h1, h2, h3⟩ := hf
  refine ⟨n + 1, fun i => if i = 0 then x else c (i - 1), rfl, fun i hi => ?_, by simpa using h2, h3⟩
  cases i with
  | zero => simpa [h0] using e
  | succ i => simpa using h1 i (by omega)

theorem length_filter_lt {α : Type} {P Q : α → Prop} [DecidablePred P] [DecidablePred Q] (l : List α) (h1 : ∀ a ∈ l, P a → Q a) {a : α} (ha : a ∈ l) (hp : ¬ P a)
    (hq : Q a) : (l.filter fun a => P a).length < (l.filter fun a => Q a).length := by
  induction l with
  | nil => simp at ha
  | cons b l ih =>
    have hle : ∀ l : List α, (∀ a ∈ l, P a → Q a) → (l.filter fun a => P a).length ≤ (l.filter fun a => Q a).length := by
      intro l
      induction l with
      | nil => simp
      | cons b l ih =>
        intro h
        have := ih fun a ha => h a (by simp [ha])
        have hb := h b (by simp)
        by_cases hpb : P b
        · simp [hpb, hb hpb, this]
        · by_cases hqb : Q b
          · simp [hpb, hqb]; omega
          · simp [hpb, hqb, this]
    have htl := hle l fun a ha => h1 a (by simp [ha])
    rcases List.mem_cons.1 ha with rfl | ha
    · simp [hp, hq]; omega
    · have := ih (fun a ha => h1 a (by simp [ha])) ha
      have hb := h1 b (by simp)
      by_cases hpb : P b
      · simp [hpb, hb hpb]; omega
      · by_cases hqb : Q b
        · simp [hpb, hqb]; omega
        · simp [hpb, hqb]; omega

/-- The iteration of a homomorphism which keeps its operand, and stays in a finite set of paths, stops. -/
theorem Ev.fix_finite (hC : C.Lawful) {h : Hom V I U} {o : OB I} (ht : HTy env C sc o h o.ty) (S : List (Path E))
    (hd : ∀ y, Dom C o.ty y → (∀ p, Mem C p y → p ∈ S) →
      ∃ z, Ev env C h o y z ∧ (∀ p, Mem C p y → Mem C p z) ∧ ∀ p, Mem C p z → p ∈ S) :
    ∀ x, Dom C o.ty x → (∀ p, Mem C p x → p ∈ S) → ∃ r, Ev env C (.fix h) o x r := by
  classical
  have key : ∀ k x, Dom C o.ty x → (∀ p, Mem C p x → p ∈ S) → (S.filter fun p => ¬ Mem C p x).length ≤ k →
      ∃ r, FixSpec env C h o x r := by
    intro k
    induction k with
    | zero =>
      intro x hx hS hk
      obtain ⟨z, e, h1, h2⟩ := hd x hx hS
      have : z = x := canonical_ext hC (e.dom ht hx).wf hx.wf fun p => by
        refine ⟨fun hp => ?_, h1 p⟩
        by_contra hc
        have : p ∈ S.filter fun p => ¬ Mem C p x := List.mem_filter.2 ⟨h2 p hp, by simpa using hc⟩
        rw [List.length_eq_zero_iff.1 (Nat.le_zero.1 hk)] at this
        simp at this
      exact ⟨x, 0, fun _ => x, rfl, fun i hi => absurd hi (by omega), rfl, this ▸ e⟩
    | succ k ih =>
      intro x hx hS hk
      obtain ⟨z, e, h1, h2⟩ := hd x hx hS
      by_cases hz : z = x
      · exact ⟨x, 0, fun _ => x, rfl, fun i hi => absurd hi (by omega), rfl, hz ▸ e⟩
      · have hex : ∃ p, Mem C p z ∧ ¬ Mem C p x := by
          by_contra hc
          push Not at hc
          exact hz (canonical_ext hC (e.dom ht hx).wf hx.wf fun p => ⟨hc p, h1 p⟩)
        obtain ⟨p, hp, hp'⟩ := hex
        have hlt : (S.filter fun p => ¬ Mem C p z).length < (S.filter fun p => ¬ Mem C p x).length :=
          length_filter_lt (P := fun p => ¬ Mem C p z) (Q := fun p => ¬ Mem C p x) S (fun a _ ha hc => ha (h1 a hc)) (h2 p hp)
            (fun hc => hc hp) hp'
        obtain ⟨r, hr⟩ := ih z (e.dom ht hx) h2 (by omega)
        exact ⟨r, hr.step e⟩
  intro x hx hS
  obtain ⟨r, hr⟩ := key _ x hx hS (Nat.le_refl _)
  exact ⟨r, (Ev.fix_iff hC o ht hx).2 hr⟩

/-- The values of a path. (Specification or proof device, not part of the code.) -/
def Path.vals : Path E → List E
  | .nil => []
  | .flat _ a p => a :: p.vals
  | .hier _ n p => n.vals ++ p.vals

/-- The paths of a shape, with values of a list. (Specification or proof device, not part of the code.) -/
def Ty.paths (vs : List E) : Ty → List (Path E)
  | .any _ => []
  | .nil => [.nil]
  | .flat x t => vs.flatMap fun a => (t.paths vs).map (.flat x a)
  | .hier x n t => (n.paths vs).flatMap fun q => (t.paths vs).map (.hier x q)

theorem Ty.mem_paths {vs : List E} {t : Ty} (ht : t.IsShape) {p : Path E} (hp : PTy t p) (hv : ∀ a ∈ p.vals, a ∈ vs) : p ∈ t.paths vs := by
  induction t generalizing p with
  | any => exact ht.elim
  | nil =>
    cases p with
    | nil => simp [Ty.paths]
    | flat => obtain ⟨_, h, _⟩ := hp; simp [Ty.flatNext] at h
    | hier => obtain ⟨_, _, h, _⟩ := hp; simp [Ty.hierNext] at h
  | flat x t ih =>
    cases p with
    | nil => exact hp.elim
    | flat y a q =>
      obtain ⟨t', h, hq⟩ := hp
      simp only [Ty.flatNext, Option.ite_none_right_eq_some, Option.some.injEq] at h
      obtain ⟨rfl, rfl⟩ := h
      simp only [Path.vals, List.mem_cons, forall_eq_or_imp] at hv
      simp only [Ty.paths, List.mem_flatMap, List.mem_map]
      exact ⟨a, hv.1, q, ih ht hq hv.2, rfl⟩
    | hier => obtain ⟨_, _, h, _⟩ := hp; simp [Ty.hierNext] at h
  | hier x n t ihn ih =>
    cases p with
    | nil => exact hp.elim
    | flat => obtain ⟨_, h, _⟩ := hp; simp [Ty.flatNext] at h
    | hier y m q =>
      obtain ⟨tn, t', h, hm, hq⟩ := hp
      simp only [Ty.hierNext, Option.ite_none_right_eq_some, Option.some.injEq, Prod.mk.injEq] at h
      obtain ⟨rfl, rfl, rfl⟩ := h
      simp only [Path.vals, List.mem_append] at hv
      simp only [Ty.paths, List.mem_flatMap, List.mem_map]
      exact ⟨m, ihn ht.1 hm fun a ha => hv a (Or.inl ha), q, ih ht.2 hq fun a ha => hv a (Or.inr ha), rfl⟩

theorem Ty.paths_vals {vs : List E} {t : Ty} {p : Path E} (hp : p ∈ t.paths vs) : ∀ a ∈ p.vals, a ∈ vs := by
  induction t generalizing p with
  | any => simp [Ty.paths] at hp
  | nil => simp only [Ty.paths, List.mem_singleton] at hp; subst hp; simp [Path.vals]
  | flat x t ih =>
    simp only [Ty.paths, List.mem_flatMap, List.mem_map] at hp
    obtain ⟨a, ha, q, hq, rfl⟩ := hp
    simp only [Path.vals, List.mem_cons, forall_eq_or_imp]
    exact ⟨ha, ih hq⟩
  | hier x n t ihn ih =>
    simp only [Ty.paths, List.mem_flatMap, List.mem_map] at hp
    obtain ⟨m, hm, q, hq, rfl⟩ := hp
    simp only [Path.vals, List.mem_append]
    rintro a (ha | ha)
    · exact ihn hm a ha
    · exact ih hq a ha

end Verif
