import Verif.DD.Program
import Verif.DD.Top
/-!
# Outcomes of calls
-/

set_option autoImplicit false
set_option linter.unusedSectionVars false

namespace Verif

section
variable {V E : Type}

/-- The result of a call: either a value satisfying `P`, or the exception `Top`, or too many arcs for
`alpha_size_type` (only when there is a limit).  No other outcome, in particular no undefined
behaviour and no exhaustion of the recursion bound of the model. (Specification or proof device, not part of the code.) -/
def Outcome (C : Cfg V E) (r : Except (Err V) (SDD V)) (P : SDD V → Prop) : Prop :=
  match r with
  | .ok x => P x
  | .error (.top _ _) => True
  | .error .overflow => C.limit ≠ none
  | .error _ => False

/-- The same without `Top`. (Specification or proof device, not part of the code.) -/
def OutcomeNoTop (C : Cfg V E) (r : Except (Err V) (SDD V)) (P : SDD V → Prop) : Prop :=
  match r with
  | .ok x => P x
  | .error .overflow => C.limit ≠ none
  | .error _ => False

theorem Outcome.mono {C : Cfg V E} {r : Except (Err V) (SDD V)} {P Q : SDD V → Prop}
    (h : Outcome C r P) (hpq : ∀ x, P x → Q x) : Outcome C r Q := by
  match r, h with
  | .ok x, h => exact hpq x h
  | .error (.top _ _), _ => exact trivial
  | .error .overflow, h => exact h

theorem OutcomeNoTop.mono {C : Cfg V E} {r : Except (Err V) (SDD V)} {P Q : SDD V → Prop}
    (h : OutcomeNoTop C r P) (hpq : ∀ x, P x → Q x) : OutcomeNoTop C r Q := by
  match r, h with
  | .ok x, h => exact hpq x h
  | .error .overflow, h => exact h

/-- The exceptions allowed by `Outcome`. (Specification or proof device, not part of the code.) -/
def outAllow (C : Cfg V E) (e : Err V) : Prop :=
  match e with
  | .top _ _ => True
  | .overflow => C.limit ≠ none
  | _ => False

/-- The exceptions allowed by `OutcomeNoTop`. (Specification or proof device, not part of the code.) -/
def outAllowNoTop (C : Cfg V E) (e : Err V) : Prop :=
  match e with
  | .overflow => C.limit ≠ none
  | _ => False

theorem outcome_iff {C : Cfg V E} {r : Except (Err V) (SDD V)} {P : SDD V → Prop} :
    Outcome C r P ↔ match r with
      | .ok x => P x
      | .error e => outAllow C e := by
  unfold Outcome outAllow
  rcases r with e | x
  · cases e <;> simp
  · simp

theorem outcomeNoTop_iff {C : Cfg V E} {r : Except (Err V) (SDD V)} {P : SDD V → Prop} :
    OutcomeNoTop C r P ↔ match r with
      | .ok x => P x
      | .error e => outAllowNoTop C e := by
  unfold OutcomeNoTop outAllowNoTop
  rcases r with e | x
  · cases e <;> simp
  · simp

variable [DecidableEq V] {C : Cfg V E} {orc : Nat → Nat → List Nat} {cap : OpKind → Nat}

/-- The outcome of a call in a state satisfying the invariant. -/
theorem Sess.Inv.outcome (hC : C.Lawful) (hcap : ∀ k, 0 < cap k) {s : Sess V} (hs : s.Inv C)
    {c : Call V} (h : ∀ x ∈ c.args, WF (C.withLt s.lt) x) :
    Outcome C (c.run (C.withLt s.lt) orc cap s.mach).1 fun r =>
      WF (C.withLt s.lt) r ∧ ∀ p, Mem C p r ↔ c.Spec C p := by
  have hov : (C.withLt s.lt).limit = none ∨ outAllow C (.overflow : Err V) := by
    by_cases h : C.limit = none
    · exact Or.inl h
    · exact Or.inr h
  have := (Call.run_sat (orc := orc) (allow := outAllow C) (hC.withLt hs.st) hcap hov
    (.all fun _ _ => trivial) h s.mach hs.cache).2
  rw [outcome_iff]
  split
  · rename_i r hr
    rw [hr] at this
    refine ⟨this.1, fun p => ?_⟩
    have := this.2 p
    rwa [mem_withLt, Call.spec_withLt] at this
  · rename_i e hr; rw [hr] at this; exact this

/-- Calls on operands following an order never raise `Top`. -/
theorem Sess.Inv.outcomeNoTop (hC : C.Lawful) (hcap : ∀ k, 0 < cap k) {s : Sess V} (hs : s.Inv C)
    {t : Ty} (ht : t.IsShape) {c : Call V}
    (hk : (∃ xs, c = .sum xs) ∨ (∃ xs, c = .inter xs) ∨ ∃ x y, c = .diff x y)
    (h : ∀ x ∈ c.args, Dom (C.withLt s.lt) t x) :
    OutcomeNoTop C (c.run (C.withLt s.lt) orc cap s.mach).1 fun r =>
      Dom (C.withLt s.lt) t r ∧ ∀ p, Mem C p r ↔ c.Spec C p := by
  have hov : (C.withLt s.lt).limit = none ∨ outAllowNoTop C (.overflow : Err V) := by
    by_cases h : C.limit = none
    · exact Or.inl h
    · exact Or.inr h
  have hL := hC.withLt hs.st
  have hrun : RunOK (C.withLt s.lt) (cachedLogic (C.withLt s.lt) orc (outAllowNoTop C))
      (runC (C.withLt s.lt) orc cap) := fun n t h1 h2 => runC_ok hL hcap hov n t h1 h2
  have hsat : (cachedLogic (C.withLt s.lt) orc (outAllowNoTop C)).Sat
      (c.run (C.withLt s.lt) orc cap) fun a =>
        Dom (C.withLt s.lt) t a ∧ ∀ p, Mem (C.withLt s.lt) p a ↔ c.Spec (C.withLt s.lt) p := by
    rcases hk with ⟨xs, rfl⟩ | ⟨xs, rfl⟩ | ⟨x, y, rfl⟩
    · exact sum_shape hL hrun ht h
    · exact inter_shape hL hrun ht h
    · exact diff_shape hrun ht (h x (by simp [Call.args])) (h y (by simp [Call.args]))
  have := (hsat s.mach hs.cache).2
  rw [outcomeNoTop_iff]
  split
  · rename_i r hr
    rw [hr] at this
    refine ⟨this.1, fun p => ?_⟩
    have := this.2 p
    rwa [mem_withLt, Call.spec_withLt] at this
  · rename_i e hr; rw [hr] at this; exact this

/-- What is below a canonical SDD is canonical. -/
theorem Dom.sub {a s : SDD V} (hs : Sub a s) : ∀ {t : Ty}, Dom C t s → ∃ t', Dom C t' a := by
  induction hs with
  | refl => intro t h; exact ⟨t, h⟩
  | flat x arcs arc ha _ ih =>
    intro t h
    cases h with
    | flat _ t' _ _ h1 h2 h3 => exact ih (h3 arc ha)
  | hierVal x arcs arc ha _ ih =>
    intro t h
    cases h with
    | hier _ tn t' _ _ h1 h2 h3 h4 => exact ih (h3 arc ha)
  | hierSucc x arcs arc ha _ ih =>
    intro t h
    cases h with
    | hier _ tn t' _ _ h1 h2 h3 h4 => exact ih (h4 arc ha)

end

/-! ## Boolean expressions -/

/-- Boolean expressions over variables. (Specification or proof device, not part of the code.) -/
inductive BExpr : Type where
  | var (i : Nat)
  | zero
  | sum (a b : BExpr)
  | inter (a b : BExpr)
  | diff (a b : BExpr)

/-- The Boolean function of an expression. (Specification or proof device, not part of the code.) -/
def BExpr.holds (ρ : Nat → Prop) : BExpr → Prop
  | .var i => ρ i
  | .zero => False
  | .sum a b => a.holds ρ ∨ b.holds ρ
  | .inter a b => a.holds ρ ∧ b.holds ρ
  | .diff a b => a.holds ρ ∧ ¬ b.holds ρ

section
variable {V E : Type} [DecidableEq V]

/-- Evaluation of an expression with the operators on SDDs. (Specification or proof device, not part of the code.) -/
def BExpr.eval (C : Cfg V E) (orc : Nat → Nat → List Nat) (cap : OpKind → Nat) (σ : Nat → SDD V) :
    BExpr → CM orc V (SDD V)
  | .var i => pure (σ i)
  | .zero => pure .zero
  | .sum a b => do
    let x ← a.eval C orc cap σ
    let y ← b.eval C orc cap σ
    sumC C orc cap [x, y]
  | .inter a b => do
    let x ← a.eval C orc cap σ
    let y ← b.eval C orc cap σ
    interC C orc cap [x, y]
  | .diff a b => do
    let x ← a.eval C orc cap σ
    let y ← b.eval C orc cap σ
    diffC C orc cap x y

variable {C : Cfg V E} {orc : Nat → Nat → List Nat} {cap : OpKind → Nat}

theorem BExpr.eval_sat (hC : C.Lawful) (hcap : ∀ k, 0 < cap k) {allow : Err V → Prop}
    (hov : C.limit = none ∨ allow .overflow) {t : Ty} (ht : t.IsShape) {σ : Nat → SDD V}
    (hσ : ∀ i, Dom C t (σ i)) (e : BExpr) :
    (cachedLogic C orc allow).Sat (e.eval C orc cap σ) fun r =>
      Dom C t r ∧ ∀ p, Mem C p r ↔ e.holds fun i => Mem C p (σ i) := by
  have hrun : RunOK C (cachedLogic C orc allow) (runC C orc cap) := fun n t h1 h2 =>
    runC_ok hC hcap hov n t h1 h2
  induction e with
  | var i => exact (cachedLogic C orc allow).pure' ⟨hσ i, fun p => Iff.rfl⟩
  | zero => exact (cachedLogic C orc allow).pure' ⟨.zero _, fun p => by
      simp [BExpr.holds, not_mem_zero]⟩
  | sum a b iha ihb =>
    refine (cachedLogic C orc allow).bind' iha fun x hx => ?_
    refine (cachedLogic C orc allow).bind' ihb fun y hy => ?_
    refine (cachedLogic C orc allow).mono' (sum_shape hC hrun ht (xs := [x, y])
      (by simp [hx.1, hy.1])) fun r hr => ⟨hr.1, fun p => ?_⟩
    rw [hr.2 p]; simp [BExpr.holds, hx.2, hy.2]
  | inter a b iha ihb =>
    refine (cachedLogic C orc allow).bind' iha fun x hx => ?_
    refine (cachedLogic C orc allow).bind' ihb fun y hy => ?_
    refine (cachedLogic C orc allow).mono' (inter_shape hC hrun ht (xs := [x, y])
      (by simp [hx.1, hy.1])) fun r hr => ⟨hr.1, fun p => ?_⟩
    rw [hr.2 p]; simp [BExpr.holds, hx.2, hy.2]
  | diff a b iha ihb =>
    refine (cachedLogic C orc allow).bind' iha fun x hx => ?_
    refine (cachedLogic C orc allow).bind' ihb fun y hy => ?_
    refine (cachedLogic C orc allow).mono' (diff_shape hrun ht hx.1 hy.1) fun r hr =>
      ⟨hr.1, fun p => ?_⟩
    rw [hr.2 p]; simp [BExpr.holds, hx.2, hy.2]

/-- `Top` is raised exactly when two paths of the operands are incompatible. -/
theorem Sess.Inv.top_iff (hC : C.Lawful) (hlim : C.limit = none) (hcap : ∀ k, 0 < cap k) {s : Sess V} (hi : s.Inv C) (hs : s.Coh C)
    (c : Call V) (hc : (∃ xs, c = .sum xs) ∨ (∃ x y, c = .inter [x, y]) ∨ ∃ x y, c = .diff x y)
    (ha : ∀ x ∈ c.args, x ∈ s.handles) :
    (∃ l r, (c.run (C.withLt s.lt) orc cap s.mach).1 = .error (.top l r)) ↔
      ∃ x ∈ c.args, ∃ y ∈ c.args, ∃ p q, Mem C p x ∧ Mem C q y ∧ ¬ Compat p q := by
  constructor
  · rintro ⟨l, r, e⟩
    by_contra hne
    push Not at hne
    exact hi.no_top hC hcap ha (fun x hx y hy p q hp hq => hne x hx y hy p q hp hq) l r e
  · rintro ⟨x, hx, y, hy, p, q, hp, hq, hpq⟩
    have o := hi.outcome (orc := orc) hC hcap (c := c) fun z hz => hi.wf z (ha z hz)
    match e : (c.run (C.withLt s.lt) orc cap s.mach).1, o with
    | .ok r, _ =>
      exfalso
      have hco := hs.returns hC hcap hi ha e
      rcases hc with ⟨xs, rfl⟩ | ⟨x', y', rfl⟩ | ⟨x', y', rfl⟩
      · exact hpq (hco x hx y hy p q hp hq)
      · by_cases hxy : x = y
        · subst hxy
          exact hpq (hs.self x (ha x hx) p q hp hq)
        · refine hpq (InterCoh.common hco hy (hs.self y (ha y hy)) ⟨x, hx, hp⟩ (fun w hw hwy => ?_) hq).1
          simp only [Call.args, List.mem_cons, List.not_mem_nil, or_false] at hx hy hw
          have : w = x := by
            rcases hx with rfl | rfl <;> rcases hy with rfl | rfl <;> rcases hw with rfl | rfl <;>
              first | rfl | exact absurd rfl hwy | exact absurd rfl hxy
          exact this ▸ hp
      · have hself := hs.self
        simp only [Call.args, List.mem_cons, List.not_mem_nil, or_false] at hx hy ha
        rcases hx with rfl | rfl <;> rcases hy with rfl | rfl
        · exact hpq (hself _ (ha _ (Or.inl rfl)) p q hp hq)
        · exact hpq (hco p q hp hq)
        · exact hpq (hco q p hq hp).symm
        · exact hpq (hself _ (ha _ (Or.inr rfl)) p q hp hq)
    | .error (.top l r), _ => exact ⟨l, r, rfl⟩
    | .error .overflow, o => exact absurd hlim o

/-- An intersection of handles which does not raise `Top` visited its operands in an order in which the paths common to the first operands are
compatible with those of the next one. -/
theorem Sess.Inv.inter_top (hC : C.Lawful) (hlim : C.limit = none) (hcap : ∀ k, 0 < cap k) {s : Sess V} (hi : s.Inv C) (hs : s.Coh C)
    {xs : List (SDD V)} (ha : ∀ x ∈ xs, x ∈ s.handles) :
    (∃ l r, ((Call.inter xs).run (C.withLt s.lt) orc cap s.mach).1 = .error (.top l r)) ∨ InterCoh C Compat xs := by
  have o := hi.outcome (orc := orc) hC hcap (c := .inter xs) fun z hz => hi.wf z (ha z hz)
  match e : ((Call.inter xs).run (C.withLt s.lt) orc cap s.mach).1, o with
  | .ok r, _ => exact Or.inr (hs.returns hC hcap hi (c := .inter xs) ha e)
  | .error (.top l r), _ => exact Or.inl ⟨l, r, rfl⟩
  | .error .overflow, o => exact absurd hlim o

end
end Verif
