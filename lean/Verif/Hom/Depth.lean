import Verif.Hom.NoDup
/-!
# How deep evaluations nest

The evaluation of homomorphisms (`runH`) has one bound for the depth of nested applications and for the iterations of fixpoints. Here the two
bounds are apart, and going too deep is another error.
-/

set_option autoImplicit false
set_option linter.unusedSectionVars false

namespace Verif

variable {V E I U : Type} [DecidableEq V] [DecidableEq I] [DecidableEq U]

mutual
/-- How deep a homomorphism is (inductives are not inspected). (Specification, not part of the code.) -/
def Hom.nest : Hom V I U → Nat
  | .id => 0
  | .comp l r => max l.nest r.nest + 1
  | .consF _ _ h => h.nest + 1
  | .consH _ _ h => h.nest + 1
  | .const _ => 0
  | .fix h => h.nest + 1
  | .fn _ _ => 0
  | .ite i t e => max i.nest (max t.nest e.nest) + 1
  | .ind _ => 0
  | .inter hs => nestAll hs + 1
  | .loc _ h => h.nest + 1
  | .satFix _ F G L => max F.nest (max (nestAll G) L.nest) + 1
  | .satInter _ F G L => max (nestAll F) (max (nestAll G) (nestAll L)) + 1
  | .satSum _ F G L => max (nestAll F) (max (nestAll G) (nestAll L)) + 1
  | .sum hs => nestAll hs + 1
/-- How deep the homomorphisms of a list are. (Specification, not part of the code.) -/
def nestAll : List (Hom V I U) → Nat
  | [] => 0
  | h :: hs => max h.nest (nestAll hs)
end

theorem nest_le_all {hs : List (Hom V I U)} {h : Hom V I U} (hh : h ∈ hs) : h.nest ≤ nestAll hs := by
  induction hs with
  | nil => simp at hh
  | cons g hs ih =>
    rw [List.mem_cons] at hh
    simp only [nestAll]
    rcases hh with rfl | hh
    · omega
    · have := ih hh; omega

section
variable {m : Type → Type} [DDMonad V m]

/-- `homomorphism::operator()`, `/repo/sdd/hom/definition.hh:192-205`, with at most `it` iterations of each fixpoint and at most `n` nested
applications: there is no room for more on the stack (`.ub`). -/
def runD (env : User V I U) (C : Cfg V E) (dd : Op V → m (SDD V))
    (call : (Hom V I U → OB I → SDD V → m (SDD V)) → Hom V I U → OB I → SDD V → m (SDD V)) (it : Nat) :
    Nat → Hom V I U → OB I → SDD V → m (SDD V)
  | 0, _, _, _ => DDMonad.raise .ub
  | n + 1, h, o, x =>
    if h.isId || x.isZero then pure x
    else call (homEval env C dd it (runD env C dd call it n)) h o x

end

/-- Application of a homomorphism (`/repo/sdd/hom/definition.hh`, lines 107-119) with at most `it` iterations of each fixpoint and at most `n` nested
applications. -/
def Lib.applyD (L : Lib V E I U) (it n : Nat) (h : Hom V I U) (o : OB I) (x : SDD V) (s : HMach V I U) :
    Except (Err V) (SDD V) × HMach V I U :=
  runD (m := HM L.orc V I U) L.env L.C (fun op => HM.lift (autoRun (runC L.C L.orc L.cap) op)) (homCache L.hcap) it n h o x s

variable {env : User V I U} {C : Cfg V E} {sc : Scope I U}

/-- The user's inductives return homomorphisms at most as deep as `c`. (Specification, not part of the code.) -/
def User.NestLe (env : User V I U) (sc : Scope I U) (c : Nat) : Prop :=
  ∀ u, sc.A u → ∀ o, (∀ v, (env.indF u o v).nest ≤ c) ∧ ∀ v, (env.indH u o v).nest ≤ c

/-- Each nested application is at a lower level or less deep. -/
theorem HTy.call_nest {c : Nat} (hc : env.NestLe sc c) {o o' : OB I} {h h' : Hom V I U} {x x' : SDD V} {t : Ty} (ht : HTy env C sc o h t)
    (hs : HCall env C o h x o' h' x') : o'.ty.depth * (c + 1) + h'.nest < o.ty.depth * (c + 1) + h.nest := by
  have lower : ∀ {d d' n n' : Nat}, d' < d → n' ≤ n + c → d' * (c + 1) + n' < d * (c + 1) + n := by
    intro d d' n n' h1 h2
    have := Nat.mul_le_mul_right (c + 1) (Nat.succ_le_of_lt h1)
    rw [Nat.succ_mul] at this
    omega
  have same : ∀ {d d' n n' : Nat}, d' = d → n' < n → d' * (c + 1) + n' < d * (c + 1) + n := by
    rintro d d' n n' rfl h2
    omega
  cases hs with
  | skip => exact lower OB.depth_node.1 (by omega)
  | compR | compL | fix | iteI | iteT | iteE | satF | satL => exact same rfl (by simp only [Hom.nest]; omega)
  | consF =>
    cases ht with
    | skip _ h => simp [Hom.skip] at h
    | consF _ h _ => exact same (by rw [h]) (by simp only [Hom.nest]; omega)
  | consH =>
    cases ht with
    | skip _ h => simp [Hom.skip] at h
    | consH _ h _ => exact same (by rw [h]) (by simp only [Hom.nest]; omega)
  | @indF id nxt u _ _ arc hst _ =>
    have hu : sc.A u := by
      generalize hh : (.ind u : Hom V I U) = g at ht
      cases ht with
      | skip _ h => subst hh; exact absurd (hst.symm.trans h) (by simp)
      | indF h0 => cases hh; exact h0
      | indH h0 => cases hh; exact h0
      | _ => cases hh
    exact lower OB.depth_node.1 (((hc u hu _).1 _).trans (by omega))
  | @indH id nst nxt u _ _ arc hst _ _ =>
    have hu : sc.A u := by
      generalize hh : (.ind u : Hom V I U) = g at ht
      cases ht with
      | skip _ h => subst hh; exact absurd (hst.symm.trans h) (by simp)
      | indF h0 => cases hh; exact h0
      | indH h0 => cases hh; exact h0
      | _ => cases hh
    exact lower OB.depth_node.1 (((hc u hu _).2 _).trans (by omega))
  | inter pre _ post =>
    have := nest_le_all (hs := pre ++ h' :: post) (h := h') (by simp)
    exact same rfl (by simp only [Hom.nest]; omega)
  | loc => exact lower OB.depth_node.2 (by simp only [Hom.nest]; omega)
  | satG _ _ _ _ hc =>
    have := nest_le_all hc.mem
    exact same rfl (by simp only [Hom.nest]; omega)
  | @satInter _ _ F G L k _ _ hm =>
    refine same rfl ?_
    simp only [List.mem_append] at hm
    simp only [Hom.nest]
    rcases hm with (hm | hm) | hm <;> (have := nest_le_all hm; omega)
  | @satSum _ _ F G L k _ _ hm =>
    refine same rfl ?_
    simp only [List.mem_append] at hm
    simp only [Hom.nest]
    rcases hm with (hm | hm) | hm <;> (have := nest_le_all hm; omega)
  | sum _ hm =>
    have := nest_le_all hm
    exact same rfl (by simp only [Hom.nest]; omega)

section
variable {m : Type → Type} [DDMonad V m] {Λ : Logic V m}
variable {call : (Hom V I U → OB I → SDD V → m (SDD V)) → Hom V I U → OB I → SDD V → m (SDD V)} {dd : Op V → m (SDD V)}

/-- With enough nested applications, the evaluation is right whatever the number of iterations. -/
theorem runD_sat (hcl : sc.Closed) (hC : C.Lawful) (hov : C.limit = none ∨ Λ.allow .overflow) (hfuel : Λ.allow .fuel)
    (hon : Honest env C) (hdd : ∀ t : Ty, t.IsShape → RecOK C Λ t dd) (hcall : CallSound env C sc Λ call) {c : Nat} (hc : env.NestLe sc c)
    (it n : Nat) : ∀ o h t x, sc.S o → HTy env C sc o h t → Dom C o.ty x → o.ty.depth * (c + 1) + h.nest < n →
      Λ.Sat (runD env C dd call it n h o x) (Ev env C h o x) := by
  induction n with
  | zero => intro o h t x _ _ _ hn; omega
  | succ n ih =>
    intro o h t x hS ht hx hn
    rw [runD]
    split
    · rename_i hc
      rw [Bool.or_eq_true, Hom.isId_iff, isZero_iff] at hc
      rcases hc with rfl | rfl
      · exact Λ.pure' (.id o x)
      · exact Λ.pure' (.zero h o)
    · rename_i hq
      rw [Bool.or_eq_true, Hom.isId_iff, isZero_iff, not_or] at hq
      refine hcall _ o h t x hS ht hx hq.2 hq.1 ?_
      refine homEval_sat hC hov hon hdd ht hq.1 (fun o' h' x' hs => ?_) (Or.inl hfuel) hx hq.2
      obtain ⟨h1, ⟨t', h2⟩, h3⟩ := ht.call hcl hs hS hx
      have := ht.call_nest hc hs
      exact ih o' h' t' x' h1 h2 h3 (by omega)

theorem Bounded.mono {n k : Nat} {o : OB I} {h : Hom V I U} {x : SDD V} (hb : Bounded env C n o h x) (hk : n ≤ k) : Bounded env C k o h x := by
  cases h with
  | fix h => exact fun hs => (hb hs).mono hk
  | satFix y F G L => exact fun hs => (hb hs).mono hk
  | _ => trivial

/-- With enough nested applications, and enough iterations, the evaluation ends. The number of nested applications does not depend on the
operand, nor on the number of iterations. -/
theorem runD_total (hcl : sc.Closed) (hC : C.Lawful) (hov : C.limit = none ∨ Λ.allow .overflow)
    (hon : Honest env C) (hdd : ∀ t : Ty, t.IsShape → RecOK C Λ t dd) (hcall : CallSound env C sc Λ call) {c : Nat} (hc : env.NestLe sc c)
    {h : Hom V I U} {o : OB I} {x r : SDD V} (e : Ev env C h o x r) {t : Ty} (hS : sc.S o) (ht : HTy env C sc o h t)
    (hx : Dom C o.ty x) : ∃ N, ∀ it, N ≤ it → ∀ n, o.ty.depth * (c + 1) + h.nest < n →
      Λ.Sat (runD env C dd call it n h o x) (Ev env C h o x) := by
  have key := Ev.term (T := fun k o h x => ∀ it, k ≤ it → ∀ n, o.ty.depth * (c + 1) + h.nest < n →
      Λ.Sat (runD env C dd call it n h o x) (Ev env C h o x)) hcl hC ?_ ?_ ?_ e hS ht hx
  · obtain ⟨N, hN⟩ := key
    exact ⟨N, fun it hit n hn => hN it hit it (Nat.le_refl _) n hn⟩
  · intro k o x it _ n hn
    obtain ⟨n, rfl⟩ : ∃ n', n = n' + 1 := ⟨n - 1, by omega⟩
    rw [runD]
    simp only [Hom.isId, Bool.true_or, if_true]
    exact Λ.pure' (.id o x)
  · intro k o h it _ n hn
    obtain ⟨n, rfl⟩ : ∃ n', n = n' + 1 := ⟨n - 1, by omega⟩
    rw [runD]
    simp only [SDD.isZero, Bool.or_true, if_true]
    exact Λ.pure' (.zero h o)
  · intro k o h t x hS ht hx h2 h1 hb hr it hit n hn
    obtain ⟨n, rfl⟩ : ∃ n', n = n' + 1 := ⟨n - 1, by omega⟩
    rw [runD, if_neg]
    · refine hcall _ o h t x hS ht hx h2 h1 ?_
      refine homEval_sat hC hov hon hdd ht h1 (fun o' h' x' hs => ?_) (Or.inr (hb.mono (by omega))) hx h2
      have := ht.call_nest hc hs
      exact hr o' h' x' hs it (by omega) n (by omega)
    · rw [Bool.or_eq_true, Hom.isId_iff, isZero_iff]; simp [h1, h2]

end

theorem Lib.OK.satD {L : Lib V E I U} (hL : L.OK sc) {c : Nat} (hc : L.env.NestLe sc c) {it n : Nat} {h : Hom V I U} {o : OB I} {x : SDD V}
    (hu : L.Use sc h o x) (hn : o.ty.depth * (c + 1) + h.nest < n) :
    (homLogic L.env L.C sc L.orc fun e => e = .fuel ∨ e = .overflow ∧ L.C.limit ≠ none).Sat (L.applyD it n h o x) (Ev L.env L.C h o x) := by
  obtain ⟨t, ht⟩ := hu.ty
  have hov : L.C.limit = none ∨ ((.overflow : Err V) = .fuel ∨ (.overflow : Err V) = .overflow ∧ L.C.limit ≠ none) := by
    by_cases h : L.C.limit = none
    · exact Or.inl h
    · exact Or.inr (Or.inr ⟨rfl, h⟩)
  exact runD_sat hL.closed hL.lawful hov (Or.inl rfl) hL.honest
    (fun t ht => cached_dd hL.lawful hL.cap hov t ht) (cached_call hL.transfer hL.hcap) hc it n o h t x hu.order ht hu.dom hn

theorem Lib.OK.totalD {L : Lib V E I U} (hL : L.OK sc) {c : Nat} (hc : L.env.NestLe sc c) (hlim : L.C.limit = none) {h : Hom V I U} {o : OB I}
    {x r : SDD V} (hu : L.Use sc h o x) (e : Ev L.env L.C h o x r) : ∃ N, ∀ it, N ≤ it → ∀ n, o.ty.depth * (c + 1) + h.nest < n →
      (homLogic L.env L.C sc L.orc fun _ => False).Sat (L.applyD it n h o x) (Ev L.env L.C h o x) := by
  obtain ⟨t, ht⟩ := hu.ty
  exact runD_total hL.closed hL.lawful (Or.inl hlim) hL.honest (fun t ht => cached_dd hL.lawful hL.cap (Or.inl hlim) t ht)
    (cached_call hL.transfer hL.hcap) hc e hu.order ht hu.dom

end Verif
