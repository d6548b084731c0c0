import Verif.DD.Session
/-!
# When exactly is `Top` raised?

`Top` is raised by the operations of `/repo/sdd/dd/sum.hh`, `intersection.hh` and `difference.hh` when
two nodes of different kinds or variables meet. This file shows that, for the SDDs which a user can obtain, this
only depends on the sets of paths denoted by the operands: sums, intersections of two operands and differences
raise `Top` if and only if two paths of the operands are incompatible.
-/

set_option autoImplicit false
set_option linter.unusedSectionVars false

namespace Verif

section
variable {V E : Type}

theorem Compat.refl (p : Path E) : Compat p p := by
  induction p with
  | nil => trivial
  | flat x a p ih => exact ⟨rfl, fun _ => ih⟩
  | hier x n p ih1 ih2 => exact ⟨rfl, ih1, fun _ => ih2⟩

theorem Compat.symm : ∀ {p q : Path E}, Compat p q → Compat q p := by
  intro p
  induction p with
  | nil => intro q h; cases q <;> simp_all [Compat]
  | flat x a p ih =>
    intro q h
    cases q <;> simp only [Compat] at h ⊢
    exact ⟨h.1.symm, fun e => ih (h.2 e.symm)⟩
  | hier x n p ih1 ih2 =>
    intro q h
    cases q <;> simp only [Compat] at h ⊢
    exact ⟨h.1.symm, ih1 h.2.1, fun e => ih2 (h.2.2 e.symm)⟩

theorem Compat.pathRel : PathRel (Compat (E := E)) :=
  ⟨by simp [Compat], by simp [Compat], fun _ _ h => h.symm⟩

theorem Compat.head : ∀ {p q : Path E}, Compat p q → SameHead p q := by
  intro p q h
  cases p <;> cases q <;> simp_all [Compat, SameHead]

variable [DecidableEq V] {C : Cfg V E} {orc : Nat → Nat → List Nat} {cap : OpKind → Nat} {allow : Err V → Prop}

/-! ## Compatible operands never raise `Top` -/

theorem runC_compat (hC : C.Lawful) (hcap : ∀ k, 0 < cap k) (hov : C.limit = none ∨ allow .overflow) (n : Nat) :
    ∀ (t : Ty) (S : Path E → Prop), t.depth ≤ n → (∀ p q, S p → S q → Compat p q) →
    RecS C (cachedLogic C orc allow) (fun _ _ => True) S (fun _ => True) t (runC C orc cap n) := by
  induction n with
  | zero =>
    intro t S ht _ op hop
    exact absurd (hop.depth_pos hC) (by omega)
  | succ n ih =>
    intro t S ht hS op hop hself _
    rw [runC]
    refine (cachedLogic C orc allow).mono' (cacheCall_sat hcap hop ((cachedLogic C orc allow).mono'
      (step_satS (L := cachedLogic C orc allow) hC PathRel.trivial
        (Cap.trivial _) (.of_head fun p q hp hq => (hS p q hp hq).head) hov ?_ ?_ hop hself op.small_true)
      fun _ h => ⟨h.1, h.2.1⟩)) fun _ h => ⟨h.1, h.2, OpCoh.trivial op⟩
    · intro x t' h a
      refine ih t' _ ?_ fun p q hp hq => ?_
      · have := (Ty.flatNext_depth h).1
        omega
      · exact (hS _ _ hp hq).2 rfl
    · intro x tn t' h
      have hd := (Ty.hierNext_depth h).1
      refine ⟨ih tn _ (by omega) fun p q hp hq => ?_, fun a => ih t' _ (by omega) fun p q hp hq => ?_⟩
      · obtain ⟨p', hp⟩ := hp
        obtain ⟨q', hq⟩ := hq
        exact (hS _ _ hp hq).2.1
      · exact (hS _ _ hp hq).2.2 rfl

/-- The exceptions which are not `Top`. (Specification or proof device, not part of the code.) -/
def Err.NotTop : Err V → Prop
  | .top _ _ => False
  | _ => True

theorem Call.run_compat (hC : C.Lawful) (hcap : ∀ k, 0 < cap k) {c : Call V} (h : ∀ x ∈ c.args, WF C x)
    (hco : ∀ x ∈ c.args, ∀ y ∈ c.args, Coh C Compat x y) :
    (cachedLogic C orc Err.NotTop).Sat (c.run C orc cap) fun _ => True := by
  have key : ∀ xs : List (SDD V), xs = c.args →
      RecS C (cachedLogic C orc Err.NotTop) (fun _ _ => True) (fun p => ∃ x ∈ xs, Mem C p x) (fun _ => True)
        (.any (maxHeight xs)) (runC C orc cap (maxHeight xs)) := by
    rintro xs rfl
    refine runC_compat hC hcap (Or.inr trivial) _ _ _ le_rfl ?_
    rintro p q ⟨x, hx, hp⟩ ⟨y, hy, hq⟩
    exact hco x hx y hy p q hp hq
  have self : ∀ x ∈ c.args, SelfIn C (fun _ _ => True) (fun p => ∃ x ∈ c.args, Mem C p x) x :=
    fun x hx => ⟨fun _ _ _ _ => trivial, fun p hp => ⟨x, hx, hp⟩⟩
  have dom := dom_maxHeight h
  cases c with
  | zero => exact (cachedLogic C orc Err.NotTop).pure' trivial
  | one => exact (cachedLogic C orc Err.NotTop).pure' trivial
  | flat x v s => exact (cachedLogic C orc Err.NotTop).pure' trivial
  | hier x v s => exact (cachedLogic C orc Err.NotTop).pure' trivial
  | sum xs =>
    exact (cachedLogic C orc Err.NotTop).mono' (opSum_satS hC (key xs rfl) dom self fun _ _ => trivial) fun _ _ => trivial
  | inter xs =>
    exact (cachedLogic C orc Err.NotTop).mono' (opInter_satS hC (key xs rfl) dom self fun _ _ => trivial) fun _ _ => trivial
  | diff x y =>
    exact (cachedLogic C orc Err.NotTop).mono' (ddDiff_satS (key [x, y] rfl) (dom x (by simp [Call.args]))
      (dom y (by simp [Call.args])) (self x (by simp [Call.args])) (self y (by simp [Call.args]))) fun _ _ => trivial

/-! ## Operations which return had compatible operands -/

/-- The entries of the caches are right, and their operands are compatible. (Specification or proof device, not part of the code.) -/
def CacheCoh (C : Cfg V E) (s : Mach V) : Prop := CacheOK C s ∧ ∀ k, ∀ e ∈ s.cache k, OpCoh C Compat e.1

/-- The exceptions `Top` carry sets of compatible paths. (Specification or proof device, not part of the code.) -/
def TopCoh (C : Cfg V E) (e : Err V) : Prop := ∀ l r, e = .top l r → Coh C Compat l l ∧ Coh C Compat r r

/-- As `cachedLogic`, with the compatibility of the operands stored in caches. (Specification or proof device, not part of the code.) -/
def cohLogic (C : Cfg V E) (orc : Nat → Nat → List Nat) : Logic V (CM orc V) where
  Sat x P := ∀ s, CacheCoh C s → CacheCoh C (x s).2 ∧
    match (x s).1 with
    | .ok a => P a
    | .error e => TopCoh C e
  allow := TopCoh C
  pure' h s hs := ⟨hs, h⟩
  bind' := by
    intro α β x f P Q h1 h2 s hs
    have h1 := h1 s hs
    change CacheCoh C (match x s with
      | (.ok a, s') => f a s'
      | (.error e, s') => (.error e, s')).2 ∧ match (match x s with
      | (.ok a, s') => f a s'
      | (.error e, s') => (.error e, s')).1 with
      | .ok a => Q a
      | .error e => TopCoh C e
    match hx : x s, h1 with
    | (.ok a, s'), h1 => exact h2 a h1.2 s' h1.1
    | (.error e, s'), h1 => exact h1
  raise' h s hs := ⟨hs, h⟩
  ord' l s hs := ⟨hs, permBy_perm l _⟩
  mono' := by
    intro α x P Q h1 h2 s hs
    have h1 := h1 s hs
    match hx : (x s).1, h1 with
    | .ok a, h1 => exact ⟨h1.1, h2 a h1.2⟩
    | .error e, h1 => exact h1

theorem CacheCoh.set {s : Mach V} (h : CacheCoh C s) {k : OpKind} {l : Lru (Op V) (SDD V)}
    (hl : ∀ e ∈ l, ∀ n, OpOK C (.any n) e.1 → WF C e.2 ∧ OpSpec C e.1 e.2) (hc : ∀ e ∈ l, OpCoh C Compat e.1) :
    CacheCoh C (s.set k l) := by
  refine ⟨h.1.set hl, fun k' e he => ?_⟩
  unfold Mach.set at he
  simp only at he
  split at he
  · exact hc e he
  · exact h.2 k' e he

theorem cacheCall_coh (hcap : ∀ k, 0 < cap k) {t : Ty} {f : Op V → CM orc V (SDD V)} {op : Op V} (hop : OpOK C t op)
    (h : (cohLogic C orc).Sat (f op) fun r => Dom C t r ∧ OpSpec C op r ∧ OpCoh C Compat op) :
    (cohLogic C orc).Sat (cacheCall cap f op) fun r => Dom C t r ∧ OpSpec C op r ∧ OpCoh C Compat op := by
  intro s hs
  unfold cacheCall
  split
  · rename_i r hr
    refine ⟨hs.set (fun e he => hs.1 _ e (mem_lruTouch.1 he)) fun e he => hs.2 _ e (mem_lruTouch.1 he), ?_⟩
    have := hs.1 _ _ (lruFind_mem hr) _ (hop.to_any le_rfl)
    exact ⟨OpSpec.dom hop this.1 this.2, this.2, hs.2 _ _ (lruFind_mem hr)⟩
  · have h := h s hs
    split
    · rename_i e s' he
      rw [he] at h
      exact h
    · rename_i r s' he
      rw [he] at h
      obtain ⟨c', hc'⟩ := lruInsert_isSome (pick := (orc s'.tick 0).headD 0) (c := s'.cache op.kind) (k := op) (r := r)
        (hcap op.kind)
      rw [hc']
      refine ⟨h.1.set (fun e he n hn => ?_) fun e he => ?_, h.2⟩
      · rcases mem_lruInsert hc' he with he | rfl
        · exact h.1.1 _ e he n hn
        · exact ⟨h.2.1.wf, h.2.2.1⟩
      · rcases mem_lruInsert hc' he with he | rfl
        · exact h.1.2 _ e he
        · exact h.2.2.2

theorem guardX_coh {α : Type} {stop : Nat → Option (Err V)} (hstop : ∀ k e, stop k = some e → TopCoh C e) {x : CM orc V α} {P : α → Prop}
    (h : (cohLogic C orc).Sat x P) : (cohLogic C orc).Sat (guardX stop x) P := by
  intro s hs
  unfold guardX
  split
  · rename_i e he
    exact ⟨hs, hstop _ _ he⟩
  · exact h _ hs

theorem step_coh (hC : C.Lawful) {t : Ty} {n : Nat} {rec : Op V → CM orc V (SDD V)} (ht : t.depth ≤ n + 1)
    (ih : ∀ t : Ty, t.depth ≤ n → RecS C (cohLogic C orc) Compat (fun _ => True) (fun _ => True) t rec) :
    RecS C (cohLogic C orc) Compat (fun _ => True) (fun _ => True) t (step C rec) := by
  intro op hop hself _
  refine step_satS (L := cohLogic C orc) hC Compat.pathRel (Cap.trivial _) ?_ (Or.inr (by rintro l r h; cases h)) ?_ ?_ hop hself
    op.small_true
  · rintro l r - - hl hr - - - _ _ h
    cases h
    exact ⟨hl.self, hr.self⟩
  · intro x t' h a
    have := (Ty.flatNext_depth h).1
    exact ih t' (by omega)
  · intro x tn t' h
    have := (Ty.hierNext_depth h).1
    have heq : (fun _ : Path E => ∃ _ : Path E, True) = fun _ => True := by
      funext n
      exact propext ⟨fun _ => trivial, fun _ => ⟨n, trivial⟩⟩
    rw [heq]
    exact ⟨ih tn (by omega), fun a => ih t' (by omega)⟩

theorem runC_coh (hC : C.Lawful) (hcap : ∀ k, 0 < cap k) (n : Nat) :
    ∀ t : Ty, t.depth ≤ n → RecS C (cohLogic C orc) Compat (fun _ => True) (fun _ => True) t (runC C orc cap n) := by
  induction n with
  | zero =>
    intro t ht op hop
    exact absurd (hop.depth_pos hC) (by omega)
  | succ n ih =>
    intro t ht op hop hself _
    rw [runC]
    exact cacheCall_coh hcap hop (step_coh hC ht ih op hop hself op.small_true)

theorem runX_coh (hC : C.Lawful) (hcap : ∀ k, 0 < cap k) {stop : Nat → Option (Err V)}
    (hstop : ∀ k e, stop k = some e → TopCoh C e) (n : Nat) :
    ∀ t : Ty, t.depth ≤ n → RecS C (cohLogic C orc) Compat (fun _ => True) (fun _ => True) t (runX C orc cap stop n) := by
  induction n with
  | zero =>
    intro t ht op hop
    exact absurd (hop.depth_pos hC) (by omega)
  | succ n ih =>
    intro t ht op hop hself _
    rw [runX]
    exact guardX_coh hstop (cacheCall_coh hcap hop ((cohLogic C orc).bind' (guardX_coh hstop (step_coh hC ht ih op hop hself op.small_true))
      fun r hr => guardX_coh hstop ((cohLogic C orc).pure' hr)))

/-- What is known of the operands when a call returns. (Specification or proof device, not part of the code.) -/
def Call.Coh (C : Cfg V E) : Call V → Prop
  | .sum xs => ∀ x ∈ xs, ∀ y ∈ xs, Verif.Coh C Compat x y
  | .inter xs => InterCoh C Compat xs
  | .diff x y => Verif.Coh C Compat x y
  | _ => True

section generic
variable {run : Nat → Op V → CM orc V (SDD V)}
  (hrun : ∀ n, ∀ t : Ty, t.depth ≤ n → RecS C (cohLogic C orc) Compat (fun _ => True) (fun _ => True) t (run n))
include hrun

theorem sum_coh (hC : C.Lawful) {xs : List (SDD V)} (h : ∀ x ∈ xs, WF C x ∧ Coh C Compat x x) :
    (cohLogic C orc).Sat (opSum C (run (maxHeight xs)) xs) fun r =>
      Coh C Compat r r ∧ ∀ x ∈ xs, ∀ y ∈ xs, Coh C Compat x y := by
  refine (cohLogic C orc).mono' (opSum_satS hC (hrun _ (.any (maxHeight xs)) le_rfl)
    (dom_maxHeight fun x hx => (h x hx).1) (fun x hx => ⟨(h x hx).2, fun _ _ => trivial⟩) fun _ _ => trivial) ?_
  rintro r ⟨-, h2, h3⟩
  refine ⟨fun p q hp hq => ?_, h3⟩
  obtain ⟨x, hx, hp⟩ := (h2 p).1 hp
  obtain ⟨y, hy, hq⟩ := (h2 q).1 hq
  exact h3 x hx y hy p q hp hq

theorem inter_coh (hC : C.Lawful) {xs : List (SDD V)} (h : ∀ x ∈ xs, WF C x ∧ Coh C Compat x x) :
    (cohLogic C orc).Sat (opInter C (run (maxHeight xs)) xs) fun r =>
      Coh C Compat r r ∧ InterCoh C Compat xs := by
  refine (cohLogic C orc).mono' (opInter_satS hC (hrun _ (.any (maxHeight xs)) le_rfl)
    (dom_maxHeight fun x hx => (h x hx).1) (fun x hx => ⟨(h x hx).2, fun _ _ => trivial⟩) fun _ _ => trivial) ?_
  rintro r ⟨-, h2, h3⟩
  refine ⟨fun p q hp hq => ?_, h3⟩
  have hp := (h2 p).1 hp
  have hq := (h2 q).1 hq
  obtain ⟨x, hx⟩ := List.exists_mem_of_ne_nil _ hp.1
  exact (h x hx).2 p q (hp.2 x hx) (hq.2 x hx)

theorem diff_coh {x y : SDD V} (hx : WF C x ∧ Coh C Compat x x) (hy : WF C y ∧ Coh C Compat y y) :
    (cohLogic C orc).Sat (ddDiff (run (maxHeight [x, y])) x y) fun r => Coh C Compat r r ∧ Coh C Compat x y := by
  refine (cohLogic C orc).mono' (ddDiff_satS (hrun _ (.any (maxHeight [x, y])) le_rfl)
    (dom_maxHeight (xs := [x, y]) (by simp [hx.1, hy.1]) x (by simp))
    (dom_maxHeight (xs := [x, y]) (by simp [hx.1, hy.1]) y (by simp))
    ⟨hx.2, fun _ _ => trivial⟩ ⟨hy.2, fun _ _ => trivial⟩) ?_
  rintro r ⟨-, h2, h3⟩
  exact ⟨fun p q hp hq => hx.2 p q ((h2 p).1 hp).1 ((h2 q).1 hq).1, h3⟩

end generic

theorem Call.run_coh (hC : C.Lawful) (hcap : ∀ k, 0 < cap k) {c : Call V}
    (h : ∀ x ∈ c.args, WF C x ∧ Verif.Coh C Compat x x) :
    (cohLogic C orc).Sat (c.run C orc cap) fun r => Verif.Coh C Compat r r ∧ c.Coh C := by
  have hrun := fun n => runC_coh (orc := orc) hC hcap n
  cases c with
  | zero => exact (cohLogic C orc).pure' ⟨fun p q hp => absurd hp (not_mem_zero p), trivial⟩
  | one =>
    refine (cohLogic C orc).pure' ⟨fun p q hp hq => ?_, trivial⟩
    rw [mem_one] at hp hq
    subst hp hq
    trivial
  | flat x v s =>
    refine (cohLogic C orc).pure' ⟨fun p q hp hq => ?_, trivial⟩
    have hm := (mkNode1_flat (m := CM orc V) hC (x := x) (v := v) (h s (by simp [Call.args])).1).2
    obtain ⟨a, p', rfl, -, hp⟩ := (hm p).1 hp
    obtain ⟨b, q', rfl, -, hq⟩ := (hm q).1 hq
    exact ⟨rfl, fun _ => (h s (by simp [Call.args])).2 _ _ hp hq⟩
  | hier x v s =>
    refine (cohLogic C orc).pure' ⟨fun p q hp hq => ?_, trivial⟩
    have hm := (mkNode1_hier (m := CM orc V) (rec := fun _ => pure .zero) (x := x)
      (h v (by simp [Call.args])).1 (h s (by simp [Call.args])).1).2
    obtain ⟨a, p', rfl, ha, hp⟩ := (hm p).1 hp
    obtain ⟨b, q', rfl, hb, hq⟩ := (hm q).1 hq
    exact ⟨rfl, (h v (by simp [Call.args])).2 _ _ ha hb, fun _ => (h s (by simp [Call.args])).2 _ _ hp hq⟩
  | sum xs => exact sum_coh hrun hC h
  | inter xs => exact inter_coh hrun hC h
  | diff x y => exact diff_coh hrun (h x (by simp [Call.args])) (h y (by simp [Call.args]))

theorem Call.runX_coh (hC : C.Lawful) (hcap : ∀ k, 0 < cap k) {c : Call V} {stop : Nat → Option (Err V)}
    (hstop : ∀ k e, stop k = some e → TopCoh C e) (h : ∀ x ∈ c.args, WF C x ∧ Verif.Coh C Compat x x) :
    (cohLogic C orc).Sat (c.runX C orc cap stop) fun r => Verif.Coh C Compat r r ∧ c.Coh C := by
  have hrun := fun n => Verif.runX_coh (orc := orc) hC hcap hstop n
  cases c with
  | zero => exact guardX_coh hstop (Call.run_coh hC hcap h)
  | one => exact guardX_coh hstop (Call.run_coh hC hcap h)
  | flat x v s => exact guardX_coh hstop (Call.run_coh hC hcap h)
  | hier x v s => exact guardX_coh hstop (Call.run_coh hC hcap h)
  | sum xs => exact guardX_coh hstop (sum_coh hrun hC h)
  | inter xs => exact guardX_coh hstop (inter_coh hrun hC h)
  | diff x y => exact guardX_coh hstop (diff_coh hrun (h x (by simp [Call.args])) (h y (by simp [Call.args])))

/-! ## Sessions -/

/-- The handles of a session denote sets of compatible paths. (Specification or proof device, not part of the code.) -/
structure Sess.Coh (C : Cfg V E) (s : Sess V) : Prop where
  cache : ∀ k, ∀ e ∈ s.mach.cache k, OpCoh C Compat e.1
  self : ∀ h ∈ s.handles, Verif.Coh C Compat h h

theorem coh_withLt {lt : SDD V → SDD V → Bool} {x y : SDD V} :
    Coh (C.withLt lt) Compat x y ↔ Coh C Compat x y := by
  simp only [Coh, mem_withLt]

theorem interCoh_withLt {lt : SDD V → SDD V → Bool} {xs : List (SDD V)} :
    InterCoh (C.withLt lt) Compat xs ↔ InterCoh C Compat xs := by
  simp only [InterCoh, PrefixRel, mem_withLt]

theorem OpCoh.withLt {lt : SDD V → SDD V → Bool} {op : Op V} :
    OpCoh (C.withLt lt) Compat op ↔ OpCoh C Compat op := by
  cases op <;> simp only [OpCoh, coh_withLt, interCoh_withLt]

theorem Call.coh_withLt {lt : SDD V → SDD V → Bool} {c : Call V} : c.Coh (C.withLt lt) ↔ c.Coh C := by
  cases c <;> simp only [Call.Coh, Verif.coh_withLt, interCoh_withLt]

theorem Sess.Coh.cacheCoh {s : Sess V} (h : s.Coh C) (hi : s.Inv C) : CacheCoh (C.withLt s.lt) s.mach :=
  ⟨hi.cache, fun k e he => OpCoh.withLt.2 (h.cache k e he)⟩

theorem Sess.Coh.args {s : Sess V} (h : s.Coh C) (hi : s.Inv C) {c : Call V} (hc : ∀ x ∈ c.args, x ∈ s.handles) :
    ∀ x ∈ c.args, WF (C.withLt s.lt) x ∧ Verif.Coh (C.withLt s.lt) Compat x x :=
  fun x hx => ⟨hi.wf x (hc x hx), Verif.coh_withLt.2 (h.self x (hc x hx))⟩

theorem Sess.Coh.after {s : Sess V} (h : s.Coh C) (hi : s.Inv C) {P : Prop} {x : CM orc V (SDD V)}
    (hx : (cohLogic (C.withLt s.lt) orc).Sat x fun r => Verif.Coh (C.withLt s.lt) Compat r r ∧ P) :
    Sess.Coh C { s with mach := (x s.mach).2, handles := addHandle (x s.mach).1 s.handles } := by
  have hx := hx s.mach (h.cacheCoh hi)
  refine ⟨fun k e he => OpCoh.withLt.1 (hx.1.2 k e he), fun y hy => ?_⟩
  have h2 := hx.2
  rcases mem_addHandle hy with hy | hr | ⟨a, b, hr, hy⟩
  · exact h.self y hy
  · rw [hr] at h2
    exact Verif.coh_withLt.1 h2.1
  · rw [hr] at h2
    rcases hy with rfl | rfl
    · exact Verif.coh_withLt.1 (h2 _ _ rfl).1
    · exact Verif.coh_withLt.1 (h2 _ _ rfl).2

theorem Sess.Step.coh (hC : C.Lawful) (hcap : ∀ k, 0 < cap k) {s s' : Sess V} (h : Sess.Step C orc cap s s') (hi : s.Inv C)
    (ih : s.Coh C) : s'.Coh C := by
  cases h with
  | call c hc =>
    exact ih.after hi (Call.run_coh (orc := orc) (hC.withLt hi.st) hcap (ih.args hi hc))
  | thrown c stop hc hst =>
    refine ih.after hi (Call.runX_coh (orc := orc) (stop := stop) (hC.withLt hi.st) hcap ?_ (ih.args hi hc))
    rintro k e hk l r rfl
    exact ⟨Verif.coh_withLt.2 (ih.self l (hst k l r hk).1), Verif.coh_withLt.2 (ih.self r (hst k l r hk).2)⟩
  | drop hs' h => exact ⟨ih.cache, fun x hx => ih.self x (h x hx)⟩
  | clear => exact ⟨fun k e he => by simp at he, ih.self⟩
  | realloc lt hlt h => exact ⟨ih.cache, ih.self⟩

theorem Sess.Reach.coh (hC : C.Lawful) (hcap : ∀ k, 0 < cap k) {s : Sess V} (h : Sess.Reach C orc cap s) :
    s.Coh C := by
  induction h with
  | init lt hlt => exact ⟨fun k e he => by simp at he, by simp⟩
  | step s s' hs h ih => exact h.coh hC hcap (hs.inv hC hcap) ih

/-- A call on handles which returns had compatible operands. -/
theorem Sess.Coh.returns (hC : C.Lawful) (hcap : ∀ k, 0 < cap k) {s : Sess V} (ih : s.Coh C) (hi : s.Inv C)
    {c : Call V} (hc : ∀ x ∈ c.args, x ∈ s.handles) {r : SDD V}
    (hr : (c.run (C.withLt s.lt) orc cap s.mach).1 = .ok r) : c.Coh C := by
  have := (Call.run_coh (orc := orc) (hC.withLt hi.st) hcap (ih.args hi hc) s.mach (ih.cacheCoh hi)).2
  rw [hr] at this
  exact Call.coh_withLt.1 this.2

/-- A call on handles with compatible operands does not raise `Top`. -/
theorem Sess.Inv.no_top (hC : C.Lawful) (hcap : ∀ k, 0 < cap k) {s : Sess V} (hi : s.Inv C)
    {c : Call V} (hc : ∀ x ∈ c.args, x ∈ s.handles) (hco : ∀ x ∈ c.args, ∀ y ∈ c.args, Verif.Coh C Compat x y)
    (l r : SDD V) : (c.run (C.withLt s.lt) orc cap s.mach).1 ≠ .error (.top l r) := by
  intro e
  have := (Call.run_compat (orc := orc) (hC.withLt hi.st) hcap (fun x hx => hi.wf x (hc x hx))
    (fun x hx y hy => Verif.coh_withLt.2 (hco x hx y hy)) s.mach hi.cache).2
  rw [e] at this
  exact this

theorem Sess.Reach.coh_no_top (hC : C.Lawful) (hcap : ∀ k, 0 < cap k) {s : Sess V} (h : Sess.Reach C orc cap s)
    {c : Call V} (hc : ∀ x ∈ c.args, x ∈ s.handles) (hco : ∀ x ∈ c.args, ∀ y ∈ c.args, Verif.Coh C Compat x y)
    (l r : SDD V) : (c.run (C.withLt s.lt) orc cap s.mach).1 ≠ .error (.top l r) :=
  (h.inv hC hcap).no_top hC hcap hc hco l r

end
end Verif
