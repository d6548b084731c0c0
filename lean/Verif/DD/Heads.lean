import Verif.DD.Natural
/-!
# Operands with different heads

No operation on two operands with different heads is ever stored in a cache, hence such an operation
raises `Top` whatever the contents of the caches.
-/

set_option autoImplicit false
set_option linter.unusedSectionVars false

namespace Verif

section
variable {V E : Type} [DecidableEq V] {C : Cfg V E} {orc : Nat → Nat → List Nat} {cap : OpKind → Nat}

/-- The operands of a binary operation have the same head. (Specification or proof device, not part of the code.) -/
def Op.headOK : Op V → Prop
  | .inter [l, r] => compatible l r = true
  | .diff l r => compatible l r = true
  | _ => True

/-- All the entries of the caches have operands with the same head. (Specification or proof device, not part of the code.) -/
def HeadsOK (s : Mach V) : Prop := ∀ k, ∀ e ∈ s.cache k, e.1.headOK

/-- Computations keeping `HeadsOK`. (Specification or proof device, not part of the code.) -/
def headRel (V : Type) (orc : Nat → Nat → List Nat) : MRel V (CM orc V) (CM orc V) where
  R x _ := ∀ s, HeadsOK s → HeadsOK (x s).2
  pure' _ _ h := h
  bind' := by
    intro α β x y f g h1 h2 s hs
    have e : (x >>= f) s = match x s with
      | (.ok a, s') => f a s'
      | (.error e, s') => (.error e, s') := rfl
    rw [e]
    have h1 := h1 s hs
    match hx : x s, h1 with
    | (.ok a, s'), h1 => exact h2 a s' h1
    | (.error _, s'), h1 => exact h1
  raise' _ _ h := h
  ord' _ _ h := h

theorem compatible_comm (l r : SDD V) : compatible l r = compatible r l := by
  cases l <;> cases r <;> simp [compatible] <;> exact eq_comm

theorem interStep2 {rec : Op V → CM orc V (SDD V)} {l r : SDD V} (h : compatible l r = false)
    (s : Mach V) : interStep C rec [l, r] s = (.error (.top l r), s) := by
  cases l <;> simp only [interStep, interWork, h] <;> rfl

theorem perm_pair {β : Type} {l : List β} {a b : β} (h : l.Perm [a, b]) : l = [a, b] ∨ l = [b, a] := by
  match l, h with
  | [], h => exact absurd h.length_eq (by simp)
  | [x], h => exact absurd h.length_eq (by simp)
  | x :: y :: z :: l, h => exact absurd h.length_eq (by simp)
  | [x, y], h =>
    have hx := h.mem_iff (a := x)
    simp only [List.mem_cons, List.not_mem_nil, or_false, true_or, true_iff] at hx
    rcases hx with rfl | rfl
    · have := List.perm_singleton.1 h.cons_inv
      simp only [List.cons.injEq, and_true] at this
      exact Or.inl (by rw [this])
    · have := List.perm_singleton.1 (h.trans (List.Perm.swap _ _ _)).cons_inv
      simp only [List.cons.injEq, and_true] at this
      exact Or.inr (by rw [this])

theorem step_inter2 {rec : Op V → CM orc V (SDD V)} {l r : SDD V} (h : compatible l r = false)
    (s : Mach V) : ∃ a b, step C rec (.inter [l, r]) s = (.error (.top a b), { s with tick := s.tick + 1 }) := by
  have e : step C rec (.inter [l, r]) s =
      interStep C rec (permBy (orc s.tick 2) [l, r]) { s with tick := s.tick + 1 } := rfl
  rw [e]
  rcases perm_pair (permBy_perm [l, r] (orc s.tick 2)) with e | e
  · rw [e]; exact ⟨l, r, interStep2 h _⟩
  · rw [e]; exact ⟨r, l, interStep2 (by rw [compatible_comm]; exact h) _⟩

theorem step_diff {rec : Op V → CM orc V (SDD V)} {l r : SDD V} (h : compatible l r = false)
    (s : Mach V) : step C rec (.diff l r) s = (.error (.top l r), s) := by
  cases l <;> cases r <;> simp only [compatible, beq_eq_false_iff_ne, reduceCtorEq] at h <;>
    first
      | rfl
      | (simp only [step, diffStep, diffWork, if_neg h]; rfl)

theorem step_headOK {rec : Op V → CM orc V (SDD V)} {op : Op V} {s s' : Mach V} {r : SDD V}
    (h : step C rec op s = (.ok r, s')) : op.headOK := by
  by_contra hn
  match op, hn, h with
  | .sum xs, hn, _ => exact hn trivial
  | .inter [], hn, _ => exact hn trivial
  | .inter [x], hn, _ => exact hn trivial
  | .inter (x :: y :: z :: l), hn, _ => exact hn trivial
  | .inter [x, y], hn, h =>
    obtain ⟨a, b, e⟩ := step_inter2 (C := C) (rec := rec) (l := x) (r := y) (by simpa [Op.headOK] using hn) s
    rw [e] at h
    simp at h
  | .diff x y, hn, h =>
    rw [step_diff (by simpa [Op.headOK] using hn)] at h
    simp at h

theorem runC_heads (n : Nat) : ∀ op, (headRel V orc).R (runC C orc cap n op) (runC C orc cap n op) := by
  induction n with
  | zero => intro op s hs; exact hs
  | succ n ih =>
    intro op s hs
    rw [runC]
    unfold cacheCall
    split
    · intro k e he
      unfold Mach.set at he
      simp only at he
      split at he
      · exact hs _ e (mem_lruTouch.1 he)
      · exact hs k e he
    · have h := step_rel (C := C) (M := headRel V orc) ih op s hs
      split
      · rename_i he; rw [he] at h; exact h
      · rename_i r s' he
        have h3 := step_headOK he
        rw [he] at h
        split
        · exact h
        · rename_i c' hc'
          intro k e hek
          unfold Mach.set at hek
          simp only at hek
          split at hek
          · rcases mem_lruInsert hc' hek with hek | rfl
            · exact h _ e hek
            · exact h3
          · exact h k e hek

theorem CM.bind_run {α β : Type} (x : CM orc V α) (f : α → CM orc V β) (s : Mach V) :
    (x >>= f) s = match x s with
      | (.ok a, s') => f a s'
      | (.error e, s') => (.error e, s') := rfl

theorem guardX_heads {α : Type} {stop : Nat → Option (Err V)} {x : CM orc V α} (h : (headRel V orc).R x x) :
    (headRel V orc).R (guardX stop x) (guardX stop x) := by
  intro s hs
  unfold guardX
  split
  · exact hs
  · exact h _ hs

theorem runX_heads {stop : Nat → Option (Err V)} (n : Nat) :
    ∀ op, (headRel V orc).R (runX C orc cap stop n op) (runX C orc cap stop n op) := by
  induction n with
  | zero => intro op s hs; exact hs
  | succ n ih =>
    intro op
    rw [runX]
    refine guardX_heads fun s hs => ?_
    unfold cacheCall
    split
    · intro k e he
      unfold Mach.set at he
      simp only at he
      split at he
      · exact hs _ e (mem_lruTouch.1 he)
      · exact hs k e he
    · have h : (headRel V orc).R (guardX stop (step C (runX C orc cap stop n) op) >>= fun r => guardX stop (pure r))
          (guardX stop (step C (runX C orc cap stop n) op) >>= fun r => guardX stop (pure r)) :=
        (headRel V orc).bind' (guardX_heads (step_rel (C := C) (M := headRel V orc) ih op))
          fun r => guardX_heads ((headRel V orc).pure' r)
      have h := h s hs
      split
      · rename_i he; beta_reduce at he; rw [he] at h; exact h
      · rename_i r s' he
        beta_reduce at he
        have h3 : op.headOK := by
          by_contra hn
          rw [CM.bind_run] at he
          split at he
          · rename_i a s1 h1
            unfold guardX at h1
            split at h1
            · simp at h1
            · exact hn (step_headOK h1)
          · simp at he
        rw [he] at h
        split
        · exact h
        · rename_i c' hc'
          intro k e hek
          unfold Mach.set at hek
          simp only at hek
          split at hek
          · rcases mem_lruInsert hc' hek with hek | rfl
            · exact h _ e hek
            · exact h3
          · exact h k e hek

theorem Call.run_heads (c : Call V) {s : Mach V} (hs : HeadsOK s) : HeadsOK (c.run C orc cap s).2 := by
  cases c with
  | zero => exact hs
  | one => exact hs
  | flat => exact hs
  | hier => exact hs
  | sum xs => exact ddSum_rel (M := headRel V orc) (runC_heads (C := C) (cap := cap) _) _ s hs
  | inter xs => exact ddInter_rel (M := headRel V orc) (runC_heads (C := C) (cap := cap) _) _ s hs
  | diff x y => exact ddDiff_rel (M := headRel V orc) (runC_heads (C := C) (cap := cap) _) _ _ s hs

theorem Call.runX_heads (c : Call V) {stop : Nat → Option (Err V)} {s : Mach V} (hs : HeadsOK s) :
    HeadsOK (c.runX C orc cap stop s).2 := by
  cases c with
  | zero => exact guardX_heads (orc := orc) (fun _ hs => Call.run_heads _ hs) s hs
  | one => exact guardX_heads (orc := orc) (fun _ hs => Call.run_heads _ hs) s hs
  | flat => exact guardX_heads (orc := orc) (fun _ hs => Call.run_heads _ hs) s hs
  | hier => exact guardX_heads (orc := orc) (fun _ hs => Call.run_heads _ hs) s hs
  | sum xs => exact guardX_heads (ddSum_rel (M := headRel V orc) (Verif.runX_heads (C := C) (cap := cap) _) _) s hs
  | inter xs => exact guardX_heads (ddInter_rel (M := headRel V orc) (Verif.runX_heads (C := C) (cap := cap) _) _) s hs
  | diff x y => exact guardX_heads (ddDiff_rel (M := headRel V orc) (Verif.runX_heads (C := C) (cap := cap) _) _ _) s hs

theorem Sess.Reach.heads {s : Sess V} (h : Sess.Reach C orc cap s) : HeadsOK s.mach := by
  induction h with
  | init lt hlt => intro k e he; simp at he
  | step s s' _ h2 ih =>
    cases h2 with
    | call c hc => exact c.run_heads ih
    | thrown c stop hc _ => exact c.runX_heads ih
    | drop _ _ => exact ih
    | clear => intro k e he; simp at he
    | realloc _ _ _ => exact ih

/-- The call of an operation whose operands have different heads. -/
theorem cacheCall_heads {op : Op V} (hop : ¬ op.headOK) {s : Mach V} (hs : HeadsOK s)
    {f : Op V → CM orc V (SDD V)} {e : Err V} {s' : Mach V} (hf : f op s = (.error e, s')) :
    cacheCall cap f op s = (.error e, s') := by
  unfold cacheCall
  split
  · rename_i r hr
    exact absurd (hs _ _ (lruFind_mem hr)) hop
  · rw [hf]

theorem SDD.height_pos_of {l r : SDD V} (h : compatible l r = false) (hl : l ≠ .zero) (hr : r ≠ .zero) :
    0 < maxHeight [l, r] := by
  have h1 := le_maxHeight (xs := [l, r]) l (by simp)
  have h2 := le_maxHeight (xs := [l, r]) r (by simp)
  cases l <;> cases r <;> simp [compatible, SDD.height] at * <;> omega

theorem interC_heads (hlt : StrictTotal C.lt) {l r : SDD V} (h : compatible l r = false)
    (hl : l ≠ .zero) (hr : r ≠ .zero) {s : Mach V} (hs : HeadsOK s) :
    ∃ a b, interC C orc cap [l, r] s = (.error (.top a b), { s with tick := s.tick + 1 }) := by
  have hne : l ≠ r := by
    rintro rfl
    cases l <;> simp [compatible] at h
  have hz : ∀ x : SDD V, x ≠ .zero → SDD.isZero x = false := by
    intro x hx
    cases x <;> simp [SDD.isZero] at *
  obtain ⟨n, hn⟩ : ∃ n, maxHeight [l, r] = n + 1 :=
    ⟨maxHeight [l, r] - 1, by have := SDD.height_pos_of h hl hr; omega⟩
  unfold interC opInter
  rw [hn]
  have key : ∀ a b, compatible a b = false →
      ∃ a' b', (ddInter (runC C orc cap (n + 1)) { set := [a, b] } : CM orc V _) s
        = (.error (.top a' b'), { s with tick := s.tick + 1 }) := by
    intro a b hab
    obtain ⟨a', b', e⟩ := step_inter2 (C := C) (rec := runC C orc cap n) hab s
    refine ⟨a', b', ?_⟩
    change cacheCall cap (step C (runC C orc cap n)) (.inter [a, b]) s = _
    exact cacheCall_heads (by simp [Op.headOK, hab]) hs e
  rcases hlt.total l r with hlr | hlr | hlr
  · have h0 : C.lt r l = false := by
      cases h0 : C.lt r l
      · rfl
      · have := hlt.trans _ _ _ hlr h0
        rw [hlt.irrefl] at this; exact absurd this (by simp)
    simp only [List.foldl_cons, List.foldl_nil, interAdd, hz l hl, hz r hr, Bool.false_eq_true,
      if_false, insertBy, h0, hlr, if_true]
    exact key l r h
  · exact absurd hlr hne
  · simp only [List.foldl_cons, List.foldl_nil, interAdd, hz l hl, hz r hr, Bool.false_eq_true,
      if_false, insertBy, hlr, if_true]
    exact key r l (by rw [compatible_comm]; exact h)

theorem diffC_heads {l r : SDD V} (h : compatible l r = false)
    (hl : l ≠ .zero) (hr : r ≠ .zero) {s : Mach V} (hs : HeadsOK s) :
    diffC C orc cap l r s = (.error (.top l r), s) := by
  have hne : l ≠ r := by
    rintro rfl
    cases l <;> simp [compatible] at h
  obtain ⟨n, hn⟩ : ∃ n, maxHeight [l, r] = n + 1 :=
    ⟨maxHeight [l, r] - 1, by have := SDD.height_pos_of h hl hr; omega⟩
  unfold diffC ddDiff
  rw [hn, if_neg (by simp [hne, hl]), if_neg hr]
  change cacheCall cap (step C (runC C orc cap n)) (.diff l r) s = _
  exact cacheCall_heads (by simp [Op.headOK, h]) hs (step_diff h s)

end
end Verif
