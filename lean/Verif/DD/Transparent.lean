import Verif.DD.Natural
/-!
# Transparency of the caches

The run with caches and the run without cache give the same outcome, exceptions included, when hash
tables are iterated in the same order in both runs.
-/

set_option autoImplicit false
set_option linter.unusedSectionVars false

namespace Verif

section
variable {V E : Type}

/-- Runs without cache with increasing bounds agree. (Specification or proof device, not part of the code.) -/
def fuelRel (c : Nat → List Nat) (V : Type) : MRel V (Plain c V) (Plain c V) where
  R {α} x y := (x : Except (Err V) α) = .error .fuel ∨ x = y
  pure' _ := Or.inr rfl
  bind' := by
    intro α β x y f g h1 h2
    rcases h1 with h1 | rfl
    · left
      change (match (x : Except (Err V) α) with
        | .ok a => f a
        | .error e => (.error e : Except _ _)) = _
      rw [h1]
    · cases x with
      | ok a => exact h2 a
      | error e => exact Or.inr rfl
  raise' _ := Or.inr rfl
  ord' _ := Or.inr rfl

/-- Families of runs without cache, indexed by the recursion bound. (Specification or proof device, not part of the code.) -/
def Fam (_c : Nat → List Nat) (V : Type) (α : Type) : Type := Nat → Except (Err V) α

instance (c : Nat → List Nat) (V : Type) : DDMonad V (Fam c V) where
  pure a := fun _ => (.ok a : Except _ _)
  bind x f := fun n => match x n with
    | .ok a => f a n
    | .error e => .error e
  raise e := fun _ => .error e
  ord l := fun _ => .ok (permBy (c l.length) l)

/-- One member of a family. (Specification or proof device, not part of the code.) -/
def famRel (c : Nat → List Nat) (V : Type) (n : Nat) : MRel V (Fam c V) (Plain c V) where
  R x y := x n = y
  pure' _ := rfl
  bind' := by
    intro α β x y f g h1 h2
    have e1 : (x >>= f) n = match x n with
      | .ok a => f a n
      | .error e => .error e := rfl
    rw [e1, h1]
    cases y with
    | ok a => exact h2 a
    | error e => rfl
  raise' _ := rfl
  ord' _ := rfl

variable [DecidableEq V] {C : Cfg V E} {c : Nat → List Nat}

theorem runP_mono (n : Nat) : ∀ op, (fuelRel c V).R (runP C c n op) (runP C c (n + 1) op) := by
  induction n with
  | zero => intro op; exact Or.inl rfl
  | succ n ih => intro op; exact step_rel ih op

/-- The entries of the caches are results of runs without cache. (Specification or proof device, not part of the code.) -/
def Valid (C : Cfg V E) (c : Nat → List Nat) (s : Mach V) : Prop :=
  ∀ k, ∀ e ∈ s.cache k, ∃ n, runP C c n e.1 = (.ok e.2 : Except (Err V) (SDD V))

/-- A family is monotone. (Specification or proof device, not part of the code.) -/
def FamMono {α : Type} (y : Fam c V α) : Prop := ∀ n, y n = .error .fuel ∨ y n = y (n + 1)

theorem FamMono.le {α : Type} {y : Fam c V α} (h : FamMono y) {n k : Nat} (hk : n ≤ k) :
    y n = .error .fuel ∨ y k = y n := by
  induction hk with
  | refl => exact Or.inr rfl
  | @step k hk ih =>
    rcases ih with ih | ih
    · exact Or.inl ih
    · rcases h k with h1 | h1
      · left; rw [← ih, h1]
      · right; rw [← h1, ih]

/-- Comparison of a run with caches with the runs without cache. (Specification or proof device, not part of the code.) -/
def cacheRel (C : Cfg V E) (c : Nat → List Nat) : MRel V (CM (fun _ => c) V) (Fam c V) where
  R x y := FamMono y ∧ ∀ s, Valid C c s → Valid C c (x s).2 ∧
    ((x s).1 = .error .fuel ∨ ∃ n, y n = (x s).1)
  pure' a := ⟨fun _ => Or.inr rfl, fun s hs => ⟨hs, Or.inr ⟨0, rfl⟩⟩⟩
  bind' := by
    intro α β x y f g h1 h2
    have hmono : FamMono (y >>= g) := by
      intro n
      have e : ∀ n, (y >>= g) n = match y n with
        | .ok a => g a n
        | .error e => .error e := fun _ => rfl
      rw [e, e]
      rcases h1.1 n with h | h
      · rw [h]; exact Or.inl rfl
      · rw [← h]
        cases y n with
        | ok a => exact (h2 a).1 n
        | error e => exact Or.inr rfl
    refine ⟨hmono, fun s hs => ?_⟩
    have h1' := h1.2 s hs
    have e : (x >>= f) s = match x s with
      | (.ok a, s') => f a s'
      | (.error e, s') => (.error e, s') := rfl
    have e' : ∀ n, (y >>= g) n = match y n with
        | .ok a => g a n
        | .error e => .error e := fun _ => rfl
    rw [e]
    match hx : x s, h1' with
    | (.error er, s'), h1' =>
      refine ⟨h1'.1, ?_⟩
      change Except.error er = _ ∨ ∃ n, _ = Except.error er
      rcases h1'.2 with h | ⟨n, h⟩
      · left
        injection h with h
        rw [h]
      · right
        refine ⟨n, ?_⟩
        rw [e', h]
    | (.ok a, s'), h1' =>
      have h2' := (h2 a).2 s' h1'.1
      refine ⟨h2'.1, ?_⟩
      rcases h1'.2 with h | ⟨n, h⟩
      · exact absurd h (by simp)
      · rcases h2'.2 with h3 | ⟨k, h3⟩
        · exact Or.inl h3
        · have e1 : y (max n k) = .ok a := by
            rcases h1.1.le (le_max_left n k) with h4 | h4
            · rw [h] at h4; exact absurd h4 (by simp)
            · rw [h4, h]
          rcases (h2 a).1.le (le_max_right n k) with h4 | h4
          · left; rw [← h3, h4]
          · right
            refine ⟨max n k, ?_⟩
            rw [e', e1]
            change g a _ = _
            rw [h4, h3]
  raise' e := ⟨fun _ => Or.inr rfl, fun s hs => ⟨hs, Or.inr ⟨0, rfl⟩⟩⟩
  ord' l := ⟨fun _ => Or.inr rfl, fun s hs => ⟨hs, Or.inr ⟨0, rfl⟩⟩⟩

theorem runC_rel {cap : OpKind → Nat} (hcap : ∀ k, 0 < cap k) (n : Nat) :
    ∀ op, (cacheRel C c).R (runC C (fun _ => c) cap n op) (fun k => runP C c k op) := by
  have hmono : ∀ op, FamMono (c := c) (fun k => runP C c k op) := fun op n => runP_mono n op
  induction n with
  | zero => intro op; exact ⟨hmono op, fun s hs => ⟨hs, Or.inl rfl⟩⟩
  | succ n ih =>
    intro op
    refine ⟨hmono op, fun s hs => ?_⟩
    have hst : ∀ k, step C (m := Fam c V) (fun op k => runP C c k op) op k = runP C c (k + 1) op :=
      fun k => step_rel (M := famRel c V k) (rec := fun op k => runP C c k op) (rec' := runP C c k)
        (fun _ => rfl) op
    have hs' := (step_rel (C := C) (M := cacheRel C c) ih op).2 s hs
    rw [runC]
    unfold cacheCall
    split
    · rename_i r hr
      refine ⟨?_, Or.inr (hs _ _ (lruFind_mem hr))⟩
      intro k e he
      unfold Mach.set at he
      simp only at he
      split at he
      · exact hs _ e (mem_lruTouch.1 he)
      · exact hs k e he
    · split
      · rename_i e s' he
        rw [he] at hs'
        refine ⟨hs'.1, hs'.2.imp id ?_⟩
        rintro ⟨k, hk⟩
        exact ⟨k + 1, (hst k).symm.trans hk⟩
      · rename_i r s' he
        rw [he] at hs'
        obtain ⟨c', hc'⟩ := lruInsert_isSome (pick := (c 0).headD 0) (c := s'.cache op.kind) (k := op) (r := r)
          (hcap op.kind)
        rw [hc']
        have hr : ∃ k, runP C c k op = (.ok r : Except (Err V) (SDD V)) := by
          rcases hs'.2 with h | ⟨k, hk⟩
          · exact absurd h (by simp)
          · exact ⟨k + 1, (hst k).symm.trans hk⟩
        refine ⟨?_, Or.inr hr⟩
        intro k e hek
        unfold Mach.set at hek
        simp only at hek
        split at hek
        · rcases mem_lruInsert hc' hek with hek | rfl
          · exact hs'.1 _ e hek
          · exact hr
        · exact hs'.1 k e hek

/-- A call without cache. (Specification, not part of the code.) -/
def Call.runPlain (C : Cfg V E) (c : Nat → List Nat) : Call V → Plain c V (SDD V)
  | .zero => pure .zero
  | .one => pure .one
  | .flat x v s => pure (mkNode1 (m := Plain c V) (flatKind C) x v s)
  | .hier x v s => pure (mkNode1 (m := Plain c V) (hierKind C fun _ => pure .zero) x v s)
  | .sum xs => sumP C c xs
  | .inter xs => interP C c xs
  | .diff x y => diffP C c x y

theorem agree_aux {N : Nat} {x : CM (fun _ => c) V (SDD V)} {y : Fam c V (SDD V)} {s : Mach V}
    (hs : Valid C c s) (hxy : (cacheRel C c).R x y) (hx : (x s).1 ≠ .error .fuel)
    (hy : y N ≠ .error .fuel) : (x s).1 = y N := by
  rcases (hxy.2 s hs).2 with h | ⟨k, h⟩
  · exact absurd h hx
  · rcases hxy.1.le (le_max_left N k) with h1 | h1
    · exact absurd h1 hy
    · rcases hxy.1.le (le_max_right N k) with h2 | h2
      · exact absurd (h ▸ h2) hx
      · rw [← h, ← h2, h1]

theorem Call.run_agree (hC : C.Lawful) {cap : OpKind → Nat} (hcap : ∀ k, 0 < cap k) {call : Call V}
    (hargs : ∀ x ∈ call.args, WF C x) {s : Mach V} (hok : CacheOK C s) (hv : Valid C c s) :
    (call.run C (fun _ => c) cap s).1 = call.runPlain C c ∧
      CacheOK C (call.run C (fun _ => c) cap s).2 ∧ Valid C c (call.run C (fun _ => c) cap s).2 := by
  let allow : Err V → Prop := fun e => e ≠ .fuel
  have htop : TopA C allow := .all fun _ _ => by simp [allow]
  have hov : C.limit = none ∨ allow .overflow := Or.inr (by simp [allow])
  have hsat := Call.run_sat (orc := fun _ => c) (allow := allow) hC hcap hov htop hargs s hok
  have hnf : (call.run C (fun _ => c) cap s).1 ≠ .error .fuel := by
    intro h
    have := hsat.2
    rw [h] at this
    exact this rfl
  have hrun : RunOK C (plainLogic c V allow) (runP C c) := fun n t h1 h2 => runP_ok hC hov n t h1 h2
  have ne_of_sat : ∀ {x : Plain c V (SDD V)} {P : SDD V → Prop}, (plainLogic c V allow).Sat x P →
      (x : Except (Err V) (SDD V)) ≠ .error .fuel := by
    intro x P h h'
    subst h'
    exact h rfl
  cases call with
  | zero => exact ⟨rfl, hok, hv⟩
  | one => exact ⟨rfl, hok, hv⟩
  | flat x v s => exact ⟨rfl, hok, hv⟩
  | hier x v s => exact ⟨rfl, hok, hv⟩
  | sum xs =>
    have hrel := ddSum_rel (M := cacheRel C c) (runC_rel (C := C) (c := c) hcap (maxHeight xs))
      (xs.foldl (sumAdd SDD.isZero C.lt) [])
    have hy : ∀ n, ddSum (m := Fam c V) (fun op k => runP C c k op)
        (xs.foldl (sumAdd SDD.isZero C.lt) []) n = opSum C (runP C c n) xs := fun n =>
      ddSum_rel (M := famRel c V n) (rec := fun op k => runP C c k op) (rec' := runP C c n)
        (fun _ => rfl) _
    refine ⟨?_, hsat.1, (hrel.2 s hv).1⟩
    have hne := ne_of_sat (sum_wf hC hrun htop hargs)
    have := agree_aux (N := maxHeight xs) hv hrel hnf (by rw [hy]; exact hne)
    rw [hy] at this
    exact this
  | inter xs =>
    have hrel := ddInter_rel (M := cacheRel C c) (runC_rel (C := C) (c := c) hcap (maxHeight xs))
      (xs.foldl (interAdd SDD.isZero C.lt) {})
    have hy : ∀ n, ddInter (m := Fam c V) (fun op k => runP C c k op)
        (xs.foldl (interAdd SDD.isZero C.lt) {}) n = opInter C (runP C c n) xs := fun n =>
      ddInter_rel (M := famRel c V n) (rec := fun op k => runP C c k op) (rec' := runP C c n)
        (fun _ => rfl) _
    refine ⟨?_, hsat.1, (hrel.2 s hv).1⟩
    have hne := ne_of_sat (inter_wf hC hrun htop hargs)
    have := agree_aux (N := maxHeight xs) hv hrel hnf (by rw [hy]; exact hne)
    rw [hy] at this
    exact this
  | diff x y =>
    have hrel := ddDiff_rel (M := cacheRel C c) (runC_rel (C := C) (c := c) hcap (maxHeight [x, y]))
      x y
    have hy : ∀ n, ddDiff (m := Fam c V) (fun op k => runP C c k op) x y n =
        ddDiff (runP C c n) x y := fun n =>
      ddDiff_rel (M := famRel c V n) (rec := fun op k => runP C c k op) (rec' := runP C c n)
        (fun _ => rfl) _ _
    refine ⟨?_, hsat.1, (hrel.2 s hv).1⟩
    have hne := ne_of_sat (diff_wf hrun htop (hargs x (by simp [Call.args]))
      (hargs y (by simp [Call.args])))
    have := agree_aux (N := maxHeight [x, y]) hv hrel hnf (by rw [hy]; exact hne)
    rw [hy] at this
    exact this

/-- What happened to a manager: calls (which may have raised) and clears of the caches.
(Model of the environment: what the user or the system does.) -/
inductive Event (V : Type) : Type where
  | call (c : Call V)
  | clear

/-- The state after an event. (Model of the environment: what the user or the system does.) -/
def Event.next (C : Cfg V E) (orc : Nat → Nat → List Nat) (cap : OpKind → Nat) (s : Mach V) :
    Event V → Mach V
  | .call c => (c.run C orc cap s).2
  | .clear => ⟨fun _ => [], s.tick⟩

/-- The state after a history, from a new manager. (Model of the environment: what the user or the system does.) -/
def history (C : Cfg V E) (orc : Nat → Nat → List Nat) (cap : OpKind → Nat) (es : List (Event V)) :
    Mach V := es.foldl (Event.next C orc cap) ⟨fun _ => [], 0⟩

/-- The operands of all the calls of a history are in canonical form. (Specification or proof device, not part of the code.) -/
def HistWF (C : Cfg V E) (es : List (Event V)) : Prop :=
  ∀ e ∈ es, match e with
    | .call c => ∀ x ∈ c.args, WF C x
    | .clear => True

theorem history_valid (hC : C.Lawful) {cap : OpKind → Nat} (hcap : ∀ k, 0 < cap k)
    {es : List (Event V)} (h : HistWF C es) :
    CacheOK C (history C (fun _ => c) cap es) ∧ Valid C c (history C (fun _ => c) cap es) := by
  unfold history
  have : ∀ s : Mach V, CacheOK C s → Valid C c s →
      CacheOK C (es.foldl (Event.next C (fun _ => c) cap) s) ∧
        Valid C c (es.foldl (Event.next C (fun _ => c) cap) s) := by
    induction es with
    | nil => intro s h1 h2; exact ⟨h1, h2⟩
    | cons e es ih =>
      intro s h1 h2
      rw [List.foldl_cons]
      have he := h e (by simp)
      have key : CacheOK C (e.next C (fun _ => c) cap s) ∧ Valid C c (e.next C (fun _ => c) cap s) := by
        cases e with
        | call call => exact (Call.run_agree hC hcap he h1 h2).2
        | clear => exact ⟨fun k e he => by simp [Event.next] at he, fun k e he => by
            simp [Event.next] at he⟩
      exact ih (fun e he => h e (by simp [he])) _ key.1 key.2
  exact this _ (fun k e he => by simp at he) fun k e he => by simp at he

theorem history_ok (hC : C.Lawful) {orc : Nat → Nat → List Nat} {cap : OpKind → Nat}
    (hcap : ∀ k, 0 < cap k) {es : List (Event V)} (h : HistWF C es) :
    CacheOK C (history C orc cap es) := by
  unfold history
  have : ∀ s : Mach V, CacheOK C s → CacheOK C (es.foldl (Event.next C orc cap) s) := by
    induction es with
    | nil => intro s h1; exact h1
    | cons e es ih =>
      intro s h1
      rw [List.foldl_cons]
      have he := h e (by simp)
      have key : CacheOK C (e.next C orc cap s) := by
        cases e with
        | call call => exact (Call.run_sat (allow := fun _ => True) hC hcap (Or.inr trivial)
            (.all fun _ _ => trivial) he s h1).1
        | clear => exact fun k e he => by simp [Event.next] at he
      exact ih (fun e he => h e (by simp [he])) _ key
  exact this _ fun k e he => by simp at he

end
end Verif
