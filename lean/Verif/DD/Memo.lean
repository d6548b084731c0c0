import Verif.DD.Natural
import Mathlib.Data.List.Dedup
/-!
# Which operations are evaluated

The evaluation with caches, together with the list of the operations which have been evaluated (not found in a cache).
-/

set_option autoImplicit false
set_option linter.unusedSectionVars false

namespace Verif

/-- The state of the machine and the operations evaluated so far, latest first. (The state of `/repo/sdd/dd/context.hh`, with a ghost list.) -/
structure LS (V : Type) where
  m : Mach V
  log : List (Op V)

/-- Evaluation with caches, recording the evaluated operations. (Effects of `/repo/sdd/mem/cache.hh`, lines 211-261.) -/
def LM (_orc : Nat → Nat → List Nat) (V : Type) (α : Type) : Type := LS V → Except (Err V) α × LS V

instance (orc : Nat → Nat → List Nat) (V : Type) : DDMonad V (LM orc V) where
  pure a := fun s => (.ok a, s)
  bind x f := fun s => match x s with
    | (.ok a, s') => f a s'
    | (.error e, s') => (.error e, s')
  raise e := fun s => (.error e, s)
  ord l := fun s => (.ok (permBy (orc s.m.tick l.length) l), { s with m := { s.m with tick := s.m.tick + 1 } })

section
variable {V E : Type} [DecidableEq V]

/-- `cacheCall` (`cache::operator()`, `/repo/sdd/mem/cache.hh:211-261`); the operation is recorded when it is evaluated (a miss, lines
236-239). -/
def cacheCallL {orc : Nat → Nat → List Nat} (cap : OpKind → Nat) (f : Op V → LM orc V (SDD V)) (op : Op V) : LM orc V (SDD V) := fun s =>
  match lruFind (s.m.cache op.kind) op with
  | some r => (.ok r, { s with m := s.m.set op.kind (lruTouch (s.m.cache op.kind) op) })
  | none =>
    match f op { s with log := op :: s.log } with
    | (.error e, s') => (.error e, s')
    | (.ok r, s') =>
      match lruInsert (cap op.kind) ((orc s'.m.tick 0).headD 0) (s'.m.cache op.kind) op r with
      | none => (.error .ub, s')
      | some c => (.ok r, { s' with m := s'.m.set op.kind c })

/-- Evaluation with caches, recording the evaluated operations.
(`/repo/sdd/mem/cache.hh`, lines 211-261, the evaluation of line 239 being recorded.) -/
def runL (C : Cfg V E) (orc : Nat → Nat → List Nat) (cap : OpKind → Nat) : Nat → Op V → LM orc V (SDD V)
  | 0, _ => DDMonad.raise .fuel
  | n + 1, op => cacheCallL cap (step C (runL C orc cap n)) op

/-- A call (`Call.run`), recording the evaluated operations. (The calls of `Call`.) -/
def Call.runL (C : Cfg V E) (orc : Nat → Nat → List Nat) (cap : OpKind → Nat) : Call V → LM orc V (SDD V)
  | .zero => pure .zero
  | .one => pure .one
  | .flat x v s => pure (mkNode1 (m := LM orc V) (flatKind C) x v s)
  | .hier x v s => pure (mkNode1 (m := LM orc V) (hierKind C fun _ => pure .zero) x v s)
  | .sum xs => opSum C (Verif.runL C orc cap (maxHeight xs)) xs
  | .inter xs => opInter C (Verif.runL C orc cap (maxHeight xs)) xs
  | .diff x y => ddDiff (Verif.runL C orc cap (maxHeight [x, y])) x y

variable {C : Cfg V E} {orc : Nat → Nat → List Nat} {cap : OpKind → Nat}

/-! ## Recording changes nothing -/

/-- The same evaluation, up to the record. (Specification or proof device, not part of the code.) -/
def recordRel (orc : Nat → Nat → List Nat) (V : Type) : MRel V (LM orc V) (CM orc V) where
  R x y := ∀ s, (x s).1 = (y s.m).1 ∧ (x s).2.m = (y s.m).2
  pure' a s := ⟨rfl, rfl⟩
  bind' := by
    intro α β x y f g h1 h2 s
    obtain ⟨e1, e2⟩ := h1 s
    change (match x s with | (.ok a, s') => f a s' | (.error e, s') => (.error e, s')).1 =
      (match y s.m with | (.ok a, s') => g a s' | (.error e, s') => (.error e, s')).1 ∧
      (match x s with | (.ok a, s') => f a s' | (.error e, s') => (.error e, s')).2.m =
      (match y s.m with | (.ok a, s') => g a s' | (.error e, s') => (.error e, s')).2
    match hx : x s, hy : y s.m with
    | (.ok a, s1), (.ok b, s2) =>
      rw [hx, hy] at e1 e2
      cases e1; cases e2
      exact h2 a s1
    | (.error a, s1), (.error b, s2) =>
      rw [hx, hy] at e1 e2
      cases e1; cases e2
      exact ⟨rfl, rfl⟩
    | (.ok a, s1), (.error b, s2) => rw [hx, hy] at e1; cases e1
    | (.error a, s1), (.ok b, s2) => rw [hx, hy] at e1; cases e1
  raise' e s := ⟨rfl, rfl⟩
  ord' l s := ⟨rfl, rfl⟩

theorem runL_rel (n : Nat) : ∀ op, (recordRel orc V).R (runL C orc cap n op) (runC C orc cap n op) := by
  induction n with
  | zero => intro op; exact (recordRel orc V).raise' _
  | succ n ih =>
    intro op s
    rw [runL, runC]
    unfold cacheCallL cacheCall
    cases hf : lruFind (s.m.cache op.kind) op with
    | some r => exact ⟨rfl, rfl⟩
    | none =>
      obtain ⟨e1, e2⟩ := step_rel (M := recordRel orc V) (C := C) ih op { s with log := op :: s.log }
      match hx : step C (runL C orc cap n) op { s with log := op :: s.log }, hy : step C (runC C orc cap n) op s.m with
      | (.ok a, s1), (.ok b, s2) =>
        rw [hx, hy] at e1 e2
        cases e1; cases e2
        simp only
        cases lruInsert (cap op.kind) ((orc s1.m.tick 0).headD 0) (s1.m.cache op.kind) op a <;> exact ⟨rfl, rfl⟩
      | (.error a, s1), (.error b, s2) =>
        rw [hx, hy] at e1 e2
        cases e1; cases e2
        exact ⟨rfl, rfl⟩
      | (.ok a, s1), (.error b, s2) => rw [hx, hy] at e1; cases e1
      | (.error a, s1), (.ok b, s2) => rw [hx, hy] at e1; cases e1

/-- Recording does not change the calls. -/
theorem Call.runL_run (c : Call V) (s : LS V) :
    (c.runL C orc cap s).1 = (c.run C orc cap s.m).1 ∧ (c.runL C orc cap s).2.m = (c.run C orc cap s.m).2 := by
  cases c with
  | zero => exact ⟨rfl, rfl⟩
  | one => exact ⟨rfl, rfl⟩
  | flat x v t => exact ⟨rfl, rfl⟩
  | hier x v t => exact ⟨rfl, rfl⟩
  | sum xs => exact ddSum_rel (M := recordRel orc V) (runL_rel _) _ s
  | inter xs => exact ddInter_rel (M := recordRel orc V) (runL_rel _) _ s
  | diff x y => exact ddDiff_rel (M := recordRel orc V) (runL_rel _) _ _ s

/-! ## Nothing is evaluated twice -/

/-- The operations of a kind. (Specification or proof device, not part of the code.) -/
def ofKind (k : OpKind) (l : List (Op V)) : List (Op V) := l.filter fun op => op.kind = k

/-- When no entry has been discarded: `P` are the operations being evaluated, `c0` the initial sizes of the caches.
(Specification or proof device, not part of the code.) -/
structure Memo (c0 : OpKind → Nat) (P : List (Op V)) (s : LS V) : Prop where
  nodup : s.log.Nodup
  prog : ∀ op ∈ P, op ∈ s.log
  known : ∀ op ∈ s.log, op ∈ P ∨ ∃ r, (op, r) ∈ s.m.cache op.kind
  size : ∀ k, (s.m.cache k).length + (ofKind k P).length = c0 k + (ofKind k s.log).length

/-- More different operations have been evaluated than a cache can store. (Specification or proof device, not part of the code.) -/
def Over (c0 cap : OpKind → Nat) (s : LS V) : Prop := ∃ k, cap k < c0 k + (ofKind k s.log).dedup.length

theorem Over.cons {c0 : OpKind → Nat} {s : LS V} (h : Over c0 cap s) (op : Op V) : Over c0 cap { s with log := op :: s.log } := by
  obtain ⟨k, h⟩ := h
  refine ⟨k, h.trans_le (Nat.add_le_add_left (List.Nodup.subperm (List.nodup_dedup _) fun x hx => ?_).length_le _)⟩
  simp only [ofKind, List.mem_dedup, List.mem_filter, List.mem_cons] at hx ⊢
  exact ⟨.inr hx.1, hx.2⟩

/-- The state while the operations of `P` are being evaluated. (Specification or proof device, not part of the code.) -/
def LInv (C : Cfg V E) (c0 cap : OpKind → Nat) (P : List (Op V)) (s : LS V) : Prop :=
  CacheOK C s.m ∧ (Memo c0 P s ∨ Over c0 cap s)

/-- Postconditions: as those of `cachedLogic`, and the invariant is preserved by evaluations which return.
(Specification or proof device, not part of the code.) -/
def memoLogic (C : Cfg V E) (orc : Nat → Nat → List Nat) (c0 cap : OpKind → Nat) (P : List (Op V)) : Logic V (LM orc V) where
  Sat {α} x Q := ∀ s, LInv C c0 cap P s → (Over c0 cap s → Over c0 cap (x s).2) ∧
    match (x s).1 with
    | .ok a => LInv C c0 cap P (x s).2 ∧ Q a
    | .error _ => True
  allow _ := True
  pure' h s hs := ⟨id, hs, h⟩
  bind' := by
    intro α β x f Q Q' h1 h2 s hs
    have h1 := h1 s hs
    change (Over c0 cap s → Over c0 cap (match x s with
      | (.ok a, s') => f a s'
      | (.error e, s') => (.error e, s')).2) ∧ match (match x s with
      | (.ok a, s') => f a s'
      | (.error e, s') => (.error e, s')).1 with
      | .ok a => LInv C c0 cap P (match x s with
        | (.ok a, s') => f a s'
        | (.error e, s') => (.error e, s')).2 ∧ Q' a
      | .error e => True
    match hx : x s, h1 with
    | (.error e, s'), h1 => exact h1
    | (.ok a, s'), h1 => exact ⟨fun h => (h2 a h1.2.2 s' h1.2.1).1 (h1.1 h), (h2 a h1.2.2 s' h1.2.1).2⟩
  raise' h s hs := ⟨id, trivial⟩
  ord' l s hs := ⟨id, ⟨hs.1, hs.2.imp (fun h => ⟨h.nodup, h.prog, h.known, h.size⟩) id⟩, permBy_perm l _⟩
  mono' := by
    intro α x P Q h1 h2 s hs
    have h1 := h1 s hs
    refine ⟨h1.1, ?_⟩
    match hx : (x s).1, h1.2 with
    | .ok a, h1 => exact ⟨h1.1, h2 a h1.2⟩
    | .error e, h1 => trivial

/-- The number of levels of the operands. (Specification or proof device, not part of the code.) -/
def Op.levels (op : Op V) : Nat := maxHeight op.operands

theorem OpOK.levels_le {t : Ty} {op : Op V} (h : OpOK C t op) : op.levels ≤ t.depth := by
  have key : ∀ l : List (SDD V), (∀ x ∈ l, Dom C t x) → maxHeight l ≤ t.depth := by
    intro l hl
    induction l with
    | nil => simp [maxHeight]
    | cons x l ih => rw [maxHeight]; exact max_le (hl x (by simp)).height_le (ih fun y hy => hl y (by simp [hy]))
  cases op with
  | sum xs => exact key _ h.1.dom
  | inter xs => exact key _ h.1.dom
  | diff l r =>
    refine key _ fun x hx => ?_
    simp only [Op.operands, List.mem_cons, List.not_mem_nil, or_false] at hx
    rcases hx with rfl | rfl
    · exact h.1
    · exact h.2.1

theorem OpOK.at_levels {t : Ty} {op : Op V} (h : OpOK C t op) : OpOK C (.any op.levels) op := by
  cases op with
  | sum xs => exact ⟨⟨h.1.sorted, fun x hx => (h.1.dom x hx).wf.dom_height _ (le_maxHeight x hx), h.1.ne⟩, h.2⟩
  | inter xs => exact ⟨⟨h.1.sorted, fun x hx => (h.1.dom x hx).wf.dom_height _ (le_maxHeight x hx), h.1.ne⟩, h.2⟩
  | diff l r => exact ⟨h.1.wf.dom_height _ (le_maxHeight l (by simp [Op.operands])),
      h.2.1.wf.dom_height _ (le_maxHeight r (by simp [Op.operands])), h.2.2⟩

theorem runL_memo (hC : C.Lawful) (hcap : ∀ k, 0 < cap k) {c0 : OpKind → Nat} (n : Nat) :
    ∀ (t : Ty) (P : List (Op V)), t.depth ≤ n → (∀ op ∈ P, t.depth < op.levels) →
      RecOK C (memoLogic C orc c0 cap P) t (runL C orc cap n) := by
  induction n with
  | zero =>
    intro t P ht _ op hop
    exact absurd (hop.depth_pos hC) (by omega)
  | succ n ih =>
    intro t P ht hP op hop s hs
    have hh := hop.levels_le
    have hbody : (memoLogic C orc c0 cap (op :: P)).Sat (step C (runL C orc cap n) op) fun r => Dom C (.any op.levels) r ∧ OpSpec C op r := by
      have hsub : ∀ t' : Ty, t'.depth < op.levels → RecOK C (memoLogic C orc c0 cap (op :: P)) t' (runL C orc cap n) := by
        intro t' h
        refine ih t' _ (by omega) fun q hq => ?_
        rw [List.mem_cons] at hq
        rcases hq with rfl | hq
        · exact h
        · exact (by omega : t'.depth < t.depth).trans (hP q hq)
      refine step_sat hC (TopA.topOK (.inl (TopA.all fun _ _ => trivial))) (.inr trivial) ?_ ?_ hop.at_levels
      · intro x t' h
        exact hsub t' (Ty.flatNext_depth h).1
      · intro x tn t' h
        exact ⟨hsub tn (Ty.hierNext_depth h).1.1, hsub t' (Ty.hierNext_depth h).1.2⟩
    rw [runL]
    unfold cacheCallL
    cases hf : lruFind (s.m.cache op.kind) op with
    | some r =>
      have hr := hs.1 _ _ (lruFind_mem hf) _ (hop.to_any le_rfl)
      refine ⟨fun h => h, ⟨hs.1.set fun e he => hs.1 _ e (mem_lruTouch.1 he), hs.2.imp (fun h => ⟨h.nodup, h.prog, ?_, ?_⟩) fun h => h⟩,
        OpSpec.dom hop hr.1 hr.2, hr.2⟩
      · intro q hq
        refine (h.known q hq).imp id fun ⟨r', h'⟩ => ⟨r', ?_⟩
        unfold Mach.set
        simp only
        split
        · rename_i hk
          rw [mem_lruTouch, ← hk]; exact h'
        · exact h'
      · intro k
        rw [← h.size k]
        unfold Mach.set
        simp only
        split
        · rename_i hk
          subst hk
          rw [(lruTouch_perm _ _).length_eq]
        · rfl
    | none =>
      rw [lruFind_none] at hf
      have hop0 : op ∉ P := fun h => absurd (hP op h) (by omega)
      have hs1 : LInv C c0 cap (op :: P) { s with log := op :: s.log } := by
        refine ⟨hs.1, hs.2.imp (fun h => ⟨?_, ?_, ?_, ?_⟩) fun h => h.cons op⟩
        · refine List.nodup_cons.2 ⟨fun hl => ?_, h.nodup⟩
          rcases h.known op hl with h' | ⟨r, h'⟩
          · exact hop0 h'
          · exact hf r h'
        · intro q hq
          rw [List.mem_cons] at hq
          rcases hq with rfl | hq
          · exact List.mem_cons_self
          · exact List.mem_cons_of_mem _ (h.prog q hq)
        · intro q hq
          rw [List.mem_cons] at hq
          rcases hq with rfl | hq
          · exact .inl List.mem_cons_self
          · exact (h.known q hq).imp (List.mem_cons_of_mem _) id
        · intro k
          have := h.size k
          by_cases hk : op.kind = k <;> simp only [ofKind, List.filter_cons, hk, decide_true, decide_false, if_true, List.length_cons] at this ⊢
          · omega
          · exact this
      obtain ⟨b1, b2⟩ := hbody _ hs1
      simp only
      match hx : step C (runL C orc cap n) op { s with log := op :: s.log }, b1, b2 with
      | (.error e, s'), b1, b2 => exact ⟨fun h => b1 (h.cons op), trivial⟩
      | (.ok r, s'), b1, ⟨⟨b2, b3⟩, b4, b5⟩ =>
        obtain ⟨c', hc'⟩ := lruInsert_isSome (pick := (orc s'.m.tick 0).headD 0) (c := s'.m.cache op.kind) (k := op) (r := r)
          (hcap op.kind)
        simp only [hc']
        have hov : Over c0 cap s' → Over c0 cap { s' with m := s'.m.set op.kind c' } := fun h => h
        refine ⟨fun h => hov (b1 (h.cons op)), ⟨b2.set fun e he m hm => ?_, ?_⟩, OpSpec.dom hop b4.wf b5, b5⟩
        · rcases mem_lruInsert hc' he with he | rfl
          · exact b2 _ e he m hm
          · exact ⟨b4.wf, b5⟩
        · rcases b3 with h | h
          swap
          · exact .inr (hov h)
          replace h : Memo c0 (op :: P) s' := h
          have hsz := h.size op.kind
          have hP1 : (ofKind op.kind (op :: P)).length = (ofKind op.kind P).length + 1 := by simp [ofKind]
          by_cases hfull : (s'.m.cache op.kind).length = cap op.kind
          · refine .inr (hov ⟨op.kind, ?_⟩)
            have hd : (ofKind op.kind s'.log).dedup = ofKind op.kind s'.log := List.dedup_eq_self.2 (h.nodup.filter _)
            rw [hd]
            omega
          · refine .inl ⟨h.nodup, fun q hq => h.prog q (List.mem_cons_of_mem _ hq), ?_, ?_⟩
            all_goals
              unfold lruInsert at hc'
              rw [if_neg hfull] at hc'
              cases hc'
            · intro q hq
              rcases h.known q hq with h' | ⟨r', h'⟩
              · rw [List.mem_cons] at h'
                rcases h' with rfl | h'
                · exact .inr ⟨r, by simp [Mach.set]⟩
                · exact .inl h'
              · refine .inr ⟨r', ?_⟩
                unfold Mach.set
                simp only
                split
                · rename_i hk
                  rw [← hk]; exact List.mem_append_left _ h'
                · exact h'
            · intro k
              have := h.size k
              unfold Mach.set
              simp only
              split
              · rename_i hk
                subst hk
                rw [List.length_append, List.length_singleton]
                omega
              · rename_i hk
                have hne : ¬ op.kind = k := fun h => hk h.symm
                simp only [ofKind, List.filter_cons, hne, decide_false] at this ⊢
                exact this

/-- A call preserves the invariant. -/
theorem Call.runL_memo (hC : C.Lawful) (hcap : ∀ k, 0 < cap k) {c0 : OpKind → Nat} {c : Call V} (h : ∀ x ∈ c.args, WF C x) :
    (memoLogic C orc c0 cap []).Sat (c.runL C orc cap) fun r => WF C r ∧ ∀ p, Mem C p r ↔ c.Spec C p := by
  have htop : TopA C (memoLogic C orc c0 cap []).allow := TopA.all fun _ _ => trivial
  have hrun : RunOK C (memoLogic C orc c0 cap []) (Verif.runL C orc cap) := fun n t h1 h2 =>
    Verif.runL_memo hC hcap n t [] h1 (by simp)
  cases c with
  | zero => exact (memoLogic C orc c0 cap []).pure' ⟨⟨0, .zero _⟩, fun p => by simp [Call.Spec, not_mem_zero]⟩
  | one => exact (memoLogic C orc c0 cap []).pure' ⟨⟨0, .one _ trivial⟩, fun p => mem_one p⟩
  | flat x v s => exact (memoLogic C orc c0 cap []).pure' (mkNode1_flat hC (h s (by simp [Call.args])))
  | hier x v s => exact (memoLogic C orc c0 cap []).pure' (mkNode1_hier (h v (by simp [Call.args])) (h s (by simp [Call.args])))
  | sum xs => exact sum_wf hC hrun htop h
  | inter xs => exact inter_wf hC hrun htop h
  | diff x y => exact diff_wf hrun htop (h x (by simp [Call.args])) (h y (by simp [Call.args]))

/-- Successive calls, which all return. (Specification or proof device, not part of the code.) -/
inductive Calls (C : Cfg V E) (orc : Nat → Nat → List Nat) (cap : OpKind → Nat) : LS V → List (Call V) → LS V → Prop where
  | nil (s : LS V) : Calls C orc cap s [] s
  | cons {s s' : LS V} {c : Call V} {cs : List (Call V)} {r : SDD V} : (c.runL C orc cap s).1 = .ok r →
      Calls C orc cap (c.runL C orc cap s).2 cs s' → Calls C orc cap s (c :: cs) s'

theorem Calls.memo (hC : C.Lawful) (hcap : ∀ k, 0 < cap k) {c0 : OpKind → Nat} {s s' : LS V} {cs : List (Call V)}
    (h : Calls C orc cap s cs s') (hcs : ∀ c ∈ cs, ∀ x ∈ c.args, WF C x) (hs : LInv C c0 cap [] s) : LInv C c0 cap [] s' := by
  induction h with
  | nil => exact hs
  | @cons s s' c cs r h1 h2 ih =>
    refine ih (fun c' h => hcs c' (List.mem_cons_of_mem _ h)) ?_
    have := (Call.runL_memo (orc := orc) hC hcap (hcs c List.mem_cons_self) s hs).2
    rw [h1] at this
    exact this.1

end
end Verif
