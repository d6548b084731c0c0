import Verif.Hom.NoDup
import Verif.Hom.Natural
import Verif.DD.Memo
/-!
# Which applications of homomorphisms are evaluated

The evaluation with caches, together with the list of the applications which have been evaluated by the cache of homomorphisms (not found in
it).
-/

set_option autoImplicit false
set_option linter.unusedSectionVars false

namespace Verif

/-- The state of the caches and the applications evaluated so far, latest first. (The state of `/repo/sdd/dd/context.hh` and
`/repo/sdd/hom/context.hh`, with a ghost list.) -/
structure HLS (V I U : Type) where
  m : HMach V I U
  log : List (Hom V I U × SDD V)

/-- Evaluation with caches, recording the evaluated applications. (Effects of `/repo/sdd/mem/cache.hh`, lines 211-261.) -/
def HLM (_orc : Nat → Nat → List Nat) (V I U : Type) (α : Type) : Type := HLS V I U → Except (Err V) α × HLS V I U

instance (orc : Nat → Nat → List Nat) (V I U : Type) : DDMonad V (HLM orc V I U) where
  pure a := fun s => (.ok a, s)
  bind x f := fun s => match x s with
    | (.ok a, s') => f a s'
    | (.error e, s') => (.error e, s')
  raise e := fun s => (.error e, s)
  ord l := fun s => (.ok (permBy (orc s.m.dd.tick l.length) l),
    { s with m := { s.m with dd := { s.m.dd with tick := s.m.dd.tick + 1 } } })

section
variable {V E I U : Type} [DecidableEq V] [DecidableEq I] [DecidableEq U]

/-- An evaluation which does not use the cache of homomorphisms. (Proof device, not part of the code.) -/
def HLM.lift {orc : Nat → Nat → List Nat} {α : Type} (x : CM orc V α) : HLM orc V I U α := fun s =>
  ((x s.m.dd).1, { s with m := { s.m with dd := (x s.m.dd).2 } })

/-- `homCache` (`cache::operator()`, `/repo/sdd/mem/cache.hh:211-261`); the application is recorded when it is evaluated (a miss, lines
236-239). -/
def homCacheL {orc : Nat → Nat → List Nat} (cap : Nat) (f : Hom V I U → OB I → SDD V → HLM orc V I U (SDD V))
    (h : Hom V I U) (o : OB I) (x : SDD V) : HLM orc V I U (SDD V) := fun s =>
  if h.shouldCache then
    match lruFind s.m.homs (h, x) with
    | some r => (.ok r, { s with m := { s.m with homs := lruTouch s.m.homs (h, x) } })
    | none =>
      match f h o x { s with log := (h, x) :: s.log } with
      | (.error e, s') => (.error e, s')
      | (.ok r, s') =>
        match lruInsert cap ((orc s'.m.dd.tick 0).headD 0) s'.m.homs (h, x) r with
        | none => (.error .ub, s')
        | some c => (.ok r, { s' with m := { dd := { s'.m.dd with tick := s'.m.dd.tick + 1 }, homs := c } })
  else f h o x s

/-- Application of a homomorphism, with caches, recording the evaluated applications. (`homomorphism::operator()(o, x)`,
`/repo/sdd/hom/definition.hh:105-119`.) -/
def Lib.applyL (L : Lib V E I U) (n : Nat) (h : Hom V I U) (o : OB I) (x : SDD V) : HLM L.orc V I U (SDD V) :=
  runH L.env L.C (fun op => HLM.lift (autoRun (runC L.C L.orc L.cap) op)) (homCacheL L.hcap) n h o x

variable {env : User V I U} {C : Cfg V E} {sc : Scope I U} {orc : Nat → Nat → List Nat} {cap : OpKind → Nat} {hcap c0 : Nat}

/-! ## Recording changes nothing -/

/-- The same evaluation, up to the record. (Specification or proof device, not part of the code.) -/
def recordRelH (orc : Nat → Nat → List Nat) (V I U : Type) : MRel V (HLM orc V I U) (HM orc V I U) where
  R x y := ∀ s, (x s).1 = (y s.m).1 ∧ (x s).2.m = (y s.m).2
  pure' a s := ⟨rfl, rfl⟩
  bind' := by
    intro α β x y f g h1 h2 s
    obtain ⟨e1, e2⟩ := h1 s
    change (match x s with | (.ok a, s') => f a s' | (.error e, s') => (.error e, s')).1 =
      (match y s.m with | (.ok a, s') => g a s' | (.error e, s') => (.error e, s')).1 ∧
      (match x s with | (.ok a, s') => f a s' | (.error e, s') => (.error e, s')).2.m =
      (match y s.m with | (.ok a, s') => g a s' | (.error e, s') => (.error e, s')).2
    match hx : x s, hy : y s.m with
    | (.ok a, s1), (.ok b, s2) =>
      rw [hx, hy] at e1 e2
      cases e1; cases e2
      exact h2 a s1
    | (.error a, s1), (.error b, s2) =>
      rw [hx, hy] at e1 e2
      cases e1; cases e2
      exact ⟨rfl, rfl⟩
    | (.ok a, s1), (.error b, s2) => rw [hx, hy] at e1; cases e1
    | (.error a, s1), (.ok b, s2) => rw [hx, hy] at e1; cases e1
  raise' e s := ⟨rfl, rfl⟩
  ord' l s := ⟨rfl, rfl⟩

theorem Lib.applyL_apply (L : Lib V E I U) (n : Nat) (h : Hom V I U) (o : OB I) (x : SDD V) (s : HLS V I U) :
    (L.applyL n h o x s).1 = (L.apply n h o x s.m).1 ∧ (L.applyL n h o x s).2.m = (L.apply n h o x s.m).2 := by
  refine runH_rel (M := recordRelH L.orc V I U) (fun op s => ⟨rfl, rfl⟩) (fun f f' hf h o x s => ?_) n h o x s
  unfold homCacheL homCache
  split
  · cases hl : lruFind s.m.homs (h, x) with
    | some r => exact ⟨rfl, rfl⟩
    | none =>
      obtain ⟨e1, e2⟩ := hf h o x { s with log := (h, x) :: s.log }
      match hx : f h o x { s with log := (h, x) :: s.log }, hy : f' h o x s.m with
      | (.ok a, s1), (.ok b, s2) =>
        rw [hx, hy] at e1 e2
        cases e1; cases e2
        simp only
        cases lruInsert L.hcap ((L.orc s1.m.dd.tick 0).headD 0) s1.m.homs (h, x) a <;> exact ⟨rfl, rfl⟩
      | (.error a, s1), (.error b, s2) =>
        rw [hx, hy] at e1 e2
        cases e1; cases e2
        exact ⟨rfl, rfl⟩
      | (.ok a, s1), (.error b, s2) => rw [hx, hy] at e1; cases e1
      | (.error a, s1), (.ok b, s2) => rw [hx, hy] at e1; cases e1
  · exact hf h o x s

/-! ## Nothing is evaluated twice -/

/-- When no entry has been discarded: `P` are the applications being evaluated, `c0` the initial size of the cache.
(Specification or proof device, not part of the code.) -/
structure HMemo (c0 : Nat) (P : List (Hom V I U × SDD V)) (s : HLS V I U) : Prop where
  nodup : s.log.Nodup
  known : ∀ k ∈ s.log, k ∈ P ∨ ∃ r, (k, r) ∈ s.m.homs
  size : s.m.homs.length + P.length = c0 + s.log.length

/-- More different applications have been evaluated than the cache can store. (Specification or proof device, not part of the code.) -/
def HOver (c0 hcap : Nat) (s : HLS V I U) : Prop := hcap < c0 + s.log.dedup.length

theorem HOver.cons {s : HLS V I U} (h : HOver c0 hcap s) (k : Hom V I U × SDD V) : HOver c0 hcap { s with log := k :: s.log } := by
  refine h.trans_le (Nat.add_le_add_left (List.Nodup.subperm (List.nodup_dedup _) fun x hx => ?_).length_le _)
  simp only [List.mem_dedup, List.mem_cons] at hx ⊢
  exact .inr hx

/-- The state while the applications of `P` are being evaluated. (Specification or proof device, not part of the code.) -/
def HLInv (env : User V I U) (C : Cfg V E) (sc : Scope I U) (c0 hcap : Nat) (P : List (Hom V I U × SDD V)) (s : HLS V I U) : Prop :=
  HMachOK env C sc s.m ∧ (HMemo c0 P s ∨ HOver c0 hcap s)

/-- Postconditions: as those of `homLogic`, and the invariant is preserved by evaluations which return.
(Specification or proof device, not part of the code.) -/
def memoLogicH (env : User V I U) (C : Cfg V E) (sc : Scope I U) (orc : Nat → Nat → List Nat) (c0 hcap : Nat)
    (P : List (Hom V I U × SDD V)) : Logic V (HLM orc V I U) where
  Sat {α} x Q := ∀ s, HLInv env C sc c0 hcap P s → (HOver c0 hcap s → HOver c0 hcap (x s).2) ∧
    match (x s).1 with
    | .ok a => HLInv env C sc c0 hcap P (x s).2 ∧ Q a
    | .error _ => True
  allow _ := True
  pure' h s hs := ⟨id, hs, h⟩
  bind' := by
    intro α β x f Q Q' h1 h2 s hs
    have h1 := h1 s hs
    have e : (x >>= f) s = match x s with
      | (.ok a, s') => f a s'
      | (.error e, s') => (.error e, s') := rfl
    rw [e]
    match hx : x s, h1 with
    | (.error e, s'), h1 => exact h1
    | (.ok a, s'), h1 => exact ⟨fun h => (h2 a h1.2.2 s' h1.2.1).1 (h1.1 h), (h2 a h1.2.2 s' h1.2.1).2⟩
  raise' h s hs := ⟨id, trivial⟩
  ord' l s hs := ⟨id, ⟨hs.1, hs.2.imp (fun h => ⟨h.nodup, h.known, h.size⟩) id⟩, permBy_perm l _⟩
  mono' := by
    intro α x P Q h1 h2 s hs
    have h1 := h1 s hs
    refine ⟨h1.1, ?_⟩
    match hx : (x s).1, h1.2 with
    | .ok a, h1 => exact ⟨h1.1, h2 a h1.2⟩
    | .error e, h1 => trivial

theorem lift_memo {P : List (Hom V I U × SDD V)} {α : Type} {x : CM orc V α} {Q : α → Prop}
    (h : (cachedLogic C orc fun _ => True).Sat x Q) : (memoLogicH env C sc orc c0 hcap P).Sat (HLM.lift x) Q := by
  intro s hs
  have h := h s.m.dd hs.1.1
  refine ⟨id, ?_⟩
  change match (x s.m.dd).1 with
    | .ok a => HLInv env C sc c0 hcap P { s with m := { s.m with dd := (x s.m.dd).2 } } ∧ Q a
    | .error _ => True
  match hx : (x s.m.dd).1, h.2 with
  | .ok a, h2 => exact ⟨⟨⟨h.1, hs.1.2⟩, hs.2.imp (fun h => ⟨h.nodup, h.known, h.size⟩) id⟩, h2⟩
  | .error e, _ => trivial

theorem homCacheL_memo (htr : Transfer env C sc) (hpos : 0 < hcap) {f : Hom V I U → OB I → SDD V → HLM orc V I U (SDD V)} {o : OB I}
    {h : Hom V I U} {t : Ty} {x : SDD V} {P : List (Hom V I U × SDD V)} (hS : sc.S o) (ht : HTy env C sc o h t) (hx : Dom C o.ty x)
    (h0 : x ≠ .zero) (hP : (h, x) ∉ P)
    (hf : (memoLogicH env C sc orc c0 hcap ((h, x) :: P)).Sat (f h o x) (Ev env C h o x))
    (hf' : (memoLogicH env C sc orc c0 hcap P).Sat (f h o x) (Ev env C h o x)) :
    (memoLogicH env C sc orc c0 hcap P).Sat (homCacheL hcap f h o x) (Ev env C h o x) := by
  intro s hs
  unfold homCacheL
  split
  swap
  · exact hf' s hs
  cases hl : lruFind s.m.homs (h, x) with
  | some r =>
    refine ⟨id, ⟨⟨hs.1.1, fun e he => hs.1.2 e (mem_lruTouch.1 he)⟩, hs.2.imp (fun hm => ⟨hm.nodup, ?_, ?_⟩) id⟩, ?_⟩
    · intro k hk
      exact (hm.known k hk).imp id fun ⟨r', h'⟩ => ⟨r', mem_lruTouch.2 h'⟩
    · rw [← hm.size]
      simp only [(lruTouch_perm _ _).length_eq]
    · obtain ⟨o', t', hS', ht', hx', _, he⟩ := hs.1.2 _ (lruFind_mem hl)
      exact htr o' o h t' t x r hS' hS (hx'.ty_unique hx (OB.ty_shape o') (OB.ty_shape o) h0) ht' ht hx' he
  | none =>
    rw [lruFind_none] at hl
    have hs1 : HLInv env C sc c0 hcap ((h, x) :: P) { s with log := (h, x) :: s.log } := by
      refine ⟨hs.1, hs.2.imp (fun hm => ⟨?_, ?_, ?_⟩) fun h => h.cons _⟩
      · refine List.nodup_cons.2 ⟨fun hk => ?_, hm.nodup⟩
        rcases hm.known _ hk with h' | ⟨r, h'⟩
        · exact hP h'
        · exact hl r h'
      · intro k hk
        rw [List.mem_cons] at hk
        rcases hk with rfl | hk
        · exact .inl List.mem_cons_self
        · exact (hm.known k hk).imp (List.mem_cons_of_mem _) id
      · have := hm.size
        simp only [List.length_cons]
        omega
    obtain ⟨b1, b2⟩ := hf _ hs1
    simp only
    match hx' : f h o x { s with log := (h, x) :: s.log }, b1, b2 with
    | (.error e, s'), b1, b2 => exact ⟨fun h => b1 (h.cons _), trivial⟩
    | (.ok r, s'), b1, ⟨⟨b2, b3⟩, b4⟩ =>
      obtain ⟨c', hc'⟩ := lruInsert_isSome (pick := (orc s'.m.dd.tick 0).headD 0) (c := s'.m.homs) (k := (h, x)) (r := r) hpos
      simp only [hc']
      refine ⟨fun h => b1 (h.cons _), ⟨⟨b2.1, fun e he => ?_⟩, ?_⟩, b4⟩
      · rcases mem_lruInsert hc' he with he | rfl
        · exact b2.2 e he
        · exact ⟨o, t, hS, ht, hx, h0, b4⟩
      · rcases b3 with hm | hm
        swap
        · exact .inr hm
        have hsz := hm.size
        simp only [List.length_cons] at hsz
        by_cases hfull : s'.m.homs.length = hcap
        · refine .inr ?_
          have hd : s'.log.dedup = s'.log := List.dedup_eq_self.2 hm.nodup
          unfold HOver
          simp only [hd]
          omega
        · unfold lruInsert at hc'
          rw [if_neg hfull] at hc'
          cases hc'
          refine .inl ⟨hm.nodup, fun k hk => ?_, ?_⟩
          · rcases hm.known k hk with h' | ⟨r', h'⟩
            · rw [List.mem_cons] at h'
              rcases h' with rfl | h'
              · exact .inr ⟨r, by simp⟩
              · exact .inl h'
            · exact .inr ⟨r', List.mem_append_left _ h'⟩
          · simp only [List.length_append, List.length_singleton]
            omega

theorem runHL_memo {L : Lib V E I U} (hL : L.OK sc) (n : Nat) : ∀ (P : List (Hom V I U × SDD V)) o h t x, sc.S o →
    HTy L.env L.C sc o h t → Dom L.C o.ty x → (∀ q ∈ P, AppLt o.ty.depth (sizeOf h) q.2.height (sizeOf q.1)) →
    (memoLogicH L.env L.C sc L.orc c0 L.hcap P).Sat (L.applyL n h o x) (Ev L.env L.C h o x) := by
  induction n with
  | zero => intro P o h t x _ _ _ _; exact (memoLogicH L.env L.C sc L.orc c0 L.hcap P).raise' trivial
  | succ n ih =>
    intro P o h t x hS ht hx hP
    unfold Lib.applyL
    rw [runH]
    split
    · rename_i hc
      rw [Bool.or_eq_true, Hom.isId_iff, isZero_iff] at hc
      rcases hc with rfl | rfl
      · exact (memoLogicH L.env L.C sc L.orc c0 L.hcap P).pure' (.id o x)
      · exact (memoLogicH L.env L.C sc L.orc c0 L.hcap P).pure' (.zero h o)
    · rename_i hc
      rw [Bool.or_eq_true, Hom.isId_iff, isZero_iff, not_or] at hc
      have hht : x.height = o.ty.depth := le_antisymm hx.height_le (hx.height_eq (OB.ty_shape o) hc.2)
      have body : ∀ Q : List (Hom V I U × SDD V),
          (∀ q ∈ Q, AppLe o.ty.depth (sizeOf h) q.2.height (sizeOf q.1)) →
          (memoLogicH L.env L.C sc L.orc c0 L.hcap Q).Sat (homEval L.env L.C
            (fun op => HLM.lift (autoRun (runC L.C L.orc L.cap) op)) n (L.applyL n) h o x) (Ev L.env L.C h o x) := by
        intro Q hQ
        refine homEval_sat (L := memoLogicH L.env L.C sc L.orc c0 L.hcap Q) hL.lawful (Or.inr trivial) hL.honest
          (fun t ht op hop => ?_) ht hc.1 (fun o' h' x' hs => ?_) (Or.inl trivial) hx hc.2
        · exact lift_memo (autoRun_ok (L := cachedLogic L.C L.orc fun _ => True)
            (fun n t h1 h2 => runC_ok hL.lawful hL.cap (Or.inr trivial) n t h1 (Or.inr h2)) t ht op hop)
        · obtain ⟨h1, ⟨t', h2⟩, h3⟩ := ht.call hL.closed hs hS hx
          have hlt := ht.call_lt hs hx
          refine ih Q o' h' t' x' h1 h2 h3 fun q hq => ?_
          rcases hQ q hq with h5 | ⟨h5, h6⟩ <;> rcases hlt with h7 | ⟨h7, h8⟩ <;> simp only [AppLt] <;> omega
      refine homCacheL_memo hL.transfer hL.hcap hS ht hx hc.2 (fun hm => ?_) (body _ fun q hq => ?_) (body _ fun q hq => ?_)
      · rcases hP _ hm with h5 | ⟨h5, h6⟩
        · simp only [hht] at h5; omega
        · simp only at h6; omega
      · rw [List.mem_cons] at hq
        rcases hq with rfl | hq
        · exact Or.inr ⟨hht.symm, le_rfl⟩
        · exact (hP q hq).imp id fun h => ⟨h.1, h.2.le⟩
      · exact (hP q hq).imp id fun h => ⟨h.1, h.2.le⟩

/-- Successive applications, which all return. (Specification or proof device, not part of the code.) -/
inductive Applies (L : Lib V E I U) (sc : Scope I U) : HLS V I U → List (Hom V I U × OB I × SDD V) → HLS V I U → Prop where
  | nil (s : HLS V I U) : Applies L sc s [] s
  | cons {s s' : HLS V I U} {n : Nat} {h : Hom V I U} {o : OB I} {x r : SDD V} {as : List (Hom V I U × OB I × SDD V)} :
      L.Use sc h o x → (L.applyL n h o x s).1 = .ok r → Applies L sc (L.applyL n h o x s).2 as s' →
      Applies L sc s ((h, o, x) :: as) s'

theorem Applies.memo {L : Lib V E I U} (hL : L.OK sc) {s s' : HLS V I U} {as : List (Hom V I U × OB I × SDD V)}
    (h : Applies L sc s as s') (hs : HLInv L.env L.C sc c0 L.hcap [] s) : HLInv L.env L.C sc c0 L.hcap [] s' := by
  induction h with
  | nil => exact hs
  | @cons s s' n h o x r as hu h1 h2 ih =>
    obtain ⟨t, ht⟩ := hu.ty
    have := (runHL_memo (c0 := c0) hL n [] o h t x hu.order ht hu.dom (by simp) s hs).2
    rw [h1] at this
    exact ih this.1

/-! ## An application done again -/

theorem lruFind_touch {K R : Type} [DecidableEq K] {c : Lru K R} {k : K} {r : R} (h : lruFind c k = some r) :
    ∃ r', lruFind (lruTouch c k) k = some r' := by
  cases hf : lruFind (lruTouch c k) k with
  | some r' => exact ⟨r', rfl⟩
  | none => exact absurd (mem_lruTouch.2 (lruFind_mem h)) (lruFind_none.1 hf r)

theorem lruFind_insert {K R : Type} [DecidableEq K] {c c' : Lru K R} {cap pick : Nat} {k : K} {r : R}
    (h : lruInsert cap pick c k r = some c') : ∃ r', lruFind c' k = some r' := by
  have hm : (k, r) ∈ c' := by
    unfold lruInsert at h
    split at h
    · split at h
      · cases h
      · cases h; simp
    · cases h; simp
  cases hf : lruFind c' k with
  | some r' => exact ⟨r', rfl⟩
  | none => exact absurd hm (lruFind_none.1 hf r)

theorem HLM.bind_eq {α β : Type} (x : HLM orc V I U α) (f : α → HLM orc V I U β) (s : HLS V I U) :
    (x >>= f) s = match x s with
      | (.ok a, s') => f a s'
      | (.error e, s') => (.error e, s') := rfl

theorem homEval_noSkip {m : Type → Type} [DDMonad V m] {dd : Op V → m (SDD V)} {n : Nat} {rec : Hom V I U → OB I → SDD V → m (SDD V)}
    {h : Hom V I U} (hsk : ∀ y i, h.skip env y i = false) (o : OB I) (x : SDD V) :
    homEval env C dd n rec h o x = DDMonad.raise .ub ∨ homEval env C dd n rec h o x = homWork env C dd n rec h o x := by
  unfold homEval
  split
  · exact Or.inl rfl
  · exact Or.inr rfl
  · split
    · exact Or.inl rfl
    · exact Or.inr (if_neg (by simp [hsk]))
  · split
    · exact Or.inl rfl
    · exact Or.inr (if_neg (by simp [hsk]))
  · exact Or.inl rfl

/-- An application which has returned, done again, evaluates nothing. -/
theorem Lib.applyL_again (L : Lib V E I U) (n : Nat) : ∀ {h : Hom V I U} {o : OB I} {x : SDD V} {s s1 : HLS V I U} {r : SDD V},
    L.applyL n h o x s = (.ok r, s1) → ∃ r', (L.applyL n h o x s1).1 = .ok r' ∧ (L.applyL n h o x s1).2.log = s1.log := by
  induction n with
  | zero => intro h o x s s1 r e; cases e
  | succ n ih =>
    intro h o x s s1 r e
    unfold Lib.applyL at e ⊢
    rw [runH] at e ⊢
    by_cases hc : (h.isId || x.isZero) = true
    · rw [if_pos hc]
      exact ⟨x, rfl, rfl⟩
    rw [if_neg hc] at e ⊢
    change homCacheL L.hcap (homEval L.env L.C (fun op => HLM.lift (autoRun (runC L.C L.orc L.cap) op)) n (L.applyL n)) h o x s = _ at e
    change ∃ r', (homCacheL L.hcap (homEval L.env L.C (fun op => HLM.lift (autoRun (runC L.C L.orc L.cap) op)) n (L.applyL n)) h o x s1).1
      = .ok r' ∧ (homCacheL L.hcap (homEval L.env L.C (fun op => HLM.lift (autoRun (runC L.C L.orc L.cap) op)) n (L.applyL n)) h o x s1).2.log
      = s1.log
    generalize hF : (homEval L.env L.C (fun op => HLM.lift (autoRun (runC L.C L.orc L.cap) op)) n (L.applyL n) :
      Hom V I U → OB I → SDD V → HLM L.orc V I U (SDD V)) = F at e ⊢
    unfold homCacheL at e ⊢
    by_cases hsc : h.shouldCache = true
    · rw [if_pos hsc] at e ⊢
      have hfound : ∃ r', lruFind s1.m.homs (h, x) = some r' := by
        cases hl : lruFind s.m.homs (h, x) with
        | some r0 =>
          simp only [hl] at e
          cases e
          exact lruFind_touch hl
        | none =>
          simp only [hl] at e
          split at e
          · cases e
          · split at e
            · cases e
            · rename_i hi
              cases e
              exact lruFind_insert hi
      obtain ⟨r', hr'⟩ := hfound
      simp only [hr']
      exact ⟨r', rfl, trivial⟩
    · rw [if_neg hsc] at e ⊢
      subst hF
      have again : ∀ (k : Hom V I U) (o' : OB I) (g : SDD V → SDD V), (L.applyL n k o' x >>= fun r => pure (g r)) s = (.ok r, s1) →
          ∃ r', ((L.applyL n k o' x >>= fun r => pure (g r)) s1).1 = .ok r' ∧
            ((L.applyL n k o' x >>= fun r => pure (g r)) s1).2.log = s1.log := by
        intro k o' g e
        rw [HLM.bind_eq] at e ⊢
        match hk : L.applyL n k o' x s, e with
        | (.error _, _), e => cases e
        | (.ok a, s'), e =>
          cases e
          obtain ⟨r', h1, h2⟩ := ih hk
          match hk' : L.applyL n k o' x s1, h1, h2 with
          | (.ok b, s2), _, h2 => exact ⟨_, rfl, h2⟩
      have hraise : ∀ {st : HLS V I U}, (DDMonad.raise .ub : HLM L.orc V I U (SDD V)) s ≠ (.ok r, st) := fun h => by cases h
      cases h with
      | consF o' v k =>
        rcases homEval_noSkip (env := L.env) (C := L.C) (dd := fun op => HLM.lift (autoRun (runC L.C L.orc L.cap) op)) (n := n)
          (rec := L.applyL n) (h := .consF o' v k) (fun _ _ => rfl) o x with he | he
        · rw [he] at e; exact absurd e hraise
        · rw [he] at e ⊢
          cases o' with
          | nil => exact absurd e hraise
          | node id nst nxt => exact again k nxt _ e
      | consH o' v k =>
        rcases homEval_noSkip (env := L.env) (C := L.C) (dd := fun op => HLM.lift (autoRun (runC L.C L.orc L.cap) op)) (n := n)
          (rec := L.applyL n) (h := .consH o' v k) (fun _ _ => rfl) o x with he | he
        · rw [he] at e; exact absurd e hraise
        · rw [he] at e ⊢
          cases o' with
          | nil => exact absurd e hraise
          | node id nst nxt => exact again k nxt _ e
      | const c =>
        rcases homEval_noSkip (env := L.env) (C := L.C) (dd := fun op => HLM.lift (autoRun (runC L.C L.orc L.cap) op)) (n := n)
          (rec := L.applyL n) (h := .const c) (fun _ _ => rfl) o x with he | he
        · rw [he] at e; exact absurd e hraise
        · rw [he]
          exact ⟨c, rfl, rfl⟩
      | _ => exact absurd rfl hsc

end
end Verif
