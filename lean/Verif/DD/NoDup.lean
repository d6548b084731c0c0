import Verif.DD.Transparent
/-!
# The caches hold each operation at most once and never exceed their capacity
-/

set_option autoImplicit false
set_option linter.unusedSectionVars false

namespace Verif

section
variable {V E : Type} [DecidableEq V]

/-- The height of an operation. (Specification or proof device, not part of the code.) -/
def Op.height (op : Op V) : Nat := maxHeight op.operands

/-- Right entries, no duplicate, bounded size. (Specification or proof device, not part of the code.) -/
structure CacheGood (C : Cfg V E) (cap : OpKind → Nat) (s : Mach V) : Prop where
  ok : CacheOK C s
  nodup : ∀ k, ((s.cache k).map Prod.fst).Nodup
  size : ∀ k, (s.cache k).length ≤ cap k
  keys : ∀ k, ∀ e ∈ s.cache k, OpOK C (.any e.1.height) e.1

/-- The operations added to the caches have at most a given height. (Specification or proof device, not part of the code.) -/
def NewBelow (d : Nat) (s s' : Mach V) : Prop :=
  ∀ k, ∀ e ∈ s'.cache k, e.1 ∈ (s.cache k).map Prod.fst ∨ e.1.height ≤ d

theorem NewBelow.refl (d : Nat) (s : Mach V) : NewBelow d s s := fun _ _ he =>
  Or.inl (List.mem_map_of_mem he)

theorem NewBelow.trans {d : Nat} {s s' s'' : Mach V} (h1 : NewBelow d s s')
    (h2 : NewBelow d s' s'') : NewBelow d s s'' := by
  intro k e he
  rcases h2 k e he with h | h
  · obtain ⟨e', he', h'⟩ := List.mem_map.1 h
    rw [← h']
    exact h1 k e' he'
  · exact Or.inr h

theorem NewBelow.mono {d d' : Nat} {s s' : Mach V} (h : NewBelow d s s') (hd : d ≤ d') :
    NewBelow d' s s' := fun k e he => (h k e he).imp id fun h => h.trans hd

/-- Postconditions tracking the operations added to the caches. (Specification or proof device, not part of the code.) -/
def dupLogic (C : Cfg V E) (orc : Nat → Nat → List Nat) (cap : OpKind → Nat) (d : Nat) :
    Logic V (CM orc V) where
  Sat x P := ∀ s, CacheGood C cap s → CacheGood C cap (x s).2 ∧ NewBelow d s (x s).2 ∧
    match (x s).1 with
    | .ok a => P a
    | .error _ => True
  allow := fun _ => True
  pure' h s hs := ⟨hs, .refl d s, h⟩
  bind' := by
    intro α β x f P Q h1 h2 s hs
    have h1 := h1 s hs
    have e : (x >>= f) s = match x s with
      | (.ok a, s') => f a s'
      | (.error e, s') => (.error e, s') := rfl
    rw [e]
    match hx : x s, h1 with
    | (.ok a, s'), h1 =>
      have h2 := h2 a h1.2.2 s' h1.1
      exact ⟨h2.1, h1.2.1.trans h2.2.1, h2.2.2⟩
    | (.error e, s'), h1 => exact ⟨h1.1, h1.2.1, trivial⟩
  raise' h s hs := ⟨hs, .refl d s, trivial⟩
  ord' l s hs := ⟨⟨hs.ok, hs.nodup, hs.size, hs.keys⟩, .refl d s, permBy_perm l _⟩
  mono' := by
    intro α x P Q h1 h2 s hs
    have h1 := h1 s hs
    match hx : (x s).1, h1 with
    | .ok a, h1 => exact ⟨h1.1, h1.2.1, h2 a h1.2.2⟩
    | .error e, h1 => exact ⟨h1.1, h1.2.1, trivial⟩

variable {C : Cfg V E} {orc : Nat → Nat → List Nat} {cap : OpKind → Nat}

theorem OpOK.to_height {t : Ty} {op : Op V} (h : OpOK C t op) : OpOK C (.any op.height) op := by
  have key : ∀ {xs : List (SDD V)}, BGood SDD.isZero C.lt (Dom C t) xs →
      BGood SDD.isZero C.lt (Dom C (.any (maxHeight xs))) xs := fun {xs} hb =>
    ⟨hb.sorted, dom_maxHeight fun x hx => (hb.dom x hx).wf, hb.ne⟩
  cases op with
  | sum xs => exact ⟨key h.1, h.2⟩
  | inter xs => exact ⟨key h.1, h.2⟩
  | diff l r =>
    have := dom_maxHeight (xs := [l, r]) (C := C) (by simp [h.1.wf, h.2.1.wf])
    exact ⟨this l (by simp), this r (by simp), h.2.2⟩

theorem OpOK.height_le {t : Ty} {op : Op V} (h : OpOK C t op) : op.height ≤ t.depth := by
  have key : ∀ {xs : List (SDD V)}, (∀ x ∈ xs, Dom C t x) → maxHeight xs ≤ t.depth := by
    intro xs
    induction xs with
    | nil => intro _; simp [maxHeight]
    | cons x xs ih =>
      intro h
      rw [maxHeight]
      exact max_le (h x (by simp)).height_le (ih fun y hy => h y (by simp [hy]))
  cases op with
  | sum xs => exact key h.1.dom
  | inter xs => exact key h.1.dom
  | diff l r => exact key (xs := [l, r]) (by simp [h.1, h.2.1])

theorem lruTouch_keys {K R : Type} [DecidableEq K] (c : Lru K R) (k : K) :
    ((lruTouch c k).map Prod.fst).Perm (c.map Prod.fst) := (lruTouch_perm c k).map _

theorem lruInsert_keys {K R : Type} {cap pick : Nat} {c c' : Lru K R} {k : K} {r : R}
    (h : lruInsert cap pick c k r = some c') (hnd : (c.map Prod.fst).Nodup) (hk : k ∉ c.map Prod.fst)
    (hl : c.length ≤ cap) : (c'.map Prod.fst).Nodup ∧ c'.length ≤ cap := by
  have key : ∀ d : Lru K R, d.Sublist c → ((d ++ [(k, r)]).map Prod.fst).Nodup := by
    intro d hd
    rw [List.map_append, List.nodup_append]
    refine ⟨(hd.map _).nodup hnd, by simp, ?_⟩
    simp only [List.map_cons, List.map_nil, List.mem_singleton]
    rintro a ha b rfl rfl
    exact hk ((hd.map _).subset ha)
  unfold lruInsert at h
  split at h
  · rename_i hlen
    split at h
    · simp at h
    · rename_i hne
      cases h
      refine ⟨key _ (List.eraseIdx_sublist _ _), ?_⟩
      have h0 : 0 < c.length := List.length_pos_of_ne_nil (by simpa using hne)
      rw [List.length_append, List.length_eraseIdx, if_pos (Nat.mod_lt _ h0)]
      simp only [List.length_singleton]; omega
  · rename_i hlen
    cases h
    exact ⟨key _ (List.Sublist.refl _), by simp; omega⟩

theorem cacheCall_dup (hcap : ∀ k, 0 < cap k) {t : Ty} {f : Op V → CM orc V (SDD V)}
    {op : Op V} (hop : OpOK C t op) {d : Nat} (hd : d < op.height)
    (h : (dupLogic C orc cap d).Sat (f op) fun r => WF C r ∧ OpSpec C op r) :
    (dupLogic C orc cap t.depth).Sat (cacheCall cap f op) fun r => Dom C t r ∧ OpSpec C op r := by
  intro s hs
  have hdt := hop.height_le
  unfold cacheCall
  split
  · rename_i r hr
    have hr' := hs.ok _ _ (lruFind_mem hr) _ (hop.to_any le_rfl)
    refine ⟨⟨hs.ok.set fun e he => hs.ok _ e (mem_lruTouch.1 he), fun k => ?_, fun k => ?_,
      fun k e he => ?_⟩, ?_,
      OpSpec.dom hop hr'.1 hr'.2, hr'.2⟩
    · simp only [Mach.set]
      split
      · exact (lruTouch_keys _ _).nodup_iff.2 (hs.nodup _)
      · exact hs.nodup k
    · simp only [Mach.set]
      split
      · rename_i hk
        rw [(lruTouch_perm _ _).length_eq, hk]
        exact hs.size _
      · exact hs.size k
    · simp only [Mach.set] at he
      split at he
      · exact hs.keys _ e (mem_lruTouch.1 he)
      · exact hs.keys k e he
    · intro k e he
      simp only [Mach.set] at he
      split at he
      · rename_i hk
        subst hk
        exact Or.inl (List.mem_map_of_mem (mem_lruTouch.1 he))
      · exact Or.inl (List.mem_map_of_mem he)
  · rename_i hmiss
    have h := h s hs
    split
    · rename_i e s' he
      rw [he] at h
      exact ⟨h.1, h.2.1.mono (by omega), trivial⟩
    · rename_i r s' he
      rw [he] at h
      obtain ⟨c', hc'⟩ := lruInsert_isSome (pick := (orc s'.tick 0).headD 0) (c := s'.cache op.kind) (k := op) (r := r)
        (hcap op.kind)
      rw [hc']
      obtain ⟨h1, h2, h3⟩ := h
      have hnot : op ∉ (s'.cache op.kind).map Prod.fst := by
        intro hm
        obtain ⟨e, he, heq⟩ := List.mem_map.1 hm
        rcases h2 _ e he with h | h
        · rw [heq] at h
          obtain ⟨e', he', heq'⟩ := List.mem_map.1 h
          have hn := lruFind_none.1 hmiss e'.2
          obtain ⟨a, b⟩ := e'
          simp only at heq' hn
          subst heq'
          exact hn he'
        · rw [heq] at h
          omega
      have hk := lruInsert_keys hc' (h1.nodup _) hnot (h1.size _)
      refine ⟨⟨h1.ok.set fun e he n hn => ?_, fun k => ?_, fun k => ?_,
        fun k e he => ?_⟩, ?_,
        OpSpec.dom hop h3.1 h3.2, h3.2⟩
      · rcases mem_lruInsert hc' he with he | rfl
        · exact h1.ok _ e he n hn
        · exact h3
      · simp only [Mach.set]
        split
        · exact hk.1
        · exact h1.nodup k
      · simp only [Mach.set]
        split
        · rename_i hk'
          subst hk'
          exact hk.2
        · exact h1.size k
      · simp only [Mach.set] at he
        split at he
        · rcases mem_lruInsert hc' he with he | rfl
          · exact h1.keys _ e he
          · exact hop.to_height
        · exact h1.keys k e he
      · intro k e he
        simp only [Mach.set] at he
        split at he
        · rename_i hk'
          subst hk'
          rcases mem_lruInsert hc' he with he | rfl
          · exact (h2 _ e he).imp id (by omega)
          · exact Or.inr hdt
        · exact (h2 k e he).imp id (by omega)

theorem runC_dup (hC : C.Lawful) (hcap : ∀ k, 0 < cap k) (n : Nat) :
    ∀ t : Ty, t.depth ≤ n → RecOK C (dupLogic C orc cap t.depth) t (runC C orc cap n) := by
  induction n with
  | zero =>
    intro t ht op hop
    exact absurd (hop.depth_pos hC) (by omega)
  | succ n ih =>
    intro t ht op hop
    rw [runC]
    have hh := hop.to_height
    have hpos := hh.depth_pos hC
    have hle := hop.height_le
    simp only [Ty.depth] at hpos
    obtain ⟨d, hd⟩ : ∃ d, op.height = d + 1 := ⟨op.height - 1, by omega⟩
    refine cacheCall_dup hcap hop (d := d) (by omega) ?_
    rw [hd] at hh
    have ihd := ih (.any d) (by simp [Ty.depth]; omega)
    simp only [Ty.depth] at ihd
    refine (dupLogic C orc cap d).mono' (step_sat (L := dupLogic C orc cap d) hC
      (fun _ _ _ _ _ _ _ _ _ => trivial) (Or.inr trivial) ?_ ?_ hh) fun r hr => ⟨hr.1.wf, hr.2⟩
    · intro x t' h
      simp [Ty.flatNext] at h
      subst h
      exact ihd
    · intro x tn t' h
      simp [Ty.hierNext] at h
      obtain ⟨rfl, rfl⟩ := h
      exact ⟨ihd, ihd⟩

theorem Call.run_dup (hC : C.Lawful) (hcap : ∀ k, 0 < cap k) {c : Call V}
    (h : ∀ x ∈ c.args, WF C x) {s : Mach V} (hs : CacheGood C cap s) :
    CacheGood C cap (c.run C orc cap s).2 := by
  cases c with
  | zero => exact hs
  | one => exact hs
  | flat x v s => exact hs
  | hier x v s => exact hs
  | sum xs =>
    exact (opSum_sat (L := dupLogic C orc cap (maxHeight xs)) hC
      (runC_dup hC hcap _ (.any (maxHeight xs)) le_rfl) (dom_maxHeight h) s hs).1
  | inter xs =>
    exact (opInter_sat (L := dupLogic C orc cap (maxHeight xs)) hC
      (runC_dup hC hcap _ (.any (maxHeight xs)) le_rfl) (dom_maxHeight h) s hs).1
  | diff x y =>
    exact (ddDiff_sat (L := dupLogic C orc cap (maxHeight [x, y]))
      (runC_dup hC hcap _ (.any (maxHeight [x, y])) le_rfl)
      (dom_maxHeight (xs := [x, y]) h x (by simp)) (dom_maxHeight (xs := [x, y]) h y (by simp))
      s hs).1

theorem history_good (hC : C.Lawful) (hcap : ∀ k, 0 < cap k) {es : List (Event V)}
    (h : HistWF C es) : CacheGood C cap (history C orc cap es) := by
  unfold history
  have : ∀ s : Mach V, CacheGood C cap s → CacheGood C cap (es.foldl (Event.next C orc cap) s) := by
    induction es with
    | nil => intro s h1; exact h1
    | cons e es ih =>
      intro s h1
      rw [List.foldl_cons]
      have he := h e (by simp)
      have key : CacheGood C cap (e.next C orc cap s) := by
        cases e with
        | call call => exact Call.run_dup hC hcap he h1
        | clear => exact ⟨fun k e he => by simp [Event.next] at he, fun k => by simp [Event.next],
            fun k => by simp [Event.next], fun k e he => by simp [Event.next] at he⟩
      exact ih (fun e he => h e (by simp [he])) _ key
  exact this _ ⟨fun k e he => by simp at he, fun k => by simp, fun k => by simp,
    fun k e he => by simp at he⟩

theorem guardX_dup {α : Type} {d : Nat} {stop : Nat → Option (Err V)} {x : CM orc V α} {P : α → Prop}
    (h : (dupLogic C orc cap d).Sat x P) : (dupLogic C orc cap d).Sat (guardX stop x) P := by
  intro s hs
  unfold guardX
  split
  · exact ⟨⟨hs.ok, hs.nodup, hs.size, hs.keys⟩, .refl d s, trivial⟩
  · exact h { s with tick := s.tick + 1 } ⟨hs.ok, hs.nodup, hs.size, hs.keys⟩

theorem runX_dup (hC : C.Lawful) (hcap : ∀ k, 0 < cap k) {stop : Nat → Option (Err V)} (n : Nat) :
    ∀ t : Ty, t.depth ≤ n → RecOK C (dupLogic C orc cap t.depth) t (runX C orc cap stop n) := by
  induction n with
  | zero =>
    intro t ht op hop
    exact absurd (hop.depth_pos hC) (by omega)
  | succ n ih =>
    intro t ht op hop
    rw [runX]
    have hh := hop.to_height
    have hpos := hh.depth_pos hC
    have hle := hop.height_le
    simp only [Ty.depth] at hpos
    obtain ⟨d, hd⟩ : ∃ d, op.height = d + 1 := ⟨op.height - 1, by omega⟩
    refine guardX_dup (cacheCall_dup hcap hop (d := d) (by omega) ?_)
    rw [hd] at hh
    have ihd := ih (.any d) (by simp [Ty.depth]; omega)
    simp only [Ty.depth] at ihd
    refine (dupLogic C orc cap d).bind' (guardX_dup ((dupLogic C orc cap d).mono' (step_sat (L := dupLogic C orc cap d) hC
      (fun _ _ _ _ _ _ _ _ _ => trivial) (Or.inr trivial) ?_ ?_ hh) fun r hr => ⟨hr.1.wf, hr.2⟩))
      fun r hr => guardX_dup ((dupLogic C orc cap d).pure' hr)
    · intro x t' h
      simp [Ty.flatNext] at h
      subst h
      exact ihd
    · intro x tn t' h
      simp [Ty.hierNext] at h
      obtain ⟨rfl, rfl⟩ := h
      exact ⟨ihd, ihd⟩

theorem Call.runX_dup (hC : C.Lawful) (hcap : ∀ k, 0 < cap k) {stop : Nat → Option (Err V)} {c : Call V}
    (h : ∀ x ∈ c.args, WF C x) {s : Mach V} (hs : CacheGood C cap s) :
    CacheGood C cap (c.runX C orc cap stop s).2 := by
  have hnone : ∀ x : SDD V, (dupLogic C orc cap 0).Sat (pure x) fun _ => True := fun x => (dupLogic C orc cap 0).pure' trivial
  cases c with
  | zero => exact (guardX_dup (orc := orc) (stop := stop) (hnone _) s hs).1
  | one => exact (guardX_dup (orc := orc) (stop := stop) (hnone _) s hs).1
  | flat x v t => exact (guardX_dup (orc := orc) (stop := stop) (hnone _) s hs).1
  | hier x v t => exact (guardX_dup (orc := orc) (stop := stop) (hnone _) s hs).1
  | sum xs =>
    exact (guardX_dup (opSum_sat (L := dupLogic C orc cap (maxHeight xs)) hC
      (Verif.runX_dup hC hcap _ (.any (maxHeight xs)) le_rfl) (dom_maxHeight h)) s hs).1
  | inter xs =>
    exact (guardX_dup (opInter_sat (L := dupLogic C orc cap (maxHeight xs)) hC
      (Verif.runX_dup hC hcap _ (.any (maxHeight xs)) le_rfl) (dom_maxHeight h)) s hs).1
  | diff x y =>
    exact (guardX_dup (ddDiff_sat (L := dupLogic C orc cap (maxHeight [x, y]))
      (Verif.runX_dup hC hcap _ (.any (maxHeight [x, y])) le_rfl)
      (dom_maxHeight (xs := [x, y]) h x (by simp)) (dom_maxHeight (xs := [x, y]) h y (by simp))) s hs).1

/-- The caches of sessions. -/
theorem Sess.Reach.good (hC : C.Lawful) (hcap : ∀ k, 0 < cap k) {s : Sess V} (h : Sess.Reach C orc cap s) :
    CacheGood (C.withLt s.lt) cap s.mach := by
  induction h with
  | init lt hlt => exact ⟨fun k e he => by simp at he, fun k => by simp, fun k => by simp, fun k e he => by simp at he⟩
  | step s s' h1 h2 ih =>
    have hi := h1.inv hC hcap
    have hi' := h2.inv hC hcap hi
    cases h2 with
    | call c hc => exact Call.run_dup (hC.withLt hi.st) hcap (fun x hx => hi.wf x (hc x hx)) ih
    | thrown c stop hc _ => exact Call.runX_dup (hC.withLt hi.st) hcap (fun x hx => hi.wf x (hc x hx)) ih
    | drop _ _ => exact ih
    | clear => exact ⟨fun k e he => by simp at he, fun k => by simp, fun k => by simp, fun k e he => by simp at he⟩
    | realloc lt hlt h =>
      refine ⟨hi'.cache, ih.nodup, ih.size, fun k e he => ?_⟩
      exact OpOK.withLt (lt := lt) (ih.keys k e he) fun x hx y hy a b ha hb =>
        h a b (Or.inr ⟨k, e, he, Or.inl ⟨x, hx, ha⟩⟩) (Or.inr ⟨k, e, he, Or.inl ⟨y, hy, hb⟩⟩)

end
end Verif
