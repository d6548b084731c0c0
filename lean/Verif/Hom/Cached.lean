import Verif.Hom.Run
/-!
# Evaluation of homomorphisms with and without caches

The key of an entry of the cache of homomorphisms is made of a homomorphism and an operand, without the order
(`/repo/sdd/hom/evaluation.hh:91-122`): it is right only if the result is the same under all the orders in use (`Transfer`).
-/

set_option autoImplicit false
set_option linter.unusedSectionVars false

namespace Verif

variable {V E I U : Type} [DecidableEq V] [DecidableEq I] [DecidableEq U]
variable {env : User V I U} {C : Cfg V E} {sc : Scope I U} {c : Nat → List Nat} {orc : Nat → Nat → List Nat}
  {allow : Err V → Prop}

/-! ## Without cache -/

theorem plain_dd (hC : C.Lawful) (hov : C.limit = none ∨ allow .overflow) (t : Ty) (ht : t.IsShape) :
    RecOK C (plainLogic c V allow) t (autoRun (runP C c)) :=
  autoRun_ok (fun n t h1 h2 => runP_ok hC hov n t h1 (Or.inr h2)) t ht

theorem plain_call : CallSound env C sc (plainLogic c V allow) fun f => f :=
  fun _ _ _ _ _ _ _ _ _ _ h => h

/-! ## With caches -/

/-- The entries of the cache of homomorphisms are right. (Specification or proof device, not part of the code.) -/
def HomsOK (env : User V I U) (C : Cfg V E) (sc : Scope I U) (l : Lru (Hom V I U × SDD V) (SDD V)) : Prop :=
  ∀ e ∈ l, ∃ o t, sc.S o ∧ HTy env C sc o e.1.1 t ∧ Dom C o.ty e.1.2 ∧ e.1.2 ≠ .zero ∧ Ev env C e.1.1 o e.1.2 e.2

/-- The entries of all the caches are right. (Specification or proof device, not part of the code.) -/
def HMachOK (env : User V I U) (C : Cfg V E) (sc : Scope I U) (s : HMach V I U) : Prop :=
  CacheOK C s.dd ∧ HomsOK env C sc s.homs

/-- Postconditions of evaluations with caches. (Specification or proof device, not part of the code.) -/
def homLogic (env : User V I U) (C : Cfg V E) (sc : Scope I U) (orc : Nat → Nat → List Nat) (allow : Err V → Prop) :
    Logic V (HM orc V I U) where
  Sat x P := ∀ s, HMachOK env C sc s → HMachOK env C sc (x s).2 ∧
    match (x s).1 with
    | .ok a => P a
    | .error e => allow e
  allow := allow
  pure' h s hs := ⟨hs, h⟩
  bind' := by
    intro α β x f P Q h1 h2 s hs
    have h1 := h1 s hs
    change HMachOK env C sc (match x s with
      | (.ok a, s') => f a s'
      | (.error e, s') => (.error e, s')).2 ∧ match (match x s with
      | (.ok a, s') => f a s'
      | (.error e, s') => (.error e, s')).1 with
      | .ok a => Q a
      | .error e => allow e
    match hx : x s, h1 with
    | (.ok a, s'), h1 => exact h2 a h1.2 s' h1.1
    | (.error e, s'), h1 => exact h1
  raise' h s hs := ⟨hs, h⟩
  ord' l s hs := ⟨hs, permBy_perm l _⟩
  mono' := by
    intro α x P Q h1 h2 s hs
    have h1 := h1 s hs
    match hx : (x s).1, h1 with
    | .ok a, h1 => exact ⟨h1.1, h2 a h1.2⟩
    | .error e, h1 => exact h1

theorem lift_sat {α : Type} {x : CM orc V α} {P : α → Prop} (h : (cachedLogic C orc allow).Sat x P) :
    (homLogic env C sc orc allow).Sat (HM.lift x) P := by
  intro s hs
  have h := h s.dd hs.1
  exact ⟨⟨h.1, hs.2⟩, h.2⟩

theorem cached_dd (hC : C.Lawful) {cap : OpKind → Nat} (hcap : ∀ k, 0 < cap k) (hov : C.limit = none ∨ allow .overflow)
    (t : Ty) (ht : t.IsShape) :
    RecOK C (homLogic env C sc orc allow) t fun op => HM.lift (autoRun (runC C orc cap) op) := by
  intro op hop
  exact lift_sat (autoRun_ok (L := cachedLogic C orc allow)
    (fun n t h1 h2 => runC_ok hC hcap hov n t h1 (Or.inr h2)) t ht op hop)

/-- The results do not depend on the order, among the orders in use. (Specification or proof device, not part of the code.) -/
def Transfer (env : User V I U) (C : Cfg V E) (sc : Scope I U) : Prop :=
  ∀ o o' h t t' x r, sc.S o → sc.S o' → o.ty = o'.ty → HTy env C sc o h t → HTy env C sc o' h t' → Dom C o.ty x →
    Ev env C h o x r → Ev env C h o' x r

theorem cached_call (htr : Transfer env C sc) {hcap : Nat} (hpos : 0 < hcap) :
    CallSound env C sc (homLogic env C sc orc allow) (homCache hcap) := by
  intro f o h t x hS ht hx h0 hid hf s hs
  unfold homCache
  split
  · split
    · rename_i r hr
      refine ⟨⟨hs.1, fun e he => hs.2 e (mem_lruTouch.1 he)⟩, ?_⟩
      obtain ⟨o', t', hS', ht', hx', _, he⟩ := hs.2 _ (lruFind_mem hr)
      exact htr o' o h t' t x r hS' hS (hx'.ty_unique hx (OB.ty_shape o') (OB.ty_shape o) h0) ht' ht hx' he
    · have hf := hf s hs
      split
      · rename_i e s' he
        rw [he] at hf
        exact hf
      · rename_i r s' he
        rw [he] at hf
        obtain ⟨c', hc'⟩ := lruInsert_isSome (pick := (orc s'.dd.tick 0).headD 0) (c := s'.homs) (k := (h, x)) (r := r) hpos
        rw [hc']
        refine ⟨⟨hf.1.1, fun e he => ?_⟩, hf.2⟩
        rcases mem_lruInsert hc' he with he | rfl
        · exact hf.1.2 e he
        · exact ⟨o, t, hS, ht, hx, h0, hf.2⟩
  · exact hf s hs

/-! ## When the order does not matter -/

/-- Orders determined by their shape, for instance the parts of one order without hierarchy. -/
theorem Transfer.of_inj (h : ∀ o o', sc.S o → sc.S o' → o.ty = o'.ty → o = o') : Transfer env C sc := by
  intro o o' h' t t' x r hS hS' hty _ _ _ he
  rw [← h o o' hS hS' hty]
  exact he

/-- User's inductive homomorphisms which do not use the identifiers of the order. (Specification or proof device, not part of the code.) -/
def IdFree (env : User V I U) (u : U) : Prop :=
  (∀ i j, env.indSkip u i = env.indSkip u j) ∧
    ∀ o o', o.ty = o'.ty → (∀ v, env.indF u o v = env.indF u o' v) ∧ ∀ v, env.indH u o v = env.indH u o' v

theorem HTy.skip_congr (hA : ∀ u, sc.A u → IdFree env u) {o : OB I} {h : Hom V I U} {t : Ty} (ht : HTy env C sc o h t) :
    ∀ x i j, h.skip env x i = h.skip env x j := by
  induction ht with
  | id => intros; rfl
  | skip _ _ _ ih => exact ih
  | comp _ _ _ ih1 ih2 => intro x i j; simp only [Hom.skip]; rw [ih1 x i j, ih2 x i j]
  | consF | consH | const | fnNil | fn | loc | satFix | satInter | satSum => intros; rfl
  | fix _ _ ih => exact ih
  | ite _ _ _ _ _ ih1 ih2 ih3 => intro x i j; simp only [Hom.skip]; rw [ih1 x i j, ih2 x i j, ih3 x i j]
  | indNil h => intro x i j; exact (hA _ h).1 i j
  | indF h => intro x i j; exact (hA _ h).1 i j
  | indH h => intro x i j; exact (hA _ h).1 i j
  | inter _ _ _ ih =>
    intro x i j
    simp only [Hom.skip]
    rw [Bool.eq_iff_iff, Hom.skipAll_iff, Hom.skipAll_iff]
    exact forall₂_congr fun h hm => by rw [ih h hm x i j]
  | sum _ _ _ ih =>
    intro x i j
    simp only [Hom.skip]
    rw [Bool.eq_iff_iff, Hom.skipAll_iff, Hom.skipAll_iff]
    exact forall₂_congr fun h hm => by rw [ih h hm x i j]

/-- Two orders of the same shape. -/
theorem OB.ty_node {id : OId I} {nst nxt o' : OB I} (h : (OB.node id nst nxt).ty = o'.ty) :
    ∃ id' nst' nxt', o' = .node id' nst' nxt' ∧ nst.ty = nst'.ty ∧ nxt.ty = nxt'.ty ∧ nxt.lvl = nxt'.lvl ∧
      (nst = .nil ↔ nst' = .nil) := by
  cases nst with
  | nil =>
    cases o' with
    | nil => simp [OB.ty] at h
    | node id' nst' nxt' =>
      cases nst' with
      | nil =>
        simp only [OB.ty, Ty.flat.injEq] at h
        exact ⟨id', .nil, nxt', rfl, rfl, h.2, h.1, by simp⟩
      | node => simp [OB.ty] at h
  | node a b d =>
    cases o' with
    | nil => simp [OB.ty] at h
    | node id' nst' nxt' =>
      cases nst' with
      | nil => simp [OB.ty] at h
      | node a' b' d' =>
        simp only [OB.ty, Ty.hier.injEq] at h
        exact ⟨id', .node a' b' d', nxt', rfl, h.2.1, h.2.2, h.1, by simp⟩

theorem Here.transfer {o o' : OB I} {h : Hom V I U} {x : SDD V} (hty : o.ty = o'.ty)
    (hsk : ∀ x i j, h.skip env x i = h.skip env x j) (hh : Here env h o x) : Here env h o' x := by
  cases o with
  | nil =>
    cases o' with
    | nil => exact hh
    | node id' nst' nxt' => cases nst' <;> simp [OB.ty] at hty
  | node id nst nxt =>
    obtain ⟨id', nst', nxt', rfl, h1, h2, h3, _⟩ := OB.ty_node hty
    cases x with
    | zero => simp [Here] at hh
    | one => trivial
    | flat y arcs => exact ⟨hh.1.trans h3, by rw [← h3, hsk _ id' id]; exact hh.2⟩
    | hier y arcs => exact ⟨hh.1.trans h3, by rw [← h3, hsk _ id' id]; exact hh.2⟩

theorem Below.transfer {id id' : OId I} {nxt nxt' : OB I} {h : Hom V I U} {x : SDD V} (hl : nxt.lvl = nxt'.lvl)
    (hsk : ∀ x i j, h.skip env x i = h.skip env x j) (hb : Below env h id nxt x) : Below env h id' nxt' x := by
  cases x with
  | zero => simp [Below] at hb
  | one => simp [Below] at hb
  | flat y arcs => exact ⟨hb.1.trans hl, by rw [← hl, hsk _ id' id]; exact hb.2⟩
  | hier y arcs => exact ⟨hb.1.trans hl, by rw [← hl, hsk _ id' id]; exact hb.2⟩

/-- The order does not matter for homomorphisms which do not use identifiers. -/
theorem Ev.transfer (hA : ∀ u, sc.A u → IdFree env u) {h : Hom V I U} {o : OB I} {x r : SDD V} (e : Ev env C h o x r) :
    ∀ {o' : OB I} {t t' : Ty}, o.ty = o'.ty → HTy env C sc o h t → HTy env C sc o' h t' → Dom C o.ty x →
      Ev env C h o' x r := by
  induction e with
  | zero => intros; exact .zero _ _
  | id => intros; exact .id _ _
  | @skip h id nst nxt x r f hne hb hf hr ih =>
    intro o' t t' hty ht ht' hx
    obtain ⟨id', nst', nxt', rfl, h1, h2, h3, _⟩ := OB.ty_node hty
    have hsk := ht.skip_congr hA
    have hb' : Below env h id' nxt' x := hb.transfer h3 hsk
    obtain ⟨u, rfl, hu⟩ := ht.skip_inv hne hb.skip
    obtain ⟨u', rfl, hu'⟩ := ht'.skip_inv hne hb'.skip
    refine .skip f hne hb' (fun hd s ha => ih hd s ha h2 hu hu' ?_) hr
    rcases dom_cases hx with rfl | ⟨h', rfl⟩ | ⟨_, _, arcs, h', rfl, g1, g2⟩ | ⟨_, _, _, arcs, h', hn, rfl, g1, g2, g3⟩
    · cases hd <;> simp [ArcOf] at ha
    · cases h'
    · cases h'
      cases hd with
      | flat => obtain ⟨_, v, hv, _⟩ := ha; exact g2 _ hv
      | hier => simp [ArcOf] at ha
    · cases h'
      cases hd with
      | hier => obtain ⟨_, v, hv, _⟩ := ha; exact g3 _ hv
      | flat => simp [ArcOf] at ha
  | comp hh e1 _ ih1 ih2 =>
    intro o' t t' hty ht ht' hx
    have hh' := hh.transfer hty (ht.skip_congr hA)
    cases ht with
    | skip _ h1 => exact (hh.not_skip hx h1).elim
    | comp _ h1 h2 =>
      cases ht' with
      | skip _ h1 => exact (hh'.not_skip (hty ▸ hx) h1).elim
      | comp _ h1' h2' => exact .comp hh' (ih1 hty h1 h1' hx) (ih2 hty h2 h2' (e1.dom h1 hx))
  | consF hh e1 hr ih =>
    intro o' t t' hty ht ht' hx
    exact .consF (hh.transfer hty (ht.skip_congr hA)) e1 hr
  | consH hh e1 hr ih =>
    intro o' t t' hty ht ht' hx
    exact .consH (hh.transfer hty (ht.skip_congr hA)) e1 hr
  | const hh =>
    intro o' t t' hty ht ht' hx
    exact .const (hh.transfer hty (ht.skip_congr hA))
  | fixDone hh e1 ih =>
    intro o' t t' hty ht ht' hx
    have hh' := hh.transfer hty (ht.skip_congr hA)
    cases ht with
    | skip _ h1 => exact (hh.not_skip hx h1).elim
    | fix _ h1 =>
      cases ht' with
      | skip _ h1 => exact (hh'.not_skip (hty ▸ hx) h1).elim
      | fix _ h1' => exact .fixDone hh' (ih hty h1 h1' hx)
  | fixStep hh e1 hne _ ih1 ih2 =>
    intro o' t t' hty ht ht' hx
    have hh' := hh.transfer hty (ht.skip_congr hA)
    have k := ht
    have k' := ht'
    cases ht with
    | skip _ h1 => exact (hh.not_skip hx h1).elim
    | fix _ h1 =>
      cases ht' with
      | skip _ h1 => exact (hh'.not_skip (hty ▸ hx) h1).elim
      | fix _ h1' => exact .fixStep hh' (ih1 hty h1 h1' hx) hne (ih2 hty k k' (e1.dom h1 hx))
  | fnOne => intros; exact .fnOne
  | fn hh hr =>
    intro o' t t' hty ht ht' hx
    exact .fn (hh.transfer hty (ht.skip_congr hA)) hr
  | ite hsel hh e1 hd _ _ hr ih1 ih2 ih3 =>
    intro o' t t' hty ht ht' hx
    have hh' := hh.transfer hty (ht.skip_congr hA)
    cases ht with
    | skip _ h1 => exact (hh.not_skip hx h1).elim
    | ite _ _ h1 h2 h3 =>
      cases ht' with
      | skip _ h1 => exact (hh'.not_skip (hty ▸ hx) h1).elim
      | ite _ _ h1' h2' h3' =>
        exact .ite hsel hh' (ih1 hty h1 h1' hx) hd (ih2 hty h2 h2' (e1.dom h1 hx))
          (ih3 hty h3 h3' (hd.dom fun p hp => hx.pty p hp.1)) hr
  | indOne => intros; exact .indOne
  | @indF u id nst nxt y arcs r f hh _ hr ih =>
    intro o' t t' hty ht ht' hx
    have hh' := hh.transfer hty (ht.skip_congr hA)
    obtain ⟨id', nst', nxt', rfl, h1, h2, h3, h4⟩ := OB.ty_node hty
    cases ht with
    | skip _ h1 => exact (hh.not_skip hx h1).elim
    | indF ha _ _ h =>
      have hfr := ((hA _ ha).2 _ _ hty).1
      obtain ⟨t1, k1, k2, k3⟩ := hx.flat_inv
      simp [OB.ty, Ty.flatNext] at k1
      cases ht' with
      | skip _ h1 => exact (hh'.not_skip (hty ▸ hx) h1).elim
      | indF _ _ _ h' =>
        refine .indF f hh' (fun arc hm => ?_) hr
        rw [← hfr]
        exact ih arc hm h2 (h arc.1 (k2.valNe arc hm)) (by rw [hfr]; exact h' arc.1 (k2.valNe arc hm)) (k1.2 ▸ k3 arc hm)
      | indH _ _ hn => exact absurd (h4.1 rfl) hn
    | indH _ _ hn =>
      rcases dom_cases hx with h | ⟨h, _⟩ | ⟨_, _, _, h, _⟩ | ⟨_, _, _, _, _, _, h, _⟩
      · cases h
      · cases h
      · cases h; exact absurd rfl hn
      · cases h
  | @indH u id nst nxt y arcs r f hh _ hr ih =>
    intro o' t t' hty ht ht' hx
    have hh' := hh.transfer hty (ht.skip_congr hA)
    obtain ⟨id', nst', nxt', rfl, h1, h2, h3, h4⟩ := OB.ty_node hty
    cases ht with
    | skip _ h1 => exact (hh.not_skip hx h1).elim
    | indF _ _ _ h =>
      rcases dom_cases hx with h | ⟨h, _⟩ | ⟨_, _, _, _, h, _⟩ | ⟨_, _, _, _, h, hn, _⟩
      · cases h
      · cases h
      · cases h
      · cases h; exact absurd rfl hn
    | indH ha _ hn _ h =>
      have hfr := ((hA _ ha).2 _ _ hty).2
      rcases dom_cases hx with h' | ⟨h', _⟩ | ⟨_, _, _, _, h', _⟩ | ⟨_, _, _, _, h', _, h'', g1, g2, g3⟩
      · cases h'
      · cases h'
      · cases h'
      · cases h'; cases h''
        cases ht' with
        | skip _ h1 => exact (hh'.not_skip (hty ▸ hx) h1).elim
        | indF => exact absurd (h4.2 rfl) hn
        | indH _ _ _ _ h' =>
          refine .indH f hh' (fun arc hm => ?_) hr
          obtain ⟨n, hnm⟩ := g1.valNe arc hm
          have hv : arc.1 ≠ .zero := fun h => not_mem_zero n (h ▸ hnm)
          rw [← hfr]
          exact ih arc hm h2 (h arc.1 (g2 arc hm) hv) (by rw [hfr]; exact h' arc.1 (h1 ▸ g2 arc hm) hv) (g3 arc hm)
  | inter f hh _ hr ih =>
    intro o' t t' hty ht ht' hx
    have hh' := hh.transfer hty (ht.skip_congr hA)
    cases ht with
    | skip _ h1 => exact (hh.not_skip hx h1).elim
    | inter _ _ h =>
      cases ht' with
      | skip _ h1 => exact (hh'.not_skip (hty ▸ hx) h1).elim
      | inter _ _ h' => exact .inter f hh' (fun k hk => ih k hk hty (h k hk) (h' k hk) hx) hr
  | interZero pre post f hh _ _ ih1 ih2 =>
    intro o' t t' hty ht ht' hx
    have hh' := hh.transfer hty (ht.skip_congr hA)
    cases ht with
    | skip _ h1 => exact (hh.not_skip hx h1).elim
    | inter _ _ h =>
      cases ht' with
      | skip _ h1 => exact (hh'.not_skip (hty ▸ hx) h1).elim
      | inter _ _ h' =>
        exact .interZero pre post f hh' (fun k hk => ih1 k hk hty (h k (by simp [hk])) (h' k (by simp [hk])) hx)
          (ih2 hty (h _ (by simp)) (h' _ (by simp)) hx)
  | @loc y h id nst nxt y' arcs r f hh _ hr ih =>
    intro o' t t' hty ht ht' hx
    have hh' := hh.transfer hty (ht.skip_congr hA)
    obtain ⟨id', nst', nxt', rfl, h1, h2, h3, h4⟩ := OB.ty_node hty
    cases ht with
    | skip _ h1 => exact (hh.not_skip hx h1).elim
    | loc hn h =>
      rw [h3] at hh' ht' ⊢
      cases ht' with
      | skip _ h1 => exact (hh'.not_skip (hty ▸ hx) h1).elim
      | loc hn' h' =>
        refine .loc f hh' (fun arc hm => ?_) hr
        rcases dom_cases hx with k | ⟨k, _⟩ | ⟨_, _, _, _, k, _⟩ | ⟨_, _, _, _, k, _, k', g1, g2, g3⟩
        · cases k
        · cases k
        · cases k
        · cases k; cases k'
          exact ih arc hm h1 h h' (g2 arc hm)
  | @satDone y F G L o s a c d hh e1 e2 e3 hI hl ih1 ih2 ih3 =>
    intro o' t t' hty ht ht' hx
    have hh' := hh.transfer hty (ht.skip_congr hA)
    cases ht with
    | skip _ h1 => exact (hh.not_skip hx h1).elim
    | satFix _ hF hL hG =>
      cases ht' with
      | skip _ h1 => exact (hh'.not_skip (hty ▸ hx) h1).elim
      | satFix _ hF' hL' hG' =>
        have key : ∀ i, i ≤ G.length → Dom C o.ty (c i) := by
          intro i
          induction i with
          | zero => exact fun _ => e2.dom hL (e1.dom hF hx)
          | succ i ihi =>
            intro hi
            have h1 := ihi (by omega)
            refine (hI i hi).dom ?_
            rintro p (hp | hp)
            · exact h1.pty p hp
            · exact ((e3 i hi).dom (hG _ (List.getElem_mem hi)) h1).pty p hp
        exact .satDone c d hh' (ih1 hty hF hF' hx) (ih2 hty hL hL' (e1.dom hF hx))
          (fun i hi => ih3 i hi hty (hG _ (List.getElem_mem hi)) (hG' _ (List.getElem_mem hi)) (key i hi.le)) hI hl
  | @satStep y F G L o s a r c d hh e1 e2 e3 hI hl _ ih1 ih2 ih3 ih4 =>
    intro o' t t' hty ht ht' hx
    have hh' := hh.transfer hty (ht.skip_congr hA)
    have k := ht
    have k' := ht'
    cases ht with
    | skip _ h1 => exact (hh.not_skip hx h1).elim
    | satFix _ hF hL hG =>
      cases ht' with
      | skip _ h1 => exact (hh'.not_skip (hty ▸ hx) h1).elim
      | satFix _ hF' hL' hG' =>
        have key : ∀ i, i ≤ G.length → Dom C o.ty (c i) := by
          intro i
          induction i with
          | zero => exact fun _ => e2.dom hL (e1.dom hF hx)
          | succ i ihi =>
            intro hi
            have h1 := ihi (by omega)
            refine (hI i hi).dom ?_
            rintro p (hp | hp)
            · exact h1.pty p hp
            · exact ((e3 i hi).dom (hG _ (List.getElem_mem hi)) h1).pty p hp
        exact .satStep c d hh' (ih1 hty hF hF' hx) (ih2 hty hL hL' (e1.dom hF hx))
          (fun i hi => ih3 i hi hty (hG _ (List.getElem_mem hi)) (hG' _ (List.getElem_mem hi)) (key i hi.le)) hI hl
          (ih4 hty k k' (key _ le_rfl))
  | satInter f hh _ hr ih =>
    intro o' t t' hty ht ht' hx
    have hh' := hh.transfer hty (ht.skip_congr hA)
    cases ht with
    | skip _ h1 => exact (hh.not_skip hx h1).elim
    | satInter _ _ h =>
      cases ht' with
      | skip _ h1 => exact (hh'.not_skip (hty ▸ hx) h1).elim
      | satInter _ _ h' => exact .satInter f hh' (fun k hk => ih k hk hty (h k hk) (h' k hk) hx) hr
  | satSum f hh _ hr ih =>
    intro o' t t' hty ht ht' hx
    have hh' := hh.transfer hty (ht.skip_congr hA)
    cases ht with
    | skip _ h1 => exact (hh.not_skip hx h1).elim
    | satSum _ _ h =>
      cases ht' with
      | skip _ h1 => exact (hh'.not_skip (hty ▸ hx) h1).elim
      | satSum _ _ h' => exact .satSum f hh' (fun k hk => ih k hk hty (h k hk) (h' k hk) hx) hr
  | sum f hh _ hr ih =>
    intro o' t t' hty ht ht' hx
    have hh' := hh.transfer hty (ht.skip_congr hA)
    cases ht with
    | skip _ h1 => exact (hh.not_skip hx h1).elim
    | sum _ _ h =>
      cases ht' with
      | skip _ h1 => exact (hh'.not_skip (hty ▸ hx) h1).elim
      | sum _ _ h' => exact .sum f hh' (fun k hk => ih k hk hty (h k hk) (h' k hk) hx) hr

/-- The order is not needed in the key for homomorphisms which do not use identifiers. -/
theorem Transfer.of_idFree (hA : ∀ u, sc.A u → IdFree env u) : Transfer env C sc :=
  fun _ _ _ _ _ _ _ _ _ hty ht ht' hx e => e.transfer hA hty ht ht' hx

end Verif
