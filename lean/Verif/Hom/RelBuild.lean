import Verif.Hom.RelUniq
/-!
# The relations of the homomorphisms built by the library

The functions which build homomorphisms simplify what they build: they do not change the relations.
-/

set_option autoImplicit false
set_option linter.unusedSectionVars false

namespace Verif

open Relation (ReflTransGen)

variable {V E I U : Type} [DecidableEq V] [DecidableEq I] [DecidableEq U] {env : User V I U} {C : Cfg V E} {sc : Scope I U}

/-- `h` has the relation `R` on the paths of the order `o`. (Specification or proof device, not part of the code.) -/
def Rl (env : User V I U) (C : Cfg V E) (sc : Scope I U) (o : OB I) (h : Hom V I U) (t : Ty) (R : PRel E) : Prop :=
  ∃ R0, HRel env C sc o h t R0 ∧ REq o.ty R0 R

theorem HRel.rl {o : OB I} {h : Hom V I U} {t : Ty} {R : PRel E} (hr : HRel env C sc o h t R) : Rl env C sc o h t R := ⟨R, hr, .refl⟩

theorem Rl.congr {o : OB I} {h : Hom V I U} {t : Ty} {R R' : PRel E} (hr : Rl env C sc o h t R) (he : REq o.ty R R') :
    Rl env C sc o h t R' := by
  obtain ⟨R0, h1, h2⟩ := hr
  exact ⟨R0, h1, h2.trans he⟩

theorem Rl.rty {o : OB I} {h : Hom V I U} {t : Ty} {R : PRel E} (hr : Rl env C sc o h t R) : RTy o.ty t R := by
  obtain ⟨R0, h1, h2⟩ := hr
  exact h1.rty.congr h2

theorem Rl.hty {o : OB I} {h : Hom V I U} {t : Ty} {R : PRel E} (hr : Rl env C sc o h t R) : HTy env C sc o h t := by
  obtain ⟨R0, h1, h2⟩ := hr
  exact h1.hty

theorem Rl.unique (hC : C.Lawful) (hsg : Sing C) {o : OB I} {h : Hom V I U} {t t' : Ty} {R R' : PRel E}
    (hr : Rl env C sc o h t R) (hr' : Rl env C sc o h t' R') : REq o.ty R R' := by
  obtain ⟨R0, h1, h2⟩ := hr
  obtain ⟨R1, h3, h4⟩ := hr'
  exact h2.symm.trans ((h1.unique hC hsg h3).trans h4)

/-- The paths of the result are the images of the paths of the operand. -/
theorem Rl.image {o : OB I} {h : Hom V I U} {t : Ty} {R : PRel E} (hr : Rl env C sc o h t R) {x r : SDD V} (hx : Dom C o.ty x)
    (e : Ev env C h o x r) (p' : Path E) : Mem C p' r ↔ ∃ p, Mem C p x ∧ R p p' := by
  obtain ⟨R0, h1, h2⟩ := hr
  rw [h1.image hx e]
  exact exists_congr fun p => and_congr_right fun hp => h2 p (hx.pty p hp) p'

/-- Two homomorphisms with the same relation have the same results. -/
theorem Rl.same (hC : C.Lawful) {o : OB I} {h h' : Hom V I U} {t : Ty} {R : PRel E} (hr : Rl env C sc o h t R)
    (hr' : Rl env C sc o h' t R) {x r r' : SDD V} (hx : Dom C o.ty x) (e : Ev env C h o x r) (e' : Ev env C h' o x r') : r = r' :=
  canonical_ext hC (e.dom hr.hty hx).wf (e'.dom hr'.hty hx).wf fun p => by rw [hr.image hx e, hr'.image hx e']

/-- A relation of the homomorphism, if it has one. (Specification or proof device, not part of the code.) -/
noncomputable def relOf (env : User V I U) (C : Cfg V E) (sc : Scope I U) (o : OB I) (h : Hom V I U) : PRel E :=
  open Classical in if e : ∃ (R : PRel E) (t : Ty), HRel env C sc o h t R then e.choose else fun _ _ => False

/-- `h` has a relation on the paths of the order `o`. (Specification or proof device, not part of the code.) -/
def Ad (env : User V I U) (C : Cfg V E) (sc : Scope I U) (o : OB I) (h : Hom V I U) (t : Ty) : Prop := ∃ R, Rl env C sc o h t R

theorem Rl.ad {o : OB I} {h : Hom V I U} {t : Ty} {R : PRel E} (hr : Rl env C sc o h t R) : Ad env C sc o h t := ⟨R, hr⟩

theorem Rl.relEq (hC : C.Lawful) (hsg : Sing C) {o : OB I} {h : Hom V I U} {t : Ty} {R : PRel E} (hr : Rl env C sc o h t R) :
    REq o.ty R (relOf env C sc o h) := by
  have e : ∃ (R : PRel E) (t : Ty), HRel env C sc o h t R := by
    obtain ⟨R0, h1, _⟩ := hr
    exact ⟨R0, t, h1⟩
  obtain ⟨t', h'⟩ := e.choose_spec
  have h1 : relOf env C sc o h = e.choose := by rw [relOf]; exact dif_pos e
  rw [h1]
  exact hr.unique hC hsg h'.rl

theorem Ad.rl (hC : C.Lawful) (hsg : Sing C) {o : OB I} {h : Hom V I U} {t : Ty} (ha : Ad env C sc o h t) :
    Rl env C sc o h t (relOf env C sc o h) := by
  obtain ⟨R, hr⟩ := ha
  exact hr.congr (hr.relEq hC hsg)

/-! ## Skipped levels -/

theorem Rl.id {o : OB I} : Rl env C sc o .id o.ty fun p p' => p' = p := (HRel.id o).rl

theorem Rl.id_inv {o : OB I} {t : Ty} {R : PRel E} (hr : Rl env C sc o .id t R) : t = o.ty ∧ REq o.ty R fun p p' => p' = p := by
  obtain ⟨R0, h1, h2⟩ := hr
  cases h1 with
  | id => exact ⟨rfl, h2.symm⟩
  | skip h => exact absurd rfl h

theorem Rl.above {id : OId I} {nst nxt : OB I} {h : Hom V I U} {t : Ty} {R : PRel E} (hr : Rl env C sc nxt h t R)
    (hs : h.skip env nxt.lvl id = true) : Rl env C sc (.node id nst nxt) h (liftTy nst nxt t) (liftRel R) := by
  by_cases hid : h = .id
  · subst hid
    obtain ⟨rfl, h1⟩ := hr.id_inv
    rw [liftTy_ty (id := id)]
    refine Rl.id.congr ?_
    rw [← liftTy_ty]
    exact REq.lift_id.symm.trans h1.symm.lift
  · obtain ⟨R0, h1, h2⟩ := hr
    refine ⟨_, .skip hid hs h1, ?_⟩
    rw [← liftTy_ty]
    exact h2.lift

theorem Rl.sk {id : OId I} {nst nxt : OB I} {h : Hom V I U} {t : Ty} {R : PRel E} (hr : Rl env C sc (.node id nst nxt) h t R)
    (hs : h.skip env nxt.lvl id = true) :
    ∃ t' R', t = liftTy nst nxt t' ∧ Rl env C sc nxt h t' R' ∧ REq (OB.node id nst nxt).ty R (liftRel R') := by
  by_cases hid : h = .id
  · subst hid
    obtain ⟨rfl, h1⟩ := hr.id_inv
    refine ⟨nxt.ty, _, liftTy_ty.symm, Rl.id, h1.trans ?_⟩
    rw [← liftTy_ty]
    exact REq.lift_id.symm
  · obtain ⟨R0, h1, h2⟩ := hr
    cases h1 with
    | id => exact absurd rfl hid
    | skip _ _ h4 => exact ⟨_, _, rfl, h4.rl, h2.symm⟩
    | comp h4 | fix h4 | fixSel h4 | ite h4 | indF _ _ _ h4 | indH _ _ _ _ h4 | inter _ _ _ h4 | satFix _ h4
    | satInter _ _ _ h4 | satSum _ _ h4 | sum _ _ h4 => exact absurd (h4.symm.trans hs) (by simp)
    | consF | consH | const | fn | loc => simp [Hom.skip] at hs

theorem Ad.above {id : OId I} {nst nxt : OB I} {h : Hom V I U} {t : Ty} (hr : Ad env C sc nxt h t)
    (hs : h.skip env nxt.lvl id = true) : Ad env C sc (.node id nst nxt) h (liftTy nst nxt t) := by
  obtain ⟨R, hr⟩ := hr
  exact (hr.above hs).ad

theorem Ad.sk {id : OId I} {nst nxt : OB I} {h : Hom V I U} {t : Ty} (hr : Ad env C sc (.node id nst nxt) h (liftTy nst nxt t))
    (hs : h.skip env nxt.lvl id = true) : Ad env C sc nxt h t := by
  obtain ⟨R, hr⟩ := hr
  obtain ⟨t', R', h1, h2, _⟩ := hr.sk hs
  rw [liftTy_inj h1]
  exact h2.ad

/-- The relation at a skipped level. -/
theorem relOf_skip (hC : C.Lawful) (hsg : Sing C) {id : OId I} {nst nxt : OB I} {h : Hom V I U} {t : Ty}
    (ha : Ad env C sc nxt h t) (hs : h.skip env nxt.lvl id = true) :
    REq (OB.node id nst nxt).ty (relOf env C sc (.node id nst nxt) h) (liftRel (relOf env C sc nxt h)) :=
  (((ha.rl hC hsg).above hs).relEq hC hsg).symm

/-- Each order has a path. -/
theorem exists_pty (hsg : Sing C) (o : OB I) : ∃ p : Path E, PTy o.ty p := by
  induction o with
  | nil => exact ⟨.nil, trivial⟩
  | node id nst nxt ihn ih =>
    obtain ⟨q, hq⟩ := ih
    obtain ⟨n, hn⟩ := ihn
    obtain ⟨a⟩ := hsg.1
    by_cases h : nst = .nil
    · exact ⟨(Head.flat nxt.lvl a).cons q, pty_node.2 ⟨_, _, rfl, ⟨h, rfl⟩, hq⟩⟩
    · exact ⟨(Head.hier nxt.lvl n).cons q, pty_node.2 ⟨_, _, rfl, ⟨h, rfl, hn⟩, hq⟩⟩

theorem exists_head (hsg : Sing C) (nst nxt : OB I) : ∃ hd : Head E, HeadOK nst nxt hd := by
  obtain ⟨n, hn⟩ := exists_pty hsg nst
  obtain ⟨a⟩ := hsg.1
  by_cases h : nst = .nil
  · exact ⟨.flat nxt.lvl a, h, rfl⟩
  · exact ⟨.hier nxt.lvl n, h, rfl, hn⟩

theorem SubIdOn.congr {t : Ty} {R R' : PRel E} (h : SubIdOn t R) (he : REq t R R') : SubIdOn t R' :=
  fun p hp p' h1 => h p hp p' ((he p hp p').2 h1)

theorem ReflOn.congr {t : Ty} {R R' : PRel E} (h : ReflOn t R) (he : REq t R R') : ReflOn t R' :=
  fun p hp => (he p hp p).1 (h p hp)

theorem SubIdOn.unlift (hsg : Sing C) {nst nxt : OB I} {t : Ty} {R : PRel E} (h : SubIdOn (liftTy nst nxt t) (liftRel R)) :
    SubIdOn t R := by
  obtain ⟨hd, h0⟩ := exists_head hsg nst nxt
  intro p hp p' h1
  exact (Head.cons_inj (h _ (pty_cons.2 ⟨h0, hp⟩) (hd.cons p') ⟨hd, p, p', rfl, rfl, h1⟩)).2

theorem ReflOn.unlift (hsg : Sing C) {nst nxt : OB I} {t : Ty} {R : PRel E} (h : ReflOn (liftTy nst nxt t) (liftRel R)) :
    ReflOn t R := by
  obtain ⟨hd, h0⟩ := exists_head hsg nst nxt
  intro p hp
  obtain ⟨hd', q, q', h2, h3, h1⟩ := h _ (pty_cons.2 ⟨h0, hp⟩)
  rw [(Head.cons_inj h2).2]
  rw [← (Head.cons_inj h2).2] at h1 ⊢
  rwa [← (Head.cons_inj h3).2] at h1

theorem SubIdOn.lift {nst nxt : OB I} {t : Ty} {R : PRel E} (h : SubIdOn t R) : SubIdOn (liftTy nst nxt t) (liftRel R) := by
  rintro p hp p' ⟨hd, q, q', rfl, rfl, h1⟩
  rw [h q (pty_cons.1 hp).2 q' h1]

theorem ReflOn.lift {nst nxt : OB I} {t : Ty} {R : PRel E} (h : ReflOn t R) : ReflOn (liftTy nst nxt t) (liftRel R) := by
  intro p hp
  obtain ⟨hd, q, rfl, _, h2⟩ := pty_lift.1 hp
  exact ⟨hd, q, q, rfl, rfl, h q h2⟩

theorem liftRel_comp {R R' : PRel E} {p p' : Path E} :
    liftRel (relComp R R') p p' ↔ relComp (liftRel R) (liftRel R') p p' := by
  constructor
  · rintro ⟨hd, q, q', rfl, rfl, q1, h1, h2⟩
    exact ⟨hd.cons q1, ⟨hd, q, q1, rfl, rfl, h1⟩, hd, q1, q', rfl, rfl, h2⟩
  · rintro ⟨_, ⟨hd, q, q1, rfl, rfl, h1⟩, hd', q1', q', h3, rfl, h2⟩
    obtain ⟨rfl, rfl⟩ := Head.cons_inj h3
    exact ⟨hd, q, q', rfl, rfl, q1, h1, h2⟩

theorem liftRel_rtc {nst nxt : OB I} {t : Ty} {R : PRel E} :
    REq (liftTy nst nxt t) (liftRel (ReflTransGen R)) (ReflTransGen (liftRel R)) := by
  intro p hp p'
  obtain ⟨hd, q, rfl, _, _⟩ := pty_lift.1 hp
  constructor
  · rintro ⟨hd', q0, q', h1, rfl, h2⟩
    obtain ⟨rfl, rfl⟩ := Head.cons_inj h1
    induction h2 with
    | refl => exact .refl
    | tail _ h3 ih => exact ih.tail ⟨hd, _, _, rfl, rfl, h3⟩
  · intro h2
    suffices ∃ q', p' = hd.cons q' ∧ ReflTransGen R q q' by
      obtain ⟨q', rfl, h⟩ := this
      exact ⟨hd, q, q', rfl, rfl, h⟩
    induction h2 with
    | refl => exact ⟨q, rfl, .refl⟩
    | tail _ h3 ih =>
      obtain ⟨q', rfl, h4⟩ := ih
      obtain ⟨hd', q1, q2, h5, rfl, h6⟩ := h3
      obtain ⟨rfl, rfl⟩ := Head.cons_inj h5
      exact ⟨q2, rfl, h4.tail h6⟩

/-! ## Compositions -/

theorem Rl.comp {l r : Hom V I U} (o : OB I) : ∀ {t : Ty} {R R' : PRel E}, Rl env C sc o r o.ty R → Rl env C sc o l t R' →
    Rl env C sc o (.comp l r) t (relComp R R') := by
  have stop : ∀ {o : OB I} {t : Ty} {R R' : PRel E}, Stop env (.comp l r) o → Rl env C sc o r o.ty R → Rl env C sc o l t R' →
      Rl env C sc o (.comp l r) t (relComp R R') := by
    rintro o t R R' hst ⟨R1, h1, h2⟩ ⟨R2, h3, h4⟩
    exact ⟨_, .comp hst h1 h3, h2.comp h1.rty h4⟩
  induction o with
  | nil => intro t R R' h h'; exact stop trivial h h'
  | node id nst nxt _ ih =>
    intro t R R' h h'
    cases hs : (Hom.comp l r).skip env nxt.lvl id with
    | false => exact stop hs h h'
    | true =>
      have hs' : l.skip env nxt.lvl id = true ∧ r.skip env nxt.lvl id = true := by simpa [Hom.skip] using hs
      obtain ⟨t1, R1, h1, h2, h3⟩ := h.sk hs'.2
      rw [← liftTy_ty] at h1
      cases liftTy_inj h1
      obtain ⟨t2, R2, rfl, h5, h6⟩ := h'.sk hs'.1
      refine ((ih h2 h5).above hs).congr fun p hp p' => ?_
      rw [liftRel_comp]
      refine (REq.comp h3 h.rty (t' := (OB.node id nst nxt).ty) h6).symm p hp p'

theorem Rl.comp_inv {l r : Hom V I U} (o : OB I) : ∀ {t : Ty} {R : PRel E}, Rl env C sc o (.comp l r) t R →
    ∃ R1 R2, Rl env C sc o r o.ty R1 ∧ Rl env C sc o l t R2 ∧ REq o.ty R (relComp R1 R2) := by
  have stop : ∀ {o : OB I} {t : Ty} {R : PRel E}, Stop env (.comp l r) o → Rl env C sc o (.comp l r) t R →
      ∃ R1 R2, Rl env C sc o r o.ty R1 ∧ Rl env C sc o l t R2 ∧ REq o.ty R (relComp R1 R2) := by
    rintro o t R hst ⟨R0, h1, h2⟩
    cases h1 with
    | skip _ h4 => exact absurd (hst.symm.trans h4) (by simp)
    | comp _ h3 h4 => exact ⟨_, _, h3.rl, h4.rl, h2.symm⟩
  induction o with
  | nil => intro t R h; exact stop trivial h
  | node id nst nxt _ ih =>
    intro t R h
    cases hs : (Hom.comp l r).skip env nxt.lvl id with
    | false => exact stop hs h
    | true =>
      have hs' : l.skip env nxt.lvl id = true ∧ r.skip env nxt.lvl id = true := by simpa [Hom.skip] using hs
      obtain ⟨t1, R1, rfl, h2, h3⟩ := h.sk hs
      obtain ⟨Ra, Rb, h4, h5, h6⟩ := ih h2
      refine ⟨_, _, liftTy_ty (id := id) (nst := nst) ▸ h4.above hs'.2, h5.above hs'.1, h3.trans ?_⟩
      rw [← liftTy_ty]
      exact h6.lift.trans fun p _ p' => liftRel_comp

/-- The relation of a local. (Specification or proof device, not part of the code.) -/
def locRel (x : Nat) (R : PRel E) : PRel E := fun p p' => ∃ n n' q, p = .hier x n q ∧ p' = .hier x n' q ∧ R n n'

theorem REq.loc {id : OId I} {nst nxt : OB I} {x : Nat} {R R' : PRel E} (h : REq nst.ty R R') :
    REq (OB.node id nst nxt).ty (locRel x R) (locRel x R') := by
  intro p hp p'
  constructor
  · rintro ⟨n, n', q, rfl, rfl, h1⟩
    have hq := (pty_cons (hd := .hier x n)).1 (liftTy_ty (id := id) ▸ hp)
    exact ⟨n, n', q, rfl, rfl, (h n hq.1.2.2 n').1 h1⟩
  · rintro ⟨n, n', q, rfl, rfl, h1⟩
    have hq := (pty_cons (hd := .hier x n)).1 (liftTy_ty (id := id) ▸ hp)
    exact ⟨n, n', q, rfl, rfl, (h n hq.1.2.2 n').2 h1⟩

theorem Rl.loc {id : OId I} {nst nxt : OB I} {h : Hom V I U} {tn : Ty} {R : PRel E} (hne : nst ≠ .nil)
    (hr : Rl env C sc nst h tn R) :
    Rl env C sc (.node id nst nxt) (.loc nxt.lvl h) (.hier nxt.lvl tn nxt.ty) (locRel nxt.lvl R) := by
  obtain ⟨R0, h1, h2⟩ := hr
  exact ⟨_, .loc hne h1, h2.loc⟩

theorem Rl.loc_inv {x : Nat} {h : Hom V I U} {o : OB I} {t : Ty} {R : PRel E} (hr : Rl env C sc o (.loc x h) t R) :
    ∃ id nst nxt, o = .node id nst nxt ∧
      ((x = nxt.lvl ∧ nst ≠ .nil ∧ ∃ tn R', t = .hier nxt.lvl tn nxt.ty ∧ Rl env C sc nst h tn R' ∧ REq o.ty R (locRel nxt.lvl R')) ∨
        (x ≠ nxt.lvl ∧ ∃ t' R', t = liftTy nst nxt t' ∧ Rl env C sc nxt (.loc x h) t' R' ∧ REq o.ty R (liftRel R'))) := by
  obtain ⟨R0, h1, h2⟩ := hr
  cases h1 with
  | skip _ hs h3 =>
    simp only [Hom.skip, decide_eq_true_eq, ne_eq] at hs
    exact ⟨_, _, _, rfl, Or.inr ⟨fun h => hs h.symm, _, _, rfl, h3.rl, h2.symm⟩⟩
  | loc hne h3 => exact ⟨_, _, _, rfl, Or.inl ⟨rfl, hne, _, _, rfl, h3.rl, h2.symm⟩⟩

theorem hier_ty {id : OId I} {nst nxt : OB I} (h : nst ≠ .nil) :
    (OB.node id nst nxt).ty = .hier nxt.lvl nst.ty nxt.ty := by
  cases nst with
  | nil => exact absurd rfl h
  | node => rfl

theorem locRel_id {id : OId I} {nst nxt : OB I} (h : nst ≠ .nil) :
    REq (E := E) (OB.node id nst nxt).ty (locRel nxt.lvl fun p p' => p' = p) fun p p' => p' = p := by
  intro p hp p'
  constructor
  · rintro ⟨n, n', q, rfl, rfl, rfl⟩; rfl
  · rintro rfl
    obtain ⟨hd, q, rfl, h1, _⟩ := pty_node.1 hp
    cases hd with
    | flat => exact absurd h1.1 h
    | hier x n => obtain ⟨_, rfl, _⟩ := h1; exact ⟨n, n, q, rfl, rfl, rfl⟩

theorem locRel_comp {x : Nat} {R R' : PRel E} {p p' : Path E} :
    locRel x (relComp R R') p p' ↔ relComp (locRel x R) (locRel x R') p p' := by
  constructor
  · rintro ⟨n, n', q, rfl, rfl, n1, h1, h2⟩
    exact ⟨.hier x n1 q, ⟨n, n1, q, rfl, rfl, h1⟩, n1, n', q, rfl, rfl, h2⟩
  · rintro ⟨_, ⟨n, n1, q, rfl, rfl, h1⟩, n2, n', q', h3, rfl, h2⟩
    cases h3
    exact ⟨n, n', q, rfl, rfl, n1, h1, h2⟩

/-- A local of the identity is the identity. -/
theorem Rl.loc_id {x : Nat} (o : OB I) : ∀ {t : Ty} {R : PRel E}, Rl env C sc o (.loc x .id) t R →
    t = o.ty ∧ REq o.ty R fun p p' => p' = p := by
  induction o with
  | nil =>
    intro t R h
    obtain ⟨_, _, _, he, _⟩ := h.loc_inv
    cases he
  | node id nst nxt _ ih =>
    intro t R h
    obtain ⟨_, _, _, he, ⟨_, h1, tn, R', rfl, h2, h3⟩ | ⟨_, t', R', rfl, h2, h3⟩⟩ := h.loc_inv
    · cases he
      obtain ⟨rfl, h4⟩ := h2.id_inv
      exact ⟨(hier_ty h1).symm, h3.trans (h4.loc.trans (locRel_id h1))⟩
    · cases he
      obtain ⟨rfl, h4⟩ := ih h2
      refine ⟨liftTy_ty, h3.trans ?_⟩
      rw [← liftTy_ty]
      exact h4.lift.trans .lift_id

/-- `local` does not change the relation. -/
theorem Rl.hloc {x : Nat} {h : Hom V I U} {o : OB I} {t : Ty} {R : PRel E} (hr : Rl env C sc o (.loc x h) t R) :
    Rl env C sc o (hloc x h) t R := by
  unfold Verif.hloc
  split
  · rename_i h1
    subst h1
    obtain ⟨rfl, h2⟩ := hr.loc_id
    exact Rl.id.congr h2.symm
  · exact hr

/-- Locals of the same variable may be composed inside. -/
theorem Rl.loc_comp {x : Nat} {a b k : Hom V I U}
    (hk : ∀ {o : OB I} {t : Ty} {R R' : PRel E}, Rl env C sc o b o.ty R → Rl env C sc o a t R' → Rl env C sc o k t (relComp R R'))
    (o : OB I) : ∀ {t : Ty} {R R' : PRel E}, Rl env C sc o (.loc x b) o.ty R → Rl env C sc o (.loc x a) t R' →
      Rl env C sc o (.loc x k) t (relComp R R') := by
  induction o with
  | nil =>
    intro t R R' h
    obtain ⟨_, _, _, he, _⟩ := h.loc_inv
    cases he
  | node id nst nxt _ ih =>
    intro t R R' h h'
    have hty := h.rty
    obtain ⟨_, _, _, he, ⟨hx, h1, tn, R1, ht, h2, h3⟩ | ⟨hx, t1, R1, ht, h2, h3⟩⟩ := h.loc_inv
    · cases he
      obtain ⟨_, _, _, he', ⟨_, h5, tn', R2, ht', h6, h7⟩ | ⟨hx', _⟩⟩ := h'.loc_inv
      · cases he'
        subst hx
        rw [hier_ty h1] at ht
        cases ht
        subst ht'
        refine (Rl.loc h1 (hk h2 h6)).congr fun p hp p' => ?_
        rw [locRel_comp]
        exact (h3.comp hty h7).symm p hp p'
      · cases he'
        exact absurd hx hx'
    · cases he
      rw [← liftTy_ty] at ht
      cases liftTy_inj ht
      obtain ⟨_, _, _, he', ⟨hx', _⟩ | ⟨_, t2, R2, ht', h6, h7⟩⟩ := h'.loc_inv
      · cases he'
        exact absurd hx' hx
      · cases he'
        subst ht'
        refine ((ih h2 h6).above (loc_skip hx)).congr fun p hp p' => ?_
        rw [liftRel_comp]
        exact (h3.comp hty h7).symm p hp p'

theorem relComp_assoc {R1 R2 R3 : PRel E} {p p' : Path E} :
    relComp (relComp R1 R2) R3 p p' ↔ relComp R1 (relComp R2 R3) p p' := by
  constructor
  · rintro ⟨q, ⟨q', h1, h2⟩, h3⟩; exact ⟨q', h1, q, h2, h3⟩
  · rintro ⟨q', h1, q, h2, h3⟩; exact ⟨q, ⟨q', h1, h2⟩, h3⟩

theorem Rl.hcompGen {a b : Hom V I U} {o : OB I} {t : Ty} {Ra Rb : PRel E} (hb : Rl env C sc o b o.ty Rb)
    (ha : Rl env C sc o a t Ra) : Rl env C sc o (hcompGen a b) t (relComp Rb Ra) := by
  unfold Verif.hcompGen
  split
  · rename_i h; subst h
    obtain ⟨rfl, h1⟩ := ha.id_inv
    refine hb.congr fun p hp p' => ?_
    rw [← (REq.refl (R := Rb)).comp hb.rty h1.symm p hp p']
    constructor
    · intro h; exact ⟨p', h, rfl⟩
    · rintro ⟨q, h, rfl⟩; exact h
  · split
    · rename_i h; subst h
      obtain ⟨_, h1⟩ := hb.id_inv
      refine ha.congr fun p hp p' => ?_
      constructor
      · intro h; exact ⟨p, (h1 p hp p).2 rfl, h⟩
      · rintro ⟨q, h, h'⟩; cases (h1 p hp q).1 h; exact h'
    · exact Rl.comp o hb ha

theorem Rl.hcompLoc {x : Nat} {a : Hom V I U} {rec : Hom V I U → Hom V I U}
    (hk : ∀ b, ∀ {o : OB I} {t : Ty} {R R' : PRel E}, Rl env C sc o b o.ty R → Rl env C sc o a t R' → Rl env C sc o (rec b) t (relComp R R'))
    (b : Hom V I U) : ∀ {o : OB I} {t : Ty} {Ra Rb : PRel E}, Rl env C sc o b o.ty Rb → Rl env C sc o (.loc x a) t Ra →
      Rl env C sc o (hcompLoc x a rec b) t (relComp Rb Ra) := by
  induction b using Hom.induct with
  | loc y b =>
    intro o t Ra Rb hb ha
    unfold Verif.hcompLoc
    split
    · rename_i h; subst h
      exact (Rl.loc_comp (hk b) o hb ha).hloc
    · exact Rl.comp o hb ha
  | comp r1 r2 ih1 ih2 =>
    intro o t Ra Rb hb ha
    obtain ⟨R1, R2, h1, h2, h3⟩ := Rl.comp_inv o hb
    unfold Verif.hcompLoc
    refine (Rl.comp o h1 (ih1 h2 ha)).congr fun p hp p' => ?_
    rw [← relComp_assoc]
    exact (h3.comp hb.rty REq.refl).symm p hp p'
  | _ =>
    intro o t Ra Rb hb ha
    simp only [Verif.hcompLoc]
    exact Rl.hcompGen hb ha

/-- `composition(a, b)` does `b` then `a`. -/
theorem Rl.hcomp (a : Hom V I U) : ∀ (b : Hom V I U) {o : OB I} {t : Ty} {Ra Rb : PRel E}, Rl env C sc o b o.ty Rb →
    Rl env C sc o a t Ra → Rl env C sc o (hcomp a b) t (relComp Rb Ra) := by
  induction a using Hom.induct with
  | loc x a ih =>
    intro b o t Ra Rb hb ha
    unfold Verif.hcomp
    exact Rl.hcompLoc (fun b => ih b) b hb ha
  | comp l1 l2 ih1 ih2 =>
    intro b o t Ra Rb hb ha
    obtain ⟨R1, R2, h1, h2, h3⟩ := Rl.comp_inv o ha
    cases b with
    | loc y b =>
      simp only [Verif.hcomp]
      refine (Rl.comp o (ih2 _ hb h1) h2).congr fun p hp p' => ?_
      rw [relComp_assoc]
      exact (REq.refl.comp hb.rty h3).symm p hp p'
    | comp r1 r2 =>
      obtain ⟨R3, R4, h4, h5, h6⟩ := Rl.comp_inv o hb
      simp only [Verif.hcomp]
      refine (Rl.comp o (Rl.comp o h4 (ih2 _ h5 h1)) h2).congr fun p hp p' => ?_
      rw [(h6.comp hb.rty h3) p hp p']
      constructor
      · rintro ⟨q, ⟨q1, h1, q2, h2, h3⟩, h4⟩; exact ⟨q2, ⟨q1, h1, h2⟩, q, h3, h4⟩
      · rintro ⟨q2, ⟨q1, h1, h2⟩, q, h3, h4⟩; exact ⟨q, ⟨q1, h1, q2, h2, h3⟩, h4⟩
    | _ => simp only [Verif.hcomp]; exact Rl.hcompGen hb ha
  | _ =>
    intro b o t Ra Rb hb ha
    cases b <;> simp only [Verif.hcomp] <;> exact Rl.hcompGen hb ha

end Verif
