import Verif.Hom.BuildSum
/-!
# The relation of a homomorphism is determined

A homomorphism has at most one relation on the paths of an order (`HRel.unique`), when each one-element set of values is a value.
-/

set_option autoImplicit false
set_option linter.unusedSectionVars false

namespace Verif

open Relation (ReflTransGen)

variable {V E I U : Type} [DecidableEq I]

/-- There is an element, and each one-element set is a value. (Specification or proof device, not part of the code.) -/
def Sing (C : Cfg V E) : Prop := Nonempty E ∧ ∀ a, ∃ v, ∀ b, C.vmem b v ↔ b = a

/-- The first steps of the paths of an order. (Specification or proof device, not part of the code.) -/
def HeadOK (nst nxt : OB I) : Head E → Prop
  | .flat x _ => nst = .nil ∧ x = nxt.lvl
  | .hier x n => nst ≠ .nil ∧ x = nxt.lvl ∧ PTy nst.ty n

theorem pty_cons {nst nxt : OB I} {t : Ty} {hd : Head E} {q : Path E} :
    PTy (liftTy nst nxt t) (hd.cons q) ↔ HeadOK nst nxt hd ∧ PTy t q := by
  cases nst with
  | nil =>
    cases hd with
    | flat x a =>
      simp only [liftTy, Head.cons, PTy, Ty.flatNext, HeadOK]
      constructor
      · rintro ⟨t', h1, h2⟩
        split at h1
        · cases h1; rename_i h; exact ⟨⟨trivial, h.symm⟩, h2⟩
        · cases h1
      · rintro ⟨⟨_, rfl⟩, h⟩; exact ⟨t, by simp, h⟩
    | hier x n => simp [liftTy, Head.cons, PTy, Ty.hierNext, HeadOK]
  | node a b c =>
    cases hd with
    | flat x a => simp [liftTy, Head.cons, PTy, Ty.flatNext, HeadOK]
    | hier x n =>
      simp only [liftTy, Head.cons, PTy, Ty.hierNext, HeadOK]
      constructor
      · rintro ⟨tn, t', h1, h2, h3⟩
        split at h1
        · cases h1; rename_i h; exact ⟨⟨by simp, h.symm, h2⟩, h3⟩
        · cases h1
      · rintro ⟨⟨_, rfl, h1⟩, h⟩; exact ⟨_, _, by simp, h1, h⟩

/-- The paths of a level. -/
theorem pty_lift {nst nxt : OB I} {t : Ty} {p : Path E} :
    PTy (liftTy nst nxt t) p ↔ ∃ (hd : Head E) (q : Path E), p = hd.cons q ∧ HeadOK nst nxt hd ∧ PTy t q := by
  constructor
  · intro h
    rcases p.cases_head with rfl | ⟨hd, q, rfl⟩
    · cases nst <;> exact h.elim
    · exact ⟨hd, q, rfl, pty_cons.1 h⟩
  · rintro ⟨hd, q, rfl, h⟩; exact pty_cons.2 h

theorem pty_node {id : OId I} {nst nxt : OB I} {p : Path E} :
    PTy (OB.node id nst nxt).ty p ↔
      ∃ (hd : Head E) (q : Path E), p = hd.cons q ∧ HeadOK nst nxt hd ∧ PTy nxt.ty q := by
  rw [← liftTy_ty, pty_lift]

/-- The same relations on the paths of a shape. (Specification or proof device, not part of the code.) -/
def REq (t : Ty) (R R' : PRel E) : Prop := ∀ p, PTy t p → ∀ p', R p p' ↔ R' p p'

theorem REq.refl {t : Ty} {R : PRel E} : REq t R R := fun _ _ _ => Iff.rfl
theorem REq.symm {t : Ty} {R R' : PRel E} (h : REq t R R') : REq t R' R := fun p hp p' => (h p hp p').symm
theorem REq.trans {t : Ty} {R R' R'' : PRel E} (h : REq t R R') (h' : REq t R' R'') : REq t R R'' :=
  fun p hp p' => (h p hp p').trans (h' p hp p')

/-- A relation whose results have a shape. (Specification or proof device, not part of the code.) -/
def RTy (t t' : Ty) (R : PRel E) : Prop := ∀ p, PTy t p → ∀ p', R p p' → PTy t' p'

theorem RTy.rtc {t : Ty} {R : PRel E} (h : RTy t t R) : RTy t t (ReflTransGen R) := by
  intro p hp p' hr
  induction hr with
  | refl => exact hp
  | tail _ h2 ih => exact h _ ih _ h2

theorem REq.rtc_mono {t : Ty} {R R' : PRel E} (h : REq t R R') (hr : RTy t t R) {p p' : Path E} (hp : PTy t p)
    (hs : ReflTransGen R p p') : ReflTransGen R' p p' ∧ PTy t p' := by
  induction hs with
  | refl => exact ⟨.refl, hp⟩
  | tail _ h2 ih => exact ⟨ih.1.tail ((h _ ih.2 _).1 h2), hr _ ih.2 _ h2⟩

theorem RTy.congr {t t' : Ty} {R R' : PRel E} (h : REq t R R') (hr : RTy t t' R) : RTy t t' R' :=
  fun p hp p' h1 => hr p hp p' ((h p hp p').2 h1)

theorem REq.rtc {t : Ty} {R R' : PRel E} (h : REq t R R') (hr : RTy t t R) : REq t (ReflTransGen R) (ReflTransGen R') :=
  fun _ hp _ => ⟨fun h1 => (h.rtc_mono hr hp h1).1, fun h1 => (h.symm.rtc_mono (hr.congr h) hp h1).1⟩

/-- Composition of relations, the first one first. (Specification or proof device, not part of the code.) -/
def relComp (R R' : PRel E) : PRel E := fun p p' => ∃ q, R p q ∧ R' q p'

theorem REq.comp {t t' : Ty} {R1 R1' R2 R2' : PRel E} (h : REq t R1 R1') (hr : RTy t t' R1) (h' : REq t' R2 R2') :
    REq t (relComp R1 R2) (relComp R1' R2') := by
  intro p hp p'
  constructor
  · rintro ⟨q, h1, h2⟩; exact ⟨q, (h p hp q).1 h1, (h' q (hr p hp q h1) p').1 h2⟩
  · rintro ⟨q, h1, h2⟩
    have h1' := (h p hp q).2 h1
    exact ⟨q, h1', (h' q (hr p hp q h1') p').2 h2⟩

theorem REq.lift {nst nxt : OB I} {t : Ty} {R R' : PRel E} (h : REq t R R') :
    REq (liftTy nst nxt t) (liftRel R) (liftRel R') := by
  intro p hp p'
  constructor
  · rintro ⟨hd, q, q', rfl, rfl, h1⟩; exact ⟨hd, q, q', rfl, rfl, (h q (pty_cons.1 hp).2 q').1 h1⟩
  · rintro ⟨hd, q, q', rfl, rfl, h1⟩; exact ⟨hd, q, q', rfl, rfl, (h q (pty_cons.1 hp).2 q').2 h1⟩

theorem REq.lift_id {nst nxt : OB I} {t : Ty} :
    REq (E := E) (liftTy nst nxt t) (liftRel fun p p' => p' = p) (fun p p' => p' = p) := by
  intro p hp p'
  obtain ⟨hd, q, rfl, h1, h2⟩ := pty_lift.1 hp
  constructor
  · rintro ⟨hd', q1, q2, he, rfl, rfl⟩; exact he.symm
  · rintro rfl; exact ⟨hd, q, q, rfl, rfl, rfl⟩

theorem RTy.lift {nst nxt : OB I} {t t' : Ty} {R : PRel E} (h : RTy t t' R) :
    RTy (liftTy nst nxt t) (liftTy nst nxt t') (liftRel R) := by
  rintro p hp p' ⟨hd, q, q', rfl, rfl, h1⟩
  obtain ⟨h2, h3⟩ := pty_cons.1 hp
  exact pty_cons.2 ⟨h2, h q h3 q' h1⟩

section
variable [DecidableEq V] [DecidableEq U] {env : User V I U} {C : Cfg V E} {sc : Scope I U}

/-- The paths of the results have the shape of the results. -/
theorem HRel.rty {o : OB I} {h : Hom V I U} {t : Ty} {R : PRel E} (hr : HRel env C sc o h t R) : RTy o.ty t R := by
  induction hr with
  | id o => rintro p hp p' rfl; exact hp
  | skip h1 h2 _ ih => rw [← liftTy_ty]; exact ih.lift
  | comp h1 _ _ ih1 ih2 => rintro p hp p' ⟨q, h1, h2⟩; exact ih2 q (ih1 p hp q h1) p' h2
  | consF _ h1 _ ih =>
    rintro p hp p' ⟨a, q, rfl, _, h2⟩
    exact ⟨_, by simp [Ty.flatNext], ih p (h1 ▸ hp) q h2⟩
  | consH _ h1 h2 h3 _ ih =>
    rintro p hp p' ⟨n, q, rfl, h4, h5⟩
    exact ⟨_, _, by simp [Ty.hierNext], h3.pty n h4, ih p (h1 ▸ hp) q h5⟩
  | const h1 h2 => intro p hp p' h; exact h2.pty p' h
  | fix h1 _ _ ih => exact ih.rtc
  | fixSel h1 _ _ ih => exact ih
  | fnNil => rintro p hp p' rfl; exact hp
  | fn f hf =>
    rintro p hp p' ⟨a, b, q, rfl, rfl, _⟩
    obtain ⟨t', h1, h2⟩ := hp
    exact ⟨t', h1, h2⟩
  | ite h1 h2 _ _ _ _ ih1 ih2 ih3 =>
    rintro p hp p' (⟨_, h⟩ | ⟨_, h⟩)
    · exact ih2 p hp p' h
    · exact ih3 p hp p' h
  | indNil _ h1 h2 => intro p hp p' h; exact h2.pty p' h
  | indF T _ h1 h2 h3 _ ih =>
    rintro p hp p' ⟨a, q, rfl, h⟩
    exact h3 a q p' (by obtain ⟨t', h4, h5⟩ := hp; simp [OB.ty, Ty.flatNext, OB.lvl] at h4; exact h4 ▸ h5) h
  | @indH id nst nxt u t T _ h1 h2 h3 h4 _ ih =>
    rintro p hp p' ⟨n, q, rfl, h⟩
    have := (pty_cons (hd := .hier nxt.lvl n)).1 (liftTy_ty (id := id) ▸ hp)
    exact h4 n q p' this.1.2.2 this.2 h
  | inter R h1 hne h2 _ _ ih =>
    intro p hp p' h
    obtain ⟨g, hg⟩ := List.exists_mem_of_ne_nil _ hne
    exact ih g hg p hp p' (h g hg)
  | @loc id nst nxt h tn R h1 _ ih =>
    rintro p hp p' ⟨n, n', q, rfl, rfl, h⟩
    have := (pty_cons (hd := .hier nxt.lvl n)).1 (liftTy_ty (id := id) ▸ hp)
    exact ⟨tn, nxt.ty, by simp [Ty.hierNext], ih n this.1.2.2 n' h, this.2⟩
  | satFix R h1 _ _ _ _ _ ih1 ih2 ih3 =>
    refine RTy.rtc ?_
    rintro p hp p' (h | h | ⟨g, hg, h⟩)
    · exact ih1 p hp p' h
    · exact ih2 p hp p' h
    · exact ih3 g hg p hp p' h
  | satInter R h1 hne h2 _ _ ih =>
    intro p hp p' h
    obtain ⟨g, hg⟩ := List.exists_mem_of_ne_nil _ hne
    exact ih g hg p hp p' (h g hg)
  | satSum R h1 h2 _ ih => rintro p hp p' ⟨g, hg, h⟩; exact ih g hg p hp p' h
  | sum R h1 h2 _ ih => rintro p hp p' ⟨g, hg, h⟩; exact ih g hg p hp p' h

/-- Each path of an order is the only one of some SDD. -/
theorem exists_single (hC : C.Lawful) (hsg : Sing C) (o : OB I) : ∀ p : Path E, PTy o.ty p →
    ∃ s : SDD V, Dom C o.ty s ∧ ∀ q, Mem C q s ↔ q = p := by
  induction o with
  | nil =>
    intro p hp
    refine ⟨.one, .one _ trivial, fun q => ?_⟩
    have : p = .nil := by
      cases p with
      | nil => rfl
      | flat | hier => simp [PTy, OB.ty, Ty.flatNext, Ty.hierNext] at hp
    subst this
    cases q <;> simp [Mem]
  | node id nst nxt ihn ih =>
    intro p hp
    obtain ⟨hd, q, rfl, h1, h2⟩ := pty_node.1 hp
    obtain ⟨s, hs, hm⟩ := ih q h2
    cases hd with
    | flat x a =>
      obtain ⟨rfl, rfl⟩ := h1
      obtain ⟨v, hv⟩ := hsg.2 a
      refine ⟨mkNode1 (m := Plain (fun _ => []) V) (flatKind C) nxt.lvl v s, mkNode1_flat_dom hC hs, fun q' => ?_⟩
      rw [(mkNode1_flat hC hs.wf).2]
      constructor
      · rintro ⟨b, q1, rfl, hb, hq⟩
        rw [(hv b).1 hb, (hm q1).1 hq]; rfl
      · rintro rfl; exact ⟨a, q, rfl, (hv a).2 rfl, (hm q).2 rfl⟩
    | hier x n =>
      obtain ⟨h0, rfl, hn⟩ := h1
      obtain ⟨v, hv, hvm⟩ := ihn n hn
      refine ⟨mkNode1 (m := Plain (fun _ => []) V) (hierKind C fun _ => pure .zero) nxt.lvl v s, ?_, fun q' => ?_⟩
      · have : (OB.node id nst nxt).ty = .hier nxt.lvl nst.ty nxt.ty := by
          cases nst with
          | nil => exact absurd rfl h0
          | node => rfl
        rw [this]
        exact mkNode1_hier_dom hv hs
      · rw [(mkNode1_hier hv.wf hs.wf).2]
        constructor
        · rintro ⟨b, q1, rfl, hb, hq⟩
          rw [(hvm b).1 hb, (hm q1).1 hq]; rfl
        · rintro rfl; exact ⟨n, q, rfl, (hvm n).2 rfl, (hm q).2 rfl⟩

/-- A homomorphism has one relation. -/
theorem HRel.unique (hC : C.Lawful) (hsg : Sing C) {o : OB I} {h : Hom V I U} {t : Ty} {R : PRel E}
    (hr : HRel env C sc o h t R) : ∀ {t' : Ty} {R' : PRel E}, HRel env C sc o h t' R' → REq o.ty R R' := by
  induction hr with
  | id o =>
    intro t' R' h'
    cases h' with
    | id => exact .refl
    | skip h => exact absurd rfl h
  | @skip id nst nxt h t R h1 h2 h3 ih =>
    intro t' R' h'
    rw [← liftTy_ty]
    cases h' with
    | id => exact absurd rfl h1
    | skip _ _ h4 => exact (ih h4).lift
    | comp h4 | fix h4 | fixSel h4 | ite h4 | indF _ _ _ h4 | indH _ _ _ _ h4 | inter _ _ _ h4 | satFix _ h4
    | satInter _ _ _ h4 | satSum _ _ h4 | sum _ _ h4 => exact absurd (h4.symm.trans h2) (by simp)
    | consF | consH | const | fn | loc => simp [Hom.skip] at h2
  | @comp o l r t R1 R2 h1 h2 h3 ih1 ih2 =>
    intro t' R' h'
    cases h' with
    | skip _ h4 => exact absurd (h1.symm.trans h4) (by simp)
    | comp _ h4 h5 => exact (ih1 h4).comp h2.rty (ih2 h5)
  | consF _ h1 h2 ih =>
    intro t' R' h'
    cases h' with
    | skip _ h4 => simp [Hom.skip] at h4
    | consF _ h3 h4 =>
      intro p hp p'
      simp only [ih h4 p (h1 ▸ hp)]
  | consH _ h1 _ _ h2 ih =>
    intro t' R' h'
    cases h' with
    | skip _ h4 => simp [Hom.skip] at h4
    | consH _ h3 _ _ h4 =>
      intro p hp p'
      simp only [ih h4 p (h1 ▸ hp)]
  | const =>
    intro t' R' h'
    cases h' with
    | skip _ h4 => simp [Hom.skip] at h4
    | const => exact .refl
  | @fix o h R h1 h2 h3 ih =>
    intro t' R' h'
    cases h' with
    | skip _ h4 => exact absurd (h1.symm.trans h4) (by simp)
    | fix _ h4 h5 => exact (ih h4).rtc h2.rty
    | fixSel _ h4 h5 =>
      intro p hp p'
      constructor
      · intro h6
        have : p' = p := by
          induction h6 with
          | refl => rfl
          | tail _ h8 ih8 => subst ih8; exact h5 _ hp _ ((ih h4 _ hp _).1 h8)
        subst this
        exact (ih h4 _ hp _).1 (h3 _ hp)
      · intro h6; exact .single ((ih h4 p hp p').2 h6)
  | @fixSel o h R h1 h2 h3 ih =>
    intro t' R' h'
    cases h' with
    | skip _ h4 => exact absurd (h1.symm.trans h4) (by simp)
    | fixSel _ h4 h5 => exact ih h4
    | fix _ h4 h5 =>
      intro p hp p'
      constructor
      · intro h6; exact .single ((ih h4 p hp p').1 h6)
      · intro h6
        have : p' = p := by
          induction h6 with
          | refl => rfl
          | tail _ h8 ih8 => subst ih8; exact h3 _ hp _ ((ih h4 _ hp _).2 h8)
        subst this
        exact (ih h4 _ hp _).2 (h5 _ hp)
  | fnNil =>
    intro t' R' h'
    cases h' with
    | fnNil => exact .refl
  | fn f hf =>
    intro t' R' h'
    cases h' with
    | skip _ h4 => simp [Hom.skip] at h4
    | fn f' hf' =>
      have key : ∀ a b, f a b ↔ f' a b := by
        intro a b
        obtain ⟨v, hv⟩ := hsg.2 a
        have h1 := (hf v ⟨a, (hv a).2 rfl⟩ b).symm.trans (hf' v ⟨a, (hv a).2 rfl⟩ b)
        simpa [hv] using h1
      intro p hp p'
      simp only [key]
  | ite h1 h2 h3 h4 h5 h6 ih1 ih2 ih3 =>
    intro t' R' h'
    cases h' with
    | skip _ h7 => exact absurd (h1.symm.trans h7) (by simp)
    | ite _ _ h8 h9 h10 h11 =>
      intro p hp p'
      simp only [ih1 h8 p hp, ih2 h10 p hp, ih3 h11 p hp]
  | indNil =>
    intro t' R' h'
    cases h' with
    | indNil => exact .refl
  | @indF id nxt u t T _ h1 h2 h3 h4 ih =>
    intro t' R' h'
    cases h' with
    | skip _ h7 => exact absurd (h2.symm.trans h7) (by simp)
    | indH _ _ _ h => exact absurd rfl h
    | indF T' _ _ _ _ h5 =>
      intro p hp p'
      have key : ∀ a q, PTy nxt.ty q → ∀ p', T a q p' ↔ T' a q p' := by
        intro a q hq p'
        obtain ⟨v, hv⟩ := hsg.2 a
        have h6 := ih v ⟨a, (hv a).2 rfl⟩ (h5 v ⟨a, (hv a).2 rfl⟩) q hq p'
        simpa [hv] using h6
      constructor
      · rintro ⟨a, q, rfl, h⟩
        have hq := (pty_cons (hd := .flat nxt.lvl a)).1 (liftTy_ty (id := id) ▸ hp)
        exact ⟨a, q, rfl, (key a q hq.2 p').1 h⟩
      · rintro ⟨a, q, rfl, h⟩
        have hq := (pty_cons (hd := .flat nxt.lvl a)).1 (liftTy_ty (id := id) ▸ hp)
        exact ⟨a, q, rfl, (key a q hq.2 p').2 h⟩
  | @indH id nst nxt u t T _ h1 h0 h2 h3 h4 ih =>
    intro t' R' h'
    cases h' with
    | skip _ h7 => exact absurd (h2.symm.trans h7) (by simp)
    | indF => exact absurd rfl h0
    | indH T' _ _ _ _ _ h5 =>
      intro p hp p'
      have key : ∀ n q, PTy nst.ty n → PTy nxt.ty q → ∀ p', T n q p' ↔ T' n q p' := by
        intro n q hn hq p'
        obtain ⟨v, hv, hvm⟩ := exists_single hC hsg nst n hn
        have hv0 : v ≠ .zero := by rintro rfl; exact not_mem_zero n ((hvm n).2 rfl)
        have h6 := ih v hv hv0 (h5 v hv hv0) q hq p'
        simpa [hvm] using h6
      constructor
      · rintro ⟨n, q, rfl, h⟩
        have hq := (pty_cons (hd := .hier nxt.lvl n)).1 (liftTy_ty (id := id) ▸ hp)
        exact ⟨n, q, rfl, (key n q hq.1.2.2 hq.2 p').1 h⟩
      · rintro ⟨n, q, rfl, h⟩
        have hq := (pty_cons (hd := .hier nxt.lvl n)).1 (liftTy_ty (id := id) ▸ hp)
        exact ⟨n, q, rfl, (key n q hq.1.2.2 hq.2 p').2 h⟩
  | inter R h1 hne h2 h3 _ ih =>
    intro t' R' h'
    cases h' with
    | skip _ h7 => exact absurd (h2.symm.trans h7) (by simp)
    | inter R2 _ _ _ h4 =>
      intro p hp p'
      exact forall₂_congr fun g hg => ih g hg (h4 g hg) p hp p'
  | @loc id nst nxt h tn R h1 h2 ih =>
    intro t' R' h'
    cases h' with
    | skip _ h7 => simp [Hom.skip] at h7
    | loc _ h4 =>
      intro p hp p'
      constructor
      · rintro ⟨n, n', q, rfl, rfl, h⟩
        have hq := (pty_cons (hd := .hier nxt.lvl n)).1 (liftTy_ty (id := id) ▸ hp)
        exact ⟨n, n', q, rfl, rfl, (ih h4 n hq.1.2.2 n').1 h⟩
      · rintro ⟨n, n', q, rfl, rfl, h⟩
        have hq := (pty_cons (hd := .hier nxt.lvl n)).1 (liftTy_ty (id := id) ▸ hp)
        exact ⟨n, n', q, rfl, rfl, (ih h4 n hq.1.2.2 n').2 h⟩
  | satFix R h1 h2 _ h3 _ h4 ih1 ih2 ih3 =>
    intro t' R' h'
    cases h' with
    | skip _ h7 => exact absurd (h1.symm.trans h7) (by simp)
    | satFix R2 _ h5 _ h6 _ h7 =>
      refine REq.rtc ?_ ?_
      · intro p hp p'
        exact or_congr (ih1 h5 p hp p') (or_congr (ih2 h6 p hp p')
          (exists_congr fun g => and_congr_right fun hg => ih3 g hg (h7 g hg) p hp p'))
      · rintro p hp p' (h | h | ⟨g, hg, h⟩)
        · exact h2.rty p hp p' h
        · exact h3.rty p hp p' h
        · exact (h4 g hg).rty p hp p' h
  | satInter R h1 hne h2 h3 _ ih =>
    intro t' R' h'
    cases h' with
    | skip _ h7 => exact absurd (h2.symm.trans h7) (by simp)
    | satInter R2 _ _ _ h4 =>
      intro p hp p'
      exact forall₂_congr fun g hg => ih g hg (h4 g hg) p hp p'
  | satSum R h1 h2 h3 ih =>
    intro t' R' h'
    cases h' with
    | skip _ h7 => exact absurd (h2.symm.trans h7) (by simp)
    | satSum R2 _ _ h4 =>
      intro p hp p'
      exact exists_congr fun g => and_congr_right fun hg => ih g hg (h4 g hg) p hp p'
  | sum R h1 h2 h3 ih =>
    intro t' R' h'
    cases h' with
    | skip _ h7 => exact absurd (h2.symm.trans h7) (by simp)
    | sum R2 _ _ h4 =>
      intro p hp p'
      exact exists_congr fun g => and_congr_right fun hg => ih g hg (h4 g hg) p hp p'

end
end Verif
