import Verif.Hom.Pointwise
/-!
# Rewriting a fixpoint whose operand contains fixpoints

The saturation made of a fixpoint returns for the same SDDs as the fixpoint, even when the operands of the fixpoint are themselves fixpoints which
may not return.
-/

set_option autoImplicit false
set_option linter.unusedSectionVars false

namespace Verif

open Relation

variable {V E I U : Type} [DecidableEq V] [DecidableEq I] [DecidableEq U] {env : User V I U} {C : Cfg V E} {sc : Scope I U}
  {lt : Hom V I U → Hom V I U → Bool} {ord : List (Nat × List (Hom V I U)) → List (Nat × List (Hom V I U))}

theorem hflat_pred {K : NAry} {Q : Hom V I U → Bool} (hmk : ∀ hs, Q (K.mk hs) = true ↔ ∀ h ∈ hs, Q h = true) (h : Hom V I U) :
    Q h = true → ∀ l ∈ hflat K h, Q l = true := by
  induction h using nary_induct K with
  | mk hs ih =>
    intro hn l hl
    rw [hflat_mk, mem_hflatAll] at hl
    obtain ⟨h, hm, hl⟩ := hl
    exact ih h hm ((hmk hs).1 hn h hm) l hl
  | loc x h => intro hn l hl; simp [hflat] at hl; subst hl; exact hn
  | other h h1 h2 => intro hn l hl; simp [h1] at hl; subst hl; exact hn

/-- What is true of the operands and goes through sums and local homomorphisms is true of the sum. -/
theorem hnary_pred {K : NAry} {Q : Hom V I U → Bool} (hmk : ∀ hs, Q (K.mk hs) = true ↔ ∀ h ∈ hs, Q h = true)
    (hl : ∀ x h, Q (.loc x h) = Q h) (hlt : StrictTotal lt) (hord : Iterates ord) :
    ∀ hs, hs ≠ [] → (∀ h ∈ hs, Q h = true) → Q (hnary K lt ord hs) = true := by
  refine hnary_induct hlt hord (P := fun hs k => (∀ h ∈ hs, Q h = true) → Q k = true) fun hs ops hne hops ih hn => ?_
  have hg := hvisitAll_good (k := K) hlt hs
  have h1 : ∀ h ∈ ops, Q h = true := by
    intro h hm
    rcases (hops h).1 hm with ⟨h1, _⟩ | ⟨g, hgm, rfl⟩
    · obtain ⟨h0, hm0, h2⟩ := mem_hflatAll.1 h1
      exact hflat_pred hmk h0 (hn h0 hm0) _ h2
    · have := ih g hgm fun h hh => by
        obtain ⟨h0, hm0, h2⟩ := mem_hflatAll.1 (((hg.group g hgm).2 h).1 hh)
        rw [← hl g.1]
        exact hflat_pred hmk h0 (hn h0 hm0) (.loc g.1 h) h2
      unfold hloc
      split
      · exact this
      · rwa [hl]
  unfold NAry.fin
  split
  · exact h1 _ (by simp)
  · exact (hmk ops).2 h1

mutual
theorem Hom.noFix_calm : ∀ h : Hom V I U, h.noFix = true → h.calm = true
  | .id, _ => rfl
  | .comp l r, h => by
    simp only [Hom.noFix, Hom.calm, Bool.and_eq_true] at h ⊢
    exact ⟨l.noFix_calm h.1, r.noFix_calm h.2⟩
  | .consF _ _ g, h => by
    simp only [Hom.noFix, Hom.calm] at h ⊢
    exact g.noFix_calm h
  | .consH _ _ g, h => by
    simp only [Hom.noFix, Hom.calm] at h ⊢
    exact g.noFix_calm h
  | .const _, _ => rfl
  | .fix _, h => by simp [Hom.noFix] at h
  | .fn _ _, _ => rfl
  | .ite i t e, h => by
    simp only [Hom.noFix, Hom.calm, Bool.and_eq_true] at h ⊢
    exact ⟨⟨i.noFix_calm h.1.1, t.noFix_calm h.1.2⟩, e.noFix_calm h.2⟩
  | .ind _, _ => rfl
  | .inter hs, h => by simpa only [Hom.noFix, Hom.calm] using h
  | .loc _ g, h => by
    simp only [Hom.noFix, Hom.calm] at h ⊢
    exact g.noFix_calm h
  | .satFix _ F G L, h => by simp [Hom.noFix] at h
  | .satInter _ F G L, h => by
    simp only [Hom.noFix, Hom.calm, Bool.and_eq_true] at h ⊢
    exact ⟨⟨noFixAll_calm F h.1.1, noFixAll_calm G h.1.2⟩, noFixAll_calm L h.2⟩
  | .satSum _ F G L, h => by
    simp only [Hom.noFix, Hom.calm, Bool.and_eq_true] at h ⊢
    exact ⟨⟨noFixAll_calm F h.1.1, noFixAll_calm G h.1.2⟩, noFixAll_calm L h.2⟩
  | .sum hs, h => by
    simp only [Hom.noFix, Hom.calm] at h ⊢
    exact noFixAll_calm hs h
theorem noFixAll_calm : ∀ hs : List (Hom V I U), noFixAll hs = true → calmAll hs = true
  | [], _ => rfl
  | h :: hs, hn => by
    simp only [noFixAll, calmAll, Bool.and_eq_true] at hn ⊢
    exact ⟨h.noFix_calm hn.1, noFixAll_calm hs hn.2⟩
end

theorem hnary_calm (hlt : StrictTotal lt) (hord : Iterates ord) : ∀ hs : List (Hom V I U), hs ≠ [] → (∀ h ∈ hs, h.calm = true) →
    (hnary .sum lt ord hs).calm = true :=
  hnary_pred (Q := Hom.calm) (fun hs => by simp [NAry.mk, Hom.calm, calmAll_iff]) (fun x h => by simp [Hom.calm]) hlt hord

/-! ## The SDDs made of one path -/

/-- The homomorphism returns on the SDD which contains only this path. (Specification or proof device, not part of the code.) -/
def DefP (env : User V I U) (C : Cfg V E) (o : OB I) (h : Hom V I U) (p : Path E) : Prop :=
  ∃ x, Dom C o.ty x ∧ (∀ q, Mem C q x ↔ q = p) ∧ Def env C h o x

/-- A homomorphism returns when it returns on each path. -/
theorem Ad.def_iff (hC : C.Lawful) (hsg : Sing C) (hv : ∀ v, {a | C.vmem a v}.Finite)
    (hF : ∀ u, sc.A u → ∀ o v, (env.indF u o v).noFix = true) (hH : ∀ u, sc.A u → ∀ o v, (env.indH u o v).noFix = true) {o : OB I}
    {h : Hom V I U} {t : Ty} (ha : Ad env C sc o h t) (hc : h.calm = true) {x : SDD V} (hx : Dom C o.ty x) :
    Def env C h o x ↔ ∀ p, Mem C p x → DefP env C o h p := by
  obtain ⟨D, hD⟩ := ha.pointwise hC hv hF hH hc
  rw [hD x hx]
  refine forall₂_congr fun p hp => ?_
  constructor
  · intro h1
    obtain ⟨s, hs, hm⟩ := exists_single (V := V) hC hsg o p (hx.pty p hp)
    refine ⟨s, hs, hm, (hD s hs).2 fun q hq => ?_⟩
    rwa [(hm q).1 hq]
  · rintro ⟨s, hs, hm, hd⟩
    exact (hD s hs).1 hd p ((hm p).2 rfl)

theorem DefP.sk (hC : C.Lawful) {id : OId I} {nst nxt : OB I} {h : Hom V I U} {t : Ty} (hty : HTy env C sc nxt h t)
    (hs : h.skip env nxt.lvl id = true) {hd : Head E} {q : Path E} (hp : DefP env C (.node id nst nxt) h (hd.cons q)) :
    DefP env C nxt h q := by
  obtain ⟨x, hx, hm, hdf⟩ := hp
  obtain ⟨s, ha, hq⟩ := mem_cons_iff.1 ((hm (hd.cons q)).2 rfl)
  refine ⟨s, (ha.dom hx).1, fun q' => ⟨fun h1 => ?_, fun h1 => h1 ▸ hq⟩, (Def.skip_iff hC hty hs hx).1 hdf hd s ha⟩
  exact (Head.cons_inj ((hm _).1 (mem_cons_iff.2 ⟨s, ha, h1⟩))).2

theorem DefP.loc (hC : C.Lawful) {id : OId I} {nst nxt : OB I} (hn : nst ≠ .nil) {h : Hom V I U} {t : Ty} (hty : HTy env C sc nst h t)
    {n q : Path E} (hp : DefP env C (.node id nst nxt) (.loc nxt.lvl h) (.hier nxt.lvl n q)) : DefP env C nst h n := by
  obtain ⟨x, hx, hm, hdf⟩ := hp
  have h0 := (hm (.hier nxt.lvl n q)).2 rfl
  rcases dom_hier hn hx with rfl | ⟨arcs, rfl, hga, hd1, hd2⟩
  · exact absurd h0 (not_mem_zero _)
  obtain ⟨_, arc, harc, h1, h2⟩ := h0
  refine ⟨arc.1, hd1 arc harc, fun n' => ⟨fun h3 => ?_, fun h3 => h3 ▸ h1⟩, (Def.loc_here hC hty hx).1 hdf arc harc⟩
  have h4 := (hm (.hier nxt.lvl n' q)).1 ⟨rfl, arc, harc, h3, h2⟩
  injection h4

/-! ## Sums -/

theorem Def.sum_iff (hC : C.Lawful) {hs : List (Hom V I U)} {o : OB I} {t : Ty} (hne : hs ≠ []) (ht : t.IsShape)
    (hty : ∀ h ∈ hs, HTy env C sc o h t) {x : SDD V} (hx : Dom C o.ty x) :
    Def env C (.sum hs) o x ↔ ∀ h ∈ hs, Def env C h o x := by
  rw [← SumSpec.def_iff hC ht hty hx]
  exact exists_congr fun r => Ev.sum_iff hC o ht hne hty hx

theorem Def.hnary_iff (hC : C.Lawful) (hon : Honest env C) (hlt : StrictTotal lt) (hord : Iterates ord) {hs : List (Hom V I U)} {o : OB I}
    {t : Ty} (hne : hs ≠ []) (hn : ∀ h ∈ hs, h.noEmpty = true) (ht : t.IsShape)
    (hty : ∀ h ∈ hs, HTy env C sc o h t) {x : SDD V} (hx : Dom C o.ty x) :
    Def env C (hnary .sum lt ord hs) o x ↔ ∀ h ∈ hs, Def env C h o x := by
  rw [← SumSpec.def_iff hC ht hty hx]
  exact exists_congr fun r => (hsum_iff hC hon hlt hord hne hn hty).2 x r hx

/-! ## Fixpoints -/

theorem Ev.fix_again (hC : C.Lawful) {o : OB I} {h : Hom V I U} (hty : HTy env C sc o h o.ty) {x r : SDD V} (hx : Dom C o.ty x)
    (hr : Dom C o.ty r) (e : Ev env C (.fix h) o x r) : Def env C (.fix h) o r := by
  obtain ⟨n, c, _, _, _, h4⟩ := (Ev.fix_iff hC o hty hx).1 e
  exact ⟨r, (Ev.fix_iff hC o hty hr).2 ⟨0, fun _ => r, rfl, fun i hi => absurd hi (by omega), rfl, h4⟩⟩

theorem Def.of_fix (hC : C.Lawful) {o : OB I} {h : Hom V I U} (hty : HTy env C sc o h o.ty) {x : SDD V} (hx : Dom C o.ty x)
    (hd : Def env C (.fix h) o x) : Def env C h o x := by
  obtain ⟨r, e⟩ := hd
  obtain ⟨n, c, h0, h1, h2, h3⟩ := (Ev.fix_iff hC o hty hx).1 e
  cases n with
  | zero => subst h0; subst h2; exact ⟨_, h3⟩
  | succ n => subst h0; exact ⟨_, h1 0 (by omega)⟩

theorem Def.to_hfix (hC : C.Lawful) {o : OB I} {h : Hom V I U} (hty : HTy env C sc o h o.ty) {x : SDD V} (hx : Dom C o.ty x)
    (hd : Def env C (.fix h) o x) : Def env C (hfix h) o x := by
  cases h with
  | id => exact ⟨_, .id _ _⟩
  | fix h => exact Def.of_fix hC hty hx hd
  | _ => exact hd

theorem Def.of_hfix (hC : C.Lawful) {o : OB I} {h : Hom V I U} (hty : HTy env C sc o h o.ty) {x : SDD V} (hx : Dom C o.ty x)
    (hd : Def env C (hfix h) o x) : Def env C h o x := by
  cases h with
  | id => exact ⟨_, .id _ _⟩
  | fix h => exact hd
  | _ => exact Def.of_fix hC hty hx hd

theorem Ev.hfix_again (hC : C.Lawful) {o : OB I} {h : Hom V I U} {R : PRel E} (hr : Rl env C sc o h o.ty R) {x r : SDD V} (hx : Dom C o.ty x)
    (hrd : Dom C o.ty r) (e : Ev env C (hfix h) o x r) : Def env C (hfix h) o r := by
  cases h with
  | id => exact ⟨_, .id _ _⟩
  | fix h =>
    obtain ⟨_, R0, h1, _⟩ := Rl.fix_inv o hr
    exact Ev.fix_again hC h1.hty hx hrd e
  | _ => exact Ev.fix_again hC hr.hty hx hrd e

/-- When a fixpoint returns. -/
theorem Rl.def_fix_iff (hC : C.Lawful) (hsg : Sing C) (hv : ∀ v, {a | C.vmem a v}.Finite)
    (hF : ∀ u, sc.A u → ∀ o v, (env.indF u o v).noFix = true) (hH : ∀ u, sc.A u → ∀ o v, (env.indH u o v).noFix = true) {o : OB I}
    {h : Hom V I U} (hc : h.calm = true) {R : PRel E} (hr : Rl env C sc o h o.ty R) (hrefl : ReflOn o.ty R) {x : SDD V} (hx : Dom C o.ty x) :
    Def env C (.fix h) o x ↔ (∀ q ∈ Reached C R x, DefP env C o h q) ∧ (Reached C R x).Finite := by
  constructor
  · rintro ⟨r, e⟩
    have hfx := Rl.fix hsg o hr hrefl
    have hi := hfx.image hx e
    have hrd := e.dom hfx.hty hx
    obtain ⟨n, c, _, _, _, h4⟩ := (Ev.fix_iff hC o hr.hty hx).1 e
    exact ⟨fun q hq => (hr.ad.def_iff hC hsg hv hF hH hc hrd).1 ⟨_, h4⟩ q ((hi q).2 hq), (hrd.finite hv).subset fun p hp => (hi p).2 hp⟩
  · rintro ⟨h1, h2⟩
    exact hr.def_fix_on hC hrefl (fun y hy hyr => (hr.ad.def_iff hC hsg hv hF hH hc hy).2 fun q hq => h1 q (hyr q hq)) hx h2

/-- `f` does not change when fixpoints return. (Specification or proof device, not part of the code.) -/
def RwFixN (env : User V I U) (C : Cfg V E) (sc : Scope I U) (o : OB I) (f : Hom V I U → Hom V I U) : Prop :=
  ∀ {h : Hom V I U}, h.noEmpty = true → h.calm = true → ∀ {R : PRel E}, Rl env C sc o h o.ty R → ReflOn o.ty R →
    ∀ {x : SDD V}, Dom C o.ty x → (Def env C (f (.fix h)) o x ↔ Def env C (.fix h) o x)

theorem RwFixN.hfix {o : OB I} {f : Hom V I U → Hom V I U} (hf : RwFixN env C sc o f) (hid : f .id = .id)
    {h : Hom V I U} (hn : h.noEmpty = true) (hc : h.calm = true) {R : PRel E} (hr : Rl env C sc o h o.ty R) (hrefl : ReflOn o.ty R)
    {x : SDD V} (hx : Dom C o.ty x) : Def env C (f (hfix h)) o x ↔ Def env C (hfix h) o x := by
  cases h with
  | id => simp only [Verif.hfix, hid]
  | fix h =>
    simp only [Verif.hfix]
    obtain ⟨_, R0, h1, h2⟩ := Rl.fix_inv o hr
    have h0 : ReflOn o.ty R0 := by
      rcases h2 with ⟨h3, _⟩ | ⟨_, h4⟩
      · exact h3
      · exact hrefl.congr h4
    exact hf (by simpa only [Hom.noEmpty] using hn) (by simpa only [Hom.calm] using hc) h1 h0 hx
  | _ => exact hf hn hc hr hrefl hx

theorem hfix_calm {h : Hom V I U} (hc : h.calm = true) : (hfix h).calm = true := by
  unfold hfix
  split
  · rfl
  · exact hc
  · simpa only [Hom.calm] using hc

/-- The rewritten fixpoint returns on each path of its result. -/
theorem RwFixN.again (hC : C.Lawful) (hsg : Sing C) (hv : ∀ v, {a | C.vmem a v}.Finite)
    (hF : ∀ u, sc.A u → ∀ o v, (env.indF u o v).noFix = true) (hH : ∀ u, sc.A u → ∀ o v, (env.indH u o v).noFix = true) {o : OB I}
    {f : Hom V I U → Hom V I U} (hf : RwFixN env C sc o f) (hid : f .id = .id) {h : Hom V I U} (hn : h.noEmpty = true) (hc : h.calm = true)
    {R : PRel E} (hr : Rl env C sc o h o.ty R) (hrefl : ReflOn o.ty R) {R' : PRel E} (h1 : Rl env C sc o (Verif.hfix h) o.ty R')
    {s : SDD V} (hs : Dom C o.ty s) (hd : Def env C (f (Verif.hfix h)) o s) {p q : Path E} (hp : Mem C p s) (hpq : R' p q) :
    DefP env C o (Verif.hfix h) q := by
  obtain ⟨r, e⟩ := (RwFixN.hfix hf hid hn hc hr hrefl hs).1 hd
  have hrd := e.dom h1.hty hs
  exact (h1.ad.def_iff hC hsg hv hF hH (hfix_calm hc) hrd).1 (Ev.hfix_again hC hr hs hrd e) q ((h1.image hs e q).2 ⟨p, hp, hpq⟩)

/-- Rewriting a fixpoint does not change when it returns. -/
theorem RwFixN.hrewrite (hC : C.Lawful) (hsg : Sing C) (hon : Honest env C) (hlt : StrictTotal lt) (hord : Iterates ord)
    (hv : ∀ v, {a | C.vmem a v}.Finite) (hF : ∀ u, sc.A u → ∀ o v, (env.indF u o v).noFix = true)
    (hH : ∀ u, sc.A u → ∀ o v, (env.indH u o v).noFix = true) (o : OB I) : RwFixN env C sc o (hrewrite env lt ord o) := by
  induction o with
  | nil => intro h hn hc R hr hrefl x hx; exact Iff.rfl
  | node id nst nxt ihn ih =>
    intro h hn hc R hr hrefl x hx
    have hrs : ∀ h : Hom V I U, h.skip env nxt.lvl id = true →
        (Verif.hrewrite env lt ord nxt h).skip env nxt.lvl id = true := fun h => hrewrite_skip hlt hord nxt h (Nat.le_refl _)
    cases h with
    | sum hs =>
      have hw := Rl.hrewrite hC hsg hlt hord (.node id nst nxt) (h := .fix (.sum hs)) (by simpa [Hom.noEmpty] using hn) (Rl.fix hsg _ hr hrefl)
      rw [hr.def_fix_iff hC hsg hv hF hH hc hrefl hx]
      rw [Verif.hrewrite] at hw ⊢
      split
      · rw [hr.def_fix_iff hC hsg hv hF hH hc hrefl hx]
      rename_i hid
      rw [if_neg hid] at hw
      have hid' : (hparts env nxt.lvl id hs).hasId = true := by simpa using hid
      have hp := hparts_good env nxt.lvl id hs
      generalize hparts env nxt.lvl id hs = p at hid' hp hw
      have hidm := hp.hasId.1 hid'
      obtain ⟨hne, hn'⟩ := noEmpty_mk (K := .sum).1 hn
      have hc' : ∀ h ∈ hs, h.calm = true := calmAll_iff.1 (by simpa only [Hom.calm] using hc)
      obtain ⟨ha, hR0⟩ := Rl.nary_inv (K := .sum) hC hsg hne _ hr
      have hty : ∀ h ∈ hs, HTy env C sc (.node id nst nxt) h (OB.node id nst nxt).ty := fun h hm => ((ha h hm).1.rl hC hsg).hty
      have hRF := rewrite_fix_next hC hsg hlt hord hn' ha (Rl.hrewrite hC hsg hlt hord nxt) hrs hp
      have hRL := rewrite_fix_nested hC hsg hlt hord hn' ha (Rl.hrewrite hC hsg hlt hord nst) hp
      -- the operands return on each path
      have hDP : ∀ q, PTy (OB.node id nst nxt).ty q → (DefP env C (.node id nst nxt) (.sum hs) q ↔
          ∀ h ∈ hs, DefP env C (.node id nst nxt) h q) := by
        intro q hq
        constructor
        · rintro ⟨s, h1, h2, h3⟩ h hm
          exact ⟨s, h1, h2, (Def.sum_iff hC hne (OB.ty_shape _) hty h1).1 h3 h hm⟩
        · intro h1
          obtain ⟨s, hs1, hm1⟩ := exists_single (V := V) hC hsg _ q hq
          refine ⟨s, hs1, hm1, (Def.sum_iff hC hne (OB.ty_shape _) hty hs1).2 fun h hm => ?_⟩
          refine ((ha h hm).1.def_iff hC hsg hv hF hH (hc' h hm) hs1).2 fun q' hq' => ?_
          rw [(hm1 q').1 hq']
          exact h1 h hm
      -- an operand makes a step
      have hop : ∀ h ∈ hs, ∀ q q', PTy (OB.node id nst nxt).ty q → relOf env C sc (.node id nst nxt) h q q' → R q q' :=
        fun h hm q q' hq h1 => (hR0 q hq q').2 ⟨h, hm, h1⟩
      have hstep : ∀ (gs : List (Hom V I U)), (∀ g ∈ gs, g ∈ hs) → ∀ q q', PTy (OB.node id nst nxt).ty q →
          ReflTransGen (NRel .sum gs (relOf env C sc (.node id nst nxt))) q q' → ReflTransGen R q q' ∧ PTy (OB.node id nst nxt).ty q' := by
        intro gs hgs q q' hq h1
        induction h1 with
        | refl => exact ⟨.refl, hq⟩
        | tail _ h2 ih2 =>
          obtain ⟨g, hg, h3⟩ := h2
          have h4 := hop g (hgs g hg) _ _ ih2.2 h3
          exact ⟨ih2.1.tail h4, hr.rty _ ih2.2 _ h4⟩
      -- the part below
      have mF := fun h hm => (hp.F h).1 hm
      have aF : ∀ h ∈ p.F, AdS env C sc .sum nxt h nxt.ty := by
        intro h hh
        refine AdS.sk hC hsg (id := id) (nst := nst) ?_ (mF h hh).2.2
        rw [liftTy_ty (id := id)]
        exact ha h (mF h hh).1
      have aF2 : ∀ h ∈ p.F ++ [.id], h.noEmpty = true ∧ AdS env C sc .sum nxt h nxt.ty ∧ h.calm = true ∧ h.skip env nxt.lvl id = true := by
        intro h hh
        rcases List.mem_append.1 hh with hh | hh
        · exact ⟨hn' h (mF h hh).1, aF h hh, hc' h (mF h hh).1, (mF h hh).2.2⟩
        · rw [List.mem_singleton.1 hh]
          exact ⟨rfl, AdS.id hC hsg, rfl, rfl⟩
      have kF := Rl.hnary (K := .sum) hC hsg hlt hord (p.F ++ [.id]) (by simp) (fun h hh => (aF2 h hh).1) fun h hh => (aF2 h hh).2.1
      have nF := hnary_noEmpty (K := .sum) hlt hord (p.F ++ [.id]) (by simp) fun h hh => (aF2 h hh).1
      have cF := hnary_calm hlt hord (p.F ++ [.id]) (by simp) fun h hh => (aF2 h hh).2.2.1
      have reflF : ReflOn nxt.ty (NRel .sum (p.F ++ [.id]) (relOf env C sc nxt)) := fun q hq =>
        (nrel_id hC hsg q hq q).2 (Or.inr rfl)
      have fF := Rl.hfix hC hsg (Rl.fix hsg nxt kF reflF)
      have wF := Rl.hrewrite hC hsg hlt hord nxt (hfix_noEmpty nF) fF
      have sF := hrs _ (hfix_skip (hnary_skip (K := .sum) hlt hord _ (by simp) fun h hh => (aF2 h hh).2.2.2))
      have eF : ∀ s, Dom C nxt.ty s → (Def env C (Verif.hnary .sum lt ord (p.F ++ [.id])) nxt s ↔ ∀ h ∈ p.F, Def env C h nxt s) := by
        intro s hs
        rw [Def.hnary_iff hC hon hlt hord (by simp) (fun h hh => (aF2 h hh).1) (OB.ty_shape _)
          (fun h hh => ((aF2 h hh).2.1.1.rl hC hsg).hty) hs]
        refine ⟨fun h1 h hm => h1 h (by simp [hm]), fun h1 h hm => ?_⟩
        rcases List.mem_append.1 hm with hm | hm
        · exact h1 h hm
        · rw [List.mem_singleton.1 hm]; exact ⟨_, .id _ _⟩
      have dF : (∀ q ∈ Reached C R x, ∀ h ∈ hs, DefP env C (.node id nst nxt) h q) → (Reached C R x).Finite →
          ∀ z, Dom C (OB.node id nst nxt).ty z → (∀ p, Mem C p z → p ∈ Reached C R x) →
          Def env C (if p.F = [] then .id else Verif.hrewrite env lt ord nxt (Verif.hfix (Verif.hnary .sum lt ord (p.F ++ [.id]))))
            (.node id nst nxt) z := by
        intro hD hf z hz hzQ
        split
        · exact ⟨_, .id _ _⟩
        refine (Def.skip_iff hC wF.hty sF hz).2 fun hd s hs => ?_
        have hsd := (hs.dom hz).1
        rw [RwFixN.hfix ih (hrewrite_id nxt) nF cF kF reflF hsd]
        refine Def.to_hfix hC kF.hty hsd ?_
        have hhd : HeadOK nst nxt hd := by
          obtain ⟨w, hw⟩ := hsd.exists_mem (hs.dom hz).2
          obtain ⟨hd', q0, h9, h10, _⟩ := pty_node.1 (hz.pty _ (mem_cons_iff.2 ⟨s, hs, hw⟩))
          obtain ⟨rfl, _⟩ := Head.cons_inj h9
          exact h10
        have hm1 : ∀ q, Mem C q s → hd.cons q ∈ Reached C R x := fun q hq => hzQ _ (mem_cons_iff.2 ⟨s, hs, hq⟩)
        have hm2 : ∀ q q', PTy nxt.ty q → NRel .sum (p.F ++ [.id]) (relOf env C sc nxt) q q' →
            ReflTransGen R (hd.cons q) (hd.cons q') ∧ PTy nxt.ty q' := by
          intro q q' hq h8
          refine ⟨?_, kF.rty q hq q' h8⟩
          have hpt : PTy (OB.node id nst nxt).ty (hd.cons q) := pty_node.2 ⟨hd, q, rfl, hhd, hq⟩
          rcases (nrel_id hC hsg q hq q').1 h8 with ⟨h, hh, h9⟩ | rfl
          · refine .single (hop h (mF h hh).1 _ _ hpt ?_)
            exact (relOf_skip hC hsg (aF h hh).1 (mF h hh).2.2 _ hpt _).2 ⟨hd, q, q', rfl, rfl, h9⟩
          · exact .refl
        refine kF.def_fix_on hC reflF (fun y hy hyQ => (eF y hy).2 fun h hm => ?_) hsd (Reached.finite_map (R := R) (P := PTy nxt.ty) hd.cons
          (fun a b hab => (Head.cons_inj hab).2) hm1 (fun q hq => hsd.pty q hq) hm2 hf)
        refine ((aF h hm).1.def_iff hC hsg hv hF hH (hc' h (mF h hm).1) hy).2 fun q hq => ?_
        exact (hD _ (Reached.map (P := PTy nxt.ty) hd.cons hm1 (fun q hq => hsd.pty q hq) hm2 (hyQ q hq)) h (mF h hm).1).sk hC
          ((aF h hm).1.rl hC hsg).hty (mF h hm).2.2
      have bF : ∀ z, Dom C (OB.node id nst nxt).ty z →
          Def env C (if p.F = [] then .id else Verif.hrewrite env lt ord nxt (Verif.hfix (Verif.hnary .sum lt ord (p.F ++ [.id]))))
            (.node id nst nxt) z → ∀ h ∈ p.F, Def env C h (.node id nst nxt) z := by
        intro z hz h1 h hm
        rw [if_neg (by rintro h2; rw [h2] at hm; simp at hm), Def.skip_iff hC wF.hty sF hz] at h1
        refine (Def.skip_iff hC ((aF h hm).1.rl hC hsg).hty (mF h hm).2.2 hz).2 fun hd s hs => ?_
        have hsd := (hs.dom hz).1
        exact (eF s hsd).1 (Def.of_hfix hC kF.hty hsd ((RwFixN.hfix ih (hrewrite_id nxt) nF cF kF reflF hsd).1 (h1 hd s hs))) h hm
      have rF : ∀ r, Dom C (OB.node id nst nxt).ty r →
          Ev env C (if p.F = [] then .id else Verif.hrewrite env lt ord nxt (Verif.hfix (Verif.hnary .sum lt ord (p.F ++ [.id]))))
            (.node id nst nxt) x r →
          Def env C (if p.F = [] then .id else Verif.hrewrite env lt ord nxt (Verif.hfix (Verif.hnary .sum lt ord (p.F ++ [.id]))))
            (.node id nst nxt) r := by
        intro r hrd e
        split
        · exact ⟨_, .id _ _⟩
        rename_i hF0
        rw [if_neg hF0] at e
        have h1 := (Def.skip_iff hC wF.hty sF hx).1 ⟨_, e⟩
        have h2 := (wF.above (nst := nst) sF).image hx e
        refine (Def.skip_iff hC wF.hty sF hrd).2 fun hd s' hs' => ?_
        rw [RwFixN.hfix ih (hrewrite_id nxt) nF cF kF reflF (hs'.dom hrd).1]
        refine (fF.ad.def_iff hC hsg hv hF hH (hfix_calm cF) (hs'.dom hrd).1).2 fun q' hq' => ?_
        obtain ⟨_, h3, hd', q, q2, rfl, h4, h5⟩ := (h2 _).1 (mem_cons_iff.2 ⟨s', hs', hq'⟩)
        obtain ⟨rfl, rfl⟩ := Head.cons_inj h4
        obtain ⟨s, hs, hq⟩ := mem_cons_iff.1 h3
        exact RwFixN.again hC hsg hv hF hH ih (hrewrite_id nxt) nF cF kF reflF fF (hs.dom hx).1 (h1 hd s hs) hq h5
      -- the part inside
      have mL := fun h hm => (hp.L h).1 hm
      have hnn : p.L ≠ [] → nst ≠ .nil := by
        intro hL
        obtain ⟨g, hg⟩ := List.exists_mem_of_ne_nil _ hL
        obtain ⟨_, _, _, he, ⟨_, h1, _⟩ | ⟨h1, _⟩⟩ := ((ha _ (mL g hg)).1.rl hC hsg).loc_inv
        · cases he; exact h1
        · cases he; exact absurd rfl h1
      have aL : ∀ h ∈ p.L, AdS env C sc .sum nst h nst.ty ∧ REq (OB.node id nst nxt).ty
          (relOf env C sc (.node id nst nxt) (.loc nxt.lvl h)) (locRel nxt.lvl (relOf env C sc nst h)) := by
        intro h hh
        have := ha _ (mL h hh)
        rw [hier_ty (hnn (List.ne_nil_of_mem hh))] at this
        exact (this.loc_inv hC hsg).2.2
      have aL2 : ∀ h ∈ p.L ++ [.id], h.noEmpty = true ∧ AdS env C sc .sum nst h nst.ty ∧ h.calm = true := by
        intro h hh
        rcases List.mem_append.1 hh with hh | hh
        · exact ⟨by simpa only [Hom.noEmpty] using hn' _ (mL h hh), (aL h hh).1, by simpa only [Hom.calm] using hc' _ (mL h hh)⟩
        · rw [List.mem_singleton.1 hh]
          exact ⟨rfl, AdS.id hC hsg, rfl⟩
      have kL := Rl.hnary (K := .sum) hC hsg hlt hord (p.L ++ [.id]) (by simp) (fun h hh => (aL2 h hh).1) fun h hh => (aL2 h hh).2.1
      have nL := hnary_noEmpty (K := .sum) hlt hord (p.L ++ [.id]) (by simp) fun h hh => (aL2 h hh).1
      have cL := hnary_calm hlt hord (p.L ++ [.id]) (by simp) fun h hh => (aL2 h hh).2.2
      have reflL : ReflOn nst.ty (NRel .sum (p.L ++ [.id]) (relOf env C sc nst)) := fun q hq =>
        (nrel_id hC hsg q hq q).2 (Or.inr rfl)
      have fL := Rl.hfix hC hsg (Rl.fix hsg nst kL reflL)
      have wL := Rl.hrewrite hC hsg hlt hord nst (hfix_noEmpty nL) fL
      have eL : ∀ s, Dom C nst.ty s → (Def env C (Verif.hnary .sum lt ord (p.L ++ [.id])) nst s ↔ ∀ h ∈ p.L, Def env C h nst s) := by
        intro s hs
        rw [Def.hnary_iff hC hon hlt hord (by simp) (fun h hh => (aL2 h hh).1) (OB.ty_shape _)
          (fun h hh => ((aL2 h hh).2.1.1.rl hC hsg).hty) hs]
        refine ⟨fun h1 h hm => h1 h (by simp [hm]), fun h1 h hm => ?_⟩
        rcases List.mem_append.1 hm with hm | hm
        · exact h1 h hm
        · rw [List.mem_singleton.1 hm]; exact ⟨_, .id _ _⟩
      have lL : ∀ {k : Hom V I U} {z : SDD V}, HTy env C sc nst k nst.ty → Dom C (OB.node id nst nxt).ty z → nst ≠ .nil →
          (Def env C (hloc nxt.lvl k) (.node id nst nxt) z ↔ Def env C (.loc nxt.lvl k) (.node id nst nxt) z) := by
        intro k z hk hz hnn
        unfold hloc
        split
        · rename_i h7
          rw [h7] at hk ⊢
          refine ⟨fun _ => ?_, fun _ => ⟨_, .id _ _⟩⟩
          rcases dom_hier hnn hz with rfl | ⟨arcs, rfl, hga, hd1, hd2⟩
          · exact ⟨_, .zero _ _⟩
          · exact (Def.loc_here hC hk hz).2 fun _ _ => ⟨_, .id _ _⟩
        · exact Iff.rfl
      have dL : (∀ q ∈ Reached C R x, ∀ h ∈ hs, DefP env C (.node id nst nxt) h q) → (Reached C R x).Finite →
          ∀ z, Dom C (OB.node id nst nxt).ty z → (∀ p, Mem C p z → p ∈ Reached C R x) →
          Def env C (if p.L = [] then .id else hloc nxt.lvl (Verif.hrewrite env lt ord nst (Verif.hfix (Verif.hnary .sum lt ord (p.L ++ [.id])))))
            (.node id nst nxt) z := by
        intro hD hf z hz hzQ
        split
        · exact ⟨_, .id _ _⟩
        rename_i hL
        have hnn := hnn hL
        rw [lL wL.hty hz hnn]
        rcases dom_hier hnn hz with rfl | ⟨arcs, rfl, hga, hd1, hd2⟩
        · exact ⟨_, .zero _ _⟩
        refine (Def.loc_here hC wL.hty hz).2 fun arc harc => ?_
        obtain ⟨q, hq⟩ := (hd2 arc harc).exists_mem (hga.succNe arc harc)
        rw [RwFixN.hfix ihn (hrewrite_id nst) nL cL kL reflL (hd1 arc harc)]
        refine Def.to_hfix hC kL.hty (hd1 arc harc) ?_
        have hm1 : ∀ n, Mem C n arc.1 → .hier nxt.lvl n q ∈ Reached C R x := fun n hn => hzQ _ ⟨rfl, arc, harc, hn, hq⟩
        have hm2 : ∀ n n', PTy nst.ty n → NRel .sum (p.L ++ [.id]) (relOf env C sc nst) n n' →
            ReflTransGen R (.hier nxt.lvl n q) (.hier nxt.lvl n' q) ∧ PTy nst.ty n' := by
          intro n n' hn h8
          refine ⟨?_, kL.rty n hn n' h8⟩
          have hpt : PTy (OB.node id nst nxt).ty (.hier nxt.lvl n q) :=
            pty_node.2 ⟨.hier nxt.lvl n, q, rfl, ⟨hnn, rfl, hn⟩, (hd2 arc harc).pty q hq⟩
          rcases (nrel_id hC hsg n hn n').1 h8 with ⟨h, hh, h9⟩ | rfl
          · exact .single (hop _ (mL h hh) _ _ hpt (((aL h hh).2 _ hpt _).2 ⟨n, n', q, rfl, rfl, h9⟩))
          · exact .refl
        have hm3 : ∀ n, Mem C n arc.1 → PTy nst.ty n := fun n hn => (hd1 arc harc).pty n hn
        refine kL.def_fix_on hC reflL (fun y hy hyQ => (eL y hy).2 fun h hm => ?_) (hd1 arc harc)
          (Reached.finite_map (R := R) (P := PTy nst.ty) (fun n => .hier nxt.lvl n q) (fun a b hab => by simpa using hab) hm1 hm3 hm2 hf)
        refine ((aL h hm).1.1.def_iff hC hsg hv hF hH (aL2 h (by simp [hm])).2.2 hy).2 fun n hn => ?_
        exact (hD _ (Reached.map (P := PTy nst.ty) (fun n => .hier nxt.lvl n q) hm1 hm3 hm2 (hyQ n hn)) _ (mL h hm)).loc hC hnn
          ((aL h hm).1.1.rl hC hsg).hty
      have bL : ∀ z, Dom C (OB.node id nst nxt).ty z →
          Def env C (if p.L = [] then .id else hloc nxt.lvl (Verif.hrewrite env lt ord nst (Verif.hfix (Verif.hnary .sum lt ord (p.L ++ [.id])))))
            (.node id nst nxt) z → ∀ h ∈ p.L, Def env C (.loc nxt.lvl h) (.node id nst nxt) z := by
        intro z hz h1 h hm
        have hL := List.ne_nil_of_mem hm
        have hnn := hnn hL
        rw [if_neg hL, lL wL.hty hz hnn] at h1
        rcases dom_hier hnn hz with rfl | ⟨arcs, rfl, hga, hd1, hd2⟩
        · exact ⟨_, .zero _ _⟩
        rw [Def.loc_here hC wL.hty hz] at h1
        refine (Def.loc_here hC ((aL h hm).1.1.rl hC hsg).hty hz).2 fun arc harc => ?_
        have hsd := hd1 arc harc
        exact (eL _ hsd).1 (Def.of_hfix hC kL.hty hsd ((RwFixN.hfix ihn (hrewrite_id nst) nL cL kL reflL hsd).1 (h1 arc harc))) h hm
      have rL : ∀ r, Dom C (OB.node id nst nxt).ty r →
          Ev env C (if p.L = [] then .id else hloc nxt.lvl (Verif.hrewrite env lt ord nst (Verif.hfix (Verif.hnary .sum lt ord (p.L ++ [.id])))))
            (.node id nst nxt) x r →
          Def env C (if p.L = [] then .id else hloc nxt.lvl (Verif.hrewrite env lt ord nst (Verif.hfix (Verif.hnary .sum lt ord (p.L ++ [.id])))))
            (.node id nst nxt) r := by
        intro r hrd e
        split
        · exact ⟨_, .id _ _⟩
        rename_i hL
        rw [if_neg hL] at e
        have hnn := hnn hL
        have h1 := (lL wL.hty hx hnn).1 ⟨_, e⟩
        have h2 := (Rl.loc (id := id) (nxt := nxt) hnn wL).hloc.image hx e
        rw [lL wL.hty hrd hnn]
        rcases dom_hier hnn hrd with rfl | ⟨arcs', rfl, hga', hd1', hd2'⟩
        · exact ⟨_, .zero _ _⟩
        refine (Def.loc_here hC wL.hty hrd).2 fun arc' harc' => ?_
        rw [RwFixN.hfix ihn (hrewrite_id nst) nL cL kL reflL (hd1' arc' harc')]
        refine (fL.ad.def_iff hC hsg hv hF hH (hfix_calm cL) (hd1' arc' harc')).2 fun n' hn' => ?_
        obtain ⟨q, hq⟩ := (hd2' arc' harc').exists_mem (hga'.succNe arc' harc')
        obtain ⟨_, h3, n, n2, q2, rfl, h4, h5⟩ := (h2 (.hier nxt.lvl n' q)).1 ⟨rfl, arc', harc', hn', hq⟩
        injection h4 with _ h6 h7
        subst h6; subst h7
        rcases dom_hier hnn hx with rfl | ⟨arcs, rfl, hga, hd1, hd2⟩
        · exact absurd h3 (not_mem_zero _)
        obtain ⟨_, arc, harc, hn, _⟩ := h3
        rw [Def.loc_here hC wL.hty hx] at h1
        exact RwFixN.again hC hsg hv hF hH ihn (hrewrite_id nst) nL cL kL reflL fL (hd1 arc harc) (h1 arc harc) hn h5
      have hx0 : ∀ p, Mem C p x → p ∈ Reached C R x := fun p hp => Reached.self hp
      have hG0 : p.G = [] → homSet lt p.G = [] := fun h => by rw [h]; rfl
      have hG1 := fun g => mem_homSet hlt (hs := p.G) (h := g)
      have hrel : ∀ q q', q ∈ Reached C R x → PTy (OB.node id nst nxt).ty q →
          (ReflTransGen (NRel .sum p.F (relOf env C sc (.node id nst nxt))) q q' ∨
           ReflTransGen (NRel .sum (p.L.map (.loc nxt.lvl)) (relOf env C sc (.node id nst nxt))) q q' ∨
           ∃ g ∈ homSet lt p.G, relOf env C sc (.node id nst nxt) g q q') → q' ∈ Reached C R x := by
        rintro q q' ⟨q0, h0, h1⟩ hq (h2 | h2 | ⟨g, hg, h2⟩)
        · exact ⟨q0, h0, h1.trans (hstep p.F (fun g hg => ((hp.F g).1 hg).1) q q' hq h2).1⟩
        · refine ⟨q0, h0, h1.trans (hstep (p.L.map (.loc nxt.lvl)) (fun g hg => ?_) q q' hq h2).1⟩
          obtain ⟨g', hg', rfl⟩ := List.mem_map.1 hg
          exact (hp.L g').1 hg'
        · exact ⟨q0, h0, h1.tail (hop g ((hp.G g).1 ((mem_homSet hlt).1 hg)).1 q q' hq h2)⟩
      -- all the operands
      have hall : ∀ z, (∀ h ∈ p.F, Def env C h (.node id nst nxt) z) → (∀ g ∈ homSet lt p.G, Def env C g (.node id nst nxt) z) →
          (∀ h ∈ p.L, Def env C (.loc nxt.lvl h) (.node id nst nxt) z) → ∀ h ∈ hs, Def env C h (.node id nst nxt) z := by
        intro z h1 h2 h3 h hm
        by_cases hi : h = .id
        · subst hi; exact ⟨_, .id _ _⟩
        cases hsk : h.skip env nxt.lvl id with
        | true => exact h1 h ((hp.F h).2 ⟨hm, hi, hsk⟩)
        | false =>
          cases hl : h.isLoc with
          | false => exact h2 h ((mem_homSet hlt).2 ((hp.G h).2 ⟨hm, hsk, hl⟩))
          | true =>
            cases h with
            | loc y g =>
              have : y = nxt.lvl := by
                simp only [Hom.skip, decide_eq_false_iff_not, not_not, ne_eq] at hsk
                exact hsk.symm
              subst this
              exact h3 g ((hp.L g).2 hm)
            | _ => simp [Hom.isLoc] at hl
      have hRG := fun g hg => (ha g ((hp.G g).1 ((mem_homSet hlt).1 hg)).1).1.rl hC hsg
      generalize (if p.F = [] then .id else Verif.hrewrite env lt ord nxt (Verif.hfix (Verif.hnary .sum lt ord (p.F ++ [.id])))) = f
        at hRF dF bF rF hw
      generalize (if p.L = [] then .id else
        hloc nxt.lvl (Verif.hrewrite env lt ord nst (Verif.hfix (Verif.hnary .sum lt ord (p.L ++ [.id]))))) = l at hRL dL bL rL hw
      have hst : Stop env (.satFix nxt.lvl f (homSet lt p.G) l) (.node id nst nxt) := by simp [Stop, Hom.skip]
      constructor
      · rintro ⟨r, e⟩
        have hi := hw.image hx e
        have hrd := e.dom hw.hty hx
        have hgl : Def env C f (.node id nst nxt) r ∧ Def env C l (.node id nst nxt) r ∧
            ∀ g ∈ homSet lt p.G, Def env C g (.node id nst nxt) r := by
          unfold hsatFix at e
          split at e
          · rename_i h1
            obtain ⟨h1, _, h2⟩ := h1
            refine ⟨rF r hrd e, h2 ▸ ⟨_, .id _ _⟩, fun g hg => ?_⟩
            rw [hG0 h1] at hg
            simp at hg
          · split at e
            · rename_i h1
              obtain ⟨h1, h2, _⟩ := h1
              refine ⟨h2 ▸ ⟨_, .id _ _⟩, rL r hrd e, fun g hg => ?_⟩
              rw [hG0 h1] at hg
              simp at hg
            · exact Ev.satFix_end hC hst hRF (fun _ _ => .refl) hRL (fun _ _ => .refl) hRG hx e
        have h1 := hall r (bF r hrd hgl.1) hgl.2.2 (bL r hrd hgl.2.1)
        refine ⟨fun q hq => (hDP q ?_).2 fun h hm => ?_, (hrd.finite hv).subset fun p hp => (hi p).2 hp⟩
        · exact hrd.pty q ((hi q).2 hq)
        · exact ((ha h hm).1.def_iff hC hsg hv hF hH (hc' h hm) hrd).1 (h1 h hm) q ((hi q).2 hq)
      · rintro ⟨h1, h2⟩
        have h1' : ∀ q ∈ Reached C R x, ∀ h ∈ hs, DefP env C (.node id nst nxt) h q := fun q hq =>
          (hDP q (Rl.dom_reached hr.rty hx q hq)).1 (h1 q hq)
        unfold hsatFix
        split
        · exact dF h1' h2 x hx hx0
        · split
          · exact dL h1' h2 x hx hx0
          · refine Def.satFix hC (Q := fun q => q ∈ Reached C R x) (R := relOf env C sc (.node id nst nxt)) hst hRF
              (fun _ _ => .refl) hRL (fun _ _ => .refl) hRG h2 hrel (dF h1' h2) (dL h1' h2) (fun g hg z hz hzQ => ?_) hx hx0
            have hgm := ((hp.G g).1 ((mem_homSet hlt).1 hg)).1
            exact ((ha g hgm).1.def_iff hC hsg hv hF hH (hc' g hgm) hz).2 fun q hq => h1' q (hzQ q hq) g hgm
    | _ => exact Iff.rfl

end Verif
