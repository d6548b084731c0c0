import Verif.Hom.SatTerm
import Verif.Hom.Total
import Mathlib.Data.Finite.Prod
/-!
# Termination, path by path

Whether an additive homomorphism returns on an SDD depends on each of its paths only, when no fixpoint is inside an intersection.
-/

set_option autoImplicit false
set_option linter.unusedSectionVars false

namespace Verif

open Relation

variable {V E I U : Type} [DecidableEq V] [DecidableEq I] [DecidableEq U] {env : User V I U} {C : Cfg V E} {sc : Scope I U}

/-- An SDD whose values are finite sets has finitely many paths. -/
theorem Dom.finite {C : Cfg V E} (hv : ∀ v, {a | C.vmem a v}.Finite) {t : Ty} {s : SDD V} (hs : Dom C t s) :
    {p | Mem C p s}.Finite := by
  induction hs with
  | zero t => refine Set.finite_empty.subset fun p hp => ?_; cases p <;> simp [Mem] at hp
  | one t h => refine (Set.finite_singleton Path.nil).subset fun p hp => ?_; cases p <;> simp [Mem] at hp ⊢
  | flat t t' x arcs h1 h2 h3 ih =>
    refine ((List.finite_toSet arcs).biUnion fun arc ha => ((hv arc.1).prod (ih arc ha)).image
      fun ap : E × Path E => Path.flat x ap.1 ap.2).subset fun p hp => ?_
    cases p with
    | flat y a p =>
      obtain ⟨rfl, arc, h4, h5, h6⟩ := hp
      exact Set.mem_biUnion (show arc ∈ {a | a ∈ arcs} from h4) ⟨(a, p), ⟨h5, h6⟩, rfl⟩
    | _ => simp [Mem] at hp
  | hier t tn t' x arcs h1 h2 h3 h4 ihn ih =>
    refine ((List.finite_toSet arcs).biUnion fun arc ha => ((ihn arc ha).prod (ih arc ha)).image
      fun ap : Path E × Path E => Path.hier x ap.1 ap.2).subset fun p hp => ?_
    cases p with
    | hier y a p =>
      obtain ⟨rfl, arc, h4, h5, h6⟩ := hp
      exact Set.mem_biUnion (show arc ∈ {a | a ∈ arcs} from h4) ⟨(a, p), ⟨h5, h6⟩, rfl⟩
    | _ => simp [Mem] at hp

mutual
/-- The intersections contain no fixpoint. (Specification or proof device, not part of the code.) -/
def Hom.calm : Hom V I U → Bool
  | .id => true
  | .comp l r => l.calm && r.calm
  | .consF _ _ h => h.calm
  | .consH _ _ h => h.calm
  | .const _ => true
  | .fix h => h.calm
  | .fn _ _ => true
  | .ite i t e => i.calm && t.calm && e.calm
  | .ind _ => true
  | .inter hs => noFixAll hs
  | .loc _ h => h.calm
  | .satFix _ F G L => F.calm && calmAll G && L.calm
  | .satInter _ F G L => calmAll F && calmAll G && calmAll L
  | .satSum _ F G L => calmAll F && calmAll G && calmAll L
  | .sum hs => calmAll hs
/-- The same for all the operands. (Specification or proof device, not part of the code.) -/
def calmAll : List (Hom V I U) → Bool
  | [] => true
  | h :: hs => h.calm && calmAll hs
end

theorem calmAll_iff {hs : List (Hom V I U)} : calmAll hs = true ↔ ∀ h ∈ hs, h.calm = true := by
  induction hs with
  | nil => simp [calmAll]
  | cons h hs ih => simp [calmAll, ih]

/-- The last round of a saturation applies everything to the result. -/
theorem Ev.satFix_end (hC : C.Lawful) {o : OB I} {y : Nat} {F L : Hom V I U} {G : List (Hom V I U)} {RF RL : PRel E}
    {R : Hom V I U → PRel E} (hst : Stop env (.satFix y F G L) o) (hF : Rl env C sc o F o.ty RF) (hFr : ReflOn o.ty RF)
    (hL : Rl env C sc o L o.ty RL) (hLr : ReflOn o.ty RL) (hG : ∀ g ∈ G, Rl env C sc o g o.ty (R g)) {x r : SDD V}
    (hx : Dom C o.ty x) (e : Ev env C (.satFix y F G L) o x r) : Def env C F o r ∧ Def env C L o r ∧ ∀ g ∈ G, Def env C g o r := by
  have chain : ∀ {s a : SDD V} (_ : Dom C o.ty s) (_ : Ev env C F o s a) (c d : Nat → SDD V) (_ : Ev env C L o a (c 0))
      (_ : ∀ i, (hi : i < G.length) → Ev env C G[i] o (c i) (d i))
      (_ : ∀ i, i < G.length → Is C (c (i + 1)) (fun p => Mem C p (c i) ∨ Mem C p (d i))), Dom C o.ty a ∧ (∀ i, i ≤ G.length → Dom C o.ty (c i)) ∧
      (∀ p, Mem C p s → Mem C p a) ∧ (∀ p, Mem C p a → Mem C p (c 0)) ∧
      ∀ i, i ≤ G.length → ∀ j, j ≤ i → ∀ p, Mem C p (c j) → Mem C p (c i) := by
    intro s a hs e1 c d e2 hc hc'
    have ha := e1.dom hF.hty hs
    have h0 := e2.dom hL.hty ha
    refine ⟨ha, fun i => ?_, fun p hp => (hF.image hs e1 p).2 ⟨p, hp, hFr p (hs.pty p hp)⟩,
      fun p hp => (hL.image ha e2 p).2 ⟨p, hp, hLr p (ha.pty p hp)⟩, fun i => ?_⟩
    · induction i with
      | zero => intro _; exact h0
      | succ i ih =>
        intro hi
        have hci := ih (by omega)
        have hdi := (hc i (by omega)).dom (hG _ (List.getElem_mem _)).hty hci
        refine (hc' i (by omega)).dom ?_
        rintro p (hp | hp)
        · exact hci.pty p hp
        · exact hdi.pty p hp
    · induction i with
      | zero => intro _ j hj p hp; cases (by omega : j = 0); exact hp
      | succ i ih =>
        intro hi j hj p hp
        rcases Nat.lt_or_ge j (i + 1) with hj' | hj'
        · exact ((hc' i (by omega)).2 p).2 (Or.inl (ih (by omega) j (by omega) p hp))
        · cases (by omega : j = i + 1); exact hp
  generalize hh' : Hom.satFix y F G L = g at e
  generalize ho' : o = o' at e
  induction e with
  | @satDone _ _ _ _ _ s a c d hh e1 e2 hc hc' heq =>
    cases hh'; subst ho'
    obtain ⟨ha, hd, h1, h2, h3⟩ := chain hx e1 c d e2 hc hc'
    have hci : ∀ i, i ≤ G.length → c i = s := fun i hi => canonical_ext hC (hd i hi).wf hx.wf fun p =>
      ⟨fun hp => heq ▸ h3 _ le_rfl i hi p hp, fun hp => h3 i hi 0 (by omega) p (h2 p (h1 p hp))⟩
    have has : a = s := canonical_ext hC ha.wf hx.wf fun p =>
      ⟨fun hp => hci 0 (by omega) ▸ h2 p hp, h1 p⟩
    refine ⟨⟨_, e1⟩, ⟨_, has ▸ e2⟩, fun g hg => ?_⟩
    obtain ⟨i, hi, rfl⟩ := List.getElem_of_mem hg
    exact ⟨_, hci i (by omega) ▸ hc i hi⟩
  | @satStep _ _ _ _ _ s a r c d hh e1 e2 hc hc' hne e3 _ _ _ ih' =>
    cases hh'; subst ho'
    obtain ⟨ha, hd, h1, h2, h3⟩ := chain hx e1 c d e2 hc hc'
    exact ih' (hd _ le_rfl) rfl rfl
  | zero => subst hh'; exact ⟨⟨_, .zero _ _⟩, ⟨_, .zero _ _⟩, fun _ _ => ⟨_, .zero _ _⟩⟩
  | skip f hne hb =>
    subst hh'; subst ho'
    exact ((hst.here hx hb.ne_zero).not_below hb).elim
  | _ => cases hh'

/-- The homomorphism returns on the SDDs whose paths are all in a set. (Specification or proof device, not part of the code.) -/
def PW (env : User V I U) (C : Cfg V E) (o : OB I) (h : Hom V I U) (D : Path E → Prop) : Prop :=
  ∀ x, Dom C o.ty x → (Def env C h o x ↔ ∀ p, Mem C p x → D p)

theorem PW.of_def {o : OB I} {h : Hom V I U} (hd : ∀ x, Dom C o.ty x → Def env C h o x) : ∃ D, PW env C o h D :=
  ⟨fun _ => True, fun x hx => ⟨fun _ _ _ => trivial, fun _ => hd x hx⟩⟩

/-- What is applied to all the operands. -/
theorem PW.all {o : OB I} {h : Hom V I U} {hs : List (Hom V I U)} (hd : ∀ x, Dom C o.ty x → (Def env C h o x ↔ ∀ g ∈ hs, Def env C g o x))
    (hg : ∀ g ∈ hs, ∃ D, PW env C o g D) : ∃ D, PW env C o h D := by
  have : ∀ g, ∃ D, g ∈ hs → PW env C o g D := fun g => by
    by_cases hm : g ∈ hs
    · obtain ⟨D, h⟩ := hg g hm; exact ⟨D, fun _ => h⟩
    · exact ⟨fun _ => True, fun h => absurd h hm⟩
  choose D hD using this
  refine ⟨fun p => ∀ g ∈ hs, D g p, fun x hx => (hd x hx).trans ?_⟩
  constructor
  · exact fun h1 p hp g hm => (hD g hm x hx).1 (h1 g hm) p hp
  · exact fun h1 g hm => (hD g hm x hx).2 fun p hp => h1 p hp g hm

theorem Rl.dom_reached {o : OB I} {R : PRel E} (hr : RTy o.ty o.ty R) {x : SDD V} (hx : Dom C o.ty x) : ∀ p ∈ Reached C R x, PTy o.ty p := by
  rintro p ⟨q, hq, h⟩
  exact hr.rtc q (hx.pty q hq) p h

/-- Finitely many paths are reachable from finitely many paths when it is the case for each one. -/
theorem reached_finite {R : PRel E} {x : SDD V} (hx : {p | Mem C p x}.Finite) (h : ∀ p, Mem C p x → {q | ReflTransGen R p q}.Finite) :
    (Reached C R x).Finite := by
  refine (hx.biUnion (t := fun p => {q | ReflTransGen R p q}) h).subset ?_
  rintro q ⟨p, hp, h1⟩
  exact Set.mem_biUnion (show p ∈ {p | Mem C p x} from hp) h1

theorem finite_of_reached {R : PRel E} {x : SDD V} (hf : (Reached C R x).Finite) {p : Path E} (hp : Mem C p x) :
    {q | ReflTransGen R p q}.Finite := hf.subset fun _ hq => ⟨p, hp, hq⟩

/-- The set of SDDs on which an additive homomorphism returns is given by a set of paths. -/
theorem HRel.pointwise (hC : C.Lawful) (hv : ∀ v, {a | C.vmem a v}.Finite) (hF : ∀ u, sc.A u → ∀ o v, (env.indF u o v).noFix = true)
    (hH : ∀ u, sc.A u → ∀ o v, (env.indH u o v).noFix = true) {o : OB I} {h : Hom V I U} {t : Ty} {R : PRel E}
    (hr : HRel env C sc o h t R) : h.calm = true → ∃ D, PW env C o h D := by
  induction hr with
  | id o => intro _; exact PW.of_def fun x _ => ⟨x, .id _ _⟩
  | @skip id nst nxt h t R hne hs hr ih =>
    intro hc
    obtain ⟨D, hD⟩ := ih hc
    refine ⟨fun p => ∀ (hd : Head E) q, p = hd.cons q → D q, fun x hx => ?_⟩
    rw [Def.skip_iff hC hr.hty hs hx]
    constructor
    · rintro h1 _ hp hd q rfl
      obtain ⟨s, ha, hq⟩ := mem_cons_iff.1 hp
      exact (hD s (ha.dom hx).1).1 (h1 hd s ha) q hq
    · intro h1 hd s ha
      exact (hD s (ha.dom hx).1).2 fun q hq => h1 _ (mem_cons_iff.2 ⟨s, ha, hq⟩) hd q rfl
  | @comp o l r t R R' hst hr hl ihr ihl =>
    intro hc
    simp only [Hom.calm, Bool.and_eq_true] at hc
    obtain ⟨Dl, hl'⟩ := ihl hc.1
    obtain ⟨Dr, hr'⟩ := ihr hc.2
    refine ⟨fun p => Dr p ∧ ∀ q, R p q → Dl q, fun x hx => ?_⟩
    constructor
    · rintro ⟨z, e⟩
      obtain ⟨y, e1, e2⟩ := (Ev.comp_iff hC o hr.hty hl.hty hx).1 e
      refine fun p hp => ⟨(hr' x hx).1 ⟨_, e1⟩ p hp, fun q hq => ?_⟩
      exact (hl' y (e1.dom hr.hty hx)).1 ⟨_, e2⟩ q ((hr.image hx e1 q).2 ⟨p, hp, hq⟩)
    · intro h1
      obtain ⟨y, e1⟩ := (hr' x hx).2 fun p hp => (h1 p hp).1
      obtain ⟨z, e2⟩ := (hl' y (e1.dom hr.hty hx)).2 fun q hq => by
        obtain ⟨p, hp, h2⟩ := (hr.image hx e1 q).1 hq
        exact (h1 p hp).2 q h2
      exact ⟨z, (Ev.comp_iff hC o hr.hty hl.hty hx).2 ⟨y, e1, e2⟩⟩
  | @consF o id nst nxt v h t R hS hty hr ih =>
    intro hc
    obtain ⟨D, hD⟩ := ih (by simpa only [Hom.calm] using hc)
    refine ⟨D, fun x hx => ?_⟩
    rw [← hD x (hty ▸ hx)]
    by_cases h0 : x = .zero
    · subst h0; exact ⟨fun _ => ⟨_, .zero _ _⟩, fun _ => ⟨_, .zero _ _⟩⟩
    have hh : Here env (.consF (.node id nst nxt) v h) o x := (stop_of (fun _ _ => by simp [Hom.skip]) o).here hx h0
    constructor
    · rintro ⟨r, e⟩
      cases e with
      | zero => exact absurd rfl h0
      | skip _ _ hb => exact (hh.not_below hb).elim
      | consF _ e1 _ => exact ⟨_, e1⟩
    · rintro ⟨y, ey⟩
      obtain ⟨h1, h2⟩ := mkNode1_flat (m := Plain (fun _ => []) V) hC (x := nxt.lvl) (v := v) (ey.dom hr.hty (hty ▸ hx)).wf
      exact ⟨_, .consF hh ey ⟨h1, h2⟩⟩
  | @consH o id nst nxt v h tn t R hS hty h3 h4 hr ih =>
    intro hc
    obtain ⟨D, hD⟩ := ih (by simpa only [Hom.calm] using hc)
    refine ⟨D, fun x hx => ?_⟩
    rw [← hD x (hty ▸ hx)]
    by_cases h0 : x = .zero
    · subst h0; exact ⟨fun _ => ⟨_, .zero _ _⟩, fun _ => ⟨_, .zero _ _⟩⟩
    have hh : Here env (.consH (.node id nst nxt) v h) o x := (stop_of (fun _ _ => by simp [Hom.skip]) o).here hx h0
    constructor
    · rintro ⟨r, e⟩
      cases e with
      | zero => exact absurd rfl h0
      | skip _ _ hb => exact (hh.not_below hb).elim
      | consH _ e1 _ => exact ⟨_, e1⟩
    · rintro ⟨y, ey⟩
      obtain ⟨h1, h2⟩ := mkNode1_hier (m := Plain (fun _ => []) V) (C := C) (rec := fun _ => pure .zero) (x := nxt.lvl) h4.wf
        (ey.dom hr.hty (hty ▸ hx)).wf
      exact ⟨_, .consH hh ey ⟨h1, h2⟩⟩
  | const h1 h2 => intro _; exact PW.of_def fun x hx => (HTy.const (sc := sc) h1 h2).def hC hF hH (by simp [Hom.noFix]) hx
  | @fix o h R hst hr hrefl ih =>
    intro hc
    obtain ⟨D, hD⟩ := ih (by simpa only [Hom.calm] using hc)
    refine ⟨fun p => (∀ q, ReflTransGen R p q → D q) ∧ {q | ReflTransGen R p q}.Finite, fun x hx => ?_⟩
    constructor
    · rintro ⟨r, e⟩
      have hi := (HRel.fix hst hr hrefl).image hx e
      obtain ⟨n, c, _, _, _, h4⟩ := (Ev.fix_iff hC o hr.hty hx).1 e
      have hrd := e.dom (HTy.fix hst hr.hty) hx
      have hf : (Reached C R x).Finite := (hrd.finite hv).subset fun p hp => (hi p).2 hp
      exact fun p hp => ⟨fun q hq => (hD r hrd).1 ⟨_, h4⟩ q ((hi q).2 ⟨p, hp, hq⟩), finite_of_reached hf hp⟩
    · intro h1
      refine hr.rl.def_fix_on hC hrefl (fun y hy hyr => (hD y hy).2 fun q hq => ?_) hx (reached_finite (hx.finite hv) fun p hp => (h1 p hp).2)
      obtain ⟨p, hp, h2⟩ := hyr q hq
      exact (h1 p hp).1 q h2
  | @fixSel o h R hst hr hsub ih =>
    intro hc
    obtain ⟨D, hD⟩ := ih (by simpa only [Hom.calm] using hc)
    refine ⟨D, fun x hx => ?_⟩
    rw [← hD x hx]
    constructor
    · rintro ⟨r, e⟩
      obtain ⟨n, c, h0, h1, h2, h3⟩ := (Ev.fix_iff hC o hr.hty hx).1 e
      cases n with
      | zero => subst h0; subst h2; exact ⟨_, h3⟩
      | succ n => subst h0; exact ⟨_, h1 0 (by omega)⟩
    · rintro ⟨y, e⟩
      have hy := e.dom hr.hty hx
      have key : ∀ p, Mem C p y ↔ Mem C p x ∧ R p p := by
        intro p
        rw [hr.image hx e]
        constructor
        · rintro ⟨q, h1, h2⟩; cases hsub _ (hx.pty q h1) _ h2; exact ⟨h1, h2⟩
        · rintro ⟨h1, h2⟩; exact ⟨p, h1, h2⟩
      obtain ⟨z, e'⟩ := (hD y hy).2 fun p hp => (hD x hx).1 ⟨_, e⟩ p ((key p).1 hp).1
      have hz : z = y := by
        refine canonical_ext hC (e'.dom hr.hty hy).wf hy.wf fun p => ?_
        rw [hr.image hy e']
        constructor
        · rintro ⟨q, h1, h2⟩; cases hsub _ (hy.pty q h1) _ h2; exact h1
        · exact fun h1 => ⟨p, h1, ((key p).1 h1).2⟩
      subst hz
      refine ⟨z, (Ev.fix_iff hC o hr.hty hx).2 ⟨1, fun i => if i = 0 then x else z, rfl, fun i hi => ?_, rfl, e'⟩⟩
      cases (by omega : i = 0)
      exact e
  | fnNil => intro _; exact PW.of_def fun x hx => (HTy.fnNil (sc := sc)).def hC hF hH (by simp [Hom.noFix]) hx
  | fn f hf => intro _; exact PW.of_def fun x hx => (HTy.fn (sc := sc)).def hC hF hH (by simp [Hom.noFix]) hx
  | @ite o i t e ty Ri Rt Re hst hsel hi hsub ht he ihi iht ihe =>
    intro hc
    simp only [Hom.calm, Bool.and_eq_true] at hc
    obtain ⟨Di, hDi⟩ := ihi hc.1.1
    obtain ⟨Dt, hDt⟩ := iht hc.1.2
    obtain ⟨De, hDe⟩ := ihe hc.2
    refine ⟨fun p => Di p ∧ (Ri p p → Dt p) ∧ (¬ Ri p p → De p), fun x hx => ?_⟩
    have key : ∀ {y}, Ev env C i o x y → ∀ p, Mem C p y ↔ Mem C p x ∧ Ri p p := by
      intro y e p
      rw [hi.image hx e]
      constructor
      · rintro ⟨q, h1, h2⟩; cases hsub _ (hx.pty q h1) _ h2; exact ⟨h1, h2⟩
      · rintro ⟨h1, h2⟩; exact ⟨p, h1, h2⟩
    constructor
    · rintro ⟨r, ev⟩ p hp
      obtain ⟨y, d, a, b, e1, hd, e2, e3, _⟩ := (Ev.ite_iff hC hsel o hi.hty ht.hty he.hty hx).1 ev
      have hdd : Dom C o.ty d := hd.dom fun p hp => hx.pty p hp.1
      refine ⟨(hDi x hx).1 ⟨_, e1⟩ p hp, fun h1 => ?_, fun h1 => ?_⟩
      · exact (hDt y (e1.dom hi.hty hx)).1 ⟨_, e2⟩ p ((key e1 p).2 ⟨hp, h1⟩)
      · exact (hDe d hdd).1 ⟨_, e3⟩ p ((hd.2 p).2 ⟨hp, fun h2 => h1 ((key e1 p).1 h2).2⟩)
    · intro h1
      obtain ⟨y, e1⟩ := (hDi x hx).2 fun p hp => (h1 p hp).1
      have hy := e1.dom hi.hty hx
      obtain ⟨d, hd, hd'⟩ := exists_diff hC (OB.ty_shape o) hx hy
      obtain ⟨a, ea⟩ := (hDt y hy).2 fun p hp => (h1 p ((key e1 p).1 hp).1).2.1 ((key e1 p).1 hp).2
      obtain ⟨b, eb⟩ := (hDe d hd).2 fun p hp => by
        obtain ⟨h2, h3⟩ := (hd' p).1 hp
        exact (h1 p h2).2.2 fun h4 => h3 ((key e1 p).2 ⟨h2, h4⟩)
      obtain ⟨r, hr, hr'⟩ := exists_union hC ht.hty.shape [a, b] (by simpa using ⟨ea.dom ht.hty hy, eb.dom he.hty hd⟩)
      exact ⟨r, (Ev.ite_iff hC hsel o hi.hty ht.hty he.hty hx).2 ⟨y, d, a, b, e1, ⟨hd.wf, hd'⟩, ea, eb, ⟨hr.wf, by simpa using hr'⟩⟩⟩
  | indNil h0 h1 h2 => intro _; exact PW.of_def fun x hx => (HTy.indNil h0 h1 h2).def hC hF hH (by simp [Hom.noFix]) hx
  | indF T h0 h1 h2 h3 h4 _ =>
    intro _
    exact PW.of_def fun x hx => (HRel.indF T h0 h1 h2 h3 h4).hty.def hC hF hH (by simp [Hom.noFix]) hx
  | indH T h0 h1 h2 h3 h4 h5 _ =>
    intro _
    exact PW.of_def fun x hx => (HRel.indH T h0 h1 h2 h3 h4 h5).hty.def hC hF hH (by simp [Hom.noFix]) hx
  | inter R h1 h2 h3 h4 h5 _ =>
    intro hc
    exact PW.of_def fun x hx => (HRel.inter R h1 h2 h3 h4 h5).hty.def hC hF hH (by simpa only [Hom.calm, Hom.noFix] using hc) hx
  | @loc id nst nxt h tn R hne hr ih =>
    intro hc
    obtain ⟨D, hD⟩ := ih (by simpa only [Hom.calm] using hc)
    refine ⟨fun p => ∀ n q, p = .hier nxt.lvl n q → D n, fun x hx => ?_⟩
    rcases dom_hier hne hx with rfl | ⟨arcs, rfl, hga, hd1, hd2⟩
    · exact ⟨fun _ p hp => absurd hp (not_mem_zero p), fun _ => ⟨_, .zero _ _⟩⟩
    rw [Def.loc_here hC hr.hty hx]
    constructor
    · rintro h1 _ hp n q rfl
      obtain ⟨_, arc, harc, hn, hq⟩ := hp
      exact (hD _ (hd1 arc harc)).1 (h1 arc harc) n hn
    · intro h1 arc harc
      obtain ⟨q, hq⟩ := (hd2 arc harc).exists_mem (hga.succNe arc harc)
      exact (hD _ (hd1 arc harc)).2 fun n hn => h1 (.hier nxt.lvl n q) ⟨rfl, arc, harc, hn, hq⟩ n q rfl
  | @satFix o y F G L RF RL R hst hf hFr hl hLr hg ihF ihL ihG =>
    intro hc
    simp only [Hom.calm, Bool.and_eq_true, calmAll_iff] at hc
    obtain ⟨DF, hDF⟩ := ihF hc.1.1
    obtain ⟨DL, hDL⟩ := ihL hc.2
    have : ∀ g, ∃ D, g ∈ G → PW env C o g D := fun g => by
      by_cases hm : g ∈ G
      · obtain ⟨D, h⟩ := ihG g hm (hc.1.2 g hm); exact ⟨D, fun _ => h⟩
      · exact ⟨fun _ => True, fun h => absurd h hm⟩
    choose DG hDG using this
    have hrel := HRel.satFix R hst hf hFr hl hLr hg
    refine ⟨fun p => (∀ q, ReflTransGen (fun p p' => RF p p' ∨ RL p p' ∨ ∃ g ∈ G, R g p p') p q → DF q ∧ DL q ∧ ∀ g ∈ G, DG g q) ∧
      {q | ReflTransGen (fun p p' => RF p p' ∨ RL p p' ∨ ∃ g ∈ G, R g p p') p q}.Finite, fun x hx => ?_⟩
    constructor
    · rintro ⟨r, e⟩
      have hi := hrel.image hx e
      have hrd := e.dom hrel.hty hx
      obtain ⟨h1, h2, h3⟩ := Ev.satFix_end hC hst hf.rl hFr hl.rl hLr (fun g hm => (hg g hm).rl) hx e
      have hfin : (Reached C (fun p p' => RF p p' ∨ RL p p' ∨ ∃ g ∈ G, R g p p') x).Finite := (hrd.finite hv).subset fun p hp => (hi p).2 hp
      refine fun p hp => ⟨fun q hq => ?_, finite_of_reached hfin hp⟩
      have hq' := (hi q).2 ⟨p, hp, hq⟩
      exact ⟨(hDF r hrd).1 h1 q hq', (hDL r hrd).1 h2 q hq', fun g hm => (hDG g hm r hrd).1 (h3 g hm) q hq'⟩
    · intro h1
      have hfin := reached_finite (R := fun p p' => RF p p' ∨ RL p p' ∨ ∃ g ∈ G, R g p p') (hx.finite hv) fun p hp => (h1 p hp).2
      have hD : ∀ q ∈ Reached C (fun p p' => RF p p' ∨ RL p p' ∨ ∃ g ∈ G, R g p p') x, DF q ∧ DL q ∧ ∀ g ∈ G, DG g q := by
        rintro q ⟨p, hp, h2⟩
        exact (h1 p hp).1 q h2
      refine Def.satFix hC hst hf.rl hFr hl.rl hLr (fun g hm => (hg g hm).rl)
        (Q := fun q => q ∈ Reached C (fun p p' => RF p p' ∨ RL p p' ∨ ∃ g ∈ G, R g p p') x) hfin ?_
        (fun z hz hq => (hDF z hz).2 fun q h => (hD q (hq q h)).1) (fun z hz hq => (hDL z hz).2 fun q h => (hD q (hq q h)).2.1)
        (fun g hm z hz hq => (hDG g hm z hz).2 fun q h => (hD q (hq q h)).2.2 g hm) hx fun p hp => Reached.self hp
      rintro p p' ⟨p0, h2, h3⟩ _ h4
      exact ⟨p0, h2, h3.tail h4⟩
  | @satInter o y F G L t R hsh hne hst hg hsub ih =>
    intro hc
    have hc' : ∀ h ∈ F ++ G ++ L, h.calm = true := by
      simp only [Hom.calm, Bool.and_eq_true, calmAll_iff] at hc
      simpa [or_imp, forall_and, and_assoc] using hc
    refine PW.all (hs := F ++ G ++ L) (fun x hx => ?_) fun g hm => ih g hm (hc' g hm)
    by_cases h0 : x = .zero
    · subst h0; exact ⟨fun _ _ _ => ⟨_, .zero _ _⟩, fun _ => ⟨_, .zero _ _⟩⟩
    have hh := hst.here hx h0
    constructor
    · rintro ⟨r, e⟩ g hm
      cases e with
      | zero => exact absurd rfl h0
      | skip _ _ hb => exact (hh.not_below hb).elim
      | satInter f _ h1 => exact ⟨_, h1 g hm⟩
    · intro hd
      obtain ⟨r, hr⟩ := exists_all hC hsh (F ++ G ++ L) (fun h => evOf env C h o x) fun h hm => ((hd h hm).ev hC).dom (hg h hm).hty hx
      exact ⟨r, .satInter _ hh (fun h hm => (hd h hm).ev hC) hr⟩
  | @satSum o y F G L t R hsh hst hg ih =>
    intro hc
    have hc' : ∀ h ∈ F ++ G ++ L, h.calm = true := by
      simp only [Hom.calm, Bool.and_eq_true, calmAll_iff] at hc
      simpa [or_imp, forall_and, and_assoc] using hc
    refine PW.all (hs := F ++ G ++ L) (fun x hx => ?_) fun g hm => ih g hm (hc' g hm)
    by_cases h0 : x = .zero
    · subst h0; exact ⟨fun _ _ _ => ⟨_, .zero _ _⟩, fun _ => ⟨_, .zero _ _⟩⟩
    have hh := hst.here hx h0
    constructor
    · rintro ⟨r, e⟩ g hm
      cases e with
      | zero => exact absurd rfl h0
      | skip _ _ hb => exact (hh.not_below hb).elim
      | satSum f _ h1 => exact ⟨_, h1 g hm⟩
    · intro hd
      obtain ⟨r, hr⟩ := exists_fam hC hsh (F ++ G ++ L) (fun h => evOf env C h o x) fun h hm => ((hd h hm).ev hC).dom (hg h hm).hty hx
      exact ⟨r, .satSum _ hh (fun h hm => (hd h hm).ev hC) hr⟩
  | @sum o hs t R hsh hst hg ih =>
    intro hc
    have hc' := calmAll_iff.1 (by simpa only [Hom.calm] using hc)
    refine PW.all (hs := hs) (fun x hx => ?_) fun g hm => ih g hm (hc' g hm)
    by_cases h0 : x = .zero
    · subst h0; exact ⟨fun _ _ _ => ⟨_, .zero _ _⟩, fun _ => ⟨_, .zero _ _⟩⟩
    have hh := hst.here hx h0
    constructor
    · rintro ⟨r, e⟩ g hm
      cases e with
      | zero => exact absurd rfl h0
      | skip _ _ hb => exact (hh.not_below hb).elim
      | sum f _ h1 => exact ⟨_, h1 g hm⟩
    · intro hd
      obtain ⟨r, hr⟩ := exists_fam hC hsh hs (fun h => evOf env C h o x) fun h hm => ((hd h hm).ev hC).dom (hg h hm).hty hx
      exact ⟨r, .sum _ hh (fun h hm => (hd h hm).ev hC) hr⟩

theorem Ad.pointwise (hC : C.Lawful) (hv : ∀ v, {a | C.vmem a v}.Finite) (hF : ∀ u, sc.A u → ∀ o v, (env.indF u o v).noFix = true)
    (hH : ∀ u, sc.A u → ∀ o v, (env.indH u o v).noFix = true) {o : OB I} {h : Hom V I U} {t : Ty} (ha : Ad env C sc o h t)
    (hc : h.calm = true) : ∃ D, PW env C o h D := by
  obtain ⟨_, _, hr, _⟩ := ha
  exact hr.pointwise hC hv hF hH hc

end Verif
