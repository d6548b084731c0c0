import Verif.Hom.RelRewrite
import Verif.Hom.Finite
import Mathlib.Data.Set.Finite.Lattice
/-!
# Saturation does not lose termination

`rewrite` turns the fixpoint of a sum into a saturation, which applies the operands in another order.  When the paths reachable from
the operand are finitely many, the saturation returns.
-/

set_option autoImplicit false
set_option linter.unusedSectionVars false

namespace Verif

open Relation (ReflTransGen)

variable {V E I U : Type} [DecidableEq V] [DecidableEq I] [DecidableEq U] {env : User V I U} {C : Cfg V E} {sc : Scope I U}

/-- The paths reachable from those of an SDD. (Specification or proof device, not part of the code.) -/
def Reached (C : Cfg V E) (R : PRel E) (x : SDD V) : Set (Path E) := {q | ∃ p, Mem C p x ∧ ReflTransGen R p q}

theorem Reached.self {R : PRel E} {x : SDD V} {p : Path E} (hp : Mem C p x) : p ∈ Reached C R x := ⟨p, hp, .refl⟩

/-- Reachable paths carried to other reachable paths. -/
theorem Reached.map {R A : PRel E} {x s : SDD V} {P : Path E → Prop} (m : Path E → Path E)
    (hm : ∀ p, Mem C p s → m p ∈ Reached C R x) (hP : ∀ p, Mem C p s → P p)
    (hR : ∀ p p', P p → A p p' → ReflTransGen R (m p) (m p') ∧ P p') {q : Path E} (hq : q ∈ Reached C A s) : m q ∈ Reached C R x := by
  obtain ⟨p, hp, h⟩ := hq
  have : ReflTransGen R (m p) (m q) ∧ P q := by
    induction h with
    | refl => exact ⟨.refl, hP p hp⟩
    | tail _ h1 ih =>
      obtain ⟨h2, h3⟩ := hR _ _ ih.2 h1
      exact ⟨ih.1.trans h2, h3⟩
  obtain ⟨p0, h0, h1⟩ := hm p hp
  exact ⟨p0, h0, h1.trans this.1⟩

theorem Reached.finite_map {R A : PRel E} {x s : SDD V} {P : Path E → Prop} (m : Path E → Path E) (hi : Function.Injective m)
    (hm : ∀ p, Mem C p s → m p ∈ Reached C R x) (hP : ∀ p, Mem C p s → P p)
    (hR : ∀ p p', P p → A p p' → ReflTransGen R (m p) (m p') ∧ P p') (hf : (Reached C R x).Finite) : (Reached C A s).Finite :=
  (hf.preimage hi.injOn).subset fun _ hq => Reached.map m hm hP hR hq

/-- Induction on the paths of a finite set which are missing. -/
theorem missing_induction_in (hC : C.Lawful) {t : Ty} {Q : Path E → Prop} (S : List (Path E)) (hS : ∀ p, Q p → p ∈ S)
    {P : SDD V → Prop}
    (step : ∀ x, Dom C t x → (∀ p, Mem C p x → Q p) →
      ∃ z, Dom C t z ∧ (∀ p, Mem C p z → Q p) ∧ (∀ p, Mem C p x → Mem C p z) ∧ ((z ≠ x → P z) → P x)) :
    ∀ x, Dom C t x → (∀ p, Mem C p x → Q p) → P x := by
  classical
  have key : ∀ k x, Dom C t x → (∀ p, Mem C p x → Q p) → (S.filter fun p => ¬ Mem C p x).length ≤ k → P x := by
    intro k
    induction k with
    | zero =>
      intro x hx hQ hk
      obtain ⟨z, hz, hzQ, h1, h2⟩ := step x hx hQ
      refine h2 fun hne => absurd (canonical_ext hC hz.wf hx.wf fun p => ⟨fun hp => ?_, h1 p⟩) hne
      by_contra hc
      have : p ∈ S.filter fun p => ¬ Mem C p x := List.mem_filter.2 ⟨hS p (hzQ p hp), by simpa using hc⟩
      rw [List.length_eq_zero_iff.1 (Nat.le_zero.1 hk)] at this
      simp at this
    | succ k ih =>
      intro x hx hQ hk
      obtain ⟨z, hz, hzQ, h1, h2⟩ := step x hx hQ
      refine h2 fun hne => ?_
      have hex : ∃ p, Mem C p z ∧ ¬ Mem C p x := by
        by_contra hc
        push Not at hc
        exact hne (canonical_ext hC hz.wf hx.wf fun p => ⟨hc p, h1 p⟩)
      obtain ⟨p, hp, hp'⟩ := hex
      have hlt : (S.filter fun p => ¬ Mem C p z).length < (S.filter fun p => ¬ Mem C p x).length :=
        length_filter_lt (P := fun p => ¬ Mem C p z) (Q := fun p => ¬ Mem C p x) S (fun a _ ha hc => ha (h1 a hc)) (hS p (hzQ p hp))
          (fun hc => hc hp) hp'
      exact ih z hz hzQ (by omega)
  exact fun x hx hQ => key _ x hx hQ (Nat.le_refl _)

/-- The homomorphism returns on each SDD of an order. (Specification or proof device, not part of the code.) -/
def Tot (env : User V I U) (C : Cfg V E) (o : OB I) (h : Hom V I U) : Prop := ∀ y, Dom C o.ty y → Def env C h o y

/-- The fixpoint of a homomorphism which returns on reachable paths, when they are finitely many. -/
theorem Rl.def_fix_on (hC : C.Lawful) {o : OB I} {h : Hom V I U} {R : PRel E} (hr : Rl env C sc o h o.ty R) (hrefl : ReflOn o.ty R)
    {x : SDD V} (ht : ∀ y, Dom C o.ty y → (∀ p, Mem C p y → p ∈ Reached C R x) → Def env C h o y) (hx : Dom C o.ty x)
    (hf : (Reached C R x).Finite) : Def env C (.fix h) o x := by
  refine Ev.fix_finite hC hr.hty hf.toFinset.toList ?_ x hx fun p hp => ?_
  · intro y hy hyS
    obtain ⟨z, e⟩ := ht y hy fun p hp => by simpa using hyS p hp
    refine ⟨z, e, fun p hp => (hr.image hy e p).2 ⟨p, hp, hrefl p (hy.pty p hp)⟩, fun p hp => ?_⟩
    obtain ⟨q, hq, h1⟩ := (hr.image hy e p).1 hp
    have h2 := hyS q hq
    rw [Finset.mem_toList, Set.Finite.mem_toFinset] at h2 ⊢
    obtain ⟨p0, h3, h4⟩ := h2
    exact ⟨p0, h3, h4.tail h1⟩
  · rw [Finset.mem_toList, Set.Finite.mem_toFinset]
    exact Reached.self hp

/-- The fixpoint of a homomorphism which always returns, when finitely many paths are reachable. -/
theorem Rl.def_fix (hC : C.Lawful) {o : OB I} {h : Hom V I U} {R : PRel E} (hr : Rl env C sc o h o.ty R) (hrefl : ReflOn o.ty R)
    (ht : Tot env C o h) {x : SDD V} (hx : Dom C o.ty x) (hf : (Reached C R x).Finite) : Def env C (.fix h) o x :=
  hr.def_fix_on hC hrefl (fun y hy _ => ht y hy) hx hf

/-- One round of the chained homomorphisms of a saturation, inside a set of paths. -/
theorem exists_round_in (hC : C.Lawful) {o : OB I} {Q : Path E → Prop} (G : List (Hom V I U)) (R : Hom V I U → PRel E)
    (hG : ∀ g ∈ G, Rl env C sc o g o.ty (R g)) (hQ : ∀ g ∈ G, ∀ p p', Q p → PTy o.ty p → R g p p' → Q p')
    (hd : ∀ g ∈ G, ∀ z, Dom C o.ty z → (∀ p, Mem C p z → Q p) → Def env C g o z) {s : SDD V} (hs : Dom C o.ty s) (hsQ : ∀ p, Mem C p s → Q p) :
    ∃ c d : Nat → SDD V, c 0 = s ∧ (∀ i, (hi : i < G.length) → Ev env C G[i] o (c i) (d i)) ∧
      (∀ i, i < G.length → Is C (c (i + 1)) (fun p => Mem C p (c i) ∨ Mem C p (d i))) ∧ Dom C o.ty (c G.length) ∧
      (∀ p, Mem C p s → Mem C p (c G.length)) ∧ ∀ p, Mem C p (c G.length) → Q p := by
  induction G generalizing s with
  | nil =>
    exact ⟨fun _ => s, fun _ => s, rfl, fun i hi => absurd hi (by simp), fun i hi => absurd hi (by simp), hs, fun _ h => h, hsQ⟩
  | cons g G ih =>
    obtain ⟨y, ey⟩ := hd g (by simp) s hs hsQ
    have hy := ey.dom (hG g (by simp)).hty hs
    obtain ⟨z, hz, hz'⟩ := exists_union hC (OB.ty_shape o) [s, y] (by simpa using ⟨hs, hy⟩)
    have hzQ : ∀ p, Mem C p z → Q p := by
      intro p hp
      obtain ⟨w, hw, hp⟩ := (hz' p).1 hp
      simp only [List.mem_cons, List.not_mem_nil, or_false] at hw
      rcases hw with rfl | rfl
      · exact hsQ p hp
      · obtain ⟨q, hq, h1⟩ := ((hG g (by simp)).image hs ey p).1 hp
        exact hQ g (by simp) q p (hsQ q hq) (hs.pty q hq) h1
    obtain ⟨c, d, h0, h1, h2, h3, h4, h5⟩ := ih (fun g hg => hG g (by simp [hg])) (fun g hg => hQ g (by simp [hg]))
      (fun g hg => hd g (by simp [hg])) hz hzQ
    refine ⟨fun i => if i = 0 then s else c (i - 1), fun i => if i = 0 then y else d (i - 1), rfl, ?_, ?_, by simpa using h3, ?_,
      by simpa using h5⟩
    · intro i hi
      cases i with
      | zero => simpa using ey
      | succ i => simpa using h1 i (by simpa using hi)
    · intro i hi
      cases i with
      | zero => exact ⟨by simpa [h0] using hz.wf, by simpa [h0] using hz'⟩
      | succ i => simpa using h2 i (by simpa using hi)
    · intro p hp
      simpa using h4 p ((hz' p).2 ⟨s, by simp, hp⟩)

/-- A saturation, inside a finite set of paths closed by its operands. -/
theorem Def.satFix (hC : C.Lawful) {o : OB I} {y : Nat} {F L : Hom V I U} {G : List (Hom V I U)} {RF RL : PRel E}
    {R : Hom V I U → PRel E} (hst : Stop env (.satFix y F G L) o) (hF : Rl env C sc o F o.ty RF) (hFr : ReflOn o.ty RF)
    (hL : Rl env C sc o L o.ty RL) (hLr : ReflOn o.ty RL) (hG : ∀ g ∈ G, Rl env C sc o g o.ty (R g)) {Q : Path E → Prop}
    (hf : {p | Q p}.Finite) (hQ : ∀ p p', Q p → PTy o.ty p → (RF p p' ∨ RL p p' ∨ ∃ g ∈ G, R g p p') → Q p')
    (dF : ∀ z, Dom C o.ty z → (∀ p, Mem C p z → Q p) → Def env C F o z)
    (dL : ∀ z, Dom C o.ty z → (∀ p, Mem C p z → Q p) → Def env C L o z)
    (dG : ∀ g ∈ G, ∀ z, Dom C o.ty z → (∀ p, Mem C p z → Q p) → Def env C g o z) {x : SDD V} (hx : Dom C o.ty x) (hxQ : ∀ p, Mem C p x → Q p) : Def env C (.satFix y F G L) o x := by
  refine missing_induction_in hC (Q := Q) hf.toFinset.toList (fun p hp => by simpa using hp) (fun x hx hxQ => ?_) x hx hxQ
  obtain ⟨a, ea⟩ := dF x hx hxQ
  have ha := ea.dom hF.hty hx
  have haQ : ∀ p, Mem C p a → Q p := by
    intro p hp
    obtain ⟨q, hq, h1⟩ := (hF.image hx ea p).1 hp
    exact hQ q p (hxQ q hq) (hx.pty q hq) (Or.inl h1)
  obtain ⟨b, eb⟩ := dL a ha haQ
  have hb := eb.dom hL.hty ha
  have hbQ : ∀ p, Mem C p b → Q p := by
    intro p hp
    obtain ⟨q, hq, h1⟩ := (hL.image ha eb p).1 hp
    exact hQ q p (haQ q hq) (ha.pty q hq) (Or.inr (Or.inl h1))
  obtain ⟨c, d, h0, h1, h2, h3, h4, h5⟩ := exists_round_in hC G R hG
    (fun g hg p p' h1 h2 h3 => hQ p p' h1 h2 (Or.inr (Or.inr ⟨g, hg, h3⟩))) dG hb hbQ
  have hxa : ∀ p, Mem C p x → Mem C p a := fun p hp => (hF.image hx ea p).2 ⟨p, hp, hFr p (hx.pty p hp)⟩
  refine ⟨_, h3, h5, fun p hp => h4 p ((hL.image ha eb p).2 ⟨p, hxa p hp, hLr p (ha.pty p (hxa p hp))⟩), fun hP => ?_⟩
  by_cases h0' : x = .zero
  · subst h0'; exact ⟨_, .zero _ _⟩
  by_cases hne : c G.length = x
  · exact ⟨_, .satDone c d (hst.here hx h0') ea (h0 ▸ eb) h1 h2 hne⟩
  · obtain ⟨r, er⟩ := hP hne; exact ⟨r, .satStep c d (hst.here hx h0') ea (h0 ▸ eb) h1 h2 hne er⟩

/-! ## Below, and inside, a level -/

theorem exists_ne_zero (hC : C.Lawful) (hsg : Sing C) (o : OB I) : ∃ s : SDD V, Dom C o.ty s ∧ s ≠ .zero := by
  obtain ⟨p, hp⟩ := exists_pty hsg o
  obtain ⟨s, hs, hm⟩ := exists_single (V := V) hC hsg o p hp
  refine ⟨s, hs, ?_⟩
  rintro rfl
  exact not_mem_zero p ((hm p).2 rfl)

/-- Each SDD is below some arc. -/
theorem exists_above (hC : C.Lawful) (hsg : Sing C) (id : OId I) (nst nxt : OB I) {s : SDD V} (hs : Dom C nxt.ty s) (h0 : s ≠ .zero) :
    ∃ (x : SDD V) (hd : Head E), Dom C (OB.node id nst nxt).ty x ∧ ArcOf C x hd s := by
  by_cases hn : nst = .nil
  · subst hn
    obtain ⟨a⟩ := hsg.1
    obtain ⟨v, hv⟩ := hsg.2 a
    refine ⟨.flat nxt.lvl [(v, s)], .flat nxt.lvl a, .flat _ nxt.ty _ _ ?_ ⟨by simp, ?_, ?_, by simp, by simp⟩ (by simpa using hs), rfl, v,
      by simp, (hv a).2 rfl⟩
    · simp [OB.ty, Ty.flatNext, OB.lvl]
    · simpa using ⟨a, (hv a).2 rfl⟩
    · simpa using h0
  · obtain ⟨v, hv, hv0⟩ := exists_ne_zero (V := V) hC hsg nst
    obtain ⟨n, hnm⟩ := hv.exists_mem hv0
    refine ⟨.hier nxt.lvl [(v, s)], .hier nxt.lvl n, .hier _ nst.ty nxt.ty _ _ ?_ ⟨by simp, ?_, ?_, by simp, by simp⟩ (by simpa using hv)
      (by simpa using hs), rfl, v, by simp, hnm⟩
    · rw [hier_ty hn]; simp [Ty.hierNext]
    · simpa using ⟨n, hnm⟩
    · simpa using h0

/-- Each SDD is the valuation of some arc. -/
theorem exists_around (hC : C.Lawful) (hsg : Sing C) (id : OId I) {nst nxt : OB I} (hn : nst ≠ .nil) {v : SDD V} (hv : Dom C nst.ty v)
    (h0 : v ≠ .zero) : ∃ s, Dom C (OB.node id nst nxt).ty (.hier nxt.lvl [(v, s)]) := by
  obtain ⟨s, hs, hs0⟩ := exists_ne_zero (V := V) hC hsg nxt
  obtain ⟨n, hnm⟩ := hv.exists_mem h0
  refine ⟨s, .hier _ nst.ty nxt.ty _ _ ?_ ⟨by simp, ?_, ?_, by simp, by simp⟩ (by simpa using hv) (by simpa using hs)⟩
  · rw [hier_ty hn]; simp [Ty.hierNext]
  · simpa using ⟨n, hnm⟩
  · simpa using hs0

theorem Tot.sk (hC : C.Lawful) (hsg : Sing C) {id : OId I} {nst nxt : OB I} {h : Hom V I U} {t : Ty} (hty : HTy env C sc nxt h t)
    (hs : h.skip env nxt.lvl id = true) (ht : Tot env C (.node id nst nxt) h) : Tot env C nxt h := by
  intro y hy
  by_cases h0 : y = .zero
  · subst h0; exact ⟨_, .zero _ _⟩
  obtain ⟨x, hd, hx, ha⟩ := exists_above hC hsg id nst nxt hy h0
  exact (Def.skip_iff hC hty hs hx).1 (ht x hx) hd y ha

theorem Tot.loc (hC : C.Lawful) (hsg : Sing C) {id : OId I} {nst nxt : OB I} (hn : nst ≠ .nil) {h : Hom V I U} {t : Ty}
    (hty : HTy env C sc nst h t) (ht : Tot env C (.node id nst nxt) (.loc nxt.lvl h)) : Tot env C nst h := by
  intro y hy
  by_cases h0 : y = .zero
  · subst h0; exact ⟨_, .zero _ _⟩
  obtain ⟨s, hx⟩ := exists_around hC hsg id (nxt := nxt) hn hy h0
  exact (Def.loc_here hC hty hx).1 (ht _ hx) (y, s) (by simp)

/-- The operand of a fixpoint which always returns always returns. -/
theorem Tot.of_fix (hC : C.Lawful) {o : OB I} {h : Hom V I U} (hty : HTy env C sc o h o.ty) (ht : Tot env C o (.fix h)) :
    Tot env C o h := by
  intro y hy
  obtain ⟨r, e⟩ := ht y hy
  obtain ⟨n, c, h0, h1, h2, h3⟩ := (Ev.fix_iff hC o hty hy).1 e
  cases n with
  | zero => subst h0; subst h2; exact ⟨_, h3⟩
  | succ n => subst h0; exact ⟨_, h1 0 (by omega)⟩

/-- The operands of a sum which always returns always return. -/
theorem Tot.of_sum (hC : C.Lawful) {o : OB I} {hs : List (Hom V I U)} {t : Ty} (ht : t.IsShape) (hne : hs ≠ [])
    (hty : ∀ h ∈ hs, HTy env C sc o h t) (htot : Tot env C o (.sum hs)) : ∀ h ∈ hs, Tot env C o h := by
  intro h hm y hy
  obtain ⟨r, e⟩ := htot y hy
  exact ((Ev.sum_iff hC o ht hne hty hy).1 e).1 h hm

section
variable {lt : Hom V I U → Hom V I U → Bool} {ord : List (Nat × List (Hom V I U)) → List (Nat × List (Hom V I U))}

theorem Tot.hnary (hC : C.Lawful) (hon : Honest env C) (hlt : StrictTotal lt) (hord : Iterates ord) {o : OB I}
    {hs : List (Hom V I U)} {t : Ty} (hne : hs ≠ []) (hn : ∀ h ∈ hs, h.noEmpty = true) (hty : ∀ h ∈ hs, HTy env C sc o h t)
    (htot : ∀ h ∈ hs, Tot env C o h) : Tot env C o (hnary .sum lt ord hs) := by
  intro y hy
  obtain ⟨g, hg⟩ := List.exists_mem_of_ne_nil _ hne
  obtain ⟨_, h1⟩ := hsum_iff hC hon hlt hord hne hn hty
  obtain ⟨r, hr⟩ := SumSpec.exists hC (hty g hg).shape hty hy fun h hm => htot h hm y hy
  exact ⟨r, (h1 y r hy).2 hr⟩

/-- What is asked of the rewriting of fixpoints at a lower level. (Specification or proof device, not part of the code.) -/
def RwFix (env : User V I U) (C : Cfg V E) (sc : Scope I U) (o : OB I) (f : Hom V I U → Hom V I U) : Prop :=
  ∀ {h : Hom V I U}, h.noEmpty = true → ∀ {R : PRel E}, Rl env C sc o h o.ty R → ReflOn o.ty R → Tot env C o h →
    ∀ {x : SDD V}, Dom C o.ty x → (Reached C R x).Finite → Def env C (f (.fix h)) o x

theorem RwFix.hfix (hC : C.Lawful) {o : OB I} {f : Hom V I U → Hom V I U} (hf : RwFix env C sc o f) (hid : f .id = .id)
    {h : Hom V I U} (hn : h.noEmpty = true) {R : PRel E} (hr : Rl env C sc o h o.ty R) (hrefl : ReflOn o.ty R) (ht : Tot env C o h)
    {x : SDD V} (hx : Dom C o.ty x) (hx' : (Reached C R x).Finite) : Def env C (f (hfix h)) o x := by
  cases h with
  | id => simp only [Verif.hfix, hid]; exact ⟨_, .id _ _⟩
  | fix h =>
    simp only [Verif.hfix]
    obtain ⟨_, R0, h1, h2⟩ := Rl.fix_inv o hr
    have ht' := Tot.of_fix hC h1.hty ht
    have h0 : ReflOn o.ty R0 ∧ ∀ p p', PTy o.ty p → R0 p p' → R p p' := by
      rcases h2 with ⟨h3, h4⟩ | ⟨h3, h4⟩
      · exact ⟨h3, fun p p' hp h => (h4 p hp p').2 (.single h)⟩
      · exact ⟨hrefl.congr h4, fun p p' hp h => (h4 p hp p').2 h⟩
    refine hf (by simpa only [Hom.noEmpty] using hn) h1 h0.1 ht' hx ?_
    exact Reached.finite_map (R := R) (P := PTy o.ty) (fun p => p) (fun _ _ h => h) (fun p hp => Reached.self hp) (fun p hp => hx.pty p hp)
      (fun p p' hp h => ⟨.single (h0.2 p p' hp h), h1.rty p hp p' h⟩) hx'
  | _ => exact hf hn hr hrefl ht hx hx'

theorem hrewrite_id (o : OB I) : hrewrite env lt ord o .id = .id := by cases o <;> rfl

/-- The saturation made of a fixpoint returns when finitely many paths are reachable. -/
theorem RwFix.hrewrite (hC : C.Lawful) (hsg : Sing C) (hon : Honest env C) (hlt : StrictTotal lt) (hord : Iterates ord) (o : OB I) :
    RwFix env C sc o (hrewrite env lt ord o) := by
  induction o with
  | nil => intro h hn R hr hrefl ht x hx hf; exact hr.def_fix hC hrefl ht hx hf
  | node id nst nxt ihn ih =>
    intro h hn R hr hrefl ht x hx hf
    have hrs : ∀ h : Hom V I U, h.skip env nxt.lvl id = true →
        (Verif.hrewrite env lt ord nxt h).skip env nxt.lvl id = true := fun h => hrewrite_skip hlt hord nxt h (Nat.le_refl _)
    have hdef := hr.def_fix hC hrefl ht hx hf
    cases h with
    | sum hs =>
      rw [Verif.hrewrite]
      split
      · exact hdef
      rename_i hid
      have hid' : (hparts env nxt.lvl id hs).hasId = true := by simpa using hid
      have hp := hparts_good env nxt.lvl id hs
      generalize hparts env nxt.lvl id hs = p at hid' hp
      have hidm := hp.hasId.1 hid'
      obtain ⟨hne, hn'⟩ := noEmpty_mk (K := .sum).1 hn
      obtain ⟨ha, hR0⟩ := Rl.nary_inv (K := .sum) hC hsg hne _ hr
      have hty : ∀ h ∈ hs, HTy env C sc (.node id nst nxt) h (OB.node id nst nxt).ty := fun h hm => ((ha h hm).1.rl hC hsg).hty
      have htot := Tot.of_sum hC (OB.ty_shape _) hne hty ht
      have hRF := rewrite_fix_next hC hsg hlt hord hn' ha (Rl.hrewrite hC hsg hlt hord nxt) hrs hp
      have hRL := rewrite_fix_nested hC hsg hlt hord hn' ha (Rl.hrewrite hC hsg hlt hord nst) hp
      -- an operand makes a step
      have hop : ∀ h ∈ hs, ∀ q q', PTy (OB.node id nst nxt).ty q → relOf env C sc (.node id nst nxt) h q q' → R q q' :=
        fun h hm q q' hq h1 => (hR0 q hq q').2 ⟨h, hm, h1⟩
      have hstep : ∀ (gs : List (Hom V I U)), (∀ g ∈ gs, g ∈ hs) → ∀ q q', PTy (OB.node id nst nxt).ty q →
          ReflTransGen (NRel .sum gs (relOf env C sc (.node id nst nxt))) q q' → ReflTransGen R q q' ∧ PTy (OB.node id nst nxt).ty q' := by
        intro gs hgs q q' hq h1
        induction h1 with
        | refl => exact ⟨.refl, hq⟩
        | tail _ h2 ih2 =>
          obtain ⟨g, hg, h3⟩ := h2
          have h4 := hop g (hgs g hg) _ _ ih2.2 h3
          exact ⟨ih2.1.tail h4, hr.rty _ ih2.2 _ h4⟩
      -- the part below
      have dF : ∀ z, Dom C (OB.node id nst nxt).ty z → (∀ p, Mem C p z → p ∈ Reached C R x) →
          Def env C (if p.F = [] then .id else Verif.hrewrite env lt ord nxt (Verif.hfix (Verif.hnary .sum lt ord (p.F ++ [.id]))))
            (.node id nst nxt) z := by
        intro z hz hzQ
        split
        · exact ⟨_, .id _ _⟩
        have hm := fun h hm => (hp.F h).1 hm
        have ha' : ∀ h ∈ p.F, AdS env C sc .sum nxt h nxt.ty := by
          intro h hh
          refine AdS.sk hC hsg (id := id) (nst := nst) ?_ (hm h hh).2.2
          rw [liftTy_ty (id := id)]
          exact ha h (hm h hh).1
        have ha2 : ∀ h ∈ p.F ++ [.id], h.noEmpty = true ∧ AdS env C sc .sum nxt h nxt.ty ∧ Tot env C nxt h ∧ h.skip env nxt.lvl id = true := by
          intro h hh
          rcases List.mem_append.1 hh with hh | hh
          · exact ⟨hn' h (hm h hh).1, ha' h hh, (htot h (hm h hh).1).sk hC hsg ((ha' h hh).1.rl hC hsg).hty (hm h hh).2.2, (hm h hh).2.2⟩
          · rw [List.mem_singleton.1 hh]
            exact ⟨rfl, AdS.id hC hsg, fun y _ => ⟨y, .id _ _⟩, rfl⟩
        have h1 := Rl.hnary (K := .sum) hC hsg hlt hord (p.F ++ [.id]) (by simp) (fun h hh => (ha2 h hh).1) fun h hh => (ha2 h hh).2.1
        have h2 := hnary_noEmpty (K := .sum) hlt hord (p.F ++ [.id]) (by simp) fun h hh => (ha2 h hh).1
        have h3 := Tot.hnary hC hon hlt hord (o := nxt) (hs := p.F ++ [.id]) (by simp) (fun h hh => (ha2 h hh).1)
          (fun h hh => ((ha2 h hh).2.1.1.rl hC hsg).hty) fun h hh => (ha2 h hh).2.2.1
        have h4 : ReflOn nxt.ty (NRel .sum (p.F ++ [.id]) (relOf env C sc nxt)) := fun q hq =>
          (nrel_id hC hsg q hq q).2 (Or.inr rfl)
        have h5 := Rl.hfix hC hsg (Rl.fix hsg nxt h1 h4)
        have h6 := Rl.hrewrite hC hsg hlt hord nxt (hfix_noEmpty h2) h5
        have h7 := hfix_skip (hnary_skip (K := .sum) hlt hord _ (by simp) fun h hh => (ha2 h hh).2.2.2)
        refine (Def.skip_iff hC h6.hty (hrs _ h7) hz).2 fun hd s hs => ?_
        refine RwFix.hfix hC ih (hrewrite_id nxt) h2 h1 h4 h3 (hs.dom hz).1 ?_
        refine Reached.finite_map (R := R) (P := PTy nxt.ty) hd.cons ?_ (fun q hq => hzQ _ (mem_cons_iff.2 ⟨s, hs, hq⟩))
          (fun q hq => (hs.dom hz).1.pty q hq) (fun q q' hq h8 => ?_) hf
        · intro a b hab
          cases hd <;> simpa [Head.cons] using hab
        · have hq' := h1.rty q hq q' h8
          refine ⟨?_, hq'⟩
          obtain ⟨w, hw⟩ := (hs.dom hz).1.exists_mem (hs.dom hz).2
          have hhd : HeadOK nst nxt hd := by
            obtain ⟨hd', q0, h9, h10, _⟩ := pty_node.1 (hz.pty _ (mem_cons_iff.2 ⟨s, hs, hw⟩))
            obtain ⟨rfl, _⟩ := Head.cons_inj h9
            exact h10
          have hpt : PTy (OB.node id nst nxt).ty (hd.cons q) := pty_node.2 ⟨hd, q, rfl, hhd, hq⟩
          rcases (nrel_id hC hsg q hq q').1 h8 with ⟨h, hh, h9⟩ | rfl
          · refine .single (hop h (hm h hh).1 _ _ hpt ?_)
            exact (relOf_skip hC hsg (ha' h hh).1 (hm h hh).2.2 _ hpt _).2 ⟨hd, q, q', rfl, rfl, h9⟩
          · exact .refl
      -- the part inside
      have dL : ∀ z, Dom C (OB.node id nst nxt).ty z → (∀ p, Mem C p z → p ∈ Reached C R x) →
          Def env C (if p.L = [] then .id else hloc nxt.lvl (Verif.hrewrite env lt ord nst (Verif.hfix (Verif.hnary .sum lt ord (p.L ++ [.id])))))
            (.node id nst nxt) z := by
        intro z hz hzQ
        split
        · exact ⟨_, .id _ _⟩
        rename_i hL
        obtain ⟨g, hg⟩ := List.exists_mem_of_ne_nil _ hL
        have hm := fun h hm => (hp.L h).1 hm
        have hnn : nst ≠ .nil := by
          obtain ⟨_, _, _, he, ⟨_, h1, _⟩ | ⟨h1, _⟩⟩ := ((ha _ (hm g hg)).1.rl hC hsg).loc_inv
          · cases he; exact h1
          · cases he; exact absurd rfl h1
        have ha' : ∀ h ∈ p.L, AdS env C sc .sum nst h nst.ty ∧ REq (OB.node id nst nxt).ty
            (relOf env C sc (.node id nst nxt) (.loc nxt.lvl h)) (locRel nxt.lvl (relOf env C sc nst h)) := by
          intro h hh
          have := ha _ (hm h hh)
          rw [hier_ty hnn] at this
          exact (this.loc_inv hC hsg).2.2
        have ha2 : ∀ h ∈ p.L ++ [.id], h.noEmpty = true ∧ AdS env C sc .sum nst h nst.ty ∧ Tot env C nst h := by
          intro h hh
          rcases List.mem_append.1 hh with hh | hh
          · exact ⟨by simpa only [Hom.noEmpty] using hn' _ (hm h hh), (ha' h hh).1,
              (htot _ (hm h hh)).loc hC hsg hnn ((ha' h hh).1.1.rl hC hsg).hty⟩
          · rw [List.mem_singleton.1 hh]
            exact ⟨rfl, AdS.id hC hsg, fun y _ => ⟨y, .id _ _⟩⟩
        have h1 := Rl.hnary (K := .sum) hC hsg hlt hord (p.L ++ [.id]) (by simp) (fun h hh => (ha2 h hh).1) fun h hh => (ha2 h hh).2.1
        have h2 := hnary_noEmpty (K := .sum) hlt hord (p.L ++ [.id]) (by simp) fun h hh => (ha2 h hh).1
        have h3 := Tot.hnary hC hon hlt hord (o := nst) (hs := p.L ++ [.id]) (by simp) (fun h hh => (ha2 h hh).1)
          (fun h hh => ((ha2 h hh).2.1.1.rl hC hsg).hty) fun h hh => (ha2 h hh).2.2
        have h4 : ReflOn nst.ty (NRel .sum (p.L ++ [.id]) (relOf env C sc nst)) := fun q hq =>
          (nrel_id hC hsg q hq q).2 (Or.inr rfl)
        have h5 := Rl.hfix hC hsg (Rl.fix hsg nst h1 h4)
        have h6 := Rl.hrewrite hC hsg hlt hord nst (hfix_noEmpty h2) h5
        suffices Def env C (.loc nxt.lvl (Verif.hrewrite env lt ord nst (Verif.hfix (Verif.hnary .sum lt ord (p.L ++ [.id])))))
            (.node id nst nxt) z by
          unfold hloc
          split
          · rename_i h7; rw [h7]; exact ⟨_, .id _ _⟩
          · exact this
        rcases dom_hier hnn hz with rfl | ⟨arcs, rfl, hga, hd1, hd2⟩
        · exact ⟨_, .zero _ _⟩
        refine (Def.loc_here hC h6.hty hz).2 fun arc harc => ?_
        obtain ⟨q, hq⟩ := (hd2 arc harc).exists_mem (hga.succNe arc harc)
        refine RwFix.hfix hC ihn (hrewrite_id nst) h2 h1 h4 h3 (hd1 arc harc) ?_
        refine Reached.finite_map (R := R) (P := PTy nst.ty) (fun n => .hier nxt.lvl n q) ?_ (fun n hn => hzQ _ ⟨rfl, arc, harc, hn, hq⟩)
          (fun n hn => (hd1 arc harc).pty n hn) (fun n n' hn h8 => ⟨?_, h1.rty n hn n' h8⟩) hf
        · intro a b hab
          simpa using hab
        · have hpt : PTy (OB.node id nst nxt).ty (.hier nxt.lvl n q) :=
            pty_node.2 ⟨.hier nxt.lvl n, q, rfl, ⟨hnn, rfl, hn⟩, (hd2 arc harc).pty q hq⟩
          rcases (nrel_id hC hsg n hn n').1 h8 with ⟨h, hh, h9⟩ | rfl
          · exact .single (hop _ (hm h hh) _ _ hpt (((ha' h hh).2 _ hpt _).2 ⟨n, n', q, rfl, rfl, h9⟩))
          · exact .refl
      have hx0 : ∀ p, Mem C p x → p ∈ Reached C R x := fun p hp => Reached.self hp
      generalize (if p.F = [] then .id else Verif.hrewrite env lt ord nxt (Verif.hfix (Verif.hnary .sum lt ord (p.F ++ [.id])))) = f at hRF dF
      generalize (if p.L = [] then .id else
        hloc nxt.lvl (Verif.hrewrite env lt ord nst (Verif.hfix (Verif.hnary .sum lt ord (p.L ++ [.id]))))) = l at hRL dL
      unfold hsatFix
      split
      · exact dF x hx hx0
      · split
        · exact dL x hx hx0
        · refine Def.satFix hC (Q := fun q => q ∈ Reached C R x) (R := relOf env C sc (.node id nst nxt)) (by simp [Stop, Hom.skip]) hRF
            (fun _ _ => .refl) hRL (fun _ _ => .refl) (fun g hg => (ha g ((hp.G g).1 ((mem_homSet hlt).1 hg)).1).1.rl hC hsg) hf ?_ dF dL
            (fun g hg z hz _ => htot g ((hp.G g).1 ((mem_homSet hlt).1 hg)).1 z hz) hx hx0
          rintro q q' ⟨q0, h0, h1⟩ hq (h2 | h2 | ⟨g, hg, h2⟩)
          · exact ⟨q0, h0, h1.trans (hstep p.F (fun g hg => ((hp.F g).1 hg).1) q q' hq h2).1⟩
          · refine ⟨q0, h0, h1.trans (hstep (p.L.map (.loc nxt.lvl)) (fun g hg => ?_) q q' hq h2).1⟩
            obtain ⟨g', hg', rfl⟩ := List.mem_map.1 hg
            exact (hp.L g').1 hg'
          · exact ⟨q0, h0, h1.tail (hop g ((hp.G g).1 ((mem_homSet hlt).1 hg)).1 q q' hq h2)⟩
    | _ => exact hdef

end
end Verif
