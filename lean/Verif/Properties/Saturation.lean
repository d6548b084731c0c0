import Verif.Hom.SatSum
import Verif.Properties.Hom
/-!
# Termination of rewritten homomorphisms

C41 says that `rewrite(o, h)(o, x)` is `h(o, x)` when both return. Here: one returns exactly when the other one does, and whether a homomorphism returns
is decided path by path.
-/

set_option autoImplicit false
set_option linter.unusedSectionVars false

namespace Verif

open Relation

section
variable {V E I U : Type} [DecidableEq V] [DecidableEq I] [DecidableEq U] {L : Lib V E I U} {sc : Scope I U}

/-! ## C87: the rewriting of a fixpoint returns when the fixpoint does -/

/-- **C87.** `h` always returns and keeps the paths of its operands (for instance, a sum which contains the identity). Then the fixpoint of `h`, applied to
`x`, returns `r` if and only if its rewriting to a saturation, applied to `x`, returns `r`: rewriting neither loses nor adds termination. This holds for each
machine: the result of one after some history is, with enough stack, the result of the other one after every history. -/
theorem C87_fixpoint_partial (hL : L.OK sc) (hlim : L.C.limit = none) (hsg : Sing L.C) (hv : ∀ v, {a | L.C.vmem a v}.Finite)
    {lt : Hom V I U → Hom V I U → Bool} (hlt : StrictTotal lt)
    {ord : List (Nat × List (Hom V I U)) → List (Nat × List (Hom V I U))} (hord : Iterates ord) {o : OB I} (hS : sc.S o) {h : Hom V I U}
    (hb : Built L.env lt ord h) (ha : Ad L.env L.C sc o h o.ty) (hd : ∀ y, Dom L.C o.ty y → ∃ z, L.Returns sc h o y z)
    (hk : ∀ y z, Dom L.C o.ty y → L.Returns sc h o y z → ∀ p, Mem L.C p y → Mem L.C p z) {x : SDD V} (hx : Dom L.C o.ty x) (r : SDD V) :
    (L.Returns sc (hfix h) o x r → ∃ N, ∀ n, N ≤ n → ∀ s, L.Reach sc s → (L.apply n (hrewrite L.env lt ord o (hfix h)) o x s).1 = .ok r) ∧
    (L.Returns sc (hrewrite L.env lt ord o (hfix h)) o x r → ∃ N, ∀ n, N ≤ n → ∀ s, L.Reach sc s → (L.apply n (hfix h) o x s).1 = .ok r) := by
  have hC := hL.lawful
  have hr := ha.rl hC hsg
  have ht : Tot L.env L.C o h := by
    intro y hy
    obtain ⟨z, hz⟩ := hd y hy
    exact ⟨z, hz.ev hL ⟨hS, ⟨_, hr.hty⟩, hy⟩⟩
  have hrefl : ReflOn o.ty (relOf L.env L.C sc o h) := by
    intro p hp
    obtain ⟨s, hs, h1⟩ := exists_single hC hsg o p hp
    obtain ⟨z, hz⟩ := hd s hs
    obtain ⟨q, h2, h3⟩ := (hr.image hs (hz.ev hL ⟨hS, ⟨_, hr.hty⟩, hs⟩) p).1 (hk s z hs hz p ((h1 p).2 rfl))
    rwa [(h1 q).1 h2] at h3
  have hn := hb.noEmpty hlt hord
  have hf := Rl.hfix hC hsg (Rl.fix hsg o hr hrefl)
  have hw := Rl.hrewrite hC hsg hlt hord o (hfix_noEmpty hn) hf
  have fin : ∀ {g : Hom V I U}, Rl L.env L.C sc o g o.ty (ReflTransGen (relOf L.env L.C sc o h)) → Ev L.env L.C g o x r →
      (Reached L.C (relOf L.env L.C sc o h) x).Finite := by
    intro g hg e
    exact ((e.dom hg.hty hx).finite hv).subset fun p hp => (hg.image hx e p).2 hp
  constructor
  · intro h1
    have e := h1.ev hL ⟨hS, ⟨_, hf.hty⟩, hx⟩
    obtain ⟨r', e'⟩ := RwFix.hfix hC (RwFix.hrewrite hC hsg hL.honest hlt hord o) (hrewrite_id o) hn hr hrefl ht hx (fin hf e)
    rw [← hw.same hC hf hx e' e]
    exact hL.total hlim ⟨hS, ⟨_, hw.hty⟩, hx⟩ e'
  · intro h1
    have e := h1.ev hL ⟨hS, ⟨_, hw.hty⟩, hx⟩
    obtain ⟨r', e'⟩ := RwFix.hfix hC (f := fun h => h) (fun _ _ hr hrefl ht _ hx hf => hr.def_fix hC hrefl ht hx hf) rfl hn hr hrefl ht hx
      (fin hw e)
    rw [← hf.same hC hw hx e' e]
    exact hL.total hlim ⟨hS, ⟨_, hf.hty⟩, hx⟩ e'

end

/-- The fixpoint of `[id, h1]` returns; so does its rewriting, which is a saturation, after any history. -/
example (lt : Hom NSet Nat DemoH.DU → Hom NSet Nat DemoH.DU → Bool) (hlt : StrictTotal lt) : ∃ k, hsum lt id [.id, DemoH.h1] = .ok k ∧
    ∃ N, ∀ n, N ≤ n → ∀ s, DemoH.L.Reach DemoH.sc s →
      (DemoH.L.apply n (hrewrite DemoH.env lt id DemoH.o (hfix k)) DemoH.o DemoH.x s).1 =
        .ok (.hier 2 [(DemoH.f [1, 2, 3], .hier 1 [(DemoH.f [1], DemoH.f [3])])]) := by
  have hb : ∀ h ∈ [.id, DemoH.h1], Built DemoH.env lt id h ∧ Ad DemoH.env DemoH.L.C DemoH.sc DemoH.o h DemoH.o.ty := by
    simp only [List.mem_cons, List.not_mem_nil, or_false, forall_eq_or_imp, forall_eq]
    exact ⟨⟨.id, _, Rl.id⟩, .loc 2 (.fn 0 DemoH.DU.inc), DemoH.ad_h1⟩
  have hk : hsum lt id [.id, DemoH.h1] = .ok (hnary .sum lt id [.id, DemoH.h1]) := rfl
  have had := (C35_additive_closed DemoH.ok.lawful DemoH.sing hlt (fun _ => .rfl) DemoH.o).2.2.2.2.2.2.1 _ _ _ hk hb
  refine ⟨_, hk, (C87_fixpoint_partial DemoH.ok rfl DemoH.sing (fun v => List.finite_toSet v.data) hlt (fun _ => .rfl) trivial
    (.sum (fun h hh => (hb h hh).1) hk) had (fun y hy => ?_) (fun y z hy hz p hp => ?_) DemoH.dom_x _).1 ?_⟩
  · have hn : (hnary .sum lt id [.id, DemoH.h1]).noFix = true := by rcases DemoH.sum2 hlt with h | h <;> rw [h] <;> rfl
    obtain ⟨r, N, h⟩ := C57_returns DemoH.ok rfl (fun _ h => h.elim) (fun _ h => h.elim) hn
      ⟨trivial, ⟨_, (had.rl DemoH.ok.lawful DemoH.sing).hty⟩, hy⟩
    exact ⟨r, _, N, .init, h N le_rfl _ .init⟩
  · have hr := Rl.hnary (K := .sum) DemoH.ok.lawful DemoH.sing hlt (fun _ => .rfl) [.id, DemoH.h1] (by simp)
      (fun h hh => (hb h hh).1.noEmpty hlt fun _ => .rfl) fun h hh => ⟨(hb h hh).2, by simp⟩
    refine (hr.image hy (hz.ev DemoH.ok ⟨trivial, ⟨_, hr.hty⟩, hy⟩) p).2 ⟨p, hp, .id, by simp, ?_⟩
    exact (Rl.id.relEq DemoH.ok.lawful DemoH.sing p (hy.pty p hp) p).1 rfl
  · rcases DemoH.sum2 hlt with h | h <;> rw [h] <;> exact DemoH.ret 50 (by decide +kernel)

section
variable {V E I U : Type} [DecidableEq V] [DecidableEq I] [DecidableEq U] {L : Lib V E I U} {sc : Scope I U}

/-- **C87.** For every additive homomorphism whose rewritten intersections, and those in rewritten fixpoints, contain no fixpoint (its fixpoints may contain
fixpoints, even some which do not always return): `h`, applied to `x`, returns `r` if and only if its rewriting does, the result of one after some history being the result of the other one after every history. -/
theorem C87_rewrite_partial (hL : L.OK sc) (hlim : L.C.limit = none) (hsg : Sing L.C) (hv : ∀ v, {a | L.C.vmem a v}.Finite)
    (hF : ∀ u, sc.A u → ∀ o v, (L.env.indF u o v).noFix = true) (hH : ∀ u, sc.A u → ∀ o v, (L.env.indH u o v).noFix = true)
    {lt : Hom V I U → Hom V I U → Bool} (hlt : StrictTotal lt)
    {ord : List (Nat × List (Hom V I U)) → List (Nat × List (Hom V I U))} (hord : Iterates ord) {o : OB I} (hS : sc.S o) {h : Hom V I U}
    (hb : Built L.env lt ord h) {t : Ty} (ha : Ad L.env L.C sc o h t) (hs : h.simpleFix = true) {x : SDD V} (hx : Dom L.C o.ty x) (r : SDD V) :
    (L.Returns sc h o x r → ∃ N, ∀ n, N ≤ n → ∀ s, L.Reach sc s → (L.apply n (hrewrite L.env lt ord o h) o x s).1 = .ok r) ∧
    (L.Returns sc (hrewrite L.env lt ord o h) o x r → ∃ N, ∀ n, N ≤ n → ∀ s, L.Reach sc s → (L.apply n h o x s).1 = .ok r) := by
  have hC := hL.lawful
  have hn := hb.noEmpty hlt hord
  have h1 := ha.rl hC hsg
  have h2 := Rl.hrewrite hC hsg hlt hord o hn h1
  have hd := RwDef.hrewrite hC hsg hL.honest hlt hord hv hF hH o hn hs ha hx
  constructor
  · intro hr
    have e := hr.ev hL ⟨hS, ⟨_, h1.hty⟩, hx⟩
    obtain ⟨r', e'⟩ := hd.2 ⟨r, e⟩
    rw [← h2.same hC h1 hx e' e]
    exact hL.total hlim ⟨hS, ⟨_, h2.hty⟩, hx⟩ e'
  · intro hr
    have e := hr.ev hL ⟨hS, ⟨_, h2.hty⟩, hx⟩
    obtain ⟨r', e'⟩ := hd.1 ⟨r, e⟩
    rw [← h1.same hC h2 hx e' e]
    exact hL.total hlim ⟨hS, ⟨_, h1.hty⟩, hx⟩ e'

end

/-- The condition holds of fixpoints of sums of fixpoints. -/
example (h : Hom NSet Nat DemoH.DU) (hh : h.calm = true) :
    (Hom.fix (.sum [.id, .fix (.sum [.id, .loc 2 h]), .loc 1 (.fix (.sum [.id, h]))])).simpleFix = true := by
  simp [Hom.simpleFix, Hom.calm, calmAll, hh]

/-- The sum of a function and of a fixpoint. -/
example (lt : Hom NSet Nat DemoH.DU → Hom NSet Nat DemoH.DU → Bool) (hlt : StrictTotal lt) : ∃ k h, hsum lt id [.id, DemoH.h1] = .ok k ∧
    hsum lt id [hfix k, DemoH.h3] = .ok h ∧ ∃ r N, ∀ n, N ≤ n → ∀ s, DemoH.L.Reach DemoH.sc s →
      (DemoH.L.apply n (hrewrite DemoH.env lt id DemoH.o h) DemoH.o DemoH.x s).1 = .ok r := by
  have hb : ∀ h ∈ [.id, DemoH.h1], Built DemoH.env lt id h ∧ Ad DemoH.env DemoH.L.C DemoH.sc DemoH.o h DemoH.o.ty := by
    simp only [List.mem_cons, List.not_mem_nil, or_false, forall_eq_or_imp, forall_eq]
    exact ⟨⟨.id, _, Rl.id⟩, .loc 2 (.fn 0 DemoH.DU.inc), DemoH.ad_h1⟩
  have hk : hsum lt id [.id, DemoH.h1] = .ok (hnary .sum lt id [.id, DemoH.h1]) := rfl
  have hc := (C35_additive_closed (sc := DemoH.sc) (env := DemoH.env) DemoH.ok.lawful DemoH.sing hlt (ord := id) (fun _ => .rfl) DemoH.o)
  have hm : ∀ g ∈ [hfix (hnary .sum lt id [.id, DemoH.h1]), DemoH.h3],
      (Built DemoH.env lt id g ∧ Ad DemoH.env DemoH.L.C DemoH.sc DemoH.o g DemoH.o.ty) ∧ g.simpleFix = true ∧
        ∃ r, DemoH.L.Returns DemoH.sc g DemoH.o DemoH.x r := by
    simp only [List.mem_cons, List.not_mem_nil, or_false, forall_eq_or_imp, forall_eq]
    refine ⟨⟨⟨.fix (.sum (fun h hh => (hb h hh).1) hk), hc.2.2.2.2.2.2.2.2.1 _ _ hk (by simp) hb⟩, ?_,
      .hier 2 [(DemoH.f [1, 2, 3], .hier 1 [(DemoH.f [1], DemoH.f [3])])], ?_⟩, ⟨.loc 1 (.fn 0 DemoH.DU.inc), DemoH.ad_h3⟩, rfl,
      .hier 2 [(DemoH.f [1, 2], .hier 1 [(DemoH.f [2], DemoH.f [3])])], DemoH.ret 50 (by decide +kernel)⟩
    · rcases DemoH.sum2 hlt with h | h <;> rw [h] <;> rfl
    · rcases DemoH.sum2 hlt with h | h <;> rw [h] <;> exact DemoH.ret 50 (by decide +kernel)
  have hk2 : hsum lt id [hfix (hnary .sum lt id [.id, DemoH.h1]), DemoH.h3] =
    .ok (hnary .sum lt id [hfix (hnary .sum lt id [.id, DemoH.h1]), DemoH.h3]) := rfl
  have had := hc.2.2.2.2.2.2.1 _ _ _ hk2 fun g hg => (hm g hg).1
  refine ⟨_, _, hk, hk2, ?_⟩
  have : ∀ g, ∃ r, g ∈ [hfix (hnary .sum lt id [.id, DemoH.h1]), DemoH.h3] → DemoH.L.Returns DemoH.sc g DemoH.o DemoH.x r := by
    intro g
    by_cases hg : g ∈ [hfix (hnary .sum lt id [.id, DemoH.h1]), DemoH.h3]
    · obtain ⟨r, h⟩ := (hm g hg).2.2; exact ⟨r, fun _ => h⟩
    · exact ⟨.zero, fun h => absurd h hg⟩
  choose f hf using this
  obtain ⟨r, h1, _⟩ := C37_sum DemoH.ok hlt (fun _ => .rfl) trivial hk2 (fun g hg => (hm g hg).1.1)
    (fun g hg => ((hm g hg).1.2.rl DemoH.ok.lawful DemoH.sing).hty) DemoH.dom_x f hf
  obtain ⟨N, hN⟩ := h1.2 rfl
  exact ⟨r, (C87_rewrite_partial DemoH.ok rfl DemoH.sing (fun v => List.finite_toSet v.data) (fun _ h => h.elim) (fun _ h => h.elim) hlt (fun _ => .rfl)
    trivial (.sum (fun g hg => (hm g hg).1.1) hk2) had (hnary_simpleFix hlt (fun _ => .rfl) _ (by simp) fun g hg => (hm g hg).2.1) DemoH.dom_x r).1
    ⟨_, N, .init, hN N le_rfl _ .init⟩⟩

/-! ## C91: termination is decided path by path -/

section
variable {V E I U : Type} [DecidableEq V] [DecidableEq I] [DecidableEq U] {L : Lib V E I U} {sc : Scope I U}

/-- **C91.** An additive homomorphism whose intersections contain no fixpoint returns on each SDD covered by SDDs on which it returns, after every history. In
particular, it returns on the subsets of the SDDs on which it returns, and on their unions. -/
theorem C91_paths_partial (hL : L.OK sc) (hlim : L.C.limit = none) (hsg : Sing L.C) (hv : ∀ v, {a | L.C.vmem a v}.Finite)
    (hF : ∀ u, sc.A u → ∀ o v, (L.env.indF u o v).noFix = true) (hH : ∀ u, sc.A u → ∀ o v, (L.env.indH u o v).noFix = true)
    {o : OB I} (hS : sc.S o) {h : Hom V I U} {t : Ty} (ha : Ad L.env L.C sc o h t) (hc : h.calm = true) {z : SDD V} (hz : Dom L.C o.ty z)
    (hp : ∀ p, Mem L.C p z → ∃ x r, Dom L.C o.ty x ∧ Mem L.C p x ∧ L.Returns sc h o x r) :
    ∃ r N, ∀ n, N ≤ n → ∀ s, L.Reach sc s → (L.apply n h o z s).1 = .ok r := by
  have hC := hL.lawful
  have hty := (ha.rl hC hsg).hty
  obtain ⟨r, e⟩ := (ha.def_iff hC hsg hv hF hH hc hz).2 fun p hpz => by
    obtain ⟨x, r, hx, hpx, hr⟩ := hp p hpz
    exact (ha.def_iff hC hsg hv hF hH hc hx).1 ⟨r, hr.ev hL ⟨hS, ⟨_, hty⟩, hx⟩⟩ p hpx
  exact ⟨r, hL.total hlim ⟨hS, ⟨_, hty⟩, hz⟩ e⟩

end

/-- The fixpoint of `[id, h1]` returns on `x`, hence on a subset of `x`. -/
example (lt : Hom NSet Nat DemoH.DU → Hom NSet Nat DemoH.DU → Bool) (hlt : StrictTotal lt) : ∃ k, hsum lt id [.id, DemoH.h1] = .ok k ∧
    ∃ r N, ∀ n, N ≤ n → ∀ s, DemoH.L.Reach DemoH.sc s →
      (DemoH.L.apply n (hfix k) DemoH.o (.hier 2 [(DemoH.f [2], .hier 1 [(DemoH.f [1], DemoH.f [3])])]) s).1 = .ok r := by
  have hb : ∀ h ∈ [.id, DemoH.h1], Built DemoH.env lt id h ∧ Ad DemoH.env DemoH.L.C DemoH.sc DemoH.o h DemoH.o.ty := by
    simp only [List.mem_cons, List.not_mem_nil, or_false, forall_eq_or_imp, forall_eq]
    exact ⟨⟨.id, _, Rl.id⟩, .loc 2 (.fn 0 DemoH.DU.inc), DemoH.ad_h1⟩
  have hk : hsum lt id [.id, DemoH.h1] = .ok (hnary .sum lt id [.id, DemoH.h1]) := rfl
  have had := (C35_additive_closed (sc := DemoH.sc) (env := DemoH.env) DemoH.ok.lawful DemoH.sing hlt (ord := id) (fun _ => .rfl) DemoH.o).2.2.2.2.2.2.2.2.1
    _ _ hk (by simp) hb
  refine ⟨_, hk, C91_paths_partial DemoH.ok rfl DemoH.sing (fun v => List.finite_toSet v.data) (fun _ h => h.elim) (fun _ h => h.elim) trivial had ?_
    (DemoH.dom_h DemoH.dom_f (DemoH.dom_h DemoH.dom_f DemoH.dom_f (by simp [DemoH.f]) (by simp [DemoH.f])) (by simp [DemoH.f]) (by simp)) fun p hp =>
      ⟨DemoH.x, .hier 2 [(DemoH.f [1, 2, 3], .hier 1 [(DemoH.f [1], DemoH.f [3])])], DemoH.dom_x, ?_, ?_⟩⟩
  · rcases DemoH.sum2 hlt with h | h <;> rw [h] <;> rfl
  · cases p with
    | hier y n q =>
      obtain ⟨rfl, arc, harc, h1, h2⟩ := hp
      cases List.mem_singleton.1 harc
      refine ⟨rfl, _, List.mem_singleton_self _, ?_, h2⟩
      cases n with
      | flat y a n =>
        obtain ⟨rfl, arc, harc, h1, h2⟩ := h1
        cases List.mem_singleton.1 harc
        refine ⟨rfl, _, List.mem_singleton_self _, ?_, h2⟩
        rw [DemoH.vmem, DemoH.mem_ns] at h1 ⊢
        simp at h1 ⊢
        exact Or.inr h1
      | _ => cases h1
    | _ => cases hp
  · rcases DemoH.sum2 hlt with h | h <;> rw [h] <;> exact DemoH.ret 50 (by decide +kernel)

/-! ## C87, negation: intersections -/

/-- Objects can be anywhere in memory: the addresses may follow any rank. -/
theorem exists_lt_rank {α : Type} (rank : α → Nat) : ∃ lt : α → α → Bool, StrictTotal lt ∧ ∀ a b, rank a < rank b → lt a b = true := by
  classical
  obtain ⟨lt, h⟩ := DemoH.exists_lt α
  refine ⟨fun a b => decide (rank a < rank b) || (decide (rank a = rank b) && lt a b), ⟨fun a => ?_, fun a b c => ?_, fun a b => ?_⟩, ?_⟩
  · simp [h.irrefl]
  · simp only [Bool.or_eq_true, Bool.and_eq_true, decide_eq_true_eq]
    rintro (h1 | ⟨h1, h2⟩) (h3 | ⟨h3, h4⟩)
    · exact Or.inl (by omega)
    · exact Or.inl (by omega)
    · exact Or.inl (by omega)
    · exact Or.inr ⟨by omega, h.trans _ _ _ h2 h4⟩
  · simp only [Bool.or_eq_true, Bool.and_eq_true, decide_eq_true_eq]
    rcases Nat.lt_trichotomy (rank a) (rank b) with h1 | h1 | h1
    · exact Or.inl (Or.inl h1)
    · rcases h.total a b with h2 | h2 | h2
      · exact Or.inl (Or.inr ⟨h1, h2⟩)
      · exact Or.inr (Or.inl h2)
      · exact Or.inr (Or.inr (Or.inr ⟨h1.symm, h2⟩))
    · exact Or.inr (Or.inr (Or.inl h1))
  · intro a b h1; simp [h1]

namespace DemoI

/-- User's functions. -/
inductive DU : Type where
  | succ
  | none
  | dbl
  | pos
  deriving DecidableEq

/-- `succ` increments values, `none` keeps nothing, `dbl` doubles values, `pos` keeps the values other than 0. -/
def env : User NSet Nat DU where
  fn u v := match u with
    | .succ => ns (v.data.map (· + 1))
    | .none => ns []
    | .dbl => ns (v.data.map (2 * ·))
    | .pos => ns (v.data.filter (· ≠ 0))
  fnSel u := u == .none || u == .pos
  fnShift _ := false
  indOne _ := .one
  indF _ _ _ := .id
  indH _ _ _ := .id
  indSkip _ _ := false
  indSel _ := false

/-- A library. -/
def L : Lib NSet Nat Nat DU := ⟨env, natCfg none, fun k n => [k + n, 1], fun _ => 2, 2⟩

/-- All the uses which do not involve inductives. -/
def sc : Scope Nat DU := ⟨fun _ => True, fun _ => False⟩

theorem honest : Honest env (natCfg none) where
  fnSel u hu v b hb := by
    cases u with
    | succ => simp [env] at hu
    | dbl => simp [env] at hu
    | none =>
      have : b ∈ (ns []).data := hb
      rw [DemoH.mem_ns] at this
      simp at this
    | pos =>
      have : b ∈ (ns (v.data.filter (· ≠ 0))).data := hb
      rw [DemoH.mem_ns, List.mem_filter] at this
      exact this.1
  fnShift u hu := by simp [env] at hu
  indSel u hu := by simp [env] at hu

theorem ok : L.OK sc where
  lawful := natCfg_lawful none
  cap _ := by simp [L]
  hcap := by simp [L]
  honest := honest
  closed _ _ _ _ := ⟨trivial, trivial⟩
  transfer := Transfer.of_idFree fun _ h => h.elim

theorem sing : Sing L.C := DemoH.sing

theorem finite (v : NSet) : {a | L.C.vmem a v}.Finite := List.finite_toSet v.data

/-- The level below. -/
def nxt : OB Nat := .node (OB.uid 1) .nil .nil
/-- Two flat levels. -/
def o : OB Nat := .node (OB.uid 0) .nil nxt

/-- One path. -/
def x : SDD NSet := .flat 1 [(ns [0], DemoH.f [0])]

theorem dom_x : Dom L.C o.ty x := by
  refine .flat _ nxt.ty _ _ (by simp [Ty.flatNext, o, nxt, OB.ty]; rfl) ⟨by simp, ?_, by simp [DemoH.f], by simp, by simp⟩ ?_
  · simp only [List.mem_singleton, forall_eq]
    exact ⟨0, DemoH.vmem.2 (DemoH.mem_ns.2 (by simp))⟩
  · simp only [List.mem_singleton, forall_eq]
    exact DemoH.dom_f

/-- A sum which adds the images of the values of the lowest level. -/
def k (u : DU) : Hom NSet Nat DU := .sum [.id, .fn 0 u]
/-- A selector, which does not return when the images are infinitely many. -/
def f (u : DU) : Hom NSet Nat DU := .comp (.fn 0 .none) (.fix (k u))
/-- A selector which keeps nothing. -/
def g : Hom NSet Nat DU := .fn 1 .none
/-- A selector which keeps the values other than 0. -/
def g' : Hom NSet Nat DU := .fn 1 .pos

section
variable {u : DU} {m : Nat → Nat}

theorem rl_map (hm : ∀ v, env.fn u v = ns (v.data.map m)) :
    Rl env L.C sc nxt (.fn 0 u) nxt.ty fun p p' => ∃ a b q, p = .flat 0 a q ∧ p' = .flat 0 b q ∧ b = m a := by
  refine HRel.rl (HRel.fn (nxt := .nil) (fun a b => b = m a) fun v _ b => ?_)
  rw [hm]
  show b ∈ (ns _).data ↔ _
  rw [DemoH.mem_ns, List.mem_map]
  exact exists_congr fun a => and_congr_right fun _ => eq_comm

theorem rl_none (n : OB Nat) (id : OId Nat) : Rl env L.C sc (.node id .nil n) (.fn n.lvl .none) (OB.node id .nil n).ty
    fun p p' => ∃ a b q, p = .flat n.lvl a q ∧ p' = .flat n.lvl b q ∧ False := by
  refine HRel.rl (HRel.fn (fun a b => False) fun v _ b => ?_)
  show b ∈ (ns _).data ↔ _
  rw [DemoH.mem_ns]
  simp

theorem rl_pos (n : OB Nat) (id : OId Nat) : Rl env L.C sc (.node id .nil n) (.fn n.lvl .pos) (OB.node id .nil n).ty
    fun p p' => ∃ a b q, p = .flat n.lvl a q ∧ p' = .flat n.lvl b q ∧ (b = a ∧ a ≠ 0) := by
  refine HRel.rl (HRel.fn (fun a b => b = a ∧ a ≠ 0) fun v _ b => ?_)
  show b ∈ (ns _).data ↔ _
  rw [DemoH.mem_ns, List.mem_filter]
  constructor
  · rintro ⟨h1, h2⟩; exact ⟨b, h1, rfl, by simpa using h2⟩
  · rintro ⟨a, h1, rfl, h2⟩; exact ⟨h1, by simpa using h2⟩

/-- The relation of the sum. -/
def R (m : Nat → Nat) : PRel Nat := fun p p' => p' = p ∨ ∃ a b q, p = .flat 0 a q ∧ p' = .flat 0 b q ∧ b = m a

theorem rl_k (hm : ∀ v, env.fn u v = ns (v.data.map m)) : Rl env L.C sc nxt (k u) nxt.ty (R m) := by
  have h : Rl env L.C sc nxt (NAry.sum.mk [.id, .fn 0 u]) nxt.ty _ := Rl.nary ok.lawful sing (K := .sum) (hs := [.id, .fn 0 u]) (by simp) nxt (by
    intro h hm'
    simp only [List.mem_cons, List.not_mem_nil, or_false] at hm'
    rcases hm' with rfl | rfl
    · exact ⟨⟨_, Rl.id⟩, by simp⟩
    · exact ⟨⟨_, rl_map hm⟩, by simp⟩)
  refine h.congr fun p hp p' => ?_
  have h1 := (Rl.id (env := env) (C := L.C) (sc := sc) (o := nxt)).relEq ok.lawful sing p hp p'
  have h2 := (rl_map hm).relEq ok.lawful sing p hp p'
  show (∃ g ∈ _, _) ↔ _
  simp only [List.mem_cons, List.not_mem_nil, or_false, exists_eq_or_imp, exists_eq_left]
  rw [← h1, ← h2]
  rfl

theorem rl_fix (hm : ∀ v, env.fn u v = ns (v.data.map m)) : Rl env L.C sc nxt (.fix (k u)) nxt.ty (ReflTransGen (R m)) :=
  Rl.fix sing nxt (rl_k hm) fun _ _ => Or.inl rfl

/-- The fixpoint never returns. -/
theorem diverges (hm : ∀ v, env.fn u v = ns (v.data.map m)) (a : Nat) (hi : Function.Injective fun n => m^[n] a) (r : SDD NSet) :
    ¬ Ev env L.C (.fix (k u)) nxt (DemoH.f [a]) r := by
  intro e
  have hd : Dom L.C nxt.ty (DemoH.f [a]) := DemoH.dom_f
  refine Set.infinite_range_of_injective (f := fun n : Nat => Path.flat 0 (m^[n] a) .nil) (fun a b h => hi (by simpa using h))
    (((e.dom (rl_fix hm).hty hd).finite finite).subset ?_)
  rintro _ ⟨n, rfl⟩
  refine ((rl_fix hm).image hd e _).2 ⟨.flat 0 a .nil, ⟨rfl, _, List.mem_singleton_self _, DemoH.vmem.2 (DemoH.mem_ns.2 (by simp)), rfl⟩, ?_⟩
  induction n with
  | zero => exact .refl
  | succ n ih => exact ih.tail (Or.inr ⟨_, _, .nil, rfl, rfl, Function.iterate_succ_apply' m n a⟩)

theorem rl_f (hm : ∀ v, env.fn u v = ns (v.data.map m)) : Rl env L.C sc nxt (f u) nxt.ty (fun _ _ => False) := by
  refine (Rl.comp nxt (rl_fix hm) (rl_none .nil _)).congr fun p hp p' => ?_
  simp [relComp]

end

theorem hsucc (v : NSet) : env.fn .succ v = ns (v.data.map Nat.succ) := rfl
theorem hdbl (v : NSet) : env.fn .dbl v = ns (v.data.map (2 * ·)) := rfl

theorem succ_inj : Function.Injective fun n => Nat.succ^[n] 0 := by
  have key : ∀ n, Nat.succ^[n] 0 = n := by
    intro n
    induction n with
    | zero => rfl
    | succ n ih => rw [Function.iterate_succ_apply', ih]
  intro a b h
  simpa [key] using h

theorem dbl_inj : Function.Injective fun n => (2 * ·)^[n] 1 := by
  intro a b h
  have h' : 2 ^ a = 2 ^ b := by simpa [mul_left_iterate] using h
  exact Nat.pow_right_injective (le_refl 2) h'

/-- Addresses for which the operand which keeps nothing comes first. -/
def rank (h : Hom NSet Nat DU) : Nat := if h = g ∨ h = g' then 0 else if h = .id then 0 else 1

end DemoI

/-- **C87**, negation. An intersection stops at the first operand whose result is empty; once rewritten, the operands which skip the level are evaluated first,
and all of them are. Here an intersection of two selectors, additive, returns, and its rewriting never does. -/
theorem C87_negation : ∃ (lt : Hom NSet Nat DemoI.DU → Hom NSet Nat DemoI.DU → Bool) (h : Hom NSet Nat DemoI.DU),
    DemoI.L.OK DemoI.sc ∧ DemoI.L.C.limit = none ∧ Sing DemoI.L.C ∧ (∀ v, {a | DemoI.L.C.vmem a v}.Finite) ∧ StrictTotal lt ∧
    DemoI.sc.S DemoI.o ∧ Built DemoI.env lt id h ∧ Ad DemoI.env DemoI.L.C DemoI.sc DemoI.o h DemoI.o.ty ∧ Dom DemoI.L.C DemoI.o.ty DemoI.x ∧
    (∃ N, ∀ n, N ≤ n → ∀ s, DemoI.L.Reach DemoI.sc s → (DemoI.L.apply n h DemoI.o DemoI.x s).1 = .ok .zero) ∧
    ∀ n s, DemoI.L.Reach DemoI.sc s → ∀ r, (DemoI.L.apply n (hrewrite DemoI.env lt id DemoI.o h) DemoI.o DemoI.x s).1 ≠ .ok r := by
  obtain ⟨lt, hlt, hr⟩ := exists_lt_rank DemoI.rank
  have l1 : lt DemoI.g (DemoI.f .succ) = true := hr _ _ (by simp [DemoI.rank, DemoI.g, DemoI.g', DemoI.f])
  have l1' : lt (DemoI.f .succ) DemoI.g = false := by
    by_contra h
    have := hlt.trans _ _ _ l1 (by simpa using h)
    rw [hlt.irrefl] at this; cases this
  have l2 : lt .id (.fn 0 .succ) = true := hr _ _ (by simp [DemoI.rank, DemoI.g, DemoI.g'])
  have l2' : lt (.fn 0 .succ) .id = false := by
    by_contra h
    have := hlt.trans _ _ _ l2 (by simpa using h)
    rw [hlt.irrefl] at this; cases this
  have hk : hsum lt id [.id, .fn 0 .succ] = .ok (DemoI.k .succ) := by
    simp [hsum, DemoI.k, hnary, heightAll, Hom.height, hnaryN, hvisitAll, hvisit, HAcc.add, insertBy, l2, l2', NAry.mk]
  have hf : hcomp (.fn 0 .none) (hfix (DemoI.k .succ)) = (DemoI.f .succ) := by simp [hcomp, hcompGen, hfix, DemoI.k, DemoI.f]
  have hg : hinter lt id [DemoI.g, (DemoI.f .succ)] = .ok (.inter [DemoI.g, (DemoI.f .succ)]) := by
    unfold DemoI.f DemoI.g at l1 l1' ⊢
    simp [hinter, hnary, heightAll, Hom.height, hnaryN, hvisitAll, hvisit, HAcc.add, insertBy, l1, l1', NAry.mk]
  have hw : hrewrite DemoI.env lt id DemoI.o (.inter [DemoI.g, (DemoI.f .succ)]) = .satInter 1 [(DemoI.f .succ)] [DemoI.g] [] := by
    simp [DemoI.o, DemoI.nxt, DemoI.f, DemoI.g, DemoI.k, hrewrite, hparts, Hom.skip, Hom.skipAll, OB.lvl, OB.level, hsatInter, homSet, insertBy, DemoI.env,
      hnary, heightAll, Hom.height, hnaryN, hvisitAll, hvisit, HAcc.add]
  have hC := DemoI.ok.lawful
  have hsg := DemoI.sing
  have sf : Hom.skip DemoI.env DemoI.nxt.lvl (OB.uid 0) (DemoI.f .succ) = true := rfl
  have rf : Rl DemoI.env DemoI.L.C DemoI.sc DemoI.o (DemoI.f .succ) DemoI.o.ty (liftRel fun _ _ => False) := (DemoI.rl_f DemoI.hsucc).above sf
  have rg : Rl DemoI.env DemoI.L.C DemoI.sc DemoI.o DemoI.g DemoI.o.ty _ := DemoI.rl_none DemoI.nxt (OB.uid 0)
  have hb : ∀ h ∈ [DemoI.g, (DemoI.f .succ)], Built DemoI.env lt id h := by
    simp only [List.mem_cons, List.not_mem_nil, or_false, forall_eq_or_imp, forall_eq]
    refine ⟨.fn 1 DemoI.DU.none, ?_⟩
    rw [← hf]
    refine .comp (.fn 0 DemoI.DU.none) (.fix (.sum ?_ hk))
    simp only [List.mem_cons, List.not_mem_nil, or_false, forall_eq_or_imp, forall_eq]
    exact ⟨.id, .fn 0 DemoI.DU.succ⟩
  have had : ∀ h ∈ [DemoI.g, (DemoI.f .succ)], AdS DemoI.env DemoI.L.C DemoI.sc .inter DemoI.o h DemoI.o.ty := by
    simp only [List.mem_cons, List.not_mem_nil, or_false, forall_eq_or_imp, forall_eq]
    refine ⟨⟨⟨_, rg⟩, fun _ p hp p' h => ?_⟩, ⟨_, rf⟩, fun _ p hp p' h => ?_⟩
    · obtain ⟨_, _, _, _, _, h⟩ := (rg.relEq hC hsg p hp p').2 h; exact h.elim
    · have h1 := (rf.relEq hC hsg p hp p').2 h
      obtain ⟨_, _, _, _, _, h⟩ := h1; exact h.elim
  have ha : Ad DemoI.env DemoI.L.C DemoI.sc DemoI.o (.inter [DemoI.g, (DemoI.f .succ)]) DemoI.o.ty :=
    ⟨_, Rl.nary hC hsg (K := .inter) (hs := [DemoI.g, (DemoI.f .succ)]) (by simp) DemoI.o had⟩
  have hB : Built DemoI.env lt id (.inter [DemoI.g, (DemoI.f .succ)]) := .inter hb hg
  refine ⟨lt, .inter [DemoI.g, (DemoI.f .succ)], DemoI.ok, rfl, hsg, DemoI.finite, hlt, trivial, hB, ha, DemoI.dom_x, ?_, ?_⟩
  · refine DemoI.ok.total rfl ⟨trivial, ⟨_, (ha.rl hC hsg).hty⟩, DemoI.dom_x⟩ ?_
    refine .interZero (h := DemoI.g) [] [(DemoI.f .succ)] (fun _ => .zero) ⟨rfl, rfl⟩ (by simp) ?_
    refine .fn ⟨rfl, rfl⟩ ⟨⟨0, .zero _⟩, fun p => ?_⟩
    have : ∀ b, ¬ DemoI.L.C.vmem b (DemoI.L.env.fn .none (ns [0])) := by
      intro b hb
      have : b ∈ (ns []).data := hb
      rw [DemoH.mem_ns] at this
      simp at this
    simpa [not_mem_zero] using fun b q _ h => absurd h (this b)
  · intro n s hs r he
    have hrw := Rl.hrewrite hC hsg hlt (fun _ => .rfl) DemoI.o (hB.noEmpty hlt fun _ => .rfl) (ha.rl hC hsg)
    have e := Lib.Returns.ev DemoI.ok ⟨s, n, hs, he⟩ ⟨trivial, ⟨_, hrw.hty⟩, DemoI.dom_x⟩
    rw [show DemoI.L.env = DemoI.env from rfl, hw] at e
    have e' : ∃ z, Ev DemoI.env DemoI.L.C (DemoI.f .succ) DemoI.o DemoI.x z := by
      unfold DemoI.x DemoI.o at e ⊢
      cases e with
      | skip _ _ h => exact absurd h.2 (show ¬ _ from by decide +kernel)
      | satInter f _ h => exact ⟨_, h (DemoI.f .succ) (by simp)⟩
    have h1 := (Def.skip_iff hC (DemoI.rl_f DemoI.hsucc).hty sf DemoI.dom_x).1 e' (.flat 1 0) (DemoH.f [0])
      ⟨rfl, _, List.mem_singleton_self _, DemoH.vmem.2 (DemoH.mem_ns.2 (by simp))⟩
    obtain ⟨z, e⟩ := h1
    obtain ⟨y, e1, _⟩ := (Ev.comp_iff hC DemoI.nxt (DemoI.rl_fix DemoI.hsucc).hty (DemoI.rl_none .nil (OB.uid 1)).hty DemoH.dom_f).1 e
    exact DemoI.diverges DemoI.hsucc 0 DemoI.succ_inj y e1

/-! ## C91, negation: intersections -/

namespace DemoI

/-- An SDD on which the intersection stops at its first operand. -/
def y1 : SDD NSet := .flat 1 [(ns [0], DemoH.f [1])]
/-- An SDD on which all the operands return. -/
def y2 : SDD NSet := .flat 1 [(ns [1], DemoH.f [0])]
/-- Their union. -/
def z : SDD NSet := .flat 1 [(ns [1], DemoH.f [0]), (ns [0], DemoH.f [1])]

theorem dom1 {a b : Nat} : Dom L.C o.ty (.flat 1 [(ns [a], DemoH.f [b])]) := by
  refine .flat _ nxt.ty _ _ (by simp [Ty.flatNext, o, nxt, OB.ty]; rfl) ⟨by simp, ?_, by simp [DemoH.f], by simp, by simp⟩ ?_
  · simp only [List.mem_singleton, forall_eq]
    exact ⟨a, DemoH.vmem.2 (DemoH.mem_ns.2 (by simp))⟩
  · simp only [List.mem_singleton, forall_eq]
    exact DemoH.dom_f

theorem dom_z : Dom L.C o.ty z := by
  refine .flat _ nxt.ty _ _ (by simp [Ty.flatNext, o, nxt, OB.ty]; rfl) ⟨by simp, ?_, by simp [DemoH.f], ?_, ?_⟩ ?_
  · simp only [List.mem_cons, List.not_mem_nil, or_false, forall_eq_or_imp, forall_eq]
    exact ⟨⟨1, DemoH.vmem.2 (DemoH.mem_ns.2 (by simp))⟩, ⟨0, DemoH.vmem.2 (DemoH.mem_ns.2 (by simp))⟩⟩
  · simp only [List.pairwise_cons, List.mem_singleton, forall_eq, List.not_mem_nil, false_imp_iff, implies_true, List.Pairwise.nil, and_true]
    rintro a ⟨h1, h2⟩
    have h1 := DemoH.mem_ns.1 (DemoH.vmem.1 h1)
    have h2 := DemoH.mem_ns.1 (DemoH.vmem.1 h2)
    simp at h1 h2
    omega
  · simp only [List.pairwise_cons, List.mem_singleton, forall_eq, List.not_mem_nil, false_imp_iff, implies_true, List.Pairwise.nil, and_true]
    decide +kernel
  · simp only [List.mem_cons, List.not_mem_nil, or_false, forall_eq_or_imp, forall_eq]
    exact ⟨DemoH.dom_f, DemoH.dom_f⟩

theorem mem_z (p : Path Nat) : Mem L.C p z ↔ Mem L.C p y1 ∨ Mem L.C p y2 := by
  cases p with
  | flat y a q => simp [z, y1, y2, Mem, and_or_left, or_comm]
  | _ => simp [z, y1, y2, Mem]

end DemoI

/-- **C91**, negation. An intersection which contains a fixpoint, additive, returns on two SDDs and not on their union: on the first one, the first operand
returns the empty SDD and the fixpoint is not evaluated; on the second one, the fixpoint returns. -/
theorem C91_negation : ∃ (lt : Hom NSet Nat DemoI.DU → Hom NSet Nat DemoI.DU → Bool) (h : Hom NSet Nat DemoI.DU) (x y z : SDD NSet),
    DemoI.L.OK DemoI.sc ∧ DemoI.L.C.limit = none ∧ Sing DemoI.L.C ∧ (∀ v, {a | DemoI.L.C.vmem a v}.Finite) ∧ StrictTotal lt ∧
    DemoI.sc.S DemoI.o ∧ Built DemoI.env lt id h ∧ Ad DemoI.env DemoI.L.C DemoI.sc DemoI.o h DemoI.o.ty ∧
    Dom DemoI.L.C DemoI.o.ty x ∧ Dom DemoI.L.C DemoI.o.ty y ∧ Dom DemoI.L.C DemoI.o.ty z ∧
    (∀ p, Mem DemoI.L.C p z ↔ Mem DemoI.L.C p x ∨ Mem DemoI.L.C p y) ∧
    (∃ N, ∀ n, N ≤ n → ∀ s, DemoI.L.Reach DemoI.sc s → (DemoI.L.apply n h DemoI.o x s).1 = .ok .zero) ∧
    (∃ N, ∀ n, N ≤ n → ∀ s, DemoI.L.Reach DemoI.sc s → (DemoI.L.apply n h DemoI.o y s).1 = .ok .zero) ∧
    ∀ n s, DemoI.L.Reach DemoI.sc s → ∀ r, (DemoI.L.apply n h DemoI.o z s).1 ≠ .ok r := by
  obtain ⟨lt, hlt, hr⟩ := exists_lt_rank DemoI.rank
  have asymm : ∀ {a b}, lt a b = true → lt b a = false := by
    intro a b l1
    by_contra h
    have := hlt.trans _ _ _ l1 (by simpa using h)
    rw [hlt.irrefl] at this; cases this
  have l1 : lt DemoI.g' (DemoI.f .dbl) = true := hr _ _ (by simp [DemoI.rank, DemoI.g, DemoI.g', DemoI.f])
  have l2 : lt .id (.fn 0 .dbl) = true := hr _ _ (by simp [DemoI.rank, DemoI.g, DemoI.g'])
  have l1' := asymm l1
  have l2' := asymm l2
  have hk : hsum lt id [.id, .fn 0 .dbl] = .ok (DemoI.k .dbl) := by
    simp [hsum, DemoI.k, hnary, heightAll, Hom.height, hnaryN, hvisitAll, hvisit, HAcc.add, insertBy, l2, l2', NAry.mk]
  have hf : hcomp (.fn 0 .none) (hfix (DemoI.k .dbl)) = DemoI.f .dbl := by simp [hcomp, hcompGen, hfix, DemoI.k, DemoI.f]
  have hg : hinter lt id [DemoI.g', DemoI.f .dbl] = .ok (.inter [DemoI.g', DemoI.f .dbl]) := by
    unfold DemoI.f DemoI.g' at l1 l1' ⊢
    simp [hinter, hnary, heightAll, Hom.height, hnaryN, hvisitAll, hvisit, HAcc.add, insertBy, l1, l1', NAry.mk]
  have hC := DemoI.ok.lawful
  have hsg := DemoI.sing
  have sf : Hom.skip DemoI.env DemoI.nxt.lvl (OB.uid 0) (DemoI.f .dbl) = true := rfl
  have rf : Rl DemoI.env DemoI.L.C DemoI.sc DemoI.o (DemoI.f .dbl) DemoI.o.ty (liftRel fun _ _ => False) := (DemoI.rl_f DemoI.hdbl).above sf
  have rg : Rl DemoI.env DemoI.L.C DemoI.sc DemoI.o DemoI.g' DemoI.o.ty _ := DemoI.rl_pos DemoI.nxt (OB.uid 0)
  have hb : ∀ h ∈ [DemoI.g', DemoI.f .dbl], Built DemoI.env lt id h := by
    simp only [List.mem_cons, List.not_mem_nil, or_false, forall_eq_or_imp, forall_eq]
    refine ⟨.fn 1 DemoI.DU.pos, ?_⟩
    rw [← hf]
    refine .comp (.fn 0 DemoI.DU.none) (.fix (.sum ?_ hk))
    simp only [List.mem_cons, List.not_mem_nil, or_false, forall_eq_or_imp, forall_eq]
    exact ⟨.id, .fn 0 DemoI.DU.dbl⟩
  have had : ∀ h ∈ [DemoI.g', DemoI.f .dbl], AdS DemoI.env DemoI.L.C DemoI.sc .inter DemoI.o h DemoI.o.ty := by
    simp only [List.mem_cons, List.not_mem_nil, or_false, forall_eq_or_imp, forall_eq]
    refine ⟨⟨⟨_, rg⟩, fun _ p hp p' h => ?_⟩, ⟨_, rf⟩, fun _ p hp p' h => ?_⟩
    · obtain ⟨_, _, _, rfl, rfl, rfl, _⟩ := (rg.relEq hC hsg p hp p').2 h; rfl
    · have h1 := (rf.relEq hC hsg p hp p').2 h
      obtain ⟨_, _, _, _, _, h⟩ := h1; exact h.elim
  have ha : Ad DemoI.env DemoI.L.C DemoI.sc DemoI.o (.inter [DemoI.g', DemoI.f .dbl]) DemoI.o.ty :=
    ⟨_, Rl.nary hC hsg (K := .inter) (hs := [DemoI.g', DemoI.f .dbl]) (by simp) DemoI.o had⟩
  have hB : Built DemoI.env lt id (.inter [DemoI.g', DemoI.f .dbl]) := .inter hb hg
  have hty := (ha.rl hC hsg).hty
  have ret : ∀ {x : SDD NSet}, Dom DemoI.L.C DemoI.o.ty x →
      (DemoI.L.apply 50 (.inter [DemoI.g', DemoI.f .dbl]) DemoI.o x ⟨⟨fun _ => [], 0⟩, []⟩).1 = .ok .zero →
      ∃ N, ∀ n, N ≤ n → ∀ s, DemoI.L.Reach DemoI.sc s → (DemoI.L.apply n (.inter [DemoI.g', DemoI.f .dbl]) DemoI.o x s).1 = .ok .zero := by
    intro x hx he
    have hu : DemoI.L.Use DemoI.sc (.inter [DemoI.g', DemoI.f .dbl]) DemoI.o x := ⟨trivial, ⟨_, hty⟩, hx⟩
    exact DemoI.ok.total rfl hu (Lib.Returns.ev DemoI.ok ⟨_, 50, .init, he⟩ hu)
  refine ⟨lt, .inter [DemoI.g', DemoI.f .dbl], DemoI.y1, DemoI.y2, DemoI.z, DemoI.ok, rfl, hsg, DemoI.finite, hlt, trivial, hB, ha, DemoI.dom1, DemoI.dom1,
    DemoI.dom_z, DemoI.mem_z, ret DemoI.dom1 (by decide +kernel), ret DemoI.dom1 (by decide +kernel), ?_⟩
  intro n s hs r he
  have e := Lib.Returns.ev DemoI.ok ⟨s, n, hs, he⟩ ⟨trivial, ⟨_, hty⟩, DemoI.dom_z⟩
  have e' : ∃ w, Ev DemoI.env DemoI.L.C (DemoI.f .dbl) DemoI.o DemoI.z w := by
    have hh : Here DemoI.env (.inter [DemoI.g', DemoI.f .dbl]) DemoI.o DemoI.z := ⟨rfl, rfl⟩
    generalize hG : Hom.inter [DemoI.g', DemoI.f .dbl] = G at e hh
    cases e with
    | skip _ _ h => exact (hh.not_below h).elim
    | inter f _ h =>
      cases hG
      exact ⟨_, h (DemoI.f .dbl) (by simp)⟩
    | @interZero _ _ h pre post f _ _ h1 =>
      injection hG with hG
      cases pre with
      | nil =>
        simp only [List.nil_append, List.cons.injEq] at hG
        obtain ⟨rfl, _⟩ := hG
        refine absurd ((rg.image DemoI.dom_z h1 (.flat 1 1 (.flat 0 0 .nil))).2 ⟨.flat 1 1 (.flat 0 0 .nil), ?_, 1, 1, _, rfl, rfl, rfl, by simp⟩)
          (not_mem_zero _)
        refine (DemoI.mem_z _).2 (Or.inr ⟨rfl, _, List.mem_singleton_self _, DemoH.vmem.2 (DemoH.mem_ns.2 (by simp)), rfl, _, List.mem_singleton_self _,
          DemoH.vmem.2 (DemoH.mem_ns.2 (by simp)), rfl⟩)
      | cons a pre =>
        cases pre with
        | nil =>
          simp only [List.cons_append, List.nil_append, List.cons.injEq] at hG
          obtain ⟨_, rfl, _⟩ := hG
          exact ⟨_, h1⟩
        | cons b pre => simp at hG
    | _ => cases hG
  obtain ⟨w, e⟩ := (Def.skip_iff hC (DemoI.rl_f DemoI.hdbl).hty sf DemoI.dom_z).1 e' (.flat 1 0) (DemoH.f [1])
    ⟨rfl, _, List.mem_cons_of_mem _ (List.mem_singleton_self _), DemoH.vmem.2 (DemoH.mem_ns.2 (by simp))⟩
  obtain ⟨y, e1, _⟩ := (Ev.comp_iff hC DemoI.nxt (DemoI.rl_fix DemoI.hdbl).hty (DemoI.rl_none .nil (OB.uid 1)).hty DemoH.dom_f).1 e
  exact DemoI.diverges DemoI.hdbl 1 DemoI.dbl_inj y e1

end Verif
