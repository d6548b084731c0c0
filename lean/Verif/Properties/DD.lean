import Verif.DD.Outcome
import Verif.DD.NoDup
import Verif.DD.Paths
import Verif.DD.Stats
import Verif.Values.Concrete
import Verif.DD.Node
import Verif.DD.Top
/-!
# Properties of SDDs and of their operations

`Sess.Reach C orc cap s`: the session `s` (the handles held by the user, the operation caches, the
relative addresses of nodes) is reachable from a new manager by any sequence of calls (including calls
which raise), copies and destructions of handles, clears of the caches and changes of the addresses of
nodes which are not in memory.  `orc` gives the iteration orders of the hash tables, `cap` the
capacities of the caches; all of them are arbitrary.
-/

set_option autoImplicit false
set_option linter.unusedSectionVars false

namespace Verif

/-! ## A concrete session, used to show that the hypotheses are met -/

namespace Demo

/-- Iteration orders. -/
def orc : Nat → Nat → List Nat := fun k n => [k + n, 1]

/-- Capacities. -/
def cap : OpKind → Nat := fun _ => 2

theorem cap_pos : ∀ k, 0 < cap k := fun k => by cases k <;> decide

/-- A configuration. -/
abbrev C : Cfg NSet Nat := natCfg none

/-- Execution of a call. -/
def exec (s : Sess NSet) (c : Call NSet) : Sess NSet :=
  { s with
    mach := (c.run (C.withLt s.lt) orc cap s.mach).2
    handles := addHandle (c.run (C.withLt s.lt) orc cap s.mach).1 s.handles }

/-- The empty session. -/
def s0 : Sess NSet := ⟨C.lt, ⟨fun _ => [], 0⟩, []⟩

/-- `{(0, 1), (0, 2)}`. -/
def a : SDD NSet := .flat 0 [(ns [1, 2], .one)]
/-- `{(0, 2), (0, 3)}`. -/
def b : SDD NSet := .flat 0 [(ns [2, 3], .one)]
/-- `a` inside a hierarchical level. -/
def ha : SDD NSet := .hier 1 [(a, .one)]
/-- `b` inside a hierarchical level. -/
def hb : SDD NSet := .hier 1 [(b, .one)]
/-- Another variable. -/
def d : SDD NSet := .flat 7 [(ns [5], .one)]

/-- A session with these handles, a sum and a call which raised `Top`. -/
def s1 : Sess NSet :=
  [Call.one, .flat 0 (ns [1, 2]) .one, .flat 0 (ns [2, 3]) .one, .hier 1 a .one, .hier 1 b .one,
    .flat 7 (ns [5]) .one, .sum [ha, hb], .sum [a, d]].foldl exec s0

theorem reach_exec {s : Sess NSet} (h : Sess.Reach C orc cap s) (c : Call NSet)
    (hc : ∀ x ∈ c.args, x ∈ s.handles) : Sess.Reach C orc cap (exec s c) := .step _ _ h (.call s c hc)

theorem reach : Sess.Reach C orc cap s1 := by
  have h0 : Sess.Reach C orc cap s0 := .init _ (natCfg_lawful none).lt_st
  have h1 := reach_exec h0 .one (by decide +kernel)
  have h2 := reach_exec h1 (.flat 0 (ns [1, 2]) .one) (by decide +kernel)
  have h3 := reach_exec h2 (.flat 0 (ns [2, 3]) .one) (by decide +kernel)
  have h4 := reach_exec h3 (.hier 1 a .one) (by decide +kernel)
  have h5 := reach_exec h4 (.hier 1 b .one) (by decide +kernel)
  have h6 := reach_exec h5 (.flat 7 (ns [5]) .one) (by decide +kernel)
  have h7 := reach_exec h6 (.sum [ha, hb]) (by decide +kernel)
  exact reach_exec h7 (.sum [a, d]) (by decide +kernel)

/-- The handles of the session: the last call has raised `Top`, which carries `a` and `d`. -/
theorem handles : s1.handles =
    [a, d, .hier 1 [(.flat 0 [(ns [1, 2, 3], .one)], .one)], d, hb, ha, b, a, .one] := by decide +kernel

/-- `a` below the value 1 of a variable. -/
def e1 : SDD NSet := .flat 3 [(ns [1], a)]
/-- `d` below the value 1 of the same variable. -/
def e2 : SDD NSet := .flat 3 [(ns [1], d)]
/-- `d` below the value 2 of the same variable. -/
def e3 : SDD NSet := .flat 3 [(ns [2], d)]

/-- A session with SDDs whose heads are equal and whose descendants are not compatible. -/
def s2 : Sess NSet := [Call.flat 3 (ns [1]) a, .flat 3 (ns [1]) d, .flat 3 (ns [2]) d].foldl exec s1

theorem reach2 : Sess.Reach C orc cap s2 := by
  have h1 := reach_exec reach (.flat 3 (ns [1]) a) (by decide +kernel)
  have h2 := reach_exec h1 (.flat 3 (ns [1]) d) (by decide +kernel)
  exact reach_exec h2 (.flat 3 (ns [2]) d) (by decide +kernel)

theorem wf {x : SDD NSet} (hx : x ∈ s1.handles) : WF C x :=
  (reach.inv (natCfg_lawful none) cap_pos).wf x hx

theorem wf_a : WF C a := wf (by rw [handles]; decide +kernel)
theorem wf_b : WF C b := wf (by rw [handles]; decide +kernel)
theorem wf_d : WF C d := wf (by rw [handles]; decide +kernel)

end Demo

section
variable {V E : Type} [DecidableEq V] {C : Cfg V E} {orc : Nat → Nat → List Nat} {cap : OpKind → Nat}

/-- **C01.** Two handles of a session are equal exactly when they denote the same set of paths; in
particular a handle is `|0|` (`empty()`) exactly when it denotes the empty set. -/
theorem C01_equality_is_set_equality (hC : C.Lawful) (hcap : ∀ k, 0 < cap k) {s : Sess V}
    (hs : Sess.Reach C orc cap s) {x y : SDD V} (hx : x ∈ s.handles) (hy : y ∈ s.handles) :
    (x = y ↔ ∀ p, Mem C p x ↔ Mem C p y) ∧ (x.isZero = true ↔ ∀ p, ¬ Mem C p x) := by
  have hi := hs.inv hC hcap
  have hL := hC.withLt hi.st
  refine ⟨⟨fun h p => by rw [h], fun h => ?_⟩, ?_⟩
  · refine canonical_ext hL (hi.wf x hx) (hi.wf y hy) fun p => ?_
    rw [mem_withLt, mem_withLt]; exact h p
  · rw [isZero_iff]
    constructor
    · rintro rfl p; exact not_mem_zero p
    · intro h
      refine canonical_ext hL (hi.wf x hx) ⟨0, .zero _⟩ fun p => ?_
      rw [mem_withLt, mem_withLt]
      exact ⟨fun hp => absurd hp (h p), fun hp => absurd hp (not_mem_zero p)⟩

example : (Demo.a = Demo.b ↔ ∀ p, Mem Demo.C p Demo.a ↔ Mem Demo.C p Demo.b) ∧
    (Demo.a.isZero = true ↔ ∀ p, ¬ Mem Demo.C p Demo.a) :=
  C01_equality_is_set_equality (natCfg_lawful none) Demo.cap_pos Demo.reach
    (by rw [Demo.handles]; decide +kernel) (by rw [Demo.handles]; decide +kernel)

/-- **C02.** The sum of any number of handles denotes the union of their sets. -/
theorem C02_sum_is_union (hC : C.Lawful) (hcap : ∀ k, 0 < cap k) {s : Sess V}
    (hs : Sess.Reach C orc cap s) {xs : List (SDD V)} (hx : ∀ x ∈ xs, x ∈ s.handles) :
    Outcome C (sumC (C.withLt s.lt) orc cap xs s.mach).1 fun r =>
      ∀ p, Mem C p r ↔ ∃ x ∈ xs, Mem C p x :=
  ((hs.inv hC hcap).outcome (orc := orc) hC hcap (c := .sum xs)
    fun x h => (hs.inv hC hcap).wf x (hx x h)).mono fun _ h => h.2

/-- **C03.** The intersection of any positive number of handles denotes the intersection of their
sets; the intersection of no operand is `|0|`. -/
theorem C03_intersection (hC : C.Lawful) (hcap : ∀ k, 0 < cap k) {s : Sess V}
    (hs : Sess.Reach C orc cap s) {xs : List (SDD V)} (hx : ∀ x ∈ xs, x ∈ s.handles) :
    Outcome C (interC (C.withLt s.lt) orc cap xs s.mach).1 fun r =>
      ∀ p, Mem C p r ↔ xs ≠ [] ∧ ∀ x ∈ xs, Mem C p x :=
  ((hs.inv hC hcap).outcome (orc := orc) hC hcap (c := .inter xs)
    fun x h => (hs.inv hC hcap).wf x (hx x h)).mono fun _ h => h.2

/-- **C04.** The difference of two handles denotes the difference of their sets. -/
theorem C04_difference (hC : C.Lawful) (hcap : ∀ k, 0 < cap k) {s : Sess V}
    (hs : Sess.Reach C orc cap s) {x y : SDD V} (hx : x ∈ s.handles) (hy : y ∈ s.handles) :
    Outcome C (diffC (C.withLt s.lt) orc cap x y s.mach).1 fun r =>
      ∀ p, Mem C p r ↔ Mem C p x ∧ ¬ Mem C p y :=
  ((hs.inv hC hcap).outcome (orc := orc) hC hcap (c := .diff x y) (by
    simp [Call.args, (hs.inv hC hcap).wf x hx, (hs.inv hC hcap).wf y hy])).mono fun _ h => h.2

/-- The three operations do return on handles of the demonstration session. -/
example : (sumC (Demo.C.withLt Demo.s1.lt) Demo.orc Demo.cap [Demo.ha, Demo.hb] Demo.s1.mach).1 =
      .ok (.hier 1 [(.flat 0 [(ns [1, 2, 3], .one)], .one)]) ∧
    (interC (Demo.C.withLt Demo.s1.lt) Demo.orc Demo.cap [Demo.ha, Demo.hb] Demo.s1.mach).1 =
      .ok (.hier 1 [(.flat 0 [(ns [2], .one)], .one)]) ∧
    (diffC (Demo.C.withLt Demo.s1.lt) Demo.orc Demo.cap Demo.ha Demo.hb Demo.s1.mach).1 =
      .ok (.hier 1 [(.flat 0 [(ns [1], .one)], .one)]) := by decide +kernel

example : Outcome Demo.C
    (sumC (Demo.C.withLt Demo.s1.lt) Demo.orc Demo.cap [Demo.ha, Demo.hb] Demo.s1.mach).1 fun r =>
      ∀ p, Mem Demo.C p r ↔ ∃ x ∈ [Demo.ha, Demo.hb], Mem Demo.C p x :=
  C02_sum_is_union (natCfg_lawful none) Demo.cap_pos Demo.reach (by rw [Demo.handles]; decide +kernel)

/-- The canonical form of one node. -/
def CanonicalNode (C : Cfg V E) : SDD V → Prop
  | .zero => False
  | .one => True
  | .flat _ arcs => arcs ≠ [] ∧ (∀ arc ∈ arcs, ∃ e, C.vmem e arc.1) ∧
      (arcs.Pairwise fun l r => ∀ e, ¬ (C.vmem e l.1 ∧ C.vmem e r.1)) ∧
      (arcs.map Prod.snd).Nodup ∧ ∀ arc ∈ arcs, arc.2 ≠ .zero
  | .hier _ arcs => arcs ≠ [] ∧ (∀ arc ∈ arcs, ∃ p, Mem C p arc.1) ∧
      (arcs.Pairwise fun l r => ∀ p, ¬ (Mem C p l.1 ∧ Mem C p r.1)) ∧
      (arcs.map Prod.snd).Nodup ∧ ∀ arc ∈ arcs, arc.2 ≠ .zero

/-- **C05.** Everything below a handle different from `|0|` is in canonical form: at least one arc,
non-empty and pairwise disjoint valuations, pairwise distinct successors different from `|0|`. -/
theorem C05_canonical_form (hC : C.Lawful) (hcap : ∀ k, 0 < cap k) {s : Sess V}
    (hs : Sess.Reach C orc cap s) {h : SDD V} (hh : h ∈ s.handles) :
    h = .zero ∨ ∀ a, Sub a h → CanonicalNode C a := by
  have hi := hs.inv hC hcap
  obtain ⟨n, hn⟩ := hi.wf h hh
  by_cases hz : h = .zero
  · exact .inl hz
  refine .inr fun a ha => ?_
  have nd : ∀ {α : Type} {l : List (α × SDD V)},
      (l.Pairwise fun b c => (C.withLt s.lt).lt b.2 c.2 = true) → (l.map Prod.snd).Nodup := by
    intro α l hl
    unfold List.Nodup
    rw [List.pairwise_map]
    exact hl.imp fun hab => hi.st.ne_of hab
  have hnz := hn.noZero hz
  obtain ⟨t, ht⟩ := Dom.sub ha hn
  cases ht with
  | zero => exact hnz ha
  | one => trivial
  | flat _ _ _ _ _ h2 _ => exact ⟨h2.ne, h2.valNe, h2.disj, nd h2.sorted, h2.succNe⟩
  | hier _ _ _ _ _ _ h2 _ _ =>
    refine ⟨h2.ne, ?_, ?_, nd h2.sorted, h2.succNe⟩
    · intro arc harc
      obtain ⟨p, hp⟩ := h2.valNe arc harc
      exact ⟨p, (mem_withLt p _).1 hp⟩
    · refine h2.disj.imp fun h p hp => h p ?_
      rw [mem_withLt, mem_withLt]; exact hp

example : Demo.ha = .zero ∨ ∀ a, Sub a Demo.ha → CanonicalNode Demo.C a :=
  C05_canonical_form (natCfg_lawful none) Demo.cap_pos Demo.reach (by rw [Demo.handles]; decide +kernel)

/-- `s` follows the order `t`: all its paths go through the levels of `t`. -/
def Follows (C : Cfg V E) (t : Ty) (s : SDD V) : Prop := t.IsShape ∧ ∀ p, Mem C p s → PTy t p

theorem Follows.dom {t : Ty} {x : SDD V} {lt : SDD V → SDD V → Bool} (h : Follows C t x)
    (hx : WF (C.withLt lt) x) : Dom (C.withLt lt) t x := by
  obtain ⟨n, hn⟩ := hx
  exact hn.of_pty t fun p hp => h.2 p ((mem_withLt p _).1 hp)

theorem Dom.follows {t : Ty} {x : SDD V} {lt : SDD V → SDD V → Bool} (ht : t.IsShape)
    (h : Dom (C.withLt lt) t x) : Follows C t x :=
  ⟨ht, fun p hp => h.pty p ((mem_withLt p _).2 hp)⟩

/-- **C06.** Two expressions made of `+`, `&`, `-` and `|0|` which are equal as Boolean functions
evaluate to the same handle, for all operands following one order, even when the second evaluation
finds the results of the first in the caches. -/
theorem C06_boolean_laws (hC : C.Lawful) (hlim : C.limit = none) (hcap : ∀ k, 0 < cap k) {s : Sess V}
    (hs : Sess.Reach C orc cap s) {t : Ty} {σ : Nat → SDD V} (hσ : ∀ i, σ i ∈ s.handles)
    (hf : ∀ i, Follows C t (σ i)) (e₁ e₂ : BExpr) (he : ∀ ρ, e₁.holds ρ ↔ e₂.holds ρ) :
    ∃ r m₁ m₂, e₁.eval (C.withLt s.lt) orc cap σ s.mach = (.ok r, m₁) ∧
      e₂.eval (C.withLt s.lt) orc cap σ m₁ = (.ok r, m₂) := by
  have hi := hs.inv hC hcap
  have hL := hC.withLt hi.st
  have hd : ∀ i, Dom (C.withLt s.lt) t (σ i) := fun i => (hf i).dom (hi.wf _ (hσ i))
  have sat := BExpr.eval_sat (orc := orc) (cap := cap) (allow := fun _ => False) hL hcap
    (Or.inl hlim) (hf 0).1 hd
  have h1 := sat e₁ s.mach hi.cache
  match h1e : e₁.eval (C.withLt s.lt) orc cap σ s.mach, h1 with
  | (.error _, _), h1 => exact h1.2.elim
  | (.ok r, m₁), h1 =>
    have h2 := sat e₂ m₁ h1.1
    match h2e : e₂.eval (C.withLt s.lt) orc cap σ m₁, h2 with
    | (.error _, _), h2 => exact h2.2.elim
    | (.ok r', m₂), h2 =>
      have : r = r' := canonical_ext hL h1.2.1.wf h2.2.1.wf fun p => by
        rw [h1.2.2 p, h2.2.2 p]; exact he _
      subst this
      exact ⟨r, m₁, m₂, rfl, h2e⟩

/-- The hypothesis of `C06_boolean_laws` on expressions holds for the usual laws. -/
example (x y z : BExpr) : (∀ ρ, (BExpr.sum x y).holds ρ ↔ (BExpr.sum y x).holds ρ) ∧
    (∀ ρ, (BExpr.inter x y).holds ρ ↔ (BExpr.inter y x).holds ρ) ∧
    (∀ ρ, (BExpr.sum x (.sum y z)).holds ρ ↔ (BExpr.sum (.sum x y) z).holds ρ) ∧
    (∀ ρ, (BExpr.inter x (.inter y z)).holds ρ ↔ (BExpr.inter (.inter x y) z).holds ρ) ∧
    (∀ ρ, (BExpr.sum x x).holds ρ ↔ x.holds ρ) ∧
    (∀ ρ, (BExpr.inter x x).holds ρ ↔ x.holds ρ) ∧
    (∀ ρ, (BExpr.sum x (.inter x y)).holds ρ ↔ x.holds ρ) ∧
    (∀ ρ, (BExpr.inter x (.sum x y)).holds ρ ↔ x.holds ρ) ∧
    (∀ ρ, (BExpr.inter x (.sum y z)).holds ρ ↔ (BExpr.sum (.inter x y) (.inter x z)).holds ρ) ∧
    (∀ ρ, (BExpr.sum x (.inter y z)).holds ρ ↔ (BExpr.inter (.sum x y) (.sum x z)).holds ρ) ∧
    (∀ ρ, (BExpr.sum x .zero).holds ρ ↔ x.holds ρ) ∧
    (∀ ρ, (BExpr.inter x .zero).holds ρ ↔ BExpr.zero.holds ρ) ∧
    (∀ ρ, (BExpr.diff x y).holds ρ ↔ (BExpr.diff x (.inter x y)).holds ρ) ∧
    (∀ ρ, (BExpr.diff x x).holds ρ ↔ BExpr.zero.holds ρ) ∧
    (∀ ρ, (BExpr.diff x (.sum y z)).holds ρ ↔ (BExpr.diff (.diff x y) z).holds ρ) ∧
    (∀ ρ, (BExpr.sum (.diff x y) (.inter x y)).holds ρ ↔ x.holds ρ) := by
  refine ⟨?_, ?_, ?_, ?_, ?_, ?_, ?_, ?_, ?_, ?_, ?_, ?_, ?_, ?_, ?_, ?_⟩ <;> intro ρ <;>
    simp only [BExpr.holds] <;> tauto

example : ∃ r m₁ m₂, (BExpr.sum (.var 0) (.var 1)).eval (Demo.C.withLt Demo.s1.lt) Demo.orc Demo.cap
      (fun i => if i = 0 then Demo.ha else Demo.hb) Demo.s1.mach = (.ok r, m₁) ∧
    (BExpr.sum (.var 1) (.var 0)).eval (Demo.C.withLt Demo.s1.lt) Demo.orc Demo.cap
      (fun i => if i = 0 then Demo.ha else Demo.hb) m₁ = (.ok r, m₂) := by
  refine C06_boolean_laws (natCfg_lawful none) rfl Demo.cap_pos Demo.reach
    (t := .hier 1 (.flat 0 .nil) .nil) ?_ ?_ _ _ ?_
  · intro i
    rw [Demo.handles]
    split <;> decide +kernel
  · have h : ∀ v, Follows Demo.C (.hier 1 (.flat 0 .nil) .nil)
        (.hier 1 [(.flat 0 [(v, .one)], .one)]) := by
      intro v
      refine ⟨by simp [Ty.IsShape], fun p hp => ?_⟩
      match p, hp with
      | .hier x (.flat y a .nil) .nil, hp =>
        simp [Mem] at hp
        obtain ⟨rfl, rfl, _⟩ := hp
        simp [PTy, Ty.hierNext, Ty.flatNext, Ty.hasOne]
      | .nil, hp => simp [Mem] at hp
      | .flat .., hp => simp [Mem] at hp
      | .hier x .nil q, hp => simp [Mem] at hp
      | .hier x (.hier ..) q, hp => simp [Mem] at hp
      | .hier x n (.flat ..), hp => simp [Mem] at hp
      | .hier x n (.hier ..), hp => simp [Mem] at hp
      | .hier x (.flat _ _ (.flat ..)) q, hp => simp [Mem] at hp
      | .hier x (.flat _ _ (.hier ..)) q, hp => simp [Mem] at hp
    intro i
    split
    · exact h _
    · exact h _
  · intro ρ; simp only [BExpr.holds]; tauto

/-- **C06**, n-ary version: the result of an n-ary sum or intersection depends only on the set of its
operands, not on their order nor on repetitions. -/
theorem C06_nary_set (hC : C.Lawful) (hcap : ∀ k, 0 < cap k) {s : Sess V}
    (hs : Sess.Reach C orc cap s) {xs ys : List (SDD V)} (hx : ∀ x ∈ xs, x ∈ s.handles)
    (hxy : ∀ x, x ∈ xs ↔ x ∈ ys) :
    (∀ r r' m m', sumC (C.withLt s.lt) orc cap xs s.mach = (.ok r, m) →
      sumC (C.withLt s.lt) orc cap ys s.mach = (.ok r', m') → r = r') ∧
    (∀ r r' m m', interC (C.withLt s.lt) orc cap xs s.mach = (.ok r, m) →
      interC (C.withLt s.lt) orc cap ys s.mach = (.ok r', m') → r = r') := by
  have hi := hs.inv hC hcap
  have hL := hC.withLt hi.st
  have hy : ∀ y ∈ ys, y ∈ s.handles := fun y h => hx y ((hxy y).2 h)
  constructor
  · intro r r' m m' h1 h2
    have o1 := hi.outcome (orc := orc) hC hcap (c := .sum xs) fun x h => hi.wf x (hx x h)
    have o2 := hi.outcome (orc := orc) hC hcap (c := .sum ys) fun x h => hi.wf x (hy x h)
    rw [Call.run, h1] at o1
    rw [Call.run, h2] at o2
    refine canonical_ext hL o1.1 o2.1 fun p => ?_
    rw [mem_withLt, mem_withLt, o1.2 p, o2.2 p]
    simp [Call.Spec, hxy]
  · intro r r' m m' h1 h2
    have o1 := hi.outcome (orc := orc) hC hcap (c := .inter xs) fun x h => hi.wf x (hx x h)
    have o2 := hi.outcome (orc := orc) hC hcap (c := .inter ys) fun x h => hi.wf x (hy x h)
    rw [Call.run, h1] at o1
    rw [Call.run, h2] at o2
    refine canonical_ext hL o1.1 o2.1 fun p => ?_
    rw [mem_withLt, mem_withLt, o1.2 p, o2.2 p]
    have : xs = [] ↔ ys = [] := by
      rw [List.eq_nil_iff_forall_not_mem, List.eq_nil_iff_forall_not_mem]
      simp [hxy]
    simp [Call.Spec, hxy, this]

/-- **C07.** Operations on handles following one order never raise `Top`, and their results follow
this order. -/
theorem C07_same_order_no_top (hC : C.Lawful) (hcap : ∀ k, 0 < cap k) {s : Sess V}
    (hs : Sess.Reach C orc cap s) {t : Ty} :
    (∀ xs : List (SDD V), (∀ x ∈ xs, x ∈ s.handles ∧ Follows C t x) → t.IsShape →
      OutcomeNoTop C (sumC (C.withLt s.lt) orc cap xs s.mach).1 (Follows C t) ∧
      OutcomeNoTop C (interC (C.withLt s.lt) orc cap xs s.mach).1 (Follows C t)) ∧
    (∀ x y : SDD V, x ∈ s.handles → y ∈ s.handles → Follows C t x → Follows C t y →
      OutcomeNoTop C (diffC (C.withLt s.lt) orc cap x y s.mach).1 (Follows C t)) := by
  have hi := hs.inv hC hcap
  constructor
  · intro xs hxs ht
    have hd : ∀ x ∈ xs, Dom (C.withLt s.lt) t x := fun x hx =>
      (hxs x hx).2.dom (hi.wf x (hxs x hx).1)
    exact ⟨(hi.outcomeNoTop (orc := orc) hC hcap ht (c := .sum xs) (.inl ⟨xs, rfl⟩) hd).mono
        fun _ h => h.1.follows ht,
      (hi.outcomeNoTop (orc := orc) hC hcap ht (c := .inter xs) (.inr (.inl ⟨xs, rfl⟩)) hd).mono
        fun _ h => h.1.follows ht⟩
  · intro x y hx hy fx fy
    refine (hi.outcomeNoTop (orc := orc) hC hcap fx.1 (c := .diff x y) (.inr (.inr ⟨x, y, rfl⟩))
      ?_).mono fun _ h => h.1.follows fx.1
    intro z hz
    simp only [Call.args, List.mem_cons, List.not_mem_nil, or_false] at hz
    rcases hz with rfl | rfl
    · exact fx.dom (hi.wf _ hx)
    · exact fy.dom (hi.wf _ hy)

/-- The constructors follow orders. -/
theorem C07_constructors_follow (hC : C.Lawful) {t tn : Ty} {x : Nat} {v : V} {s n : SDD V}
    (hs : WF C s) (hn : WF C n) (hf : Follows C t s) (hnf : Follows C tn n) :
    Follows C (.flat x t) (mkNode1 (m := CM orc V) (flatKind C) x v s) ∧
    Follows C (.hier x tn t) (mkNode1 (m := CM orc V) (hierKind C fun _ => pure .zero) x n s) := by
  refine ⟨⟨hf.1, fun p hp => ?_⟩, ⟨⟨hnf.1, hf.1⟩, fun p hp => ?_⟩⟩
  · obtain ⟨a, q, rfl, _, hq⟩ := ((mkNode1_flat hC hs).2 p).1 hp
    exact ⟨t, by simp [Ty.flatNext], hf.2 q hq⟩
  · obtain ⟨a, q, rfl, ha, hq⟩ := ((mkNode1_hier hn hs).2 p).1 hp
    exact ⟨tn, t, by simp [Ty.hierNext], hnf.2 a ha, hf.2 q hq⟩

example (v w : NSet) : Follows Demo.C (.hier 1 (.flat 0 .nil) (.flat 2 .nil))
    (mkNode1 (m := CM Demo.orc NSet) (hierKind Demo.C fun _ => pure .zero) 1
      (mkNode1 (m := CM Demo.orc NSet) (flatKind Demo.C) 0 v .one)
      (mkNode1 (m := CM Demo.orc NSet) (flatKind Demo.C) 2 w .one)) := by
  have h1 : WF Demo.C (.one : SDD NSet) := ⟨0, .one _ trivial⟩
  have f1 : Follows Demo.C .nil (.one : SDD NSet) := ⟨trivial, fun p hp => by
    rw [mem_one] at hp; subst hp; exact trivial⟩
  have a := C07_constructors_follow (orc := Demo.orc) (x := 0) (v := v) (natCfg_lawful none) h1 h1 f1 f1
  have b := C07_constructors_follow (orc := Demo.orc) (x := 2) (v := w) (natCfg_lawful none) h1 h1 f1 f1
  exact (C07_constructors_follow (v := w) (natCfg_lawful none) (mkNode1_flat (natCfg_lawful none) h1).1
    (mkNode1_flat (natCfg_lawful none) h1).1 b.1 a.1).2

/-- The heads of two SDDs differ: terminal against node, flat against hierarchical, or different
variables. -/
def HeadsDiffer : SDD V → SDD V → Prop
  | .one, .flat _ _ => True
  | .one, .hier _ _ => True
  | .flat _ _, .one => True
  | .hier _ _, .one => True
  | .flat _ _, .hier _ _ => True
  | .hier _ _, .flat _ _ => True
  | .flat x _, .flat y _ => x ≠ y
  | .hier x _, .hier y _ => x ≠ y
  | _, _ => False

theorem HeadsDiffer.incompat {x y : SDD V} (h : HeadsDiffer x y) :
    compatible x y = false ∧ x ≠ .zero ∧ y ≠ .zero := by
  cases x <;> cases y <;> simp [HeadsDiffer, compatible] at * <;> exact h

/-- The variable and the kind at the head of a path. -/
def Path.head : Path E → Option (Bool × Nat)
  | .nil => none
  | .flat x _ _ => some (false, x)
  | .hier x _ _ => some (true, x)

theorem mem_head {p q : Path E} {s : SDD V} (hp : Mem C p s) (hq : Mem C q s) : p.head = q.head := by
  cases s <;> cases p <;> cases q <;> simp [Mem, Path.head] at * <;>
    exact hp.1.trans hq.1.symm

theorem HeadsDiffer.paths {x y : SDD V} (h : HeadsDiffer x y) {p q : Path E} (hp : Mem C p x)
    (hq : Mem C q y) : p.head ≠ q.head := by
  cases x <;> cases y <;> cases p <;> cases q <;> simp [Mem, Path.head, HeadsDiffer] at * <;>
    · rw [hp.1, hq.1]; exact h

/-- **C08.** Operands with different heads are rejected with `Top`, whatever the contents of the
caches: intersection and difference of two operands, and sum of any number of operands among which
two have different heads. -/
theorem C08_incompatible_raise_top (hC : C.Lawful) (hcap : ∀ k, 0 < cap k) {s : Sess V}
    (hs : Sess.Reach C orc cap s) {x y : SDD V} (h : HeadsDiffer x y) :
    (∃ l r m, interC (C.withLt s.lt) orc cap [x, y] s.mach = (.error (.top l r), m)) ∧
    (∃ m, diffC (C.withLt s.lt) orc cap x y s.mach = (.error (.top x y), m)) ∧
    (C.limit = none → ∀ xs : List (SDD V), (∀ z ∈ xs, z ∈ s.handles) → x ∈ xs → y ∈ xs →
      ∃ l r m, sumC (C.withLt s.lt) orc cap xs s.mach = (.error (.top l r), m)) := by
  have hi := hs.inv hC hcap
  obtain ⟨h1, h2, h3⟩ := h.incompat
  refine ⟨?_, ⟨_, diffC_heads h1 h2 h3 hs.heads⟩, fun hl xs hxs hx hy => ?_⟩
  · obtain ⟨a, b, e⟩ := interC_heads (C := C.withLt s.lt) (orc := orc) (cap := cap) hi.st h1 h2 h3
      hs.heads
    exact ⟨a, b, _, e⟩
  · have o := hi.outcome (orc := orc) hC hcap (c := .sum xs) fun z hz => hi.wf z (hxs z hz)
    rw [Call.run] at o
    match e : sumC (C.withLt s.lt) orc cap xs s.mach, o with
    | (.ok r, m), o =>
      exfalso
      have hm : ∀ z ∈ s.handles, z ≠ .zero → ∃ p, Mem C p z := by
        intro z hz hz0
        obtain ⟨n, hn⟩ := hi.wf z hz
        obtain ⟨p, hp⟩ := hn.exists_mem hz0
        exact ⟨p, (mem_withLt p _).1 hp⟩
      obtain ⟨p, hp⟩ := hm x (hxs x hx) h2
      obtain ⟨q, hq⟩ := hm y (hxs y hy) h3
      exact h.paths hp hq (mem_head ((o.2 p).2 ⟨x, hx, hp⟩) ((o.2 q).2 ⟨y, hy, hq⟩))
    | (.error (.top l r), m), _ => exact ⟨l, r, m, rfl⟩
    | (.error .overflow, m), o => exact absurd hl o

example : (∃ l r m, interC (Demo.C.withLt Demo.s1.lt) Demo.orc Demo.cap [Demo.a, Demo.d] Demo.s1.mach =
    (.error (.top l r), m)) :=
  (C08_incompatible_raise_top (natCfg_lawful none) Demo.cap_pos Demo.reach
    (show HeadsDiffer Demo.a Demo.d from by simp [HeadsDiffer, Demo.a, Demo.d])).1

/-- **C09**, negation.  Whether an n-ary intersection raises `Top` depends on addresses: with the same
three operands, it returns `|0|` or raises `Top` according to their positions in memory, because the
loop stops on the first empty intermediate result, before the incompatible operand is examined. -/
theorem C09_negation : ∃ (xs : List (SDD NSet)) (lt₁ lt₂ : SDD NSet → SDD NSet → Bool),
    StrictTotal lt₁ ∧ StrictTotal lt₂ ∧
    (∀ x ∈ xs, WF (Demo.C.withLt lt₁) x ∧ WF (Demo.C.withLt lt₂) x) ∧
    (interC (Demo.C.withLt lt₁) (fun _ _ => []) Demo.cap xs ⟨fun _ => [], 0⟩).1 = .ok .zero ∧
    ∃ l r, (interC (Demo.C.withLt lt₂) (fun _ _ => []) Demo.cap xs ⟨fun _ => [], 0⟩).1 =
      .error (.top l r) := by
  refine ⟨[.flat 0 [(ns [1], .one)], .flat 0 [(ns [2], .one)], .flat 7 [(ns [1], .one)]],
    serLt serN, fun a b => serLt serN b a, serLt_st serN_prefix, (serLt_st serN_prefix).flip, ?_, ?_,
    .flat 7 [(ns [1], .one)], .flat 0 [(ns [2], .one)], ?_⟩
  · have h : ∀ (lt : SDD NSet → SDD NSet → Bool) (x : Nat) (v : NSet) (e : Nat), e ∈ v.data →
        WF (Demo.C.withLt lt) (.flat x [(v, .one)]) := by
      intro lt x v e he
      refine ⟨1, .flat _ (.any 0) _ _ rfl ⟨by simp, ?_, by simp, by simp, by simp⟩ ?_⟩
      · intro arc ha
        simp only [List.mem_singleton] at ha
        subst ha
        exact ⟨e, he⟩
      · intro arc ha
        simp only [List.mem_singleton] at ha
        subst ha
        exact .one _ trivial
    intro x hx
    simp only [List.mem_cons, List.not_mem_nil, or_false] at hx
    rcases hx with rfl | rfl | rfl
    · exact ⟨h _ _ _ 1 (by decide +kernel), h _ _ _ 1 (by decide +kernel)⟩
    · exact ⟨h _ _ _ 2 (by decide +kernel), h _ _ _ 2 (by decide +kernel)⟩
    · exact ⟨h _ _ _ 1 (by decide +kernel), h _ _ _ 1 (by decide +kernel)⟩
  · decide +kernel
  · decide +kernel

/-- **C69.** `Top` has a meaning: a sum, an intersection of two operands or a difference of handles raises `Top`
if and only if two paths of its operands are incompatible: read together, they have levels of different kinds or variables although
they have the same elements before. (Counted paths: `C.limit = none`, no table of more than `2^32-1` arcs.) -/
theorem C69_top_iff_incompatible (hC : C.Lawful) (hlim : C.limit = none) (hcap : ∀ k, 0 < cap k) {s : Sess V}
    (hs : Sess.Reach C orc cap s) (c : Call V)
    (hc : (∃ xs, c = .sum xs) ∨ (∃ x y, c = .inter [x, y]) ∨ ∃ x y, c = .diff x y)
    (ha : ∀ x ∈ c.args, x ∈ s.handles) :
    (∃ l r, (c.run (C.withLt s.lt) orc cap s.mach).1 = .error (.top l r)) ↔
      ∃ x ∈ c.args, ∃ y ∈ c.args, ∃ p q, Mem C p x ∧ Mem C q y ∧ ¬ Compat p q :=
  (hs.inv hC hcap).top_iff hC hlim hcap (hs.coh hC hcap) c hc ha

/-- **C69**, the exception. The two SDDs carried by a `Top` raised by any call are different from `|0|` and have different heads; they are in canonical
form and can be used in further calls (`Sess.Step` adds them to the handles). -/
theorem C69_top_operands (hC : C.Lawful) (hcap : ∀ k, 0 < cap k) {s : Sess V} (hs : Sess.Reach C orc cap s) (c : Call V)
    (ha : ∀ x ∈ c.args, x ∈ s.handles) {l r : SDD V} {m : Mach V}
    (h : c.run (C.withLt s.lt) orc cap s.mach = (.error (.top l r), m)) :
    HeadsDiffer l r ∧ Sess.Reach C orc cap ⟨s.lt, m, l :: r :: s.handles⟩ := by
  have hi := hs.inv hC hcap
  have := (Call.run_sat (orc := orc) (cap := cap)
    (allow := fun e => ∀ l r, e = .top l r → l ≠ .zero ∧ r ≠ .zero ∧ compatible l r ≠ true)
    (hC.withLt hi.st) hcap (Or.inr (by rintro l r h; cases h)) (by
      rintro l r - - h1 h2 h3 _ _ h
      cases h
      exact ⟨h1, h2, h3⟩) (c := c) (fun x hx => hi.wf x (ha x hx)) s.mach hi.cache).2
  rw [h] at this
  obtain ⟨h1, h2, h3⟩ := this l r rfl
  refine ⟨?_, ?_⟩
  · cases l <;> cases r <;> simp_all [compatible, HeadsDiffer]
  · have hr := Sess.Reach.step _ _ hs (.call s c ha)
    rw [h] at hr
    exact hr

example : HeadsDiffer Demo.a Demo.d ∧ Sess.Reach Demo.C Demo.orc Demo.cap ⟨Demo.s2.lt,
    ((Call.sum [Demo.e3, Demo.e1, Demo.e2]).run (Demo.C.withLt Demo.s2.lt) Demo.orc Demo.cap Demo.s2.mach).2,
    Demo.a :: Demo.d :: Demo.s2.handles⟩ :=
  C69_top_operands (natCfg_lawful none) Demo.cap_pos Demo.reach2 (.sum [Demo.e3, Demo.e1, Demo.e2]) (by decide +kernel)
    (Prod.ext (by decide +kernel) rfl)

/-- **C69**, handles. The paths of one handle are always compatible with each other. -/
theorem C69_handles_compatible (hC : C.Lawful) (hcap : ∀ k, 0 < cap k) {s : Sess V} (hs : Sess.Reach C orc cap s)
    {x : SDD V} (hx : x ∈ s.handles) {p q : Path E} (hp : Mem C p x) (hq : Mem C q x) : Compat p q :=
  (hs.coh hC hcap).self x hx p q hp hq

/-- **C69**, intersections of any number of operands: `Top` is only raised when two paths of the operands are incompatible. (The converse is
false: `C09_negation`.) -/
theorem C69_inter_top_only_if (hC : C.Lawful) (hcap : ∀ k, 0 < cap k) {s : Sess V} (hs : Sess.Reach C orc cap s)
    {xs : List (SDD V)} (ha : ∀ x ∈ xs, x ∈ s.handles) {l r : SDD V}
    (h : (interC (C.withLt s.lt) orc cap xs s.mach).1 = .error (.top l r)) :
    ∃ x ∈ xs, ∃ y ∈ xs, ∃ p q, Mem C p x ∧ Mem C q y ∧ ¬ Compat p q := by
  by_contra hne
  push Not at hne
  exact hs.coh_no_top hC hcap (c := .inter xs) ha (fun x hx y hy p q hp hq => hne x hx y hy p q hp hq) l r h

/-- **C69**, intersections of any number of operands, when `Top` is certain: a path `q` of an operand `z` is incompatible with a path `p` common to all the
other operands. Then `Top` is raised whatever the addresses, the caches and the order of visit. -/
theorem C69_inter_top_if (hC : C.Lawful) (hlim : C.limit = none) (hcap : ∀ k, 0 < cap k) {s : Sess V} (hs : Sess.Reach C orc cap s)
    {xs : List (SDD V)} (ha : ∀ x ∈ xs, x ∈ s.handles) {z : SDD V} (hz : z ∈ xs) (hne : ∃ x ∈ xs, x ≠ z) {p q : Path E}
    (hp : ∀ x ∈ xs, x ≠ z → Mem C p x) (hq : Mem C q z) (hpq : ¬ Compat p q) :
    ∃ l r, (interC (C.withLt s.lt) orc cap xs s.mach).1 = .error (.top l r) := by
  refine ((hs.inv hC hcap).inter_top hC hlim hcap (hs.coh hC hcap) ha).resolve_right fun h => ?_
  obtain ⟨x, hx, hxz⟩ := hne
  exact hpq (h.common hz ((hs.coh hC hcap).self z (ha z hz)) ⟨x, hx, hp x hx hxz⟩ hp hq).1

/-- **C69**, intersections of any number of operands, order by order: if, in whichever order the operands are enumerated, some path common to the first ones
is incompatible with a path of the next one, then `Top` is raised. -/
theorem C69_inter_top_every_order (hC : C.Lawful) (hlim : C.limit = none) (hcap : ∀ k, 0 < cap k) {s : Sess V}
    (hs : Sess.Reach C orc cap s) {xs : List (SDD V)} (ha : ∀ x ∈ xs, x ∈ s.handles)
    (h : ∀ l : List (SDD V), (∀ x, x ∈ l ↔ x ∈ xs) → ∃ ys z zs p q, l = ys ++ z :: zs ∧ ys ≠ [] ∧ (∀ y ∈ ys, Mem C p y) ∧ Mem C q z ∧
      ¬ Compat p q) :
    ∃ l r, (interC (C.withLt s.lt) orc cap xs s.mach).1 = .error (.top l r) := by
  refine ((hs.inv hC hcap).inter_top hC hlim hcap (hs.coh hC hcap) ha).resolve_right fun ⟨l, hl, hc⟩ => ?_
  obtain ⟨ys, z, zs, p, q, he, hne, hp, hq, hpq⟩ := h l hl
  exact hpq (hc ys z zs he hne p q hp hq).1

/- In every enumeration of `a` and `d`, there is a first change. -/
example : ∃ l r, (interC (Demo.C.withLt Demo.s1.lt) Demo.orc Demo.cap [Demo.a, Demo.d] Demo.s1.mach).1 = .error (.top l r) := by
  refine C69_inter_top_every_order (natCfg_lawful none) rfl Demo.cap_pos Demo.reach (by rw [Demo.handles]; decide +kernel) ?_
  intro l hl
  have ma : Mem Demo.C (.flat 0 2 .nil) Demo.a :=
    ⟨rfl, _, List.mem_singleton.2 rfl, show (2 : Nat) ∈ (ns [1, 2]).data by decide +kernel, rfl⟩
  have md : Mem Demo.C (.flat 7 5 .nil) Demo.d :=
    ⟨rfl, _, List.mem_singleton.2 rfl, show (5 : Nat) ∈ (ns [5]).data by decide +kernel, rfl⟩
  have hda : Demo.d ≠ Demo.a := by decide +kernel
  have hm : ∀ x ∈ l, x = Demo.a ∨ x = Demo.d := fun x hx => by simpa using (hl x).1 hx
  match l, hl, hm with
  | [], hl, _ => simpa using (hl Demo.a).2 (by simp)
  | x :: l, hl, hm =>
    rcases hm x (by simp) with rfl | rfl
    · obtain ⟨ys, z, zs, rfl, rfl, hys⟩ := exists_first (P := fun x => x = Demo.d) (l := l)
        ⟨Demo.d, (List.mem_cons.1 ((hl Demo.d).2 (by simp))).resolve_left hda, rfl⟩
      refine ⟨Demo.a :: ys, _, zs, .flat 0 2 .nil, .flat 7 5 .nil, rfl, by simp, fun y hy => ?_, md, by simp [Compat]⟩
      rcases List.mem_cons.1 hy with rfl | hy
      · exact ma
      · exact ((hm y (by simp [hy])).resolve_right (hys y hy)) ▸ ma
    · obtain ⟨ys, z, zs, rfl, rfl, hys⟩ := exists_first (P := fun x => x = Demo.a) (l := l)
        ⟨Demo.a, (List.mem_cons.1 ((hl Demo.a).2 (by simp))).resolve_left (Ne.symm hda), rfl⟩
      refine ⟨Demo.d :: ys, _, zs, .flat 7 5 .nil, .flat 0 2 .nil, rfl, by simp, fun y hy => ?_, ma, by simp [Compat]⟩
      rcases List.mem_cons.1 hy with rfl | hy
      · exact md
      · exact ((hm y (by simp [hy])).resolve_left (hys y hy)) ▸ md

/- `a` and `b` have a common path, which is incompatible with the path of `d`. -/
example : ∃ l r, (interC (Demo.C.withLt Demo.s1.lt) Demo.orc Demo.cap [Demo.a, Demo.d, Demo.b] Demo.s1.mach).1 =
    .error (.top l r) := by
  refine C69_inter_top_if (natCfg_lawful none) rfl Demo.cap_pos Demo.reach (z := Demo.d) (p := .flat 0 2 .nil) (q := .flat 7 5 .nil)
    (by rw [Demo.handles]; decide +kernel) (by simp) ⟨Demo.a, by simp, by decide +kernel⟩ ?_
    ⟨rfl, _, List.mem_singleton.2 rfl, show (5 : Nat) ∈ (ns [5]).data by decide +kernel, rfl⟩ (by simp [Compat])
  intro x hx hxd
  simp only [List.mem_cons, List.not_mem_nil, or_false] at hx
  rcases hx with rfl | rfl | rfl
  · exact ⟨rfl, _, List.mem_singleton.2 rfl, show (2 : Nat) ∈ (ns [1, 2]).data by decide +kernel, rfl⟩
  · exact absurd rfl hxd
  · exact ⟨rfl, _, List.mem_singleton.2 rfl, show (2 : Nat) ∈ (ns [2, 3]).data by decide +kernel, rfl⟩

example : ∃ l r, ((Call.sum [Demo.e3, Demo.e1, Demo.e2]).run (Demo.C.withLt Demo.s2.lt) Demo.orc Demo.cap Demo.s2.mach).1 =
    .error (.top l r) :=
  (C69_top_iff_incompatible (natCfg_lawful none) rfl Demo.cap_pos Demo.reach2 _ (.inl ⟨_, rfl⟩) (by decide +kernel)).2
    ⟨Demo.e1, by simp [Call.args], Demo.e2, by simp [Call.args], .flat 3 1 (.flat 0 1 .nil), .flat 3 1 (.flat 7 5 .nil),
      ⟨rfl, _, List.mem_singleton.2 rfl, show (1 : Nat) ∈ (ns [1]).data by decide +kernel, rfl, _, List.mem_singleton.2 rfl,
        show (1 : Nat) ∈ (ns [1, 2]).data by decide +kernel, rfl⟩,
      ⟨rfl, _, List.mem_singleton.2 rfl, show (1 : Nat) ∈ (ns [1]).data by decide +kernel, rfl, _, List.mem_singleton.2 rfl,
        show (5 : Nat) ∈ (ns [5]).data by decide +kernel, rfl⟩, by simp [Compat]⟩

/- With the same heads, and incompatible descendants below different values, the sum returns. -/
example : ¬ ∃ x ∈ [Demo.e1, Demo.e3], ∃ y ∈ [Demo.e1, Demo.e3], ∃ p q,
    Mem Demo.C p x ∧ Mem Demo.C q y ∧ ¬ Compat p q := by
  refine (C69_top_iff_incompatible (natCfg_lawful none) rfl Demo.cap_pos Demo.reach2 (.sum [Demo.e1, Demo.e3]) (.inl ⟨_, rfl⟩)
    (by decide +kernel)).not.1 ?_
  have : ((Call.sum [Demo.e1, Demo.e3]).run (Demo.C.withLt Demo.s2.lt) Demo.orc Demo.cap Demo.s2.mach).1 =
      .ok (.flat 3 [(ns [1], Demo.a), (ns [2], Demo.d)]) := by decide +kernel
  simp [this]

/-- **C09**, partial.  Whether a sum, an intersection of two operands or a difference raises `Top` is independent of addresses, of the
contents of caches and of iteration orders: two sessions with arbitrary histories agree for all operands held by both.

What is missing: intersections of more than two operands, for which the claim is false (`C09_negation`). -/
theorem C09_top_independent_of_addresses_partial (hC : C.Lawful) (hlim : C.limit = none)
    {orc' : Nat → Nat → List Nat} {cap' : OpKind → Nat}
    (hcap : ∀ k, 0 < cap k) (hcap' : ∀ k, 0 < cap' k) {s s' : Sess V}
    (hs : Sess.Reach C orc cap s) (hs' : Sess.Reach C orc' cap' s') (c : Call V)
    (hc : (∃ xs, c = .sum xs) ∨ (∃ x y, c = .inter [x, y]) ∨ ∃ x y, c = .diff x y)
    (ha : ∀ x ∈ c.args, x ∈ s.handles) (ha' : ∀ x ∈ c.args, x ∈ s'.handles) :
    ((∃ l r, (c.run (C.withLt s.lt) orc cap s.mach).1 = .error (.top l r)) ↔
      ∃ l r, (c.run (C.withLt s'.lt) orc' cap' s'.mach).1 = .error (.top l r)) :=
  (C69_top_iff_incompatible hC hlim hcap hs c hc ha).trans (C69_top_iff_incompatible hC hlim hcap' hs' c hc ha').symm

example : (∃ l r, ((Call.sum [Demo.a, Demo.d]).run (Demo.C.withLt Demo.s1.lt) Demo.orc Demo.cap
    Demo.s1.mach).1 = .error (.top l r)) ↔ ∃ l r, ((Call.sum [Demo.a, Demo.d]).run
    (Demo.C.withLt Demo.s1.lt) Demo.orc Demo.cap Demo.s1.mach).1 = .error (.top l r) :=
  C09_top_independent_of_addresses_partial (natCfg_lawful none) rfl Demo.cap_pos Demo.cap_pos
    Demo.reach Demo.reach _ (.inl ⟨_, rfl⟩) (by rw [Demo.handles]; decide +kernel)
    (by rw [Demo.handles]; decide +kernel)

/-- Addresses do not matter for counting. -/
theorem cntV_withLt (lt : SDD V → SDD V → Bool) (s : SDD V) :
    ∀ c, cntV (C.withLt lt) s c = cntV C s c := by
  induction s using SDD.ind with
  | h0 => intro c; rfl
  | h1 => intro c; rfl
  | hf x arcs ih =>
    intro c
    have l : ∀ self (arcs : List (V × SDD V)),
        (∀ a ∈ arcs, ∀ c, cntV (C.withLt lt) a.2 c = cntV C a.2 c) →
        ∀ c, cntF (C.withLt lt) self arcs c = cntF C self arcs c := by
      intro self arcs
      induction arcs with
      | nil => intro _ c; rfl
      | cons a arcs iha =>
        obtain ⟨v, s⟩ := a
        intro h c
        have hs := h (v, s) (by simp) c
        simp only at hs
        rw [cntF, cntF, hs]
        cases cntV C s c with
        | none => rfl
        | some r => exact iha (fun a ha => h a (by simp [ha])) _
    rw [cntV, cntV, l _ arcs ih]
  | hh x arcs ih =>
    intro c
    have l : ∀ self (arcs : List (SDD V × SDD V)), (∀ a ∈ arcs,
        (∀ c, cntV (C.withLt lt) a.1 c = cntV C a.1 c) ∧
        ∀ c, cntV (C.withLt lt) a.2 c = cntV C a.2 c) →
        ∀ c, cntH (C.withLt lt) self arcs c = cntH C self arcs c := by
      intro self arcs
      induction arcs with
      | nil => intro _ c; rfl
      | cons a arcs iha =>
        obtain ⟨v, s⟩ := a
        intro h c
        have hv := (h (v, s) (by simp)).1 c
        have hs := (h (v, s) (by simp)).2
        simp only at hv hs
        rw [cntH, cntH, hv]
        cases cntV C v c with
        | none => rfl
        | some r =>
          obtain ⟨k, c'⟩ := r
          simp only [hs]
          cases cntV C s c' with
          | none => rfl
          | some r => exact iha (fun a ha => h a (by simp [ha])) _
    rw [cntV, cntV, l _ arcs ih]

theorem sizeOfSDD_withLt (lt : SDD V → SDD V → Bool) (s : SDD V) :
    sizeOfSDD (C.withLt lt) s = sizeOfSDD C s := by
  unfold sizeOfSDD
  rw [cntV_withLt]

theorem size_counts (hC : C.Lawful) {lt : SDD V → SDD V → Bool} (hlt : StrictTotal lt) {x : SDD V}
    (hx : WF (C.withLt lt) x) :
    ∃ l : List (Path E), l.Nodup ∧ (∀ p, p ∈ l ↔ Mem C p x) ∧ sizeOfSDD C x = some l.length := by
  have hL := hC.withLt hlt
  obtain ⟨n, hn⟩ := hx
  refine ⟨pathList (C.withLt lt) x, hn.nodup_pathList hL, fun p => ?_, ?_⟩
  · rw [mem_pathList hL, mem_withLt]
  · rw [length_pathList hL, ← sizeOfSDD_eq ⟨n, hn⟩]
    exact (sizeOfSDD_withLt lt x).symm

/-- **C10.** `size()` of a handle is the number of its paths. -/
theorem C10_size_counts_paths (hC : C.Lawful) (hcap : ∀ k, 0 < cap k) {s : Sess V}
    (hs : Sess.Reach C orc cap s) {x : SDD V} (hx : x ∈ s.handles) :
    ∃ l : List (Path E), l.Nodup ∧ (∀ p, p ∈ l ↔ Mem C p x) ∧ sizeOfSDD C x = some l.length :=
  size_counts hC (hs.inv hC hcap).st ((hs.inv hC hcap).wf x hx)

example : ∃ l : List (Path Nat), l.Nodup ∧ (∀ p, p ∈ l ↔ Mem Demo.C p Demo.ha) ∧
    sizeOfSDD Demo.C Demo.ha = some l.length :=
  C10_size_counts_paths (natCfg_lawful none) Demo.cap_pos Demo.reach
    (by rw [Demo.handles]; decide +kernel)

example : sizeOfSDD Demo.C (.hier 1 [(.flat 0 [(ns [1, 2, 3], .one)], Demo.a)]) = some 6 := by
  decide +kernel

/-- **C11.** `paths()` of a handle different from `|0|` yields sequences of sets of values whose
products are, together, exactly the assignments of the SDD; when it follows an order, the products are
pairwise disjoint. -/
theorem C11_paths_exact (hC : C.Lawful) (hcap : ∀ k, 0 < cap k) {s : Sess V}
    (hs : Sess.Reach C orc cap s) {x : SDD V} (hx : x ∈ s.handles) (hz : x ≠ .zero) :
    (∀ e, (∃ w ∈ paths x, InProduct C w e) ↔ ∃ p, Mem C p x ∧ p.values = e) ∧
    ∀ t, Follows C t x → (paths x).Pairwise fun w w' => ∀ e, ¬ (InProduct C w e ∧ InProduct C w' e) := by
  have hi := hs.inv hC hcap
  obtain ⟨n, hn⟩ := hi.wf x hx
  rw [paths_eq (hn.noZero hz)]
  exact ⟨mem_vals x, fun t ht => (ht.dom (hi.wf x hx)).vals_disj ht.1⟩

example : paths (.hier 1 [(.flat 0 [(ns [1], .one), (ns [2, 3], .flat 2 [(ns [4], .one)])], Demo.a)]) =
    [[ns [1], ns [1, 2]], [ns [2, 3], ns [4], ns [1, 2]]] := by
  simp [paths, pathsV, Demo.a]

/-- **C12**, negation.  `paths()` of `|0|`, which has no path, yields one (empty) path. -/
theorem C12_negation : paths (.zero : SDD NSet) = [[]] ∧ ∀ p, ¬ Mem Demo.C p (.zero : SDD NSet) :=
  ⟨by simp [paths, pathsV], fun p => not_mem_zero p⟩

/-- **C12**, partial: the enumeration is empty for no other handle, and each yielded sequence has at
least one assignment.  What is missing: the case of `|0|`, for which the claim is false
(`C12_negation`). -/
theorem C12_paths_nonempty_partial (hC : C.Lawful) (hcap : ∀ k, 0 < cap k) {s : Sess V}
    (hs : Sess.Reach C orc cap s) {x : SDD V} (hx : x ∈ s.handles) (hz : x ≠ .zero) :
    paths x ≠ [] ∧ ∀ w ∈ paths x, ∃ p, Mem C p x ∧ InProduct C w p.values := by
  have hi := hs.inv hC hcap
  obtain ⟨n, hn⟩ := hi.wf x hx
  have h1 := (C11_paths_exact hC hcap hs hx hz).1
  constructor
  · obtain ⟨p, hp⟩ := hn.exists_mem hz
    obtain ⟨w, hw, _⟩ := (h1 p.values).2 ⟨p, (mem_withLt p _).1 hp, rfl⟩
    exact List.ne_nil_of_mem hw
  · intro w hw
    have hne : ∀ {t : Ty} {x : SDD V}, Dom (C.withLt s.lt) t x → ∀ w ∈ vals x, ∃ e, InProduct C w e := by
      intro t x h
      induction h with
      | zero => intro w hw; simp [vals] at hw
      | one => intro w hw; simp [vals] at hw; subst hw; exact ⟨[], .nil⟩
      | flat t t' x arcs h1 h2 h3 ih =>
        intro w hw
        rw [vals, valsF_eq] at hw
        obtain ⟨arc, ha, hw⟩ := List.mem_flatMap.1 hw
        obtain ⟨w', hw', rfl⟩ := List.mem_map.1 hw
        obtain ⟨e, he⟩ := ih arc ha w' hw'
        obtain ⟨a, hea⟩ := h2.valNe arc ha
        exact ⟨a :: e, .cons hea he⟩
      | hier t tn t' x arcs h1 h2 h3 h4 ih1 ih2 =>
        intro w hw
        rw [vals, valsH_eq] at hw
        obtain ⟨arc, ha, hw⟩ := List.mem_flatMap.1 hw
        obtain ⟨w1, hw1, hw⟩ := List.mem_flatMap.1 hw
        obtain ⟨w2, hw2, rfl⟩ := List.mem_map.1 hw
        obtain ⟨e1, he1⟩ := ih1 arc ha w1 hw1
        obtain ⟨e2, he2⟩ := ih2 arc ha w2 hw2
        exact ⟨e1 ++ e2, inProduct_append.2 ⟨_, _, rfl, he1, he2⟩⟩
    have hw' := hw
    rw [paths_eq (hn.noZero hz)] at hw'
    obtain ⟨e, he⟩ := hne hn w hw'
    obtain ⟨p, hp, rfl⟩ := (h1 e).1 ⟨w, hw, he⟩
    exact ⟨p, hp, he⟩

example : paths Demo.ha ≠ [] ∧ ∀ w ∈ paths Demo.ha, ∃ p, Mem Demo.C p Demo.ha ∧
    InProduct Demo.C w p.values :=
  C12_paths_nonempty_partial (natCfg_lawful none) Demo.cap_pos Demo.reach
    (by rw [Demo.handles]; decide +kernel) (by decide +kernel)

/-- **C13.** Two executions of a program by two managers, with different addresses (also changing
during the execution), different iteration orders of hash tables, different capacities of the caches
and caches cleared at different times, create handles denoting the same sets, having the same sizes,
and equal in one execution exactly when they are in the other. -/
theorem C13_independent_of_addresses (hC : C.Lawful) {orc' : Nat → Nat → List Nat}
    {cap' : OpKind → Nat} (hcap : ∀ k, 0 < cap k) (hcap' : ∀ k, 0 < cap' k) {is : List (Instr V)}
    {s s' : Sess V} (h : Exec C orc cap is s) (h' : Exec C orc' cap' is s') :
    s.handles.length = s'.handles.length ∧
    (∀ i p, Mem C p (reg s.handles i) ↔ Mem C p (reg s'.handles i)) ∧
    (∀ i, sizeOfSDD C (reg s.handles i) = sizeOfSDD C (reg s'.handles i)) ∧
    (∀ i j, reg s.handles i = reg s.handles j ↔ reg s'.handles i = reg s'.handles j) := by
  obtain ⟨i1, _, d1⟩ := h.inv hC hcap
  obtain ⟨i2, _, d2⟩ := h'.inv hC hcap'
  have hm : ∀ i p, Mem C p (reg s.handles i) ↔ Mem C p (reg s'.handles i) := fun i p => by
    rw [reg_denote d1, reg_denote d2]
  have key : ∀ {s : Sess V}, s.Inv C → ∀ i j, (reg s.handles i = reg s.handles j ↔
      ∀ p, Mem C p (reg s.handles i) ↔ Mem C p (reg s.handles j)) := by
    intro s hi i j
    refine ⟨fun h p => by rw [h], fun h => ?_⟩
    refine canonical_ext (hC.withLt hi.st) (reg_wf hi.wf i) (reg_wf hi.wf j) fun p => ?_
    rw [mem_withLt, mem_withLt]; exact h p
  have hz : ∀ i, sizeOfSDD C (reg s.handles i) = sizeOfSDD C (reg s'.handles i) := fun i => by
    obtain ⟨l, n1, m1, z1⟩ := size_counts hC i1.st (reg_wf i1.wf i)
    obtain ⟨l', n2, m2, z2⟩ := size_counts hC i2.st (reg_wf i2.wf i)
    rw [z1, z2, ((List.perm_ext_iff_of_nodup n1 n2).2 fun p => by rw [m1, m2, hm]).length_eq]
  refine ⟨d1.length_eq.trans d2.length_eq.symm, hm, hz, fun i j => ?_⟩
  rw [key i1, key i2]
  exact ⟨fun h p => by rw [← hm, ← hm]; exact h p, fun h p => by rw [hm, hm]; exact h p⟩

/-- The set denoted by each handle is the one given by the specification of the program. -/
theorem C13_program_denotation (hC : C.Lawful) (hcap : ∀ k, 0 < cap k) {is : List (Instr V)}
    {s : Sess V} (h : Exec C orc cap is s) (i : Nat) (p : Path E) :
    Mem C p (reg s.handles i) ↔ regS (denote C is) i p := reg_denote (h.inv hC hcap).2.2 i p

/-- An execution of a program of six instructions. -/
example : ∃ s, Exec Demo.C Demo.orc Demo.cap [.sum [0, 2], .hier 1 0 3, .flat 0 (ns [2, 3]) 2,
    .hier 1 0 1, .flat 0 (ns [1, 2]) 0, .one] s := by
  refine ⟨_, .instr _ _ _ _ _ (.instr _ _ _ _ _ (.instr _ _ _ _ _ (.instr _ _ _ _ _
    (.instr _ _ _ _ _ (.instr _ _ _ _ _ (.init Demo.C.lt (natCfg_lawful none).lt_st) rfl) rfl) rfl)
    rfl) rfl) (Prod.ext (y := (Except.ok (.hier 1 [(.flat 0 [(ns [1, 2, 3], .one)], .one)]), _)) ?_ rfl)⟩
  decide +kernel

/-- **C14.** Operation caches are transparent for results: what a call returns in any reachable session
is what the same call returns without any cache, with any order of iteration. -/
theorem C14_cache_transparent_results (hC : C.Lawful) (hcap : ∀ k, 0 < cap k) {s : Sess V}
    (hs : Sess.Reach C orc cap s) (c : Call V) (hc : ∀ x ∈ c.args, x ∈ s.handles)
    (code : Nat → List Nat) {r r' : SDD V}
    (h : (c.run (C.withLt s.lt) orc cap s.mach).1 = .ok r)
    (h' : (c.runPlain (C.withLt s.lt) code : Except (Err V) (SDD V)) = .ok r') : r = r' := by
  have hi := hs.inv hC hcap
  have hL := hC.withLt hi.st
  have hw : ∀ x ∈ c.args, WF (C.withLt s.lt) x := fun x hx => hi.wf x (hc x hx)
  have o := hi.outcome (orc := orc) hC hcap hw
  rw [h] at o
  have e := (Call.run_agree (c := code) hL hcap hw (s := ⟨fun _ => [], 0⟩)
    (fun k e he => by simp at he) (fun k e he => by simp at he)).1
  have o' := (Sess.Inv.outcome (orc := fun _ => code) (s := ⟨s.lt, ⟨fun _ => [], 0⟩, []⟩) hC hcap
    ⟨hi.st, fun k e he => by simp at he, by simp⟩ hw)
  simp only at o'
  rw [e, h'] at o'
  refine canonical_ext hL o.1 o'.1 fun p => ?_
  rw [mem_withLt, mem_withLt, o.2 p, o'.2 p]

/-- **C14**, exceptions included: after any history of calls (which may have raised) and of clears of
the caches, a call has exactly the outcome (result or exception) of the same call without cache, for
fixed addresses and iteration orders.  (Addresses matter for exceptions: see `C09_negation`.) -/
theorem C14_cache_transparent_exact (hC : C.Lawful) (hcap : ∀ k, 0 < cap k) (code : Nat → List Nat)
    {es : List (Event V)} (hes : HistWF C es) (c : Call V) (hc : ∀ x ∈ c.args, WF C x) :
    (c.run C (fun _ => code) cap (history C (fun _ => code) cap es)).1 = c.runPlain C code := by
  obtain ⟨h1, h2⟩ := history_valid (c := code) hC hcap hes
  exact (Call.run_agree hC hcap hc h1 h2).1

example :
    ((Call.sum [Demo.a, Demo.d]).run Demo.C (fun _ _ => [1]) Demo.cap
      (history Demo.C (fun _ _ => [1]) Demo.cap
        [.call (.sum [Demo.a, Demo.d]), .clear, .call (.inter [Demo.a, Demo.d])])).1 =
    (Call.sum [Demo.a, Demo.d]).runPlain Demo.C (fun _ => [1]) :=
  C14_cache_transparent_exact (natCfg_lawful none) Demo.cap_pos (fun _ => [1])
    (by intro e he; simp at he; rcases he with rfl | rfl | rfl <;> simp [Call.args, Demo.wf_a, Demo.wf_d])
    _ (by simp [Call.args, Demo.wf_a, Demo.wf_d])

/-- **C15.** After any history, each operation cache holds at most as many entries as its capacity, no
operation twice, and each entry is right: its operands are canonical, at least two, and the stored
result denotes the union, the intersection or the difference of their sets. -/
theorem C15_cache_invariants (hC : C.Lawful) (hcap : ∀ k, 0 < cap k) {es : List (Event V)}
    (hes : HistWF C es) (k : OpKind) :
    ((history C orc cap es).cache k).length ≤ cap k ∧
    (((history C orc cap es).cache k).map Prod.fst).Nodup ∧
    ∀ e ∈ (history C orc cap es).cache k, (∀ x ∈ e.1.operands, WF C x) ∧ 2 ≤ e.1.operands.length ∧
      WF C e.2 ∧ match e.1 with
        | .sum xs => ∀ p, Mem C p e.2 ↔ ∃ x ∈ xs, Mem C p x
        | .inter xs => ∀ p, Mem C p e.2 ↔ ∀ x ∈ xs, Mem C p x
        | .diff x y => ∀ p, Mem C p e.2 ↔ Mem C p x ∧ ¬ Mem C p y := by
  have hg := history_good (orc := orc) hC hcap hes
  refine ⟨hg.size k, hg.nodup k, fun e he => ?_⟩
  have hk := hg.keys k e he
  have hv := hg.ok k e he _ hk
  obtain ⟨op, r⟩ := e
  cases op with
  | sum xs => exact ⟨fun x hx => ⟨_, hk.1.dom x hx⟩, hk.2, hv.1, hv.2⟩
  | inter xs => exact ⟨fun x hx => ⟨_, hk.1.dom x hx⟩, hk.2, hv.1, hv.2⟩
  | diff x y =>
    refine ⟨fun z hz => ?_, by simp [Op.operands], hv.1, hv.2⟩
    simp only [Op.operands, List.mem_cons, List.not_mem_nil, or_false] at hz
    rcases hz with rfl | rfl
    · exact ⟨_, hk.1⟩
    · exact ⟨_, hk.2.1⟩

/-- **C15**, sessions: the same after any history which also has exceptions thrown by the code of the user at any point, handles destroyed
and nodes placed at other addresses. -/
theorem C15_sessions (hC : C.Lawful) (hcap : ∀ k, 0 < cap k) {s : Sess V} (hs : Sess.Reach C orc cap s) (k : OpKind) :
    (s.mach.cache k).length ≤ cap k ∧ ((s.mach.cache k).map Prod.fst).Nodup ∧
    ∀ e ∈ s.mach.cache k, (∀ x ∈ e.1.operands, WF (C.withLt s.lt) x) ∧ 2 ≤ e.1.operands.length ∧
      WF (C.withLt s.lt) e.2 ∧ match e.1 with
        | .sum xs => ∀ p, Mem C p e.2 ↔ ∃ x ∈ xs, Mem C p x
        | .inter xs => ∀ p, Mem C p e.2 ↔ ∀ x ∈ xs, Mem C p x
        | .diff x y => ∀ p, Mem C p e.2 ↔ Mem C p x ∧ ¬ Mem C p y := by
  have hg := hs.good hC hcap
  refine ⟨hg.size k, hg.nodup k, fun e he => ?_⟩
  have hk := hg.keys k e he
  have hv := hg.ok k e he _ hk
  have hm := OpSpec.withLt.1 hv.2
  obtain ⟨op, r⟩ := e
  cases op with
  | sum xs => exact ⟨fun x hx => ⟨_, hk.1.dom x hx⟩, hk.2, hv.1, hm⟩
  | inter xs => exact ⟨fun x hx => ⟨_, hk.1.dom x hx⟩, hk.2, hv.1, hm⟩
  | diff x y =>
    refine ⟨fun z hz => ?_, by simp [Op.operands], hv.1, hm⟩
    simp only [Op.operands, List.mem_cons, List.not_mem_nil, or_false] at hz
    rcases hz with rfl | rfl
    · exact ⟨_, hk.1⟩
    · exact ⟨_, hk.2.1⟩

example (k : OpKind) : (Demo.s2.mach.cache k).length ≤ Demo.cap k :=
  (C15_sessions (natCfg_lawful none) Demo.cap_pos Demo.reach2 k).1

example :
    ((history Demo.C Demo.orc Demo.cap [.call (.sum [Demo.a, Demo.b]), .call (.sum [Demo.a, Demo.d]),
      .call (.inter [Demo.a, Demo.b])]).cache .sum).length ≤ Demo.cap .sum :=
  (C15_cache_invariants (natCfg_lawful none) Demo.cap_pos (by
    intro e he; simp at he; rcases he with rfl | rfl | rfl <;> simp [Call.args, Demo.wf_a, Demo.wf_b, Demo.wf_d]) .sum).1

/-- **C52.** After a call which has raised an exception (of any kind) from inside nested operations,
the handles are unchanged (the two SDDs carried by `Top` can be used as well) and every further call still has a right outcome. -/
theorem C52_exception_safe (hC : C.Lawful) (hcap : ∀ k, 0 < cap k) {s : Sess V}
    (hs : Sess.Reach C orc cap s) (c : Call V) (hc : ∀ x ∈ c.args, x ∈ s.handles) {e : Err V}
    {m : Mach V} (he : c.run (C.withLt s.lt) orc cap s.mach = (.error e, m))
    (c' : Call V) (hc' : ∀ x ∈ c'.args, x ∈ s.handles ∨ ∃ y, e = .top x y ∨ e = .top y x) :
    Sess.Reach C orc cap ⟨s.lt, m, s.handles⟩ ∧
    Outcome C (c'.run (C.withLt s.lt) orc cap m).1 fun r => ∀ p, Mem C p r ↔ c'.Spec C p := by
  have hr : Sess.Reach C orc cap ⟨s.lt, m, addHandle (.error e) s.handles⟩ := by
    have := Sess.Reach.step _ _ hs (.call s c hc)
    rw [he] at this
    exact this
  have hi := hr.inv hC hcap
  have hc' : ∀ x ∈ c'.args, x ∈ addHandle (.error e) s.handles := by
    intro x hx
    rcases hc' x hx with h | ⟨y, rfl | rfl⟩
    · exact mem_addHandle_of h
    · simp [addHandle]
    · simp [addHandle]
  exact ⟨hr.step _ _ (.drop _ s.handles fun x hx => mem_addHandle_of hx), (hi.outcome (orc := orc) hC hcap fun x hx => hi.wf x (hc' x hx)).mono fun _ h => h.2⟩

/-- In the demonstration session, the sum of `a` and `d` raises. -/
example : ∃ e, ((Call.sum [Demo.a, Demo.d]).run (Demo.C.withLt Demo.s1.lt) Demo.orc Demo.cap
    Demo.s1.mach).1 = .error e := ⟨.top Demo.a Demo.d, by decide +kernel⟩

/-- **C68**, operations on SDDs. A call during which the code of the user (the operations on values) throws, at any point of any nested
operation, either raises (this exception, `Top` or the exception on the number of arcs) or returns the right set, and the session goes on:
the handles held before are unchanged and every further call has a right outcome. -/
theorem C68_operations (hC : C.Lawful) (hcap : ∀ k, 0 < cap k) {s : Sess V} (hs : Sess.Reach C orc cap s) (c : Call V)
    (hc : ∀ x ∈ c.args, x ∈ s.handles) (stop : Nat → Option (Err V))
    (hstop : ∀ k l r, stop k = some (.top l r) → l ∈ s.handles ∧ r ∈ s.handles) {res : Except (Err V) (SDD V)} {m : Mach V}
    (he : c.runX (C.withLt s.lt) orc cap stop s.mach = (res, m)) :
    (match res with
      | .ok r => ∀ p, Mem C p r ↔ c.Spec C p
      | .error e => (∃ k, stop k = some e) ∨ (∃ l r, e = .top l r) ∨ e = .overflow ∧ C.limit ≠ none) ∧
    Sess.Reach C orc cap ⟨s.lt, m, addHandle res s.handles⟩ ∧
    ∀ c' : Call V, (∀ x ∈ c'.args, x ∈ s.handles) →
      Outcome C (c'.run (C.withLt s.lt) orc cap m).1 fun r => ∀ p, Mem C p r ↔ c'.Spec C p := by
  have hr : Sess.Reach C orc cap ⟨s.lt, m, addHandle res s.handles⟩ := by
    have := Sess.Reach.step _ _ hs (.thrown s c stop hc hstop)
    rw [he] at this
    exact this
  have hi := hr.inv hC hcap
  have hi0 := hs.inv hC hcap
  refine ⟨?_, hr, fun c' hc' => (hi.outcome (orc := orc) hC hcap fun x hx => hi0.wf x (hc' x hx)).mono fun _ h => h.2⟩
  have := (Call.runX_sat (orc := orc) (stop := stop) (cap := cap)
    (allow := fun e => (∃ k, stop k = some e) ∨ (∃ l r, e = .top l r) ∨ e = .overflow ∧ C.limit ≠ none)
    (hC.withLt hi0.st) hcap (by
      by_cases h : C.limit = none
      · exact Or.inl h
      · exact Or.inr (Or.inr (Or.inr ⟨rfl, h⟩))) (.all fun l r => Or.inr (Or.inl ⟨l, r, rfl⟩)) (fun k e h => Or.inl ⟨k, h⟩)
    (c := c) (fun x hx => hi0.wf x (hc x hx)) s.mach hi0.cache).2
  rw [he] at this
  match res, this with
  | .ok r, h => exact fun p => (mem_withLt p r).symm.trans ((h.2 p).trans (c.spec_withLt p))
  | .error e, h => exact h

/-- An exception thrown after a nested sum has been stored. -/
def Demo.stop (k : Nat) : Option (Err NSet) := if k = 48 then some .invalid else none

/-- The state after this exception, in a new manager. -/
def Demo.thrown : Except (Err NSet) (SDD NSet) × Mach NSet :=
  (Call.sum [Demo.ha, Demo.hb]).runX (Demo.C.withLt Demo.s1.lt) Demo.orc Demo.cap Demo.stop ⟨fun _ => [], 0⟩

/-- The sum of `ha` and `hb` raises what the code of the user throws, with one result in the cache of sums; done again, it returns. -/
example : Demo.thrown.1 = .error .invalid ∧ (Demo.thrown.2.cache .sum).length = 1 ∧
    ((Call.sum [Demo.ha, Demo.hb]).run (Demo.C.withLt Demo.s1.lt) Demo.orc Demo.cap Demo.thrown.2).1 =
      .ok (.hier 1 [(.flat 0 [(ns [1, 2, 3], .one)], .one)]) := by decide +kernel

end

section
variable {V : Type} [DecidableEq V]

/-- **C49.** The statistics count each distinct node once: there is a list without repetition of all
the nodes reachable from `x` such that `tools::nodes` returns its numbers of flat and hierarchical
nodes, the frequency map returns for each `k` its numbers of nodes with `k` arcs, and
`number_of_arcs` the total numbers of arcs (all of them modulo 2^32, the range of `unsigned int`). -/
theorem C49_statistics (x : SDD V) : ∃ l : List (SDD V), l.Nodup ∧
    (∀ a, a ∈ l ↔ Sub a x ∧ (a.isFlat || a.isHier) = true) ∧
    nodes x = (l.countP SDD.isFlat % 2 ^ 32, l.countP SDD.isHier % 2 ^ 32) ∧
    (∀ k, (arcsFreq x).get k = ((l.countP fun a => a.isFlat && a.nbArcs == k) % 2 ^ 32,
      (l.countP fun a => a.isHier && a.nbArcs == k) % 2 ^ 32)) ∧
    numberOfArcs (arcsFreq x) = (((l.filter SDD.isFlat).map SDD.nbArcs).sum % 2 ^ 32,
      ((l.filter SDD.isHier).map SDD.nbArcs).sum % 2 ^ 32) := by
  obtain ⟨h1, h2⟩ := distinctNodes_spec x
  exact ⟨distinctNodes x, h1, h2, nodes_eq x, arcsFreq_get x, numberOfArcs_eq x⟩

/-- A shared node is counted once. -/
example : nodes (.flat 0 [(ns [1], Demo.a), (ns [2], .flat 1 [(ns [3], Demo.a)])] : SDD NSet) = (3, 0) ∧
    numberOfArcs (arcsFreq (.flat 0 [(ns [1], Demo.a), (ns [2], .flat 1 [(ns [3], Demo.a)])] : SDD NSet))
      = (4, 0) := by decide +kernel

/-- **C47**, negation: whatever the greatest value `m` of `alpha_size_type`, a node built from `m + 1`
arcs has no arc, hence no path, but is not `|0|`.  (`m = 65535` in the default configurations.) -/
theorem C47_negation (m x : Nat) (arcs : List (NSet × SDD NSet)) (h : arcs.length = m + 1) :
    nodeArcs (some m) arcs = [] ∧
    (∀ p, ¬ Mem Demo.C p (.flat x (nodeArcs (some m) arcs))) ∧
    SDD.isZero (.flat x (nodeArcs (some m) arcs) : SDD NSet) = false := by
  have e : nodeArcs (some m) arcs = [] := by simp [nodeArcs, h]
  refine ⟨e, fun p => ?_, rfl⟩
  rw [e]
  cases p <;> simp [Mem]

example : (List.replicate 65536 (ns [1], (.one : SDD NSet))).length = 65535 + 1 :=
  List.length_replicate

/-- **C47**, partial: a node keeps its arcs as long as their number fits `alpha_size_type`, and the
operations of the model report an overflow in exactly the other cases.  What is missing: a larger
number of arcs, for which the claim is false (`C47_negation`). -/
theorem C47_arcs_kept_partial {E : Type} {C : Cfg V E} {orc : Nat → Nat → List Nat} (x : Nat)
    (arcs : List (V × SDD V)) (hne : arcs ≠ []) (s : Mach V) :
    (nodeArcs C.limit arcs = arcs ∧ (mkNode C .flat x arcs : CM orc V (SDD V)) s = (.ok (.flat x arcs), s)) ∨
    (nodeArcs C.limit arcs ≠ arcs ∧ (mkNode C .flat x arcs : CM orc V (SDD V)) s = (.error .overflow, s)) := by
  have : arcs.isEmpty = false := by simpa using hne
  cases h : tooMany C.limit arcs.length
  · refine .inl ⟨nodeArcs_eq_iff.2 h, ?_⟩
    unfold mkNode
    rw [this, h]
    rfl
  · refine .inr ⟨fun hc => by rw [nodeArcs_eq_iff.1 hc] at h; exact absurd h (by simp), ?_⟩
    unfold mkNode
    rw [this, h]
    rfl

example : (mkNode (natCfg (some 1)) .flat 0 [(ns [1], .one), (ns [2], Demo.a)] : CM Demo.orc NSet _)
    ⟨fun _ => [], 0⟩ = (.error .overflow, ⟨fun _ => [], 0⟩) := rfl

end
end Verif
