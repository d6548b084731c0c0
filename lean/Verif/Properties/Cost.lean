import Verif.DD.Evals
import Verif.Properties.DD
/-!
# The cost of operations

Which operations are evaluated (not found in the operation caches), how many times, and how large the results are.
-/

set_option autoImplicit false
set_option linter.unusedSectionVars false

namespace Verif

section
variable {V E : Type} [DecidableEq V] {C : Cfg V E} {orc : Nat → Nat → List Nat} {cap : OpKind → Nat}

/-- `l` is the list, without repetition, of the nodes of `x`; its length is what `tools::nodes` counts (C49). -/
def NodesOf (l : List (SDD V)) (x : SDD V) : Prop := l.Nodup ∧ ∀ a, a ∈ l ↔ Sub a x ∧ (a.isFlat || a.isHier) = true

theorem NodesOf.has {l : List (SDD V)} {x : SDD V} (h : NodesOf l x) : HasNodes l x := fun a h1 h2 => (h.2 a).2 ⟨h1, h2⟩

theorem NodesOf.hasAll {ls : List (List (SDD V))} {xs : List (SDD V)} (h : List.Forall₂ NodesOf ls xs) : List.Forall₂ HasNodes ls xs :=
  h.imp fun _ _ h => h.has

/-- **C76**, size of results. On SDDs without hierarchy which follow the same order, the number of nodes of the union is less than the
product of the numbers of nodes of the operands plus one; the number of nodes of the intersection is at most the product of the
numbers of nodes of the operands; the number of nodes of `x - y` is at most the product of the number of nodes of `x` and of the
number of nodes of `y` plus one. -/
theorem C76_result_size (hC : C.Lawful) (hcap : ∀ k, 0 < cap k) {s : Sess V} (hs : Sess.Reach C orc cap s) {t : Ty} (ht : t.Flat) :
    (∀ (xs : List (SDD V)) (ls : List (List (SDD V))) (r : SDD V) (lr : List (SDD V)), (∀ x ∈ xs, x ∈ s.handles ∧ Follows C t x) →
      List.Forall₂ NodesOf ls xs → (sumC (C.withLt s.lt) orc cap xs s.mach).1 = .ok r → NodesOf lr r →
      lr.length < (ls.map fun l => l.length + 1).prod) ∧
    (∀ (xs : List (SDD V)) (ls : List (List (SDD V))) (r : SDD V) (lr : List (SDD V)), (∀ x ∈ xs, x ∈ s.handles ∧ Follows C t x) →
      List.Forall₂ NodesOf ls xs → (interC (C.withLt s.lt) orc cap xs s.mach).1 = .ok r → NodesOf lr r →
      lr.length ≤ (ls.map List.length).prod) ∧
    (∀ (x y r : SDD V) (lx ly lr : List (SDD V)), x ∈ s.handles → y ∈ s.handles → Follows C t x → Follows C t y →
      NodesOf lx x → NodesOf ly y → (diffC (C.withLt s.lt) orc cap x y s.mach).1 = .ok r → NodesOf lr r →
      lr.length ≤ lx.length * (ly.length + 1)) := by
  have hi := hs.inv hC hcap
  have hL := hC.withLt hi.st
  have hmem : ∀ {c : Call V} {r : SDD V}, ((∃ xs, c = .sum xs) ∨ (∃ xs, c = .inter xs) ∨ ∃ x y, c = .diff x y) →
      (∀ x ∈ c.args, Dom (C.withLt s.lt) t x) → (c.run (C.withLt s.lt) orc cap s.mach).1 = .ok r →
      Dom (C.withLt s.lt) t r ∧ ∀ p, Mem (C.withLt s.lt) p r ↔ c.Spec (C.withLt s.lt) p := by
    intro c r hk hd hr
    have := hi.outcomeNoTop (orc := orc) hC hcap ht.shape hk hd
    rw [hr] at this
    refine ⟨this.1, fun p => ?_⟩
    rw [mem_withLt, Call.spec_withLt]
    exact this.2 p
  refine ⟨fun xs ls r lr hx hls hr hlr => ?_, fun xs ls r lr hx hls hr hlr => ?_, fun x y r lx ly lr hx hy hfx hfy hlx hly hr hlr => ?_⟩
  · have hd : ∀ x ∈ xs, Dom (C.withLt s.lt) t x := fun x h => (hx x h).2.dom (hi.wf x (hx x h).1)
    obtain ⟨h1, h2⟩ := hmem (c := .sum xs) (.inl ⟨xs, rfl⟩) hd hr
    exact sum_size hL ht h1 hd h2 (NodesOf.hasAll hls) hlr.1 fun a ha => (hlr.2 a).1 ha
  · have hd : ∀ x ∈ xs, Dom (C.withLt s.lt) t x := fun x h => (hx x h).2.dom (hi.wf x (hx x h).1)
    obtain ⟨h1, h2⟩ := hmem (c := .inter xs) (.inr (.inl ⟨xs, rfl⟩)) hd hr
    exact inter_size hL ht h1 hd h2 (NodesOf.hasAll hls) hlr.1 fun a ha => (hlr.2 a).1 ha
  · have hdx := hfx.dom (hi.wf x hx)
    have hdy := hfy.dom (hi.wf y hy)
    obtain ⟨h1, h2⟩ := hmem (c := .diff x y) (.inr (.inr ⟨x, y, rfl⟩)) (by simp [Call.args, hdx, hdy]) hr
    exact diff_size hL ht h1 hdx hdy h2 hlx.has hly.has hlr.1 fun a ha => (hlr.2 a).1 ha

/-- **C76**, nothing is evaluated twice. `log` are the operations evaluated by successive calls which return; recording them changes
nothing to the calls. Unless more different operations of a kind are evaluated than their cache can store, in addition to its initial
entries, no operation is evaluated twice; and a call done again evaluates nothing, whatever the sizes of the caches. -/
theorem C76_evaluated_once (hC : C.Lawful) (hcap : ∀ k, 0 < cap k) {s : Sess V} (hs : Sess.Reach C orc cap s) :
    (∀ (c : Call V) (l : LS V), (c.runL (C.withLt s.lt) orc cap l).1 = (c.run (C.withLt s.lt) orc cap l.m).1 ∧
      (c.runL (C.withLt s.lt) orc cap l).2.m = (c.run (C.withLt s.lt) orc cap l.m).2) ∧
    (∀ (cs : List (Call V)) (l : LS V), (∀ c ∈ cs, ∀ x ∈ c.args, WF (C.withLt s.lt) x) →
      Calls (C.withLt s.lt) orc cap ⟨s.mach, []⟩ cs l →
      (∀ (k : OpKind) (d : List (Op V)), d.Nodup → (∀ op ∈ d, op ∈ l.log ∧ op.kind = k) → (s.mach.cache k).length + d.length ≤ cap k) →
      l.log.Nodup) ∧
    (∀ (c : Call V) (l : LS V) (r : SDD V), (c.runL (C.withLt s.lt) orc cap l).1 = .ok r →
      (c.runL (C.withLt s.lt) orc cap (c.runL (C.withLt s.lt) orc cap l).2).2.log = (c.runL (C.withLt s.lt) orc cap l).2.log) := by
  have hi := hs.inv hC hcap
  refine ⟨fun c l => c.runL_run l, fun cs l hcs hr hroom => ?_, fun c l r h => Call.again h⟩
  have := (hr.memo (c0 := fun k => (s.mach.cache k).length) (hC.withLt hi.st) hcap hcs ⟨hi.cache, .inl ⟨by simp, by simp, by simp, by simp [ofKind]⟩⟩).2
  rcases this with h | ⟨k, h⟩
  · exact h.nodup
  · have := hroom k (ofKind k l.log).dedup (List.nodup_dedup _) fun op hop => by
      simpa [ofKind] using hop
    exact absurd h (by dsimp only; omega)

/-- **C76**, number of evaluations. On SDDs without hierarchy which follow the same order, if the cache has room for them, a union
evaluates at most as many operations as the product of the numbers of nodes of the operands plus one; the intersection and the
difference of two SDDs at most as many as the product of their numbers of nodes. -/
theorem C76_evaluations (hC : C.Lawful) (hcap : ∀ k, 0 < cap k) {s : Sess V} (hs : Sess.Reach C orc cap s) {t : Ty} (ht : t.Flat) :
    (∀ (xs : List (SDD V)) (ls : List (List (SDD V))) (r : SDD V) (l : LS V), (∀ x ∈ xs, x ∈ s.handles ∧ Follows C t x) →
      List.Forall₂ NodesOf ls xs → (s.mach.cache .sum).length + (ls.map fun l => l.length + 1).prod ≤ cap .sum →
      (Call.sum xs).runL (C.withLt s.lt) orc cap ⟨s.mach, []⟩ = (.ok r, l) →
      l.log.Nodup ∧ l.log.length ≤ (ls.map fun l => l.length + 1).prod) ∧
    (∀ (x y r : SDD V) (lx ly : List (SDD V)) (l : LS V), x ∈ s.handles → y ∈ s.handles → Follows C t x → Follows C t y →
      NodesOf lx x → NodesOf ly y → (s.mach.cache .inter).length + lx.length * ly.length ≤ cap .inter →
      (Call.inter [x, y]).runL (C.withLt s.lt) orc cap ⟨s.mach, []⟩ = (.ok r, l) →
      l.log.Nodup ∧ l.log.length ≤ lx.length * ly.length) ∧
    (∀ (x y r : SDD V) (lx ly : List (SDD V)) (l : LS V), x ∈ s.handles → y ∈ s.handles → Follows C t x → Follows C t y →
      NodesOf lx x → NodesOf ly y → (s.mach.cache .diff).length + lx.length * ly.length ≤ cap .diff →
      (Call.diff x y).runL (C.withLt s.lt) orc cap ⟨s.mach, []⟩ = (.ok r, l) →
      l.log.Nodup ∧ l.log.length ≤ lx.length * ly.length) := by
  have hi := hs.inv hC hcap
  have hsize := (hs.good hC hcap).size
  have hL := hC.withLt hi.st
  refine ⟨fun xs ls r l hx hls hroom hr => ?_, fun x y r lx ly l hx hy hfx hfy hlx hly hroom hr => ?_,
    fun x y r lx ly l hx hy hfx hfy hlx hly hroom hr => ?_⟩
  · have hd : ∀ x ∈ xs, Dom (C.withLt s.lt) t x := fun x h => (hx x h).2.dom (hi.wf x (hx x h).1)
    have := Call.evals (c := .sum xs) hL hcap (fun x h => (hd x h).wf) (sum_keys (orc := orc) (cap := cap) hL ht hd) (k := .sum)
      (by rintro op ⟨_, _, _, rfl, -⟩; rfl) (fun log hn hk => sumKey_count hL (NodesOf.hasAll hls) hn hk) hi.cache hsize hroom
      (r := r) (by rw [hr])
    rw [hr] at this
    exact ⟨this.1, this.2.1⟩
  · have hdx := hfx.dom (hi.wf x hx)
    have hdy := hfy.dom (hi.wf y hy)
    have := Call.evals hL hcap (by simp [Call.args, hdx.wf, hdy.wf]) (inter_keys (orc := orc) (cap := cap) hL ht hdx hdy) (k := .inter)
      (by rintro op ⟨_, _, _, _, rfl, -⟩; rfl) (fun log hn hk => interKey_count hL hlx.has hly.has hn hk) hi.cache hsize hroom
      (r := r) (by rw [hr])
    rw [hr] at this
    exact ⟨this.1, this.2.1⟩
  · have hdx := hfx.dom (hi.wf x hx)
    have hdy := hfy.dom (hi.wf y hy)
    have := Call.evals hL hcap (by simp [Call.args, hdx.wf, hdy.wf]) (diff_keys (orc := orc) (cap := cap) ht hdx hdy) (k := .diff)
      (by rintro op ⟨_, _, _, rfl, -⟩; rfl) (fun log hn hk => diffKey_count hlx.has hly.has hn hk) hi.cache hsize hroom
      (r := r) (by rw [hr])
    rw [hr] at this
    exact ⟨this.1, this.2.1⟩

end

/-! ## A concrete case -/

namespace DemoCost

/-- Capacities. -/
def cap : OpKind → Nat := fun _ => 20

theorem cap_pos : ∀ k, 0 < cap k := fun k => by cases k <;> decide

/-- `1 ∈ {1, 2}`. -/
def u : SDD NSet := .flat 1 [(ns [1, 2], .one)]
/-- `1 ∈ {2, 3}`. -/
def v : SDD NSet := .flat 1 [(ns [2, 3], .one)]
/-- `0 ∈ {1}, 1 ∈ {1, 2}`. -/
def x : SDD NSet := .flat 0 [(ns [1, 4], u)]
/-- `0 ∈ {1, 2}, 1 ∈ {2, 3}`. -/
def y : SDD NSet := .flat 0 [(ns [1, 2], v)]

/-- Execution of a call. -/
def exec (s : Sess NSet) (c : Call NSet) : Sess NSet :=
  { s with
    mach := (c.run (Demo.C.withLt s.lt) Demo.orc cap s.mach).2
    handles := addHandle (c.run (Demo.C.withLt s.lt) Demo.orc cap s.mach).1 s.handles }

/-- A session with these SDDs. -/
def s : Sess NSet := [Call.one, .flat 1 (ns [1, 2]) .one, .flat 1 (ns [2, 3]) .one, .flat 0 (ns [1, 4]) u, .flat 0 (ns [1, 2]) v].foldl exec Demo.s0

theorem reach : Sess.Reach Demo.C Demo.orc cap s := by
  have st : ∀ {s : Sess NSet} (c : Call NSet), Sess.Reach Demo.C Demo.orc cap s → (∀ x ∈ c.args, x ∈ s.handles) →
      Sess.Reach Demo.C Demo.orc cap (exec s c) := fun c h hc => .step _ _ h (.call _ c hc)
  have h0 : Sess.Reach Demo.C Demo.orc cap Demo.s0 := .init _ (natCfg_lawful none).lt_st
  have h1 := st .one h0 (by decide +kernel)
  have h2 := st (.flat 1 (ns [1, 2]) .one) h1 (by decide +kernel)
  have h3 := st (.flat 1 (ns [2, 3]) .one) h2 (by decide +kernel)
  have h4 := st (.flat 0 (ns [1, 4]) u) h3 (by decide +kernel)
  exact st (.flat 0 (ns [1, 2]) v) h4 (by decide +kernel)

theorem inHandles : x ∈ s.handles ∧ y ∈ s.handles := by decide +kernel

theorem follows : Follows Demo.C (.flat 0 (.flat 1 .nil)) x ∧ Follows Demo.C (.flat 0 (.flat 1 .nil)) y := by
  have h1 : WF Demo.C (.one : SDD NSet) := ⟨0, .one _ trivial⟩
  have f1 : Follows Demo.C .nil (.one : SDD NSet) := ⟨trivial, fun p hp => by
    cases p <;> simp_all [Mem, PTy, Ty.hasOne]⟩
  have key : ∀ w w', Follows Demo.C (.flat 0 (.flat 1 .nil)) (mkNode1 (m := CM Demo.orc NSet) (flatKind Demo.C) 0 w
      (mkNode1 (m := CM Demo.orc NSet) (flatKind Demo.C) 1 w' .one)) := by
    intro w w'
    have a := C07_constructors_follow (orc := Demo.orc) (x := 1) (v := w') (natCfg_lawful none) h1 h1 f1 f1
    have wa := (mkNode1_flat (m := CM Demo.orc NSet) (x := 1) (v := w') (natCfg_lawful none) h1).1
    exact (C07_constructors_follow (orc := Demo.orc) (x := 0) (v := w) (natCfg_lawful none) wa wa a.1 a.1).1
  constructor
  · have : x = mkNode1 (m := CM Demo.orc NSet) (flatKind Demo.C) 0 (ns [1, 4]) (mkNode1 (m := CM Demo.orc NSet) (flatKind Demo.C) 1 (ns [1, 2]) .one) := by
      decide +kernel
    rw [this]; exact key _ _
  · have : y = mkNode1 (m := CM Demo.orc NSet) (flatKind Demo.C) 0 (ns [1, 2]) (mkNode1 (m := CM Demo.orc NSet) (flatKind Demo.C) 1 (ns [2, 3]) .one) := by
      decide +kernel
    rw [this]; exact key _ _

theorem nodes_x : NodesOf (distinctNodes x) x := distinctNodes_spec x
theorem nodes_y : NodesOf (distinctNodes y) y := distinctNodes_spec y

end DemoCost

/-- The operands have two nodes each, their union 4 nodes; two operations are evaluated. -/
example : (distinctNodes DemoCost.x).length = 2 ∧ (distinctNodes DemoCost.y).length = 2 ∧
    ((Call.sum [DemoCost.x, DemoCost.y]).runL (Demo.C.withLt DemoCost.s.lt) Demo.orc DemoCost.cap ⟨DemoCost.s.mach, []⟩).2.log.length = 2 ∧
    ((sumC (Demo.C.withLt DemoCost.s.lt) Demo.orc DemoCost.cap [DemoCost.x, DemoCost.y] DemoCost.s.mach).1.toOption.map
      fun r => (distinctNodes r).length) = some 4 := by decide +kernel

example {r : SDD NSet} {l : LS NSet}
    (h : (Call.sum [DemoCost.x, DemoCost.y]).runL (Demo.C.withLt DemoCost.s.lt) Demo.orc DemoCost.cap ⟨DemoCost.s.mach, []⟩ = (.ok r, l)) :
    l.log.Nodup ∧ l.log.length ≤ 9 :=
  (C76_evaluations (natCfg_lawful none) DemoCost.cap_pos DemoCost.reach (t := .flat 0 (.flat 1 .nil)) trivial).1
    [DemoCost.x, DemoCost.y] [distinctNodes DemoCost.x, distinctNodes DemoCost.y] r l
    (by simpa using ⟨⟨DemoCost.inHandles.1, DemoCost.follows.1⟩, DemoCost.inHandles.2, DemoCost.follows.2⟩)
    (.cons DemoCost.nodes_x (.cons DemoCost.nodes_y .nil)) (by decide +kernel) h

example {r : SDD NSet} {lr : List (SDD NSet)} (hlr : NodesOf lr r)
    (h : (sumC (Demo.C.withLt DemoCost.s.lt) Demo.orc DemoCost.cap [DemoCost.x, DemoCost.y] DemoCost.s.mach).1 = .ok r) : lr.length < 9 :=
  (C76_result_size (natCfg_lawful none) DemoCost.cap_pos DemoCost.reach (t := .flat 0 (.flat 1 .nil)) trivial).1
    [DemoCost.x, DemoCost.y] [distinctNodes DemoCost.x, distinctNodes DemoCost.y] r lr
    (by simpa using ⟨⟨DemoCost.inHandles.1, DemoCost.follows.1⟩, DemoCost.inHandles.2, DemoCost.follows.2⟩)
    (.cons DemoCost.nodes_x (.cons DemoCost.nodes_y .nil)) h hlr

/-- With caches of one entry, an operation is evaluated twice. -/
example : ∃ cs : List (Call NSet), ∃ l : LS NSet, Calls Demo.C Demo.orc (fun _ => 1) ⟨⟨fun _ => [], 0⟩, []⟩ cs l ∧ ¬ l.log.Nodup := by
  refine ⟨[.sum [DemoCost.u, DemoCost.v], .sum [DemoCost.u, .flat 1 [(ns [5], .one)]], .sum [DemoCost.u, DemoCost.v]], _, .cons (r := ?_) ?_ (.cons (r := ?_) ?_ (.cons (r := ?_) ?_ (.nil _))), ?_⟩
  · exact .flat 1 [(ns [1, 2, 3], .one)]
  · decide +kernel
  · exact .flat 1 [(ns [1, 2, 5], .one)]
  · decide +kernel
  · exact .flat 1 [(ns [1, 2, 3], .one)]
  · decide +kernel
  · decide +kernel

end Verif
