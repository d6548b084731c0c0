import Verif.DD.Width
import Verif.Properties.Cost
/-!
# The number of operands of operations
-/

set_option autoImplicit false
set_option linter.unusedSectionVars false

namespace Verif

section
variable {V E : Type} [DecidableEq V] {C : Cfg V E} {orc : Nat → Nat → List Nat} {cap : OpKind → Nat} {bits : Nat}

/-- **C80 does not hold**, whatever the width of `operands_size_type` (`bits`): the sum of `2 ^ bits` different flat nodes, which has
paths, is `|0|` when the sets of values are fast iterable and is undefined otherwise; their intersection is undefined. -/
theorem C80_negation (hC : C.Lawful) (hcap : ∀ k, 0 < cap k) (hb : 0 < bits) {s : Sess V} (hs : Sess.Reach C orc cap s)
    (hcs : s.mach.cache .sum = []) (hci : s.mach.cache .inter = []) {xs : List (SDD V)} (hh : ∀ x ∈ xs, x ∈ s.handles) (hn : xs.Nodup)
    (hl : xs.length = 2 ^ bits) (hx : ∀ x ∈ xs, x.isFlat = true) :
    (∃ p, ∃ x ∈ xs, Mem C p x) ∧
    ((Call.sum xs).runW (C.withLt s.lt) orc cap bits s.mach).1 = (if C.fast then .ok .zero else .error .ub) ∧
    ((Call.inter xs).runW (C.withLt s.lt) orc cap bits s.mach).1 = .error .ub := by
  have hi := hs.inv hC hcap
  have hL := hC.withLt hi.st
  refine ⟨?_, sum_wraps hL hb (hcap _) hn hl hx hcs, inter_wraps hL hb hn hl (fun x h => by rw [hx x h]; rfl) hci⟩
  match xs, hl, hh, hx with
  | [], hl, _, _ => have := Nat.pow_pos (n := bits) (show 0 < 2 by omega); simp at hl; omega
  | x :: xs, _, hh, hx =>
    obtain ⟨n, hd⟩ := hi.wf x (hh x (by simp))
    obtain ⟨p, hp⟩ := hd.exists_mem (by rintro rfl; have := hx .zero (by simp); simp [SDD.isFlat] at this)
    exact ⟨p, x, by simp, (mem_withLt p x).1 hp⟩

/-- **C80**, partial. When all the operations stored in the caches have less than `2 ^ bits` operands, a call which only evaluates
operations with less than `2 ^ bits` operands behaves as if numbers of operands were not bounded (same result or exception, same caches),
and leaves only such operations in the caches.
It is the case of the sum of less than `2 ^ bits` SDDs without hierarchy which follow the same order, of the intersection of two of them
(with at least 2 bits) and of their difference.
With at least 2 bits, it is the case of all the calls (sums, intersections and differences of any SDDs) with less than `2 ^ bits` arguments
when there are less than `2 ^ bits` different nested paths at each position of the paths of the arguments: in particular, when there is
no hierarchy.

What is missing: operations with more operands, for which the claim is false (`C80_negation`), and hierarchies with more nested paths, for
which the claim may be false even for two arguments (`C80_nested_negation`). -/
theorem C80_operands_kept_partial (hC : C.Lawful) (hcap : ∀ k, 0 < cap k) {s : Sess V} (hs : Sess.Reach C orc cap s)
    (hk : ∀ k, ∀ e ∈ s.mach.cache k, e.1.Fits bits) :
    (∀ c : Call V, (∀ op ∈ (c.runL (C.withLt s.lt) orc cap ⟨s.mach, []⟩).2.log, op.Fits bits) →
      c.runW (C.withLt s.lt) orc cap bits s.mach = c.run (C.withLt s.lt) orc cap s.mach ∧
      ∀ k, ∀ e ∈ (c.run (C.withLt s.lt) orc cap s.mach).2.cache k, e.1.Fits bits) ∧
    (∀ t : Ty, t.Flat → ∀ c : Call V, (∀ x ∈ c.args, x ∈ s.handles ∧ Follows C t x) →
      ((∃ xs, c = .sum xs ∧ xs.length < 2 ^ bits) ∨ (∃ x y, c = .inter [x, y] ∧ 2 < 2 ^ bits) ∨ ∃ x y, c = .diff x y) →
      c.runW (C.withLt s.lt) orc cap bits s.mach = c.run (C.withLt s.lt) orc cap s.mach ∧
      ∀ k, ∀ e ∈ (c.run (C.withLt s.lt) orc cap s.mach).2.cache k, e.1.Fits bits) ∧
    ∀ c : Call V, 2 ≤ bits → (∀ x ∈ c.args, x ∈ s.handles) → c.args.length < 2 ^ bits →
      (∀ i (l : List (Path E)), l.Nodup → (∀ n ∈ l, ∃ p, (∃ x ∈ c.args, Mem C p x) ∧ p.nestedAt i = some n) → l.length < 2 ^ bits) →
      c.runW (C.withLt s.lt) orc cap bits s.mach = c.run (C.withLt s.lt) orc cap s.mach ∧
      ∀ k, ∀ e ∈ (c.run (C.withLt s.lt) orc cap s.mach).2.cache k, e.1.Fits bits := by
  have hi := hs.inv hC hcap
  have hL := hC.withLt hi.st
  have general : ∀ c : Call V, (∀ op ∈ (c.runL (C.withLt s.lt) orc cap ⟨s.mach, []⟩).2.log, op.Fits bits) →
      c.runW (C.withLt s.lt) orc cap bits s.mach = c.run (C.withLt s.lt) orc cap s.mach ∧
      ∀ k, ∀ e ∈ (c.run (C.withLt s.lt) orc cap s.mach).2.cache k, e.1.Fits bits := by
    intro c hlog
    obtain ⟨h2, h3⟩ := (c.runW_rel (C := C.withLt s.lt) (orc := orc) (cap := cap) (bits := bits) ⟨s.mach, []⟩).2 hlog hk
    obtain ⟨h4, h5⟩ := c.runL_run (C := C.withLt s.lt) (orc := orc) (cap := cap) ⟨s.mach, []⟩
    exact ⟨by rw [h3, h4, h5], by rw [← h5]; exact h2⟩
  refine ⟨general, fun t ht c hargs hc => ?_, fun c hb hargs hl hS => general c ?_⟩
  · have hd : ∀ x ∈ c.args, Dom (C.withLt s.lt) t x := fun x h => (hargs x h).2.dom (hi.wf x (hargs x h).1)
    rcases hc with ⟨xs, rfl, hl⟩ | ⟨x, y, rfl, h2⟩ | ⟨x, y, rfl⟩
    · exact Call.runW_keys (sum_keys hL ht hd) (fun op h => h.fits hL hl) hk
    · exact Call.runW_keys (inter_keys hL ht (hd x (by simp [Call.args])) (hd y (by simp [Call.args]))) (fun op h => h.fits hL h2) hk
    · exact Call.runW_keys (diff_keys ht (hd x (by simp [Call.args])) (hd y (by simp [Call.args]))) (fun op h => h.fits) hk
  · refine Call.runL_fits hL (Nat.lt_of_lt_of_le (show 2 < 2 ^ 2 by decide) (Nat.pow_le_pow_right (by decide) hb))
      (fun x hx => hi.wf x (hargs x hx)) hl (fun i l h1 h2 => hS i l h1 fun n hn => ?_) hi.cache
    obtain ⟨p, ⟨x, hx, hp⟩, h3⟩ := h2 n hn
    exact ⟨p, ⟨x, hx, (mem_withLt p x).1 hp⟩, h3⟩

end

/-! ## Concrete cases -/

namespace DemoWidth

/-- `0 ∈ {i}`. -/
def x (i : Nat) : SDD NSet := .flat 0 [(ns [i], .one)]

theorem x_inj {i j : Nat} (h : x i = x j) : i = j := by
  simp only [x, SDD.flat.injEq, List.cons.injEq, Prod.mk.injEq, and_true, true_and] at h
  have := (FSet.mem_ofList natLt_st' i [i]).2 (by simp)
  rw [show FSet.ofList natLt_st' [i] = FSet.ofList natLt_st' [j] from h, FSet.mem_ofList] at this
  simpa using this

theorem x_eq (i : Nat) : mkNode1 (m := CM Demo.orc NSet) (flatKind Demo.C) 0 (ns [i]) .one = x i := by
  have : (flatKind (m := CM Demo.orc NSet) Demo.C).isEmpty (ns [i]) = false := by
    rw [Bool.eq_false_iff]
    intro h
    exact ((natCfg_lawful none).isEmpty_iff (ns [i])).1 h i ((FSet.mem_ofList natLt_st' i [i]).2 (by simp))
  unfold mkNode1
  rw [this]
  rfl

/-- There is a session, with empty caches, which has these SDDs. -/
theorem reach (n : Nat) : ∃ s : Sess NSet, Sess.Reach Demo.C Demo.orc DemoCost.cap s ∧ s.mach.cache .sum = [] ∧ s.mach.cache .inter = [] ∧
    SDD.one ∈ s.handles ∧ ∀ i < n, x i ∈ s.handles := by
  induction n with
  | zero => exact ⟨_, .step _ _ (.init Demo.s0.lt (natCfg_lawful none).lt_st) (.call _ .one (by simp [Call.args])), rfl, rfl, List.mem_cons.2 (.inl rfl), by simp⟩
  | succ n ih =>
    obtain ⟨s, h1, h2, h3, h4, h5⟩ := ih
    refine ⟨_, .step _ _ h1 (.call _ (.flat 0 (ns [n]) .one) (by simpa [Call.args] using h4)), h2, h3, List.mem_cons_of_mem _ h4, fun i hi => ?_⟩
    rcases Nat.lt_succ_iff_lt_or_eq.1 hi with hi | rfl
    · exact List.mem_cons_of_mem _ (h5 i hi)
    · refine List.mem_cons.2 (.inl ?_)
      exact (x_eq i).symm

end DemoWidth

/-- With 8 bits, the sum of the 256 SDDs `0 ∈ {i}` is `|0|`. -/
example : ∃ s : Sess NSet, Sess.Reach Demo.C Demo.orc DemoCost.cap s ∧ (∀ i < 256, DemoWidth.x i ∈ s.handles) ∧
    ((Call.sum ((List.range 256).map DemoWidth.x)).runW (Demo.C.withLt s.lt) Demo.orc DemoCost.cap 8 s.mach).1 = .ok .zero := by
  obtain ⟨s, h1, h2, h3, -, h5⟩ := DemoWidth.reach 256
  refine ⟨s, h1, h5, ?_⟩
  have := (C80_negation (natCfg_lawful none) DemoCost.cap_pos (bits := 8) (by decide) h1 h2 h3 (xs := (List.range 256).map DemoWidth.x)
    (by simpa using h5) (List.Nodup.map (fun _ _ h => DemoWidth.x_inj h) List.nodup_range) (by simp)
    (by simp only [List.mem_map]; rintro _ ⟨i, _, rfl⟩; rfl)).2.1
  rw [this]
  rfl

/-- With 8 bits, the sum of `DemoCost.x` and `DemoCost.y` is not changed. -/
example : (Call.sum [DemoCost.x, DemoCost.y]).runW (Demo.C.withLt DemoCost.s.lt) Demo.orc DemoCost.cap 8 DemoCost.s.mach =
    (Call.sum [DemoCost.x, DemoCost.y]).run (Demo.C.withLt DemoCost.s.lt) Demo.orc DemoCost.cap DemoCost.s.mach :=
  ((C80_operands_kept_partial (natCfg_lawful none) DemoCost.cap_pos DemoCost.reach (bits := 8)
    (fun k e he => by
      have h : DemoCost.s.mach.cache k = [] := by cases k <;> decide +kernel
      rw [h] at he; cases he)).2.1
    (.flat 0 (.flat 1 .nil)) trivial _
    (by simpa [Call.args] using ⟨⟨DemoCost.inHandles.1, DemoCost.follows.1⟩, DemoCost.inHandles.2, DemoCost.follows.2⟩)
    (.inl ⟨_, rfl, by decide⟩)).1

/-! ## Nested operations -/

namespace DemoNested

/-- `0 ∈ l`. -/
def n (l : List Nat) : SDD NSet := .flat 0 [(ns l, .one)]

/-- The other values. -/
def rest (i : Nat) : List Nat := (List.range 4).filter (· ≠ i)

/-- The calls: `x` has the paths where 1 has the nested value `i`, and 0 the value `i`; `y` those where 1 has the nested value `i`, and 0
a value different from `i`. -/
def calls : List (Call NSet) :=
  let h (i : Nat) : SDD NSet := .hier 1 [(n [i], n [i])]
  let g (i : Nat) : SDD NSet := .hier 1 [(n [i], n (rest i))]
  [.one] ++ (List.range 4).map (fun i => .flat 0 (ns [i]) .one) ++ (List.range 4).map (fun i => .flat 0 (ns (rest i)) .one) ++
    (List.range 4).map (fun i => .hier 1 (n [i]) (n [i])) ++ (List.range 4).map (fun i => .hier 1 (n [i]) (n (rest i))) ++
    [.sum [h 0, h 1], .sum [h 2, h 3], .sum [g 0, g 1], .sum [g 2, g 3]]

/-- Whether the arguments of the calls exist. -/
def okCalls : Sess NSet → List (Call NSet) → Bool
  | _, [] => true
  | s, c :: cs => c.args.all (fun x => decide (x ∈ s.handles)) && okCalls (DemoCost.exec s c) cs

/-- A session with the four parts. -/
def s1 : Sess NSet := calls.foldl DemoCost.exec Demo.s0
/-- A handle. -/
def hd (s : Sess NSet) (i : Nat) : SDD NSet := s.handles.getD i .zero
/-- The last calls. -/
def more : List (Call NSet) := [.sum [hd s1 3, hd s1 2], .sum [hd s1 1, hd s1 0]]
/-- A session with these SDDs. -/
def s : Sess NSet := more.foldl DemoCost.exec s1
/-- The first operand. -/
def x : SDD NSet := hd s 1
/-- The second operand. -/
def y : SDD NSet := hd s 0

theorem reach_all (cs : List (Call NSet)) : ∀ {s : Sess NSet}, Sess.Reach Demo.C Demo.orc DemoCost.cap s → okCalls s cs = true →
    Sess.Reach Demo.C Demo.orc DemoCost.cap (cs.foldl DemoCost.exec s) := by
  induction cs with
  | nil => intro s h _; exact h
  | cons c cs ih =>
    intro s h hc
    rw [okCalls, Bool.and_eq_true, List.all_eq_true] at hc
    exact ih (.step _ _ h (.call _ c fun x hx => of_decide_eq_true (hc.1 x hx))) hc.2

theorem reach : Sess.Reach Demo.C Demo.orc DemoCost.cap s :=
  reach_all _ (reach_all _ (.init _ (natCfg_lawful none).lt_st) (by decide +kernel)) (by decide +kernel)

/-- Whether operations fit. -/
def fitsB (bits : Nat) : Op NSet → Bool
  | .sum xs => decide (xs.length < 2 ^ bits)
  | .inter xs => decide (xs.length < 2 ^ bits)
  | .diff _ _ => true

theorem keys : ∀ k, ∀ e ∈ s.mach.cache k, e.1.Fits 2 := by
  have h : ∀ k, (s.mach.cache k).all (fun e => fitsB 2 e.1) = true := by intro k; cases k <;> decide +kernel
  intro k e he
  have := List.all_eq_true.1 (h k) e he
  match e, this with
  | (.sum xs, _), h => exact of_decide_eq_true (p := xs.length < 2 ^ 2) h
  | (.inter xs, _), h => exact of_decide_eq_true (p := xs.length < 2 ^ 2) h
  | (.diff _ _, _), _ => trivial

theorem result : ((Call.sum [x, y]).runW (Demo.C.withLt s.lt) Demo.orc DemoCost.cap 2 s.mach).1.toOption =
    some (.hier 1 [(.zero, n [0, 1, 2, 3])]) := by decide +kernel

/-- The arcs of a hierarchical node. -/
def arcsOf : SDD NSet → List (SDD NSet × SDD NSet)
  | .hier _ l => l
  | _ => []

theorem path : Mem Demo.C (.hier 1 (.flat 0 0 .nil) (.flat 0 0 .nil)) x := by
  have h1 : x = .hier 1 (arcsOf x) := by decide +kernel
  have h2 : (n [0], n [0]) ∈ arcsOf x := by decide +kernel
  rw [h1]
  have h : Mem Demo.C (.flat 0 0 .nil) (n [0]) := ⟨rfl, _, List.mem_singleton.2 rfl, (FSet.mem_ofList natLt_st' 0 [0]).2 (by simp), rfl⟩
  exact ⟨rfl, _, h2, h, h⟩

end DemoNested

/-- **C80 does not hold for two arguments**, when there are hierarchies: with 2 bits, the sum of `x` and `y`, which have paths, returns an
SDD which has no path (and is not `|0|`). All the operations of the caches have less than 4 operands, but the nested sum of the four
values which have the same successor is made with 0 operands. -/
theorem C80_nested_negation : ∃ (s : Sess NSet) (x y r : SDD NSet), Sess.Reach Demo.C Demo.orc DemoCost.cap s ∧
    (∀ k, ∀ e ∈ s.mach.cache k, e.1.Fits 2) ∧ x ∈ s.handles ∧ y ∈ s.handles ∧ (∃ p, Mem Demo.C p x) ∧
    ((Call.sum [x, y]).runW (Demo.C.withLt s.lt) Demo.orc DemoCost.cap 2 s.mach).1 = .ok r ∧ (∀ p, ¬ Mem Demo.C p r) ∧ r ≠ .zero := by
  have hr : ∀ (e : Except (Err NSet) (SDD NSet)) r, e.toOption = some r → e = .ok r := by
    intro e r h
    cases e <;> simp_all [Except.toOption]
  refine ⟨DemoNested.s, DemoNested.x, DemoNested.y, _, DemoNested.reach, DemoNested.keys, by decide +kernel, by decide +kernel,
    ⟨_, DemoNested.path⟩, hr _ _ DemoNested.result, ?_, by simp⟩
  intro p hp
  cases p with
  | nil => simp [Mem] at hp
  | flat => simp [Mem] at hp
  | hier y n q =>
    obtain ⟨-, arc, ha, hn, -⟩ := hp
    rw [List.mem_singleton.1 ha] at hn
    exact not_mem_zero _ hn

/-- With 8 bits, the sum of `Demo.ha` and `Demo.hb`, which have hierarchies, is not changed: they have three nested paths. -/
example : (Call.sum [Demo.ha, Demo.hb]).runW (Demo.C.withLt Demo.s1.lt) Demo.orc Demo.cap 8 Demo.s1.mach =
    (Call.sum [Demo.ha, Demo.hb]).run (Demo.C.withLt Demo.s1.lt) Demo.orc Demo.cap Demo.s1.mach := by
  have hk : ∀ k, ∀ e ∈ Demo.s1.mach.cache k, e.1.Fits 8 := by
    have h : ∀ k, (Demo.s1.mach.cache k).all (fun e => DemoNested.fitsB 8 e.1) = true := by intro k; cases k <;> decide +kernel
    intro k e he
    have := List.all_eq_true.1 (h k) e he
    match e, this with
    | (.sum xs, _), h => exact of_decide_eq_true (p := xs.length < 2 ^ 8) h
    | (.inter xs, _), h => exact of_decide_eq_true (p := xs.length < 2 ^ 8) h
    | (.diff _ _, _), _ => trivial
  have hn : ∀ (l : List Nat) n, Mem Demo.C n (.flat 0 [(ns l, .one)]) → ∃ a ∈ l, n = .flat 0 a .nil := by
    intro l n h
    match n, h with
    | .flat _ a q, ⟨rfl, arc, ha, hv, hq⟩ =>
      rw [List.mem_singleton.1 ha] at hv hq
      refine ⟨a, (FSet.mem_ofList natLt_st' a l).1 hv, ?_⟩
      cases q <;> simp_all [Mem]
  have hp : ∀ (l : List Nat) p, Mem Demo.C p (.hier 1 [(.flat 0 [(ns l, .one)], .one)]) → ∃ a ∈ l, p = .hier 1 (.flat 0 a .nil) .nil := by
    intro l p h
    match p, h with
    | .hier _ n q, ⟨rfl, arc, ha, hv, hq⟩ =>
      rw [List.mem_singleton.1 ha] at hv hq
      obtain ⟨a, ha, rfl⟩ := hn l n hv
      refine ⟨a, ha, ?_⟩
      cases q <;> simp_all [Mem]
  refine ((C80_operands_kept_partial (natCfg_lawful none) Demo.cap_pos Demo.reach (bits := 8) hk).2.2 _ (by decide)
    (by decide +kernel) (by decide) fun i l hl h => ?_).1
  have hsub : l ⊆ [1, 2, 3].map fun a => Path.flat 0 a .nil := by
    intro n hm
    obtain ⟨p, ⟨x, hx, hpx⟩, hi⟩ := h n hm
    have : ∃ a ∈ [1, 2, 3], p = .hier 1 (.flat 0 a .nil) .nil := by
      simp only [Call.args, List.mem_cons, List.not_mem_nil, or_false] at hx
      rcases hx with rfl | rfl
      · obtain ⟨a, ha, e⟩ := hp [1, 2] p hpx
        exact ⟨a, by simp at ha ⊢; omega, e⟩
      · obtain ⟨a, ha, e⟩ := hp [2, 3] p hpx
        exact ⟨a, by simp at ha ⊢; omega, e⟩
    obtain ⟨a, ha, rfl⟩ := this
    cases i with
    | zero => exact List.mem_map.2 ⟨a, ha, Option.some.inj hi⟩
    | succ i => simp [Path.nestedAt] at hi
  have := (hl.subperm hsub).length_le
  rw [List.length_map] at this
  exact Nat.lt_of_le_of_lt this (by decide)

end Verif
