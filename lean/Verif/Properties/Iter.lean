import Verif.DD.Iter
import Verif.DD.DotIter
import Verif.Properties.Width
/-!
# Iterators kept while counting paths and exporting
-/

set_option autoImplicit false
set_option linter.unusedSectionVars false

namespace Verif

section
variable {V E : Type} [DecidableEq V] {C : Cfg V E} {orc : Nat → Nat → List Nat} {cap : OpKind → Nat}

/-- **C82**, the part which holds. When a default constructed `std::unordered_map` has `b` buckets, and `grow n` buckets once it is rehashed
for `n` elements, `size()` of a handle is defined exactly when the number of its distinct nodes is at most `b` (`grow 1` if `b` is zero), and
it is then the number of its paths.

Missing: the other SDDs, for which the property is false (`C82_negation`). -/
theorem C82_size_defined_partial (hC : C.Lawful) (hcap : ∀ k, 0 < cap k) {s : Sess V} (hs : Sess.Reach C orc cap s) {grow : Nat → Nat}
    (hg : ∀ n, n ≤ grow n) (b : Nat) {x : SDD V} (hx : x ∈ s.handles) :
    ∃ (nodes : List (SDD V)) (paths : List (Path E)), nodes.Nodup ∧ (∀ a, a ∈ nodes ↔ Sub a x ∧ (a.isFlat || a.isHier) = true) ∧
      paths.Nodup ∧ (∀ p, p ∈ paths ↔ Mem C p x) ∧
      sizeOfSDDI C grow b x = if nodes.length ≤ (if 1 ≤ b then b else grow 1) then some paths.length else none := by
  obtain ⟨paths, h1, h2, h3⟩ := C10_size_counts_paths hC hcap hs hx
  obtain ⟨d1, d2⟩ := distinctNodes_spec x
  refine ⟨distinctNodes x, paths, d1, d2, h1, h2, ?_⟩
  obtain ⟨t, hd⟩ := (hs.inv hC hcap).wf x hx
  by_cases hz : x = .zero
  · subst hz
    simp only [sizeOfSDD, SDD.isZero, if_true, Option.some.injEq] at h3
    simp [sizeOfSDDI, SDD.isZero, distinctNodes, trav, ← h3]
  · rw [sizeOfSDDI_eq C (hg 1) b (hd.noZero hz), h3]
    rfl

/-- **C82**, the export. When a default constructed `std::unordered_set` has `b` buckets, the DOT export of a handle which follows the order is
defined exactly when the number of distinct SDDs below it (itself and terminals included) is at most `b + 1`, and it is then the one
of C60.

Missing: the other SDDs, for which the property is false (`C82_dot_negation`). -/
theorem C82_dot_defined_partial {I : Type} (hC : C.Lawful) (hcap : ∀ k, 0 < cap k) {s : Sess V} (hs : Sess.Reach C orc cap s)
    (grow : Nat → Nat) (b : Nat) (addr : SDD V → List Char) {x : SDD V} (hx : x ∈ s.handles) {o : OB I} (ho : Follows C o.ty x) :
    ∃ (subs : List (SDD V)) (out : List (Dot.Line V I)), subs.Nodup ∧ (∀ a, a ∈ subs ↔ Sub a x) ∧ Dot.dot addr x o = some out ∧
      Dot.dotI addr grow b x o = if subs.length ≤ b + 1 then some out else none := by
  have hd := ho.dom ((hs.inv hC hcap).wf x hx)
  obtain ⟨σ', e, ⟨l, v, d, m, -⟩, hc, h1⟩ := Dot.dotV_ok (addr := addr) x o ⟨[], []⟩ hd (by intro v hv; simp at hv)
  rw [List.append_nil] at v
  refine ⟨σ'.visited, σ'.out, v ▸ d, fun a => ⟨fun h => ?_, fun h => hc x h1 a h⟩, by rw [Dot.dot, e]; rfl, Dot.dotI_eq e b⟩
  rw [v, List.mem_map] at h
  obtain ⟨e, he, rfl⟩ := h
  exact (m e he).2.sub

end

namespace DemoIter

/-- An SDD with `n` nodes, one below the other. -/
def chain : Nat → SDD NSet
  | 0 => .one
  | n + 1 => .flat n [(ns [0], chain n)]

theorem chain_ne_zero (n : Nat) : chain n ≠ .zero := by cases n <;> simp [chain]

theorem chain_eq (n : Nat) : mkNode1 (m := CM Demo.orc NSet) (flatKind Demo.C) n (ns [0]) (chain n) = chain (n + 1) := by
  have h1 : (flatKind (m := CM Demo.orc NSet) Demo.C).isEmpty (ns [0]) = false := by
    rw [Bool.eq_false_iff]
    intro h
    exact ((natCfg_lawful none).isEmpty_iff (ns [0])).1 h 0 ((FSet.mem_ofList natLt_st' 0 [0]).2 (by simp))
  have h2 : (chain n).isZero = false := by cases n <;> rfl
  unfold mkNode1
  rw [h1, h2]
  rfl

/-- There is a session which has this SDD. -/
theorem reach (n : Nat) : ∃ s : Sess NSet, Sess.Reach Demo.C Demo.orc DemoCost.cap s ∧ chain n ∈ s.handles := by
  induction n with
  | zero => exact ⟨_, .step _ _ (.init Demo.s0.lt (natCfg_lawful none).lt_st) (.call _ .one (by simp [Call.args])), List.mem_cons.2 (.inl rfl)⟩
  | succ n ih =>
    obtain ⟨s, h1, h2⟩ := ih
    refine ⟨_, .step _ _ h1 (.call _ (.flat n (ns [0]) (chain n)) (by simpa [Call.args] using h2)), List.mem_cons.2 (.inl ?_)⟩
    exact (chain_eq n).symm

theorem sub (n i : Nat) : Sub (chain n) (chain (n + i)) := by
  induction i with
  | zero => exact .refl
  | succ i ih => exact .flat (n + i) _ (ns [0], chain (n + i)) (by simp) ih

/-- An order for this SDD. -/
def order : Nat → OB Nat
  | 0 => .nil
  | n + 1 => .node (OB.uid n) .nil (order n)

theorem follows (n : Nat) : Follows Demo.C (order n).ty (chain n) := by
  induction n with
  | zero => exact ⟨trivial, fun p hp => by cases p <;> simp_all [Mem, PTy, Ty.hasOne, chain, order, OB.ty]⟩
  | succ n ih =>
    have hl : ∀ n, (order n).level.length = n := by
      intro n
      induction n with
      | zero => rfl
      | succ n ih => simp [order, OB.level, ih]
    refine ⟨ih.1, fun p hp => ?_⟩
    match p, hp with
    | .flat _ a q, ⟨rfl, arc, ha, _, hq⟩ =>
      rw [List.mem_singleton.1 ha] at hq
      exact ⟨_, by simp [order, OB.ty, Ty.flatNext, hl], ih.2 q hq⟩

theorem chain_inj {n m : Nat} (h : chain n = chain m) : n = m := by
  cases n <;> cases m <;> simp_all [chain]

end DemoIter

/-- **C82 does not hold**, whatever the numbers of buckets chosen by the implementation of `std::unordered_map`: there are SDDs whose `size()`
uses an invalidated iterator. -/
theorem C82_negation {grow : Nat → Nat} (hg : ∀ n, n ≤ grow n) (b : Nat) : ∃ (s : Sess NSet) (x : SDD NSet),
    Sess.Reach Demo.C Demo.orc DemoCost.cap s ∧ x ∈ s.handles ∧ sizeOfSDDI Demo.C grow b x = none := by
  obtain ⟨s, h1, h2⟩ := DemoIter.reach ((if 1 ≤ b then b else grow 1) + 1)
  refine ⟨s, _, h1, h2, ?_⟩
  obtain ⟨nodes, paths, hn, hm, -, -, e⟩ := C82_size_defined_partial (natCfg_lawful none) DemoCost.cap_pos h1 hg b h2
  rw [e, if_neg]
  generalize (if 1 ≤ b then b else grow 1) = k at hm
  intro hle
  have hsub : ∀ i ∈ List.range (k + 1), DemoIter.chain (i + 1) ∈ nodes := by
    intro i hi
    rw [List.mem_range] at hi
    refine (hm _).2 ⟨?_, rfl⟩
    have := DemoIter.sub (i + 1) (k - i)
    rwa [show i + 1 + (k - i) = k + 1 by omega] at this
  have hl : ((List.range (k + 1)).map fun i => DemoIter.chain (i + 1)).length ≤ nodes.length := by
    refine List.Subperm.length_le (List.subperm_of_subset ?_ ?_)
    · exact List.Nodup.map (fun i j h => by have := DemoIter.chain_inj h; omega) List.nodup_range
    · intro a ha
      rw [List.mem_map] at ha
      obtain ⟨i, hi, rfl⟩ := ha
      exact hsub i hi
  rw [List.length_map, List.length_range] at hl
  omega

/-- **C82 does not hold** for the DOT export either, whatever the numbers of buckets: with an order of `b + 1` variables, `b` being the number of
buckets of a default constructed `std::unordered_set`, the SDD with one path is exported with an invalidated iterator. -/
theorem C82_dot_negation (grow : Nat → Nat) (b : Nat) (addr : SDD NSet → List Char) : ∃ (s : Sess NSet) (x : SDD NSet) (o : OB Nat),
    Sess.Reach Demo.C Demo.orc DemoCost.cap s ∧ x ∈ s.handles ∧ Follows Demo.C o.ty x ∧ o.level.length = b + 1 ∧
    Dot.dotI addr grow b x o = none := by
  obtain ⟨s, h1, h2⟩ := DemoIter.reach (b + 1)
  have hlen : ∀ n, (DemoIter.order n).level.length = n := by
    intro n
    induction n with
    | zero => rfl
    | succ n ih => simp [DemoIter.order, OB.level, ih]
  refine ⟨s, _, DemoIter.order (b + 1), h1, h2, DemoIter.follows _, hlen _, ?_⟩
  obtain ⟨subs, out, hn, hm, -, e⟩ := C82_dot_defined_partial (natCfg_lawful none) DemoCost.cap_pos h1 grow b addr h2 (DemoIter.follows _)
  rw [e, if_neg]
  intro hle
  have hl : ((List.range (b + 2)).map DemoIter.chain).length ≤ subs.length := by
    refine List.Subperm.length_le (List.subperm_of_subset ?_ ?_)
    · exact List.Nodup.map (fun i j h => DemoIter.chain_inj h) List.nodup_range
    · intro a ha
      rw [List.mem_map] at ha
      obtain ⟨i, hi, rfl⟩ := ha
      rw [List.mem_range] at hi
      have := DemoIter.sub i (b + 1 - i)
      rw [show i + (b + 1 - i) = b + 1 by omega] at this
      exact (hm _).2 this
  rw [List.length_map, List.length_range] at hl
  omega

/-- With one bucket at the beginning and 13 after the first insertion (as in a usual implementation), the export is defined for one node, not for
two. -/
example : (Dot.dotI (fun _ => []) (fun n => n + 12) 1 (DemoIter.chain 1) (DemoIter.order 1)).isSome = true ∧
    (Dot.dotI (fun _ => []) (fun n => n + 12) 1 (DemoIter.chain 2) (DemoIter.order 2)).isSome = false := by decide +kernel

/-- When the first insertion makes 13 buckets (as in a usual implementation), the count of a chain of 13 nodes is defined, and the one of a chain
of 14 nodes is not. -/
example : sizeOfSDDI Demo.C (fun n => n + 12) 0 (DemoIter.chain 13) = some 1 ∧
    sizeOfSDDI Demo.C (fun n => n + 12) 0 (DemoIter.chain 14) = none := by decide +kernel

end Verif
