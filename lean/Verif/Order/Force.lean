import Verif.Order.Builder
import Mathlib.Data.List.Perm.Basic
/-!
# The FORCE strategy

`/repo/sdd/order/strategies/force.hh` and `force_*.hh`.  Floating-point computations are parameters of the model (`Arith`): what
is proved for all of them holds whatever the rounding.  `natArith` is what they compute when weights are natural
numbers: all accumulations start from the `int` 0, they are thus made with integers.
-/

set_option autoImplicit false
set_option linter.unusedSectionVars false

namespace Verif
namespace Force

/-- `hypergraph`, `/repo/sdd/order/strategies/force_hypergraph.hh:22-53`: identifiers of vertices, locations of vertices, and hyperedges (weight and vertices).
Pointers to vertices are indices. -/
structure Graph (I D : Type) where
  ids : List I
  loc : List D
  edges : List (D × List Nat)

/-- The computations on `double`. (`/repo/sdd/order/strategies/force.hh`, `force_hyperedge.hh`, `force_vertex.hh`: the members of type `double`.) -/
structure Arith (D : Type) where
  /-- `compute_center_of_gravity`, `/repo/sdd/order/strategies/force_hyperedge.hh:75-84` -/
  cog : List D → D
  /-- `/repo/sdd/order/strategies/force.hh:80-85`: from the centers of gravity and the weights -/
  newLoc : List (D × D) → D
  /-- `get_total_span`, `/repo/sdd/order/strategies/force.hh:133-140`, and `span`, `/repo/sdd/order/strategies/force_hyperedge.hh:86-96` -/
  span : List (List D) → D
  lt : D → D → Bool
  ofNat : Nat → D
  /-- `numeric_limits<double>::max()` -/
  max : D
  /-- `std::sort` on `location() < location()`, `/repo/sdd/order/strategies/force.hh:88-90` -/
  sort : (Nat → D) → List Nat → List Nat

variable {I D : Type} [DecidableEq I]

/-- The constructor of `hypergraph`, `/repo/sdd/order/strategies/force_hypergraph.hh:56-77`; `none` is `runtime_error`. `l` is the static counter. -/
def mkGraph (A : Arith D) : List I → Nat → Graph I D → Option (Graph I D)
  | [], _, g => some g
  | i :: is, l, g =>
    if i ∈ g.ids then none
    else mkGraph A is (l + 1) { g with ids := g.ids ++ [i], loc := g.loc ++ [A.ofNat l] }

/-- `add_hyperedge`, `/repo/sdd/order/strategies/force_hypergraph.hh:79-110`; `none`: an identifier is not one of the graph (an assertion). The
hyperedges of a vertex are found by `vertexEdges`. -/
def addEdge (g : Graph I D) (is : List I) (w : D) : Option (Graph I D) :=
  if is = [] then some g
  else if ∀ i ∈ is, i ∈ g.ids then some { g with edges := g.edges ++ [(w, is.map g.ids.idxOf)] }
  else none

/-- Successive calls of `add_hyperedge`. (Model of the environment: what the user or the system does.) -/
def addEdges (g : Graph I D) : List (D × List I) → Option (Graph I D)
  | [] => some g
  | e :: es => (addEdge g e.2 e.1).bind fun g => addEdges g es

/-- What `dot` writes: the first line, a vertex, the point of a hyperedge, a line between a hyperedge and a vertex, the last line. Hyperedges
are named by their addresses in the code, by their ranks here. (`/repo/sdd/tools/dot/force_hypergraph.hh`, lines 20-50.) -/
inductive DotLine (I : Type) where
  | first
  | vertex (i : I)
  | point (e : Nat)
  | link (e : Nat) (i : I)
  | last
  deriving DecidableEq

/-- `operator<<` of `force_hypergraph_to_dot`, `/repo/sdd/tools/dot/force_hypergraph.hh:23-40`.  A pointer to a vertex is an index in the
vertices, which exists (`idxOf` of an identifier which is found). -/
def dot (g : Graph I D) : List (DotLine I) :=
  .first :: g.ids.map .vertex ++
    (g.edges.zipIdx.flatMap fun e => .point e.2 :: e.1.2.filterMap fun v => (g.ids[v]?).map (.link e.2)) ++ [.last]

/-- The location of a vertex (`default` when there is no such vertex). (`/repo/sdd/order/strategies/force_vertex.hh`.) -/
def locOf (A : Arith D) (loc : List D) (v : Nat) : D := loc.getD v (A.ofNat 0)

/-- The hyperedges of a vertex in the order of their creation, `/repo/sdd/order/strategies/force_hypergraph.hh:103-109`: once for each of its occurrences. -/
def vertexEdges (edges : List (D × List Nat)) (v : Nat) : List (D × List Nat) :=
  edges.flatMap fun e => List.replicate (e.2.count v) e

/-- The variables of `worker::operator()`: locations, `sorted_vertices`, `best_order` and `spans_`.
(`/repo/sdd/order/strategies/force.hh`, lines 40-130.) -/
structure St (D : Type) where
  loc : List D
  sorted : List Nat
  best : List Nat
  spans : List D
  deriving DecidableEq

/-- The body of the loop, `/repo/sdd/order/strategies/force.hh:67-103`. -/
def iter (A : Arith D) (edges : List (D × List Nat)) (s : St D) : St D :=
  let cog := fun e : D × List Nat => A.cog (e.2.map (locOf A s.loc))
  let loc1 := s.loc.zipIdx.map fun p =>
    if vertexEdges edges p.2 = [] then p.1
    else A.newLoc ((vertexEdges edges p.2).map fun e => (cog e, e.1))
  let sorted := A.sort (locOf A loc1) s.sorted
  let loc2 := sorted.zipIdx.foldl (fun l p => l.set p.1 (A.ofNat p.2)) loc1
  let span := A.span (edges.map fun e => e.2.map (locOf A loc2))
  { loc := loc2
    sorted := sorted
    best := if A.lt span A.max then sorted else s.best
    spans := s.spans ++ [span] }

/-- The loop, `/repo/sdd/order/strategies/force.hh:65-104`. -/
def loop (A : Arith D) (edges : List (D × List Nat)) : Nat → St D → St D
  | 0, s => s
  | n + 1, s => loop A edges n (iter A edges s)

/-- The initial values, `/repo/sdd/order/strategies/force.hh:58-63`. -/
def initSt (g : Graph I D) : St D := ⟨g.loc, List.range g.ids.length, List.range g.ids.length, []⟩

/-- The order builder, `/repo/sdd/order/strategies/force.hh:106-121`. -/
def toBuilder (ids : List I) (best : List Nat) (reverse : Bool) : OB I :=
  ((if reverse then best.reverse else best).filterMap fun v => ids[v]?).foldl
    (fun ob i => ob.push (OB.uid i) .nil) .nil

/-- `worker::operator()`, `/repo/sdd/order/strategies/force.hh:54-122`. -/
def force (A : Arith D) (g : Graph I D) (reverse : Bool) (iterations : Nat) : OB I :=
  toBuilder g.ids (loop A g.edges iterations (initSt g)).best reverse

/-- What is computed when weights are natural numbers: `accumulate` has type `int`, which is divided by
a `size_t`.  (Overflows are not modelled.) (`/repo/sdd/order/strategies/force_vertex.hh`, `force_hyperedge.hh`.) -/
def natArith (sort : (Nat → Nat) → List Nat → List Nat) : Arith Nat where
  cog l := l.sum / l.length
  newLoc l := (l.map fun p => p.1 * p.2).sum / l.length
  span l := (l.map fun e => e.foldl Nat.max 0 - (e.min?).getD 0).sum
  lt a b := decide (a < b)
  ofNat n := n
  max := 2 ^ 1024 - 2 ^ 971
  sort := sort

/-! ## Facts -/

/-- `std::sort` permutes the elements. (Assumption on `std::sort`.) -/
def Arith.Permutes (A : Arith D) : Prop := ∀ key l, (A.sort key l).Perm l

theorem loop_perm {A : Arith D} (hA : A.Permutes) (edges : List (D × List Nat)) (n : Nat) (vs : List Nat) :
    ∀ s : St D, s.sorted.Perm vs → s.best.Perm vs →
      (loop A edges n s).best.Perm vs ∧ (loop A edges n s).sorted.Perm vs := by
  induction n with
  | zero => intro s h1 h2; exact ⟨h2, h1⟩
  | succ n ih =>
    intro s h1 h2
    refine ih _ ((hA _ _).trans h1) ?_
    unfold iter
    simp only
    split
    · exact (hA _ _).trans h1
    · exact h2

omit [DecidableEq I] in
theorem foldl_push (l : List I) (ob : OB I) : (l.foldl (fun ob i => ob.push (OB.uid i) .nil) ob).level =
    (l.reverse.map fun i => (OB.uid i, .nil)) ++ ob.level := by
  induction l generalizing ob with
  | nil => simp
  | cons i l ih => rw [List.foldl_cons, ih]; simp [OB.push, OB.level]

omit [DecidableEq I] in
theorem toBuilder_level (ids : List I) (best : List Nat) (r : Bool) : (toBuilder ids best r).level =
    ((if r then best else best.reverse).filterMap fun v => ids[v]?).map fun i => (OB.uid i, .nil) := by
  rw [toBuilder, foldl_push]
  cases r <;> simp [OB.level]

omit [DecidableEq I] in
theorem filterMap_range (ids : List I) : ((List.range ids.length).filterMap fun v => ids[v]?) = ids := by
  have key : ∀ n, n ≤ ids.length → ((List.range n).filterMap fun v => ids[v]?) = ids.take n := by
    intro n
    induction n with
    | zero => simp
    | succ n ih =>
      intro hn
      rw [List.range_succ, List.filterMap_append, ih (by omega), List.take_add_one]
      congr 1
  rw [key _ (Nat.le_refl _), List.take_length]

theorem mkGraph_ids (A : Arith D) (is : List I) : ∀ (l : Nat) (g : Graph I D), g.ids.Nodup →
    match mkGraph A is l g with
    | none => ¬ (g.ids ++ is).Nodup
    | some g' => (g.ids ++ is).Nodup ∧ g'.ids = g.ids ++ is := by
  induction is with
  | nil => intro l g hg; simp [mkGraph, hg]
  | cons i is ih =>
    intro l g hg
    rw [mkGraph]
    by_cases h : i ∈ g.ids
    · rw [if_pos h]
      simp only
      intro hn
      rw [List.nodup_append] at hn
      exact hn.2.2 _ h _ List.mem_cons_self rfl
    · rw [if_neg h]
      have hnd : (g.ids ++ [i]).Nodup := by
        rw [List.nodup_append]
        refine ⟨hg, by simp, ?_⟩
        intro a ha b hb
        rw [List.mem_singleton] at hb
        rintro rfl
        exact h (hb ▸ ha)
      have := ih (l + 1) { g with ids := g.ids ++ [i], loc := g.loc ++ [A.ofNat l] } hnd
      simp only at this
      rw [List.append_assoc, List.singleton_append] at this
      exact this

theorem mkGraph_edges (A : Arith D) (is : List I) : ∀ (l : Nat) (g g' : Graph I D), mkGraph A is l g = some g' → g'.edges = g.edges := by
  induction is with
  | nil => intro l g g' h; cases h; rfl
  | cons i is ih =>
    intro l g g' h
    rw [mkGraph] at h
    split at h
    · cases h
    · exact (ih _ _ _ h).trans rfl

theorem addEdges_spec (es : List (D × List I)) : ∀ g : Graph I D, (addEdges g es = none ↔ ∃ e ∈ es, ∃ i ∈ e.2, i ∉ g.ids) ∧
    ∀ g', addEdges g es = some g' → g'.ids = g.ids ∧
      g'.edges = g.edges ++ (es.filter fun e => !e.2.isEmpty).map fun e => (e.1, e.2.map g.ids.idxOf) := by
  induction es with
  | nil => intro g; simp [addEdges]
  | cons e es ih =>
    intro g
    rw [addEdges]
    unfold addEdge
    by_cases h1 : e.2 = []
    · simp only [h1, if_true, Option.bind_some, List.mem_cons, exists_eq_or_imp, List.not_mem_nil, false_and, exists_false, false_or]
      refine ⟨(ih g).1, fun g' h => ?_⟩
      rw [List.filter_cons_of_neg (by simp [h1])]
      exact (ih g).2 g' h
    · rw [if_neg h1]
      by_cases h2 : ∀ i ∈ e.2, i ∈ g.ids
      · rw [if_pos h2, Option.bind_some]
        obtain ⟨k1, k2⟩ := ih { g with edges := g.edges ++ [(e.1, e.2.map g.ids.idxOf)] }
        refine ⟨?_, fun g' h => ?_⟩
        · rw [k1]
          simp only [List.mem_cons, exists_eq_or_imp]
          constructor
          · exact Or.inr
          · rintro (⟨i, hi, hn⟩ | h)
            · exact absurd (h2 i hi) hn
            · exact h
        · obtain ⟨k3, k4⟩ := k2 g' h
          refine ⟨k3, ?_⟩
          rw [k4, List.filter_cons_of_pos (by simpa using h1)]
          simp
      · rw [if_neg h2]
        refine ⟨?_, fun g' h => by cases h⟩
        simp only [Option.bind_none, true_iff]
        push Not at h2
        obtain ⟨i, hi, hn⟩ := h2
        exact ⟨e, by simp, i, hi, hn⟩

theorem links_eq (ids : List I) (k : Nat) (l : List I) (h : ∀ i ∈ l, i ∈ ids) :
    ((l.map ids.idxOf).filterMap fun v => (ids[v]?).map (DotLine.link k)) = l.map (.link k) := by
  induction l with
  | nil => rfl
  | cons i l ih =>
    have h1 : ids[ids.idxOf i]? = some i := by
      have := List.idxOf_lt_length_of_mem (h i (by simp))
      rw [List.getElem?_eq_getElem this, List.getElem_idxOf]
    rw [List.map_cons, List.filterMap_cons, h1]
    simp only [Option.map_some, List.map_cons]
    rw [ih fun j hj => h j (by simp [hj])]

/-- The orders computed by the successive iterations, with their spans. (Proof device, not part of the code.) -/
def trace (A : Arith D) (edges : List (D × List Nat)) : Nat → St D → List (List Nat × D)
  | 0, _ => []
  | n + 1, s =>
    let s' := iter A edges s
    (s'.sorted, A.span (edges.map fun e => e.2.map (locOf A s'.loc))) :: trace A edges n s'

/-- The returned order is the last one of the computed orders whose span is less than the maximal `double`. -/
theorem loop_best (A : Arith D) (edges : List (D × List Nat)) (n : Nat) : ∀ s : St D,
    (loop A edges n s).best =
      (((trace A edges n s).filter fun p => A.lt p.2 A.max).getLast?.map Prod.fst).getD s.best := by
  induction n with
  | zero => intro s; rfl
  | succ n ih =>
    intro s
    rw [loop, ih, trace]
    by_cases h : A.lt (A.span (edges.map fun e => e.2.map (locOf A (iter A edges s).loc))) A.max = true
    · rw [List.filter_cons, if_pos h]
      have hb : (iter A edges s).best = (iter A edges s).sorted := by
        unfold iter at h ⊢
        simp only at h ⊢
        rw [if_pos h]
      rw [hb]
      cases hf : (trace A edges n (iter A edges s)).filter fun p => A.lt p.2 A.max with
      | nil => rfl
      | cons a l => rw [List.getLast?_cons_cons, List.getLast?_cons]; rfl
    · rw [List.filter_cons, if_neg h]
      have hb : (iter A edges s).best = s.best := by
        unfold iter at h ⊢
        simp only at h ⊢
        rw [if_neg h]
      rw [hb]

end Force
end Verif
