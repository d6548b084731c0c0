import Verif.Order.Init
import Verif.Order.Json
import Verif.Order.Force
import Verif.Properties.DD
/-!
# Properties of orders
-/

set_option autoImplicit false
set_option linter.unusedSectionVars false

namespace Verif
variable {I : Type}

/-- A builder: `a`, `h(b, k(c, d))`, `e`; `h` is artificial. -/
def demoOB : OB Nat :=
  .node (OB.uid 0) .nil
    (.node ⟨7, 0⟩ (.node (OB.uid 1) .nil (.node (OB.uid 10) (.node (OB.uid 2) .nil (.node (OB.uid 3) .nil .nil)) .nil))
      (.node (OB.uid 4) .nil .nil))

/-! ## C27, C28: construction and look-up -/

/-- **C27.** An order shows its builder: see `Ord.View`. -/
theorem C27_order_mirrors_builder [DecidableEq I] {ob : OB I} {o : Ord I} (h : Ord.ofBuilder ob = .ok o) :
    Ord.View o ob 0 [] ∧ o.flat = some ob.flatIds := by
  have := Ord.ofBuilder_spec ob
  rw [h] at this
  refine ⟨this.2.rep.view, ?_⟩
  unfold Ord.flat
  exact Ord.flatImpl_spec ob this.2.rep (by rw [this.2.len])

example : ∃ o, Ord.ofBuilder demoOB = .ok o ∧ o.flat = some [0, 1, 2, 3, 4] ∧ o.contains 1 4 = some true ∧
    o.contains 3 2 = some false := ⟨_, rfl, rfl, rfl, rfl⟩

/-- **C28.** A duplicated identifier is reported exactly when a user's identifier occurs twice in the builder, and the
reported identifier is one of those; otherwise `node` finds the node of an identifier of the builder, the only one which has it, and
reports absent identifiers. -/
theorem C28_identifiers [DecidableEq I] (ob : OB I) :
    (∀ e, Ord.ofBuilder ob = .error e → 2 ≤ ob.userIds.count e) ∧
    ((∃ e, Ord.ofBuilder ob = .error e) ↔ ¬ ob.userIds.Nodup) ∧
    ∀ o, Ord.ofBuilder ob = .ok o → ∀ i : I,
      (o.node i = none ↔ i ∉ ob.userIds) ∧
      ∀ n, o.node i = some n → n.id = OB.uid i ∧ o.at? n.position = some n ∧
        ∀ p n', o.at? p = some n' → n'.id = OB.uid i → n' = n := by
  have h := Ord.ofBuilder_spec ob
  refine ⟨?_, ?_, ?_⟩
  · intro e he
    rw [he] at h
    exact h
  · cases he : Ord.ofBuilder ob with
    | error e =>
      rw [he] at h
      refine ⟨fun _ => ?_, fun _ => ⟨e, rfl⟩⟩
      intro hn
      have := List.nodup_iff_count_le_one.1 hn e
      have h' : 2 ≤ ob.userIds.count e := h
      omega
    | ok o =>
      rw [he] at h
      exact ⟨fun ⟨_, h'⟩ => (by cases h'), fun h' => absurd h.1 h'⟩
  · intro o ho i
    rw [ho] at h
    obtain ⟨hnd, hof⟩ := h
    obtain ⟨hids, hsome⟩ := hof.nodes_ids
    have hmem : ∀ n : ONode I, n.id = OB.uid i → ∀ p : Nat, o.at? p = some n → i ∈ ob.userIds := by
      intro n hn p hp
      have : n.id ∈ ob.ids := by
        rw [← hids]
        refine List.mem_map.2 ⟨n, List.mem_filterMap.2 ⟨some n, ?_, rfl⟩, rfl⟩
        unfold Ord.at? at hp
        cases hg : o.nodes[p]? with
        | none => rw [hg] at hp; cases hp
        | some x =>
          rw [hg] at hp
          rw [show x = some n from hp] at hg
          exact List.mem_of_getElem? hg
      rw [hn] at this
      exact List.mem_map.2 ⟨_, List.mem_filter.2 ⟨this, rfl⟩, rfl⟩
    -- the nodes with the identifier have the same position
    have huniq : ∀ p q n n', o.at? p = some n → o.at? q = some n' → n.id = OB.uid i → n'.id = OB.uid i → p = q := by
      intro p q n n' hp hq hn hn'
      have hat : ∀ p n, o.at? p = some n → ob.ids[p]? = some n.id := by
        intro p n hp
        have hlt : p < o.nodes.length := by
          by_contra hge
          unfold Ord.at? at hp
          rw [List.getElem?_eq_none (by omega)] at hp
          cases hp
        obtain ⟨x, a, b, _⟩ := Ord.Rep.nodes ob hof.rep p (by rw [← hof.len]; exact hlt)
        rw [Nat.zero_add] at a
        unfold Ord.at? at hp
        rw [a] at hp
        cases hp
        exact b.symm
      have h1 := hat p n hp
      have h2 := hat q n' hq
      rw [hn] at h1
      rw [hn'] at h2
      -- a filtered list without duplicates
      have key : ∀ (l : List (OId I)), ((l.filter fun i => i.artificial == 0).map OId.user).Nodup →
          ∀ p q : Nat, l[p]? = some (OB.uid i) → l[q]? = some (OB.uid i) → p = q := by
        intro l
        induction l with
        | nil => intro _ p q hp; simp at hp
        | cons x l ih =>
          intro hl p q hp hq
          have habs : ∀ k : Nat, l[k]? = some (OB.uid i) → x = OB.uid i → False := by
            rintro k hk rfl
            simp only [OB.uid, beq_self_eq_true, List.filter_cons_of_pos, List.map_cons, List.nodup_cons] at hl
            exact hl.1 (List.mem_map.2 ⟨OB.uid i, List.mem_filter.2 ⟨List.mem_of_getElem? hk, rfl⟩, rfl⟩)
          have hl' : ((l.filter fun i => i.artificial == 0).map OId.user).Nodup :=
            hl.sublist (((List.sublist_cons_self x l).filter _).map _)
          cases p with
          | zero =>
            cases q with
            | zero => rfl
            | succ q => exact (habs q (by simpa using hq) (by simpa using hp)).elim
          | succ p =>
            cases q with
            | zero => exact (habs p (by simpa using hp) (by simpa using hq)).elim
            | succ q => rw [ih hl' p q (by simpa using hp) (by simpa using hq)]
      exact key _ hnd p q h1 h2
    constructor
    · constructor
      · intro hn hi
        obtain ⟨x, hx, hxu⟩ := List.mem_map.1 hi
        obtain ⟨hx1, hx2⟩ := List.mem_filter.1 hx
        have hxe : x = OB.uid i := by
          cases x
          simp only [beq_iff_eq] at hx2
          simp only at hxu
          rw [hx2, hxu]
          rfl
        rw [hxe, ← hids] at hx1
        obtain ⟨n, hn1, hn2⟩ := List.mem_map.1 hx1
        unfold Ord.node at hn
        rw [List.find?_eq_none] at hn
        exact hn n hn1 (by simp [hn2])
      · intro hi
        unfold Ord.node
        rw [List.find?_eq_none]
        intro n hn hne
        refine hi ?_
        have : OB.uid i ∈ ob.ids := by
          rw [← hids]
          exact List.mem_map.2 ⟨n, hn, by simpa using hne⟩
        exact List.mem_map.2 ⟨_, List.mem_filter.2 ⟨this, rfl⟩, rfl⟩
    · intro n hn
      unfold Ord.node at hn
      have h1 : n.id = OB.uid i := by simpa using List.find?_some hn
      have h2 := List.mem_of_find?_eq_some hn
      obtain ⟨x, hx, hxn⟩ := List.mem_filterMap.1 h2
      have hxn : x = some n := hxn
      obtain ⟨p, hp, hpx⟩ := List.mem_iff_getElem.1 hx
      obtain ⟨n', a, _, c⟩ := Ord.Rep.nodes ob hof.rep p (by rw [← hof.len]; exact hp)
      rw [Nat.zero_add] at a c
      rw [List.getElem?_eq_getElem hp, hpx, hxn] at a
      cases a
      have hat : o.at? p = some n := by
        unfold Ord.at?
        rw [List.getElem?_eq_getElem hp, hpx, hxn]
        rfl
      refine ⟨h1, by rw [c]; exact hat, ?_⟩
      intro q n' hq hn'
      have := huniq p q n n' hat hq h1 hn'
      subst this
      rw [hat] at hq
      cases hq
      rfl

example : Ord.ofBuilder (.node (OB.uid 0) .nil (.node (OB.uid 1) (.node (OB.uid 0) .nil .nil) .nil)) = .error 0 := rfl
example : ∃ o, Ord.ofBuilder demoOB = .ok o ∧ (o.node 10).map ONode.position = some 3 ∧ o.node 7 = none :=
  ⟨_, rfl, rfl, rfl⟩

/-- **C56.** Orders built from builders are equal exactly when the builders have the same identifiers with the same nesting; and
sub-orders when moreover they are at the same position. -/
theorem C56_order_equality [DecidableEq I] {a b : OB I} {o o' : Ord I} (ha : Ord.ofBuilder a = .ok o)
    (hb : Ord.ofBuilder b = .ok o') : o.eq o' = some (decide (a = b)) := by
  have h1 := Ord.ofBuilder_spec a
  have h2 := Ord.ofBuilder_spec b
  rw [ha] at h1
  rw [hb] at h2
  unfold Ord.eq
  rw [Ord.eqImpl_spec a h1.2.rep h2.2.rep (by rw [h1.2.len])]
  simp

example : ∃ o o', Ord.ofBuilder demoOB = .ok o ∧ Ord.ofBuilder (OB.node (OB.uid 0) .nil .nil) = .ok o' ∧ o.eq o = some true ∧
    o.eq o' = some false := ⟨_, _, rfl, rfl, rfl, rfl⟩

/-! ## C29, C30, C31: builders and strategies -/

/-- **C29.** `operator<<` appends the elements of a level; the empty builder is neutral, it is associative; `size` counts all identifiers, `height` those of the
level; a builder made from a list has its elements in the same order; `push` adds one on top. -/
theorem C29_builders (a b c : OB I) (id : OId I) (l : List I) :
    (a.concat b).level = a.level ++ b.level ∧ a.concat .nil = a ∧ OB.concat .nil a = a ∧
    (a.concat b).concat c = a.concat (b.concat c) ∧
    (a.concat b).size = a.size + b.size ∧ a.size = a.ids.length ∧
    (a ≠ .nil → a.height = some a.level.length) ∧
    (a.push id b).level = (id, b) :: a.level ∧
    (OB.ofList l).level = l.map (fun i => (OB.uid i, .nil)) := by
  refine ⟨OB.level_concat a b, OB.concat_nil a, rfl, OB.concat_assoc a b c, ?_, OB.size_eq a, ?_, rfl, OB.level_ofList l⟩
  · simp [OB.size_eq, OB.ids_concat]
  · intro h
    rw [OB.height_eq, if_neg h]

example : (OB.ofList [1, 2, 3]).height = some 3 ∧ demoOB.size = 7 ∧ demoOB.height = some 3 := ⟨rfl, rfl, rfl⟩

/-- **C30.** `flatten` has only flat levels, whose identifiers are those of the flat levels, from top to bottom; and it is idempotent. -/
theorem C30_flatten (ob : OB I) :
    ob.flatten.level = ob.flatIds.map (fun i => (OB.uid i, .nil)) ∧ ob.flatten.flatIds = ob.flatIds ∧
    ob.flatten.flatten = ob.flatten := by
  have h := OB.flatten_level ob
  have h2 := OB.flatIds_of_level h
  refine ⟨h, h2, ?_⟩
  apply OB.level_inj
  rw [OB.flatten_level, h2, h]

example : demoOB.flatten = OB.ofList [0, 1, 2, 3, 4] := rfl

/-- **C31.** With at least two identifiers by level, the strategy terminates; the top level and the levels it makes (those of the artificial identifiers after `c`)
have at most `nb` identifiers and at least one; replacing these levels by what they contain gives back the initial order, whose
hierarchy is thus kept. -/
theorem C31_identifiers_per_hierarchy (d : I) {nb : Nat} (hnb : 2 ≤ nb) (ob : OB I) {c : Nat}
    (hc : ∀ i ∈ ob.ids, i.artificial ≤ c) :
    ∃ fuel r c', (∀ fuel', fuel ≤ fuel' → OB.idsPerHierarchy d nb fuel' ob c = some (r, c')) ∧
      r.level.length ≤ nb ∧ r.Bounded c nb ∧ r.unpack c = ob ∧ r.flatIds = ob.flatIds := by
  by_cases hne : ob = .nil
  · subst hne
    exact ⟨0, .nil, c, fun f _ => rfl, by simp [OB.level], trivial, rfl, rfl⟩
  · have hnil : ob.isNil = false := by
      cases ob with
      | nil => exact absurd rfl hne
      | node _ _ _ => rfl
    have hnb1 : (nb == 1) = false := by
      rw [beq_eq_false_iff_ne]
      omega
    have hp : OB.Packed c nb ob ob := ⟨OB.unpack_self hc, OB.bounded_self hc, rfl⟩
    obtain ⟨r, c', e, h1, h2⟩ := OB.packLoop_spec (d := d) hnb ob.level.length ob c (Nat.le_refl _) hp hne (Nat.le_refl _)
    refine ⟨ob.level.length, r, c', ?_, h2, h1.bounded, h1.unpack, h1.flat⟩
    intro f hf
    unfold OB.idsPerHierarchy
    rw [hnil, hnb1]
    simp only [Bool.or_self, Bool.false_eq_true, if_false]
    have mono : ∀ (f f' : Nat) (ob : OB I) (c : Nat) (x : OB I × Nat), f ≤ f' → OB.packLoop d nb f ob c = some x →
        OB.packLoop d nb f' ob c = some x := by
      intro f
      induction f with
      | zero => intro f' ob c x _ h; cases h
      | succ f ih =>
        intro f' ob c x hle h
        obtain ⟨g, rfl⟩ : ∃ g, f' = g + 1 := ⟨f' - 1, by omega⟩
        rw [OB.packLoop] at h ⊢
        split at h
        · cases h
        · rename_i hh heq
          simp only
          split at h
          · rename_i hlt
            rw [if_pos hlt]
            split at h
            · cases h
            · exact ih g _ _ x (by omega) h
          · rename_i hlt
            rw [if_neg hlt]
            exact h
    exact mono _ _ _ _ _ hf e

/-- **C31**, other arguments: with one identifier by level the order is unchanged; with none, the strategy does not terminate on a non-empty order. -/
theorem C31_degenerate (d : I) (ob : OB I) (c : Nat) :
    (∀ fuel, OB.idsPerHierarchy d 1 fuel ob c = some (ob, c)) ∧
    (ob ≠ .nil → ∀ fuel, OB.idsPerHierarchy d 0 fuel ob c = none) := by
  constructor
  · intro fuel
    simp [OB.idsPerHierarchy]
  · intro hne fuel
    have hnil : ob.isNil = false := by
      cases ob with
      | nil => exact absurd rfl hne
      | node _ _ _ => rfl
    unfold OB.idsPerHierarchy
    rw [hnil]
    simp only [Bool.false_or, beq_iff_eq, Nat.zero_ne_one, if_false]
    exact OB.packLoop_zero d fuel ob c

example : OB.idsPerHierarchy 0 2 9 (OB.ofList [1, 2, 3, 4, 5]) 0 = some
    (.node ⟨5, 0⟩ (.node ⟨3, 0⟩ (.node (OB.uid 1) .nil .nil) .nil)
      (.node ⟨4, 0⟩ (.node ⟨2, 0⟩ (.node (OB.uid 2) .nil (.node (OB.uid 3) .nil .nil))
        (.node ⟨1, 0⟩ (.node (OB.uid 4) .nil (.node (OB.uid 5) .nil .nil)) .nil)) .nil), 5) := by decide +kernel

/-! ## C32, C33: FORCE -/

section
open Force
variable {D : Type}

/-- **C32.** Building a graph fails exactly when an identifier is given twice; and FORCE returns a flat order made of the identifiers of the graph, each one exactly
once, whatever the locations, the hyperedges, the arithmetic, the sort and the number of iterations; with `reverse` it returns the
order it returns without, reversed. -/
theorem C32_force_permutation [DecidableEq I] (A : Arith D) (hA : A.Permutes) (is : List I) (l : Nat) :
    (mkGraph A is l ⟨[], [], []⟩ = none ↔ ¬ is.Nodup) ∧
    (∀ (g : Graph I D) (n : Nat), (force A g true n).level = (force A g false n).level.reverse) ∧
    ∀ g, mkGraph A is l ⟨[], [], []⟩ = some g → ∀ (loc : List D) (edges : List (D × List Nat)) (reverse : Bool) (iterations : Nat),
      ∃ is' : List I, is'.Perm is ∧ is'.Nodup ∧
        (force A { g with loc := loc, edges := edges } reverse iterations).level = is'.map fun i => (OB.uid i, .nil) := by
  have h := mkGraph_ids A is l ⟨[], [], []⟩ (by simp)
  refine ⟨?_, fun g n => ?_, ?_⟩
  · cases hg : mkGraph A is l ⟨[], [], []⟩ with
    | none => rw [hg] at h; simpa using h
    | some g => rw [hg] at h; simpa using h.1
  · rw [force, force, toBuilder_level, toBuilder_level]
    simp [List.filterMap_reverse, ← List.map_reverse]
  · intro g hg loc edges reverse n
    rw [hg] at h
    simp only [List.nil_append] at h
    obtain ⟨hnd, hid⟩ := h
    refine ⟨_, ?_, ?_, toBuilder_level _ _ _⟩
    all_goals
      have hp := (loop_perm hA edges n (List.range g.ids.length) (initSt { g with loc := loc, edges := edges })
        (List.Perm.refl _) (List.Perm.refl _)).1
      have hp2 : ((if reverse = true then (loop A edges n (initSt { g with loc := loc, edges := edges })).best
          else (loop A edges n (initSt { g with loc := loc, edges := edges })).best.reverse).filterMap
            fun v => g.ids[v]?).Perm is := by
        have : (if reverse = true then (loop A edges n (initSt { g with loc := loc, edges := edges })).best
          else (loop A edges n (initSt { g with loc := loc, edges := edges })).best.reverse).Perm
            (List.range g.ids.length) := by
          cases reverse
          · simpa using (List.reverse_perm _).trans hp
          · simpa using hp
        refine (this.filterMap _).trans ?_
        rw [filterMap_range, hid]
    · exact hp2
    · exact hp2.nodup_iff.2 hnd

/-- A correct sort of natural numbers. -/
def Sorts (sort : (Nat → Nat) → List Nat → List Nat) : Prop :=
  ∀ key l, (sort key l).Perm l ∧ (sort key l).Pairwise fun a b => key a ≤ key b

/-- Insertion sort. -/
def insSort (key : Nat → Nat) (l : List Nat) : List Nat :=
  l.foldr (fun a l => l.takeWhile (fun b => decide (key b < key a)) ++ a :: l.dropWhile (fun b => decide (key b < key a))) []

theorem insSort_sorts : Sorts insSort := by
  intro key l
  induction l with
  | nil => simp [insSort]
  | cons a l ih =>
    obtain ⟨h1, h2⟩ := ih
    have e : insSort key (a :: l) = (insSort key l).takeWhile (fun b => decide (key b < key a)) ++
      a :: (insSort key l).dropWhile (fun b => decide (key b < key a)) := rfl
    rw [e]
    generalize insSort key l = m at h1 h2
    constructor
    · refine List.perm_middle.trans ?_
      rw [List.takeWhile_append_dropWhile]
      exact List.Perm.cons _ h1
    · have h3 : ∀ b ∈ m.takeWhile (fun b => decide (key b < key a)), key b < key a := by
        intro b hb
        have := List.all_takeWhile (l := m) (p := fun b => decide (key b < key a))
        rw [List.all_eq_true] at this
        simpa using this b hb
      have h4 : ∀ b ∈ m.dropWhile (fun b => decide (key b < key a)), key a ≤ key b := by
        clear h1 e h3
        induction m with
        | nil => simp
        | cons x m ih =>
          rw [List.pairwise_cons] at h2
          rw [List.dropWhile_cons]
          split
          · exact ih h2.2
          · rename_i hx
            intro b hb
            simp only [decide_eq_true_eq] at hx
            rcases List.mem_cons.1 hb with rfl | hb
            · omega
            · have := h2.1 b hb
              omega
      rw [List.pairwise_append, List.pairwise_cons]
      refine ⟨h2.sublist (List.takeWhile_sublist _), ⟨h4, h2.sublist (List.dropWhile_sublist _)⟩, ?_⟩
      intro x hx y hy
      have := h3 x hx
      rcases List.mem_cons.1 hy with rfl | hy
      · omega
      · have := h4 y hy
        omega

example : (natArith insSort).Permutes := fun key l => (insSort_sorts key l).1

/-- **C32**, hypergraphs. Adding hyperedges to a graph made of the identifiers `is` fails exactly when one of them has an unknown identifier; otherwise the
graph is made of `is` and of the hyperedges which are not empty, in their order, with their weights and identifiers, and its DOT export
writes exactly this graph. -/
theorem C32_hypergraph [DecidableEq I] (A : Arith D) (is : List I) (l : Nat) {g : Graph I D} (hg : mkGraph A is l ⟨[], [], []⟩ = some g)
    (es : List (D × List I)) : (addEdges g es = none ↔ ∃ e ∈ es, ∃ i ∈ e.2, i ∉ is) ∧
    ∀ g', addEdges g es = some g' → g'.edges.map Prod.fst = (es.filter fun e => !e.2.isEmpty).map Prod.fst ∧
      Force.dot g' = .first :: is.map .vertex ++
        ((es.filter fun e => !e.2.isEmpty).zipIdx.flatMap fun e => .point e.2 :: e.1.2.map (.link e.2)) ++ [.last] := by
  have h := mkGraph_ids A is l ⟨[], [], []⟩ (by simp)
  rw [hg] at h
  simp only [List.nil_append] at h
  obtain ⟨k1, k2⟩ := addEdges_spec es g
  rw [h.2] at k1 k2
  refine ⟨k1, fun g' hg' => ?_⟩
  obtain ⟨k3, k4⟩ := k2 g' hg'
  rw [mkGraph_edges A is l _ _ hg, List.nil_append] at k4
  have hk : ∀ e ∈ es, ∀ i ∈ e.2, i ∈ is := by
    intro e he i hi
    by_contra hn
    rw [k1.2 ⟨e, he, i, hi, hn⟩] at hg'
    cases hg'
  refine ⟨by rw [k4, List.map_map]; rfl, ?_⟩
  unfold Force.dot
  rw [k3, k4]
  rw [List.zipIdx_map, List.flatMap_map]
  congr 2
  refine List.flatMap_congr fun e he => ?_
  rw [List.mem_zipIdx_iff_getElem?] at he
  have := List.mem_filter.1 (List.mem_of_getElem? he)
  simp only [Prod.map_fst, Prod.map_snd, id_eq]
  rw [links_eq is e.2 e.1.2 (hk _ this.1)]

example : (mkGraph (natArith fun _ l => l) [5, 6, 7] 0 ⟨[], [], []⟩).bind (fun g => (addEdges g [(1, [7, 5]), (2, []), (3, [6])]).map Force.dot) =
    some [.first, .vertex 5, .vertex 6, .vertex 7, .point 0, .link 0 7, .link 0 5, .point 1, .link 1 6, .last] := rfl

/-- **C33, negation.** Whatever the (correct) sort: five identifiers, a hyperedge of weight 6 between 0 and 1 and one of weight 3 between 0 and 3.  The first
iteration gives an order of span 3 and the second one an order of span 4, which is the one returned. -/
theorem C33_negation {sort : (Nat → Nat) → List Nat → List Nat} (hs : Sorts sort) :
    let A := natArith sort
    let g : Graph Nat Nat := ⟨[0, 1, 2, 3, 4], [0, 1, 2, 3, 4], [(6, [1, 0]), (3, [0, 3])]⟩
    trace A g.edges 2 (initSt g) = [([1, 0, 2, 3, 4], 3), ([1, 2, 0, 4, 3], 4)] ∧
      force A g true 2 = OB.ofList [1, 2, 0, 4, 3] := by
  have huniq : ∀ (key : Nat → Nat) (l r : List Nat), r.Perm l → r.Pairwise (fun a b => key a < key b) → sort key l = r := by
    intro key l r hr hp
    obtain ⟨h1, h2⟩ := hs key l
    have hperm := h1.trans hr.symm
    generalize sort key l = m at h2 hperm
    clear h1 hr
    induction r generalizing m with
    | nil => exact List.Perm.eq_nil hperm
    | cons a r ih =>
      rw [List.pairwise_cons] at hp
      cases m with
      | nil => exact absurd hperm.symm.eq_nil (by simp)
      | cons b m =>
        rw [List.pairwise_cons] at h2
        have hab : b = a := by
          by_contra hne
          have hb : b ∈ r := by
            rcases List.mem_cons.1 (hperm.mem_iff.1 List.mem_cons_self) with h | h
            · exact absurd h hne
            · exact h
          have ha : a ∈ m := by
            rcases List.mem_cons.1 (hperm.mem_iff.2 List.mem_cons_self) with h | h
            · exact absurd h.symm hne
            · exact h
          have := hp.1 b hb
          have := h2.1 a ha
          omega
        subst hab
        rw [ih hp.2 m h2.2 (List.perm_cons _ |>.1 hperm)]
  have key1 : ∀ (e : List (Nat × List Nat)) (s : St Nat), iter (natArith sort) e s =
      iter (natArith fun _ _ => sort (locOf (natArith insSort) (s.loc.zipIdx.map fun p =>
        if vertexEdges e p.2 = [] then p.1
        else (natArith insSort).newLoc ((vertexEdges e p.2).map fun e =>
          ((natArith insSort).cog (e.2.map (locOf (natArith insSort) s.loc)), e.1)))) s.sorted) e s := fun e s => rfl
  have hmax : ∀ n : Nat, n < 100 → (decide (n < (2 ^ 1024 - 2 ^ 971 : Nat))) = true := by
    intro n hn
    rw [decide_eq_true_eq]
    have : (100 : Nat) ≤ 2 ^ 1024 - 2 ^ 971 := by decide +kernel
    omega
  have step1 : iter (natArith sort) [(6, [1, 0]), (3, [0, 3])] ⟨[0, 1, 2, 3, 4], [0, 1, 2, 3, 4], [0, 1, 2, 3, 4], []⟩ =
      ⟨[1, 0, 2, 3, 4], [1, 0, 2, 3, 4], [1, 0, 2, 3, 4], [3]⟩ := by
    rw [key1, huniq _ _ [1, 0, 2, 3, 4] (by decide +kernel) (by decide +kernel)]
    decide +kernel
  have step2 : iter (natArith sort) [(6, [1, 0]), (3, [0, 3])] ⟨[1, 0, 2, 3, 4], [1, 0, 2, 3, 4], [1, 0, 2, 3, 4], [3]⟩ =
      ⟨[2, 0, 1, 4, 3], [1, 2, 0, 4, 3], [1, 2, 0, 4, 3], [3, 4]⟩ := by
    rw [key1, huniq _ _ [1, 2, 0, 4, 3] (by decide +kernel) (by decide +kernel)]
    decide +kernel
  refine ⟨?_, ?_⟩
  · simp only [trace, initSt, List.length_cons, List.length_nil]
    rw [show List.range (0 + 1 + 1 + 1 + 1 + 1) = [0, 1, 2, 3, 4] from rfl, step1, step2]
    rfl
  · simp only [force, loop, initSt, List.length_cons, List.length_nil]
    rw [show List.range (0 + 1 + 1 + 1 + 1 + 1) = [0, 1, 2, 3, 4] from rfl, step1, step2]
    rfl

example : Sorts insSort := insSort_sorts

/-- **C33, partial.** What is missing: the smallest span is kept only if spans never increase.  In any case, the returned order is the last computed one
whose span is smaller than the greatest `double`; it has the smallest span when the spans of successive iterations do not
increase. -/
theorem C33_force_keeps_last_partial (A : Arith D) (g : Graph I D) (reverse : Bool) (n : Nat) :
    (∀ l p l', trace A g.edges n (initSt g) = l ++ p :: l' → A.lt p.2 A.max = true → (∀ q ∈ l', A.lt q.2 A.max = false) →
      force A g reverse n = toBuilder g.ids p.1 reverse) ∧
    (n ≠ 0 → (∀ p ∈ trace A g.edges n (initSt g), A.lt p.2 A.max = true) →
      ∃ l p, trace A g.edges n (initSt g) = l ++ [p] ∧ force A g reverse n = toBuilder g.ids p.1 reverse ∧
        ((trace A g.edges n (initSt g)).Pairwise (fun p q => A.lt p.2 q.2 = false) → (∀ a, A.lt a a = false) →
          ∀ q ∈ trace A g.edges n (initSt g), A.lt q.2 p.2 = false)) := by
  have key : ∀ l p l', trace A g.edges n (initSt g) = l ++ p :: l' → A.lt p.2 A.max = true → (∀ q ∈ l', A.lt q.2 A.max = false) →
      force A g reverse n = toBuilder g.ids p.1 reverse := by
    intro l p l' e hp hl
    have hn : l'.filter (fun p => A.lt p.2 A.max) = [] := List.filter_eq_nil_iff.2 fun q hq => by
      rw [hl q hq]
      decide
    unfold force
    rw [loop_best, e, List.filter_append, List.filter_cons, if_pos hp, hn]
    simp
  refine ⟨key, fun hn hlt => ?_⟩
  have hne : trace A g.edges n (initSt g) ≠ [] := by
    cases n with
    | zero => exact absurd rfl hn
    | succ n => simp [trace]
  obtain ⟨l, p, e⟩ := List.eq_nil_or_concat _ |>.resolve_left hne
  rw [List.concat_eq_append] at e
  refine ⟨l, p, e, key l p [] e (hlt p (by rw [e]; simp)) (by simp), fun hdec hirr q hq => ?_⟩
  rw [e] at hdec hq
  rw [List.mem_append, List.mem_singleton] at hq
  rcases hq with hq | rfl
  · exact (List.pairwise_append.1 hdec).2.2 q hq p (by simp)
  · exact hirr _

/-- A hypergraph for which the spans do not increase. -/
def demoGraph33 : Graph Nat Nat := ⟨[0, 1, 2, 3], [0, 1, 2, 3], [(1, [0, 3]), (1, [1, 2])]⟩

example : ((trace (natArith insSort) demoGraph33.edges 2 (initSt demoGraph33)).Pairwise fun p q =>
    (natArith insSort).lt p.2 q.2 = false) ∧
    ∀ p ∈ trace (natArith insSort) demoGraph33.edges 2 (initSt demoGraph33),
      (natArith insSort).lt p.2 (natArith insSort).max = true := by
  decide +kernel

end

/-! ## C34: dumping and loading -/

/-- **C34, negation.** The identifiers of hierarchical levels are lost: 1 contains 2 and 3; and a hierarchy of one element is lost. Loading the dump of the empty
order is undefined. -/
theorem C34_negation :
    OB.load 0 (OB.dump (.node (OB.uid 0) .nil (.node (OB.uid 1) (OB.ofList [2, 3]) .nil))) 0 =
      some (.node (OB.uid 0) .nil (.node ⟨1, 0⟩ (OB.ofList [2, 3]) .nil), 2) ∧
    OB.load 0 (OB.dump (.node (OB.uid 0) .nil (.node (OB.uid 1) (OB.ofList [2]) .nil))) 0 = some (OB.ofList [0, 2], 1) ∧
    OB.load 0 (OB.dump (.node (OB.uid 1) (OB.ofList [2, 3]) .nil)) 0 = some (OB.ofList [2, 3], 1) ∧
    OB.load 0 (OB.dump (.nil : OB Nat)) 0 = none := by
  refine ⟨?_, ?_, ?_, ?_⟩ <;> decide +kernel

/-- **C34, partial.** What is missing: identifiers of hierarchical levels, hierarchies of one element, the empty order; texts are in C77 (only documents here).
Loading the dump of a non-empty order gives the same flat identifiers in the same order, with the same nesting when each level which is not a single
flat identifier has at least two elements. -/
theorem C34_dump_load_partial (d : I) {ob : OB I} (hne : ob ≠ .nil) (c : Nat) :
    ∃ r c', OB.load d (OB.dump ob) c = some (r, c') ∧ r.flatIds = ob.flatIds ∧
      (ob.Branching → (2 ≤ ob.level.length ∨ ∃ i, ob = .node i .nil .nil) → OB.SameNesting ob r) :=
  OB.load_dump d hne c

example : demoOB.Branching ∧ 2 ≤ demoOB.level.length := by
  refine ⟨?_, by decide⟩
  simp [demoOB, OB.Branching, OB.level]

/-! ## C45: SDDs from orders -/

/-- **C45.** The SDD of an order contains the assignments which give to each flat identifier a value of its initial set, and only them; it is in canonical form and follows
the order. -/
theorem C45_sdd_of_order [DecidableEq I] {V E : Type} [DecidableEq V] {C : Cfg V E} (hC : C.Lawful) (m : Type → Type)
    [DDMonad V m] (init : I → V) {ob : OB I} {o : Ord I} (ho : Ord.ofBuilder ob = .ok o) :
    ∃ s, (∀ fuel, ob.size ≤ fuel → sddOfOrder C m init fuel o = some s) ∧ Dom C ob.ty s ∧
      ∀ p, Mem C p s ↔ Assigns (fun i a => C.vmem a (init i)) ob p := by
  have hv := (C27_order_mirrors_builder ho).1
  obtain ⟨s, e, hd, hm⟩ := sddOfOrder_spec hC m init ob o 0 [] ob.size hv (by rw [OB.size_eq])
  refine ⟨s, ?_, hd, hm⟩
  intro fuel hf
  obtain ⟨s', e', hd', hm'⟩ := sddOfOrder_spec hC m init ob o 0 [] fuel hv (by rw [← OB.size_eq]; exact hf)
  rw [e', canonical_ext hC hd.wf hd'.wf fun p => by rw [hm, hm']]

example : ∃ o, Ord.ofBuilder demoOB = .ok o ∧
    Assigns (fun i a => (natCfg none).vmem a (ns [i, i + 1])) demoOB
      (.flat 2 1 (.hier 1 (.flat 1 1 (.hier 0 (.flat 1 2 (.flat 0 4 .nil)) .nil)) (.flat 0 5 .nil))) := by
  refine ⟨_, rfl, ?_⟩
  have h : ∀ i a : Nat, (a = i ∨ a = i + 1) → (natCfg none).vmem a (ns [i, i + 1]) := by
    intro i a ha
    exact (FSet.mem_ofList natLt_st' a _).2 (by simpa using ha)
  simp only [demoOB, Assigns, OB.level, OB.uid]
  exact ⟨trivial, rfl, h _ _ (by decide), by simp, rfl, ⟨trivial, rfl, h _ _ (by decide), by simp, rfl,
    ⟨trivial, rfl, h _ _ (by decide), trivial, rfl, h _ _ (by decide), trivial⟩, trivial⟩, trivial, rfl, h _ _ (by decide), trivial⟩

end Verif
