import Verif.Order.Builder
/-!
# Orders: the vector of nodes built from a builder

`/repo/sdd/order/order.hh`, `/repo/sdd/order/order_node.hh`.  Pointers to nodes are indices in the vector of
nodes.  Variables and positions are natural numbers (32 bits unsigned integers in the code).
-/

set_option autoImplicit false
set_option linter.unusedSectionVars false

namespace Verif

/-- `order_node`, `/repo/sdd/order/order_node.hh:26-73`. -/
structure ONode (I : Type) where
  id : OId I
  var : Nat
  position : Nat
  next : Option Nat
  nested : Option Nat
  path : List Nat
  deriving DecidableEq

/-- The variables captured by the lambda of `mk_nodes_ptr`, `/repo/sdd/order/order.hh:252-267`: the nodes (`none` is a
node built by default), the positions' counter, and the identifiers already met. -/
structure BuildSt (I : Type) where
  nodes : List (Option (ONode I))
  pos : Nat
  unicity : List I

/-- An `order` (`/repo/sdd/order/order.hh:52-75`): the nodes, and the first node (null pointer: `none`). The map from identifiers to
nodes is a function of the nodes (see `Ord.node`). -/
structure Ord (I : Type) where
  nodes : List (Option (ONode I))
  head : Option Nat

namespace Ord
variable {I : Type} [DecidableEq I]
open OB

/-- `helper`, `/repo/sdd/order/order.hh:267-297`: a pointer to the node and the following variable; `error` is
`duplicate_identifier_error`.  The tests `not ob.nested().empty()` and `not ob.next().empty()` (276, 284) are the case `nil`. -/
def helper : OB I → List Nat → BuildSt I → Except I ((Option Nat × Nat) × BuildSt I)
  | .nil, _, s => .ok ((none, 0), s)
  | .node id nst nxt, path, s =>
    match helper nst (path ++ [s.pos]) { s with pos := s.pos + 1 } with
    | .error e => .error e
    | .ok (nested, s1) =>
      match helper nxt path s1 with
      | .error e => .error e
      | .ok (next, s2) =>
        if id.artificial = 0 ∧ id.user ∈ s2.unicity then .error id.user
        else
          .ok ((some s.pos, next.2 + 1),
            { nodes := s2.nodes.set s.pos (some ⟨id, next.2, s.pos, next.1, nested.1, path⟩)
              pos := s2.pos
              unicity := if id.artificial = 0 then id.user :: s2.unicity else s2.unicity })

/-- The constructor, `/repo/sdd/order/order.hh:84-89`, with `mk_nodes_ptr` (242-303). -/
def ofBuilder (ob : OB I) : Except I (Ord I) :=
  match ob with
  | .nil => .ok ⟨[], none⟩
  | .node .. =>
    match helper ob [] ⟨List.replicate ob.size none, 0, []⟩ with
    | .error e => .error e
    | .ok (_, s) => .ok ⟨s.nodes, some 0⟩

/-- The node of a pointer. (`/repo/sdd/order/order.hh`: pointers to `order_node`.) -/
def at? (o : Ord I) (p : Nat) : Option (ONode I) := (o.nodes[p]?).join

/-- `empty`, `/repo/sdd/order/order.hh:154-160`. -/
def empty (o : Ord I) : Bool := o.head.isNone

/-- The node of the head; `none`: dereference of a null pointer. (`/repo/sdd/order/order.hh`: `head_->`.) -/
def hd (o : Ord I) : Option (ONode I) := o.head.bind o.at?

/-- `variable`, `/repo/sdd/order/order.hh:112-118`. -/
def var (o : Ord I) : Option Nat := o.hd.map ONode.var
/-- `identifier`, `/repo/sdd/order/order.hh:120-126`. -/
def identifier (o : Ord I) : Option (OId I) := o.hd.map ONode.id
/-- `position`, `/repo/sdd/order/order.hh:128-134`. -/
def position (o : Ord I) : Option Nat := o.hd.map ONode.position
/-- `next`, `/repo/sdd/order/order.hh:136-143`. -/
def next (o : Ord I) : Option (Ord I) := o.hd.map fun n => ⟨o.nodes, n.next⟩
/-- `nested`, `/repo/sdd/order/order.hh:145-152`. -/
def nested (o : Ord I) : Option (Ord I) := o.hd.map fun n => ⟨o.nodes, n.nested⟩

/-- `contains`, `/repo/sdd/order/order.hh:91-101`: `none` if the position is not one of the order. -/
def contains (o : Ord I) (upper nested : Nat) : Option Bool :=
  (o.at? nested).map fun n => n.path.contains upper

/-- `node`, `/repo/sdd/order/order.hh:171-184`: `none` is `identifier_not_found_error`.  `mk_identifier_to_node` (305-317) inserts the
nodes from the first one to the last one with `emplace`, which keeps the first node of an identifier. -/
def node (o : Ord I) (i : I) : Option (ONode I) :=
  (o.nodes.filterMap _root_.id).find? fun n => n.id == OB.uid i

/-- `flat_impl`, `/repo/sdd/order/order.hh:214-232`, with fuel. -/
def flatImpl (nodes : List (Option (ONode I))) : Nat → Option Nat → Option (List I)
  | _, none => some []
  | 0, some _ => none
  | fuel + 1, some p =>
    match (nodes[p]?).join with
    | none => none
    | some n =>
      match (if n.nested.isSome then flatImpl nodes fuel n.nested else some [n.id.user]), flatImpl nodes fuel n.next with
      | some a, some b => some (a ++ b)
      | _, _ => none

/-- `flat`, `/repo/sdd/order/order.hh:162-169`. -/
def flat (o : Ord I) : Option (List I) := flatImpl o.nodes o.nodes.length o.head

/-- `operator==`, `/repo/sdd/order/order.hh:194-210`, with fuel. -/
def eqImpl (n1 n2 : List (Option (ONode I))) : Nat → Option Nat → Option Nat → Option Bool
  | _, none, none => some true
  | _, none, some _ => some false
  | _, some _, none => some false
  | 0, some _, some _ => none
  | fuel + 1, some p, some q =>
    match (n1[p]?).join, (n2[q]?).join with
    | some a, some b =>
      if a.position = b.position ∧ a.id = b.id then
        match eqImpl n1 n2 fuel a.nested b.nested with
        | some true => eqImpl n1 n2 fuel a.next b.next
        | r => r
      else some false
    | _, _ => none

/-- `operator==`, `/repo/sdd/order/order.hh:194-210`. -/
def eq (a b : Ord I) : Option Bool := eqImpl a.nodes b.nodes a.nodes.length a.head b.head

/-! ## Specification -/

/-- The vector represents the builder from the pointer `h`: the elements of the builder have increasing positions from `p`, from top to bottom, nested
elements before the following ones; variables are numbered from 0 at the bottom of each level; and nodes know the positions of
the elements they are nested in. (Specification or proof device, not part of the code.) -/
def Rep (nodes : List (Option (ONode I))) : Nat → Option Nat → OB I → List Nat → Prop
  | _, h, .nil, _ => h = none
  | p, h, .node id nst nxt, path => h = some p ∧
      ∃ n m, nodes[p]? = some (some ⟨id, nxt.level.length, p, n, m, path⟩) ∧
        Rep nodes (p + 1) m nst (path ++ [p]) ∧ Rep nodes (p + 1 + nst.ids.length) n nxt path

theorem Rep.congr {n1 n2 : List (Option (ONode I))} {ob : OB I} : ∀ {p : Nat} {h : Option Nat} {path : List Nat},
    (∀ i, p ≤ i → i < p + ob.ids.length → n1[i]? = n2[i]?) → Rep n1 p h ob path → Rep n2 p h ob path := by
  induction ob with
  | nil => intro p h path _ hr; exact hr
  | node id nst nxt ihn ih =>
    intro p h path heq hr
    obtain ⟨h1, n, m, h2, h3, h4⟩ := hr
    simp only [ids, List.length_cons, List.length_append] at heq
    refine ⟨h1, n, m, ?_, ihn ?_ h3, ih ?_ h4⟩
    · rw [← heq p (Nat.le_refl _) (by omega)]; exact h2
    · intro i hi1 hi2; exact heq i (by omega) (by omega)
    · intro i hi1 hi2; exact heq i (by omega) (by omega)

omit [DecidableEq I] in
theorem userIds_node (id : OId I) (nst nxt : OB I) : (OB.node id nst nxt).userIds =
    (if id.artificial = 0 then [id.user] else []) ++ (nst.userIds ++ nxt.userIds) := by
  simp only [userIds, ids]
  by_cases h : id.artificial = 0 <;> simp [h]

/-- What `helper` does. -/
theorem helper_spec (ob : OB I) : ∀ (path : List Nat) (s : BuildSt I), s.pos + ob.ids.length ≤ s.nodes.length →
    match helper ob path s with
    | .error e => 2 ≤ (ob.userIds ++ s.unicity).count e
    | .ok (r, s') => (s.unicity.Nodup → (ob.userIds ++ s.unicity).Nodup) ∧
        s'.unicity.Perm (ob.userIds ++ s.unicity) ∧ s'.pos = s.pos + ob.ids.length ∧
        s'.nodes.length = s.nodes.length ∧ r.2 = ob.level.length ∧
        (∀ i, i < s.pos ∨ s.pos + ob.ids.length ≤ i → s'.nodes[i]? = s.nodes[i]?) ∧
        Rep s'.nodes s.pos r.1 ob path := by
  induction ob with
  | nil =>
    intro path s _
    simp [helper, userIds, ids, level, Rep]
  | node id nst nxt ihn ih =>
    intro path s hs
    simp only [ids, List.length_cons, List.length_append] at hs
    have h1 := ihn (path ++ [s.pos]) { s with pos := s.pos + 1 } (by simp only; omega)
    rw [helper, userIds_node]
    cases e1 : helper nst (path ++ [s.pos]) { s with pos := s.pos + 1 } with
    | error e =>
      rw [e1] at h1
      simp only at h1 ⊢
      simp only [List.count_append] at h1 ⊢
      omega
    | ok q =>
      obtain ⟨rn, s1⟩ := q
      rw [e1] at h1
      simp only at h1
      obtain ⟨a1, a2, a3, a4, a5, a6, a7⟩ := h1
      have h2 := ih path s1 (by rw [a3, a4]; omega)
      simp only
      cases e2 : helper nxt path s1 with
      | error e =>
        rw [e2] at h2
        simp only at h2 ⊢
        have hu : (nxt.userIds ++ s1.unicity).Perm (nst.userIds ++ nxt.userIds ++ s.unicity) := by
          refine (List.Perm.append_left _ a2).trans ?_
          rw [← List.append_assoc]
          exact List.Perm.append_right _ List.perm_append_comm
        rw [hu.count_eq] at h2
        simp only [List.count_append] at h2 ⊢
        omega
      | ok q =>
        obtain ⟨rx, s2⟩ := q
        rw [e2] at h2
        simp only at h2 ⊢
        obtain ⟨b1, b2, b3, b4, b5, b6, b7⟩ := h2
        have hu : s2.unicity.Perm (nst.userIds ++ nxt.userIds ++ s.unicity) := by
          refine b2.trans ((List.Perm.append_left _ a2).trans ?_)
          rw [← List.append_assoc]
          exact List.Perm.append_right _ List.perm_append_comm
        have hnd : s.unicity.Nodup → (nst.userIds ++ nxt.userIds ++ s.unicity).Nodup := by
          intro h
          rw [← hu.nodup_iff, b2.nodup_iff]
          exact b1 (a2.nodup_iff.2 (a1 h))
        by_cases hdup : id.artificial = 0 ∧ id.user ∈ s2.unicity
        · rw [if_pos hdup]
          have := List.count_pos_iff.2 (hu.mem_iff.1 hdup.2)
          simp only [List.count_append, if_pos hdup.1, List.count_singleton_self] at this ⊢
          omega
        · rw [if_neg hdup]
          have hpos : s.pos < s2.nodes.length := by rw [b4, a4]; omega
          have ha3 : s1.pos = s.pos + 1 + nst.ids.length := a3
          have ha4 : s1.nodes.length = s.nodes.length := a4
          refine ⟨?_, ?_, ?_, ?_, ?_, ?_, ?_⟩
          · intro h
            by_cases h0 : id.artificial = 0
            · rw [if_pos h0, List.append_assoc, List.singleton_append, List.nodup_cons]
              exact ⟨fun hm => hdup ⟨h0, hu.mem_iff.2 hm⟩, hnd h⟩
            · rw [if_neg h0, List.nil_append]
              exact hnd h
          · simp only
            by_cases h0 : id.artificial = 0
            · rw [if_pos h0, if_pos h0, List.append_assoc, List.singleton_append]
              exact List.Perm.cons _ hu
            · rw [if_neg h0, if_neg h0, List.nil_append]
              exact hu
          · simp only [ids, List.length_cons, List.length_append]
            omega
          · simp only [List.length_set]
            omega
          · simp only [level, List.length_cons, b5]
          · intro i hi
            simp only [ids, List.length_cons, List.length_append] at hi
            simp only
            rw [List.getElem?_set_ne (by omega), b6 i (by omega), a6 i (by omega)]
          · refine ⟨rfl, rx.1, rn.1, ?_, ?_, ?_⟩
            · simp only
              rw [List.getElem?_set_self hpos, b5]
            · refine Rep.congr ?_ a7
              intro i hi1 hi2
              simp only at hi1 hi2 ⊢
              rw [List.getElem?_set_ne (by omega), b6 i (by omega)]
            · rw [← ha3]
              refine Rep.congr ?_ b7
              intro i hi1 hi2
              simp only
              rw [List.getElem?_set_ne (by omega)]

/-- The order represents the builder: its nodes are exactly those of the builder. (Specification or proof device, not part of the code.) -/
structure Of (ob : OB I) (o : Ord I) : Prop where
  rep : Rep o.nodes 0 o.head ob []
  len : o.nodes.length = ob.ids.length

theorem ofBuilder_spec (ob : OB I) :
    match ofBuilder ob with
    | .error e => 2 ≤ ob.userIds.count e
    | .ok o => ob.userIds.Nodup ∧ Of ob o := by
  cases ob with
  | nil => simp [ofBuilder, userIds, ids]; exact ⟨rfl, rfl⟩
  | node id nst nxt =>
    have h := helper_spec (OB.node id nst nxt) [] ⟨List.replicate (OB.node id nst nxt).size none, 0, []⟩
      (by simp [size_eq])
    rw [ofBuilder]
    cases e : helper (OB.node id nst nxt) [] ⟨List.replicate (OB.node id nst nxt).size none, 0, []⟩ with
    | error d =>
      rw [e] at h
      simp only at h ⊢
      simpa using h
    | ok q =>
      obtain ⟨r, s⟩ := q
      rw [e] at h
      simp only at h ⊢
      obtain ⟨a1, a2, a3, a4, a5, a6, a7⟩ := h
      have hr : r.1 = some 0 := a7.1
      refine ⟨by simpa using a1, ⟨?_, ?_⟩⟩
      · rw [hr] at a7; exact a7
      · simp only [a4, List.length_replicate, size_eq]

/-! ### What the API says of an order -/

/-- What a user sees of an order, through its methods only: its elements are those of the builder, numbered by increasing positions from `p`
(an element before those nested in it, which are before the following elements of its level), variables are numbered
from 0 at the bottom of each level, and an element is contained by the elements of `path` only.
(Specification or proof device, not part of the code.) -/
def View : Ord I → OB I → Nat → List Nat → Prop
  | o, .nil, _, _ => o.empty = true
  | o, .node id nst nxt, p, path =>
    o.empty = false ∧ o.identifier = some id ∧ o.position = some p ∧ o.var = some nxt.level.length ∧
      (∀ q, o.contains q p = some (decide (q ∈ path))) ∧
      (∃ o', o.nested = some o' ∧ View o' nst (p + 1) (path ++ [p])) ∧
      ∃ o', o.next = some o' ∧ View o' nxt (p + 1 + nst.ids.length) path

theorem Rep.hd {nodes : List (Option (ONode I))} {p : Nat} {h : Option Nat} {id : OId I} {nst nxt : OB I} {path : List Nat}
    (hr : Rep nodes p h (.node id nst nxt) path) :
    ∃ n m, (⟨nodes, h⟩ : Ord I).hd = some ⟨id, nxt.level.length, p, n, m, path⟩ ∧
      Rep nodes (p + 1) m nst (path ++ [p]) ∧ Rep nodes (p + 1 + nst.ids.length) n nxt path := by
  obtain ⟨rfl, n, m, h1, h2, h3⟩ := hr
  exact ⟨n, m, by simp [Ord.hd, at?, h1], h2, h3⟩

theorem Rep.view {nodes : List (Option (ONode I))} (ob : OB I) : ∀ {p : Nat} {h : Option Nat} {path : List Nat},
    Rep nodes p h ob path → View ⟨nodes, h⟩ ob p path := by
  induction ob with
  | nil =>
    intro p h path hr
    rw [show h = none from hr]
    rfl
  | node id nst nxt ihn ih =>
    intro p h path hr
    obtain ⟨n, m, h1, h2, h3⟩ := hr.hd
    refine ⟨?_, ?_, ?_, ?_, ?_, ⟨_, ?_, ihn h2⟩, ⟨_, ?_, ih h3⟩⟩
    · rw [hr.1]; rfl
    · rw [identifier, h1]; rfl
    · rw [position, h1]; rfl
    · rw [var, h1]; rfl
    · intro q
      obtain ⟨_, n', m', h4, _⟩ := hr
      simp [contains, at?, h4]
    · rw [nested, h1]; rfl
    · rw [next, h1]; rfl

theorem flatImpl_spec {nodes : List (Option (ONode I))} (ob : OB I) : ∀ {fuel p : Nat} {h : Option Nat} {path : List Nat},
    Rep nodes p h ob path → ob.ids.length ≤ fuel → flatImpl nodes fuel h = some ob.flatIds := by
  induction ob with
  | nil =>
    intro fuel p h path hr _
    rw [show h = none from hr]
    cases fuel <;> rfl
  | node id nst nxt ihn ih =>
    intro fuel p h path hr hf
    obtain ⟨rfl, n, m, h1, h2, h3⟩ := hr
    simp only [ids, List.length_cons, List.length_append] at hf
    cases fuel with
    | zero => omega
    | succ fuel =>
      rw [flatImpl, h1]
      simp only [Option.join_some]
      rw [ih h3 (by omega), ihn h2 (by omega)]
      cases nst with
      | nil =>
        have : m = none := h2
        simp [this, flatIds]
      | node a b c =>
        have : m = some (p + 1) := h2.1
        simp [this, flatIds]

theorem eqImpl_spec {n1 n2 : List (Option (ONode I))} (a : OB I) : ∀ {b : OB I} {fuel p q : Nat} {h k : Option Nat} {pa pb : List Nat},
    Rep n1 p h a pa → Rep n2 q k b pb → a.ids.length ≤ fuel →
      eqImpl n1 n2 fuel h k = some (decide (a = b ∧ (a = .nil ∨ p = q))) := by
  induction a with
  | nil =>
    intro b fuel p q h k pa pb ha hb _
    rw [show h = none from ha]
    cases b with
    | nil =>
      rw [show k = none from hb]
      cases fuel <;> simp [eqImpl]
    | node id nst nxt =>
      rw [hb.1]
      cases fuel <;> simp [eqImpl]
  | node id nst nxt ihn ih =>
    intro b fuel p q h k pa pb ha hb hf
    obtain ⟨rfl, n, m, h1, h2, h3⟩ := ha
    simp only [ids, List.length_cons, List.length_append] at hf
    cases b with
    | nil =>
      rw [show k = none from hb]
      cases fuel <;> simp [eqImpl]
    | node id' nst' nxt' =>
      obtain ⟨rfl, n', m', k1, k2, k3⟩ := hb
      cases fuel with
      | zero => omega
      | succ fuel =>
        rw [eqImpl, h1, k1]
        simp only [Option.join_some]
        by_cases hc : p = q ∧ id = id'
        · obtain ⟨rfl, rfl⟩ := hc
          rw [if_pos ⟨rfl, rfl⟩, ihn h2 k2 (by omega)]
          by_cases hn : nst = nst'
          · subst hn
            simp only [and_self, or_true, decide_true]
            rw [ih h3 k3 (by omega)]
            congr 1
            simp
          · have : ¬ (nst = nst' ∧ (nst = .nil ∨ p + 1 = p + 1)) := fun h => hn h.1
            rw [decide_eq_false this]
            simp [hn]
        · rw [if_neg hc]
          congr 1
          symm
          rw [decide_eq_false_iff_not]
          rintro ⟨h4, h5⟩
          cases h4
          rcases h5 with h5 | h5
          · cases h5
          · exact hc ⟨h5, rfl⟩

/-- The nodes of the vector, from the first one to the last one. -/
theorem Rep.nodes {nodes : List (Option (ONode I))} (ob : OB I) : ∀ {p : Nat} {h : Option Nat} {path : List Nat},
    Rep nodes p h ob path → ∀ i, i < ob.ids.length → ∃ n, nodes[p + i]? = some (some n) ∧ some n.id = ob.ids[i]? ∧
      n.position = p + i := by
  induction ob with
  | nil => intro p h path _ i hi; simp [ids] at hi
  | node id nst nxt ihn ih =>
    intro p h path hr i hi
    obtain ⟨rfl, n, m, h1, h2, h3⟩ := hr
    simp only [ids, List.length_cons, List.length_append] at hi
    match i with
    | 0 => exact ⟨_, h1, by simp [ids], rfl⟩
    | i + 1 =>
      by_cases hi' : i < nst.ids.length
      · obtain ⟨x, a, b, c⟩ := ihn h2 i hi'
        refine ⟨x, by rw [show p + (i + 1) = p + 1 + i by omega]; exact a, ?_, by omega⟩
        simp only [ids, List.getElem?_cons_succ]
        rw [List.getElem?_append_left hi']
        exact b
      · obtain ⟨x, a, b, c⟩ := ih h3 (i - nst.ids.length) (by omega)
        refine ⟨x, by rw [show p + (i + 1) = p + 1 + nst.ids.length + (i - nst.ids.length) by omega]; exact a, ?_, by omega⟩
        simp only [ids, List.getElem?_cons_succ]
        rw [List.getElem?_append_right (by omega)]
        exact b

theorem Of.nodes_ids {ob : OB I} {o : Ord I} (h : Of ob o) :
    (o.nodes.filterMap _root_.id).map ONode.id = ob.ids ∧
      o.nodes = (o.nodes.filterMap _root_.id).map some := by
  have hall : ∀ i, i < o.nodes.length → ∃ n, o.nodes[i]? = some (some n) ∧ some n.id = ob.ids[i]? := by
    intro i hi
    obtain ⟨n, a, b, _⟩ := Rep.nodes ob h.rep i (by rw [← h.len]; exact hi)
    rw [Nat.zero_add] at a
    exact ⟨n, a, b⟩
  have key : ∀ (l : List (Option (ONode I))) (k : List (OId I)), l.length = k.length →
      (∀ i, i < l.length → ∃ n, l[i]? = some (some n) ∧ some n.id = k[i]?) →
      (l.filterMap _root_.id).map ONode.id = k ∧ l = (l.filterMap _root_.id).map some := by
    intro l
    induction l with
    | nil =>
      intro k hk _
      rw [List.length_nil] at hk
      rw [List.length_eq_zero_iff.1 hk.symm]
      simp
    | cons x l ih =>
      intro k hk hh
      cases k with
      | nil => simp at hk
      | cons y k =>
        obtain ⟨n, a, b⟩ := hh 0 (by simp)
        simp at a b
        subst a
        obtain ⟨c, d⟩ := ih k (by simpa using hk) (fun i hi => by
          have := hh (i + 1) (by simpa using hi)
          simpa using this)
        constructor
        · rw [List.filterMap_cons_some (f := _root_.id) (a := some n) (b := n) rfl, List.map_cons, c, b]
        · simp
          exact d
  exact key _ _ h.len hall

end Ord
end Verif
