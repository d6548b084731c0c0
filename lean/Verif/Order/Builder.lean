import Mathlib.Data.List.Basic
import Mathlib.Data.List.Nodup
import Mathlib.Tactic.Common
/-!
# Builders of orders and the strategies `flatten` and `identifiers_per_hierarchy`

`/repo/sdd/order/order_builder.hh`, `/repo/sdd/order/strategies/`, `/repo/sdd/tools/order.hh`.
-/

set_option autoImplicit false
set_option linter.unusedSectionVars false

namespace Verif

/-- `/repo/sdd/order/order_identifier.hh:19-100`: an artificial identifier when the number is not 0. -/
structure OId (I : Type) where
  artificial : Nat
  user : I
  deriving DecidableEq

/-- `/repo/sdd/order/order_builder.hh:30-63`: `nil` is the null pointer; a node without nested order is flat. -/
inductive OB (I : Type) : Type where
  | nil : OB I
  | node (id : OId I) (nested next : OB I) : OB I
  deriving DecidableEq

namespace OB
variable {I : Type}

/-- `empty`, `/repo/sdd/order/order_builder.hh:129-138`. -/
def isNil : OB I → Bool
  | nil => true
  | node .. => false

instance (ob : OB I) : Decidable (ob = nil) :=
  match ob with
  | nil => isTrue rfl
  | node .. => isFalse (by simp)

/-- A user's identifier, `/repo/sdd/order/order_identifier.hh:49-54`. -/
def uid (i : I) : OId I := ⟨0, i⟩

/-- `push`, `/repo/sdd/order/order_builder.hh:167-188,262-268`. -/
def push (ob : OB I) (id : OId I) (nested : OB I) : OB I := node id nested ob

/-- Construction from a list of identifiers, `/repo/sdd/order/order_builder.hh:72-82`: they are pushed
from the last one to the first one. -/
def ofList (l : List I) : OB I := l.reverse.foldl (fun ob i => ob.push (uid i) nil) nil

/-- `concat`, `/repo/sdd/order/order_builder.hh:246-253`, which is `operator<<` (191-196). -/
def concat : OB I → OB I → OB I
  | nil, b => b
  | node id nst nxt, b => node id nst (concat nxt b)

/-- `node_size`, `/repo/sdd/order/order_builder.hh:226-243`, with its accumulator. -/
def nodeSize : OB I → Nat → Nat
  | nil, acc => acc
  | node _ nst nxt, acc => nodeSize nxt (nodeSize nst (acc + 1))

/-- `size`, `/repo/sdd/order/order_builder.hh:199-206`. -/
def size (ob : OB I) : Nat := ob.nodeSize 0

/-- The loop of `height`, `/repo/sdd/order/order_builder.hh:213-219`. -/
def heightLoop : OB I → Nat → Nat
  | nil, res => res
  | node _ _ nxt, res => heightLoop nxt (res + 1)

/-- `height`, `/repo/sdd/order/order_builder.hh:209-221`: undefined behaviour (`none`) on the empty builder. -/
def height : OB I → Option Nat
  | nil => none
  | node _ _ nxt => some (heightLoop nxt 1)

/-- `flatten`, `/repo/sdd/order/strategies/flatten.hh:19-37`. -/
def flatten : OB I → OB I
  | nil => nil
  | node id nst nxt =>
    if nst.isNil then concat (node (uid id.user) nil nil) (flatten nxt)
    else concat (flatten nst) (flatten nxt)

/-! ### `identifiers_per_hierarchy` -/

/-- `packetize_impl`, `/repo/sdd/order/strategies/identifiers_per_hierarchy.hh:66-89` (and `packetize`, 57-64): the number of identifiers of
the first packet, and the packets. `none` is `front` on an empty list (it does not happen). -/
def packetize (nb : Nat) : OB I → Option (Nat × List (OB I))
  | nil => some (0, [nil])
  | node id nst nxt =>
    match packetize nb nxt with
    | none => none
    | some (k, ps) =>
      if k = nb then some (1, node id nst nil :: ps)
      else match ps with
        | [] => none
        | p :: ps => some (k + 1, p.push id nst :: ps)

/-- The loop pushing the packets, `/repo/sdd/order/strategies/identifiers_per_hierarchy.hh:44-48`, from the last one to the first
one; `c` is the counter of artificial identifiers (`/repo/sdd/order/order_identifier.hh:82-90`), `d` the user part of
an artificial identifier. -/
def pushPackets (d : I) : List (OB I) → Nat → OB I → OB I × Nat
  | [], c, ob => (ob, c)
  | p :: ps, c, ob => pushPackets d ps (c + 1) (ob.push ⟨c + 1, d⟩ p)

/-- The `while` loop, `/repo/sdd/order/strategies/identifiers_per_hierarchy.hh:41-50`, with fuel (`none` if the loop does
not finish). -/
def packLoop (d : I) (nb : Nat) : Nat → OB I → Nat → Option (OB I × Nat)
  | 0, _, _ => none
  | fuel + 1, ob, c =>
    match ob.height with
    | none => none
    | some h =>
      if nb < h then
        match packetize nb ob with
        | none => none
        | some (_, ps) =>
          let r := pushPackets d ps.reverse c nil
          packLoop d nb fuel r.1 r.2
      else some (ob, c)

/-- `identifiers_per_hierarchy::operator()`, `/repo/sdd/order/strategies/identifiers_per_hierarchy.hh:32-53`. -/
def idsPerHierarchy (d : I) (nb fuel : Nat) (ob : OB I) (c : Nat) : Option (OB I × Nat) :=
  if ob.isNil || nb == 1 then some (ob, c) else packLoop d nb fuel ob c

/-! ### Dump and load -/

/-- JSON documents made of arrays and identifiers.  The text is produced by `dump_order` and parsed by
rapidjson; only the documents are modelled here, the texts are in `Order/JsonText`. (`/repo/sdd/tools/order.hh`, lines 70-188.) -/
inductive Json (I : Type) : Type where
  | leaf (i : I)
  | arr (l : List (Json I))

/-- The elements written by `dump_order`, `/repo/sdd/tools/order.hh:151-188`, for an order which has the structure of the builder. -/
def dumpElems : OB I → List (Json I)
  | nil => []
  | node id nst nxt =>
    (if nst.isNil then .leaf id.user else .arr (dumpElems nst)) :: dumpElems nxt

/-- `dump_order`, `/repo/sdd/tools/order.hh:151-188`. -/
def dump (ob : OB I) : Json I := .arr (dumpElems ob)

mutual
/-- `load_order_impl`, `/repo/sdd/tools/order.hh:71-91`: the builder and the counter of artificial identifiers;
`none` is `height` on an empty builder. -/
def loadImpl (d : I) : Json I → Nat → Option (OB I × Nat)
  | .leaf i, c => some (node (uid i) nil nil, c)
  | .arr l, c =>
    match loadElems d l nil c with
    | none => none
    | some (ob, c) =>
      match ob.height with
      | none => none
      | some h => if h = 1 then some (ob, c) else some (node ⟨c + 1, d⟩ ob nil, c + 1)
/-- The loop on the elements of an array, `/repo/sdd/tools/order.hh:78-81`. -/
def loadElems (d : I) : List (Json I) → OB I → Nat → Option (OB I × Nat)
  | [], ob, c => some (ob, c)
  | j :: l, ob, c =>
    match loadImpl d j c with
    | none => none
    | some (b, c) => loadElems d l (ob.concat b) c
end

/-- `load_order`, `/repo/sdd/tools/order.hh:96-114`. -/
def load (d : I) (j : Json I) (c : Nat) : Option (OB I × Nat) :=
  match loadImpl d j c with
  | none => none
  | some (ob, c) =>
    match ob with
    | nil => none
    | node _ nst nxt => if nxt.isNil && !nst.isNil then some (nst, c) else some (ob, c)

/-! ## Specification -/

/-- The elements of a level: identifiers with their nested orders. (Specification or proof device, not part of the code.) -/
def level : OB I → List (OId I × OB I)
  | nil => []
  | node id nst nxt => (id, nst) :: level nxt

/-- A builder is determined by the elements of its level. (Specification or proof device, not part of the code.) -/
def ofLevel : List (OId I × OB I) → OB I
  | [] => nil
  | (id, nst) :: l => node id nst (ofLevel l)

/-- All identifiers, from top to bottom. (Specification or proof device, not part of the code.) -/
def ids : OB I → List (OId I)
  | nil => []
  | node id nst nxt => id :: (ids nst ++ ids nxt)

/-- The identifiers of flat levels, from top to bottom. (Specification or proof device, not part of the code.) -/
def flatIds : OB I → List I
  | nil => []
  | node id nst nxt => (if nst = nil then [id.user] else flatIds nst) ++ flatIds nxt

/-- The identifiers given by the user. (Specification or proof device, not part of the code.) -/
def userIds (ob : OB I) : List I := (ob.ids.filter (fun i => i.artificial == 0)).map OId.user

@[simp] theorem isNil_iff (ob : OB I) : ob.isNil = true ↔ ob = nil := by cases ob <;> simp [isNil]

theorem level_ofLevel (l : List (OId I × OB I)) : (ofLevel l).level = l := by
  induction l with
  | nil => rfl
  | cons a l ih => obtain ⟨id, nst⟩ := a; simp [ofLevel, level, ih]

theorem ofLevel_level (ob : OB I) : ofLevel ob.level = ob := by
  induction ob with
  | nil => rfl
  | node id nst nxt _ ih => simp [ofLevel, level, ih]

theorem level_inj {a b : OB I} (h : a.level = b.level) : a = b := by
  rw [← ofLevel_level a, h, ofLevel_level]

theorem level_nil {a : OB I} : a.level = [] ↔ a = nil := by cases a <;> simp [level]

theorem level_concat (a b : OB I) : (a.concat b).level = a.level ++ b.level := by
  induction a with
  | nil => rfl
  | node id nst nxt _ ih => simp [concat, level, ih]

theorem heightLoop_eq (ob : OB I) (r : Nat) : ob.heightLoop r = ob.level.length + r := by
  induction ob generalizing r with
  | nil => simp [heightLoop, level]
  | node id nst nxt _ ih => simp [heightLoop, level, ih]; omega

theorem height_eq (ob : OB I) : ob.height = if ob = nil then none else some ob.level.length := by
  cases ob with
  | nil => rfl
  | node id nst nxt => simp [height, heightLoop_eq, level]

theorem nodeSize_eq (ob : OB I) (acc : Nat) : ob.nodeSize acc = ob.ids.length + acc := by
  induction ob generalizing acc with
  | nil => simp [nodeSize, ids]
  | node id nst nxt ihn ih => simp [nodeSize, ids, ih, ihn]; omega

theorem size_eq (ob : OB I) : ob.size = ob.ids.length := by simp [size, nodeSize_eq]

theorem ids_concat (a b : OB I) : (a.concat b).ids = a.ids ++ b.ids := by
  induction a with
  | nil => rfl
  | node id nst nxt _ ih => simp [concat, ids, ih]

theorem flatIds_concat (a b : OB I) : (a.concat b).flatIds = a.flatIds ++ b.flatIds := by
  induction a with
  | nil => rfl
  | node id nst nxt _ ih => simp [concat, flatIds, ih]

theorem level_ofList (l : List I) : (ofList l).level = l.map fun i => (uid i, nil) := by
  have : ∀ (l : List I) (ob : OB I), (l.foldl (fun ob i => ob.push (uid i) nil) ob).level =
      (l.reverse.map fun i => (uid i, nil)) ++ ob.level := by
    intro l
    induction l with
    | nil => simp
    | cons i l ih => intro ob; rw [List.foldl_cons, ih]; simp [push, level]
  rw [ofList, this]
  simp [level]

theorem flatten_level (ob : OB I) : ob.flatten.level = ob.flatIds.map fun i => (uid i, nil) := by
  induction ob with
  | nil => rfl
  | node id nst nxt ihn ih =>
    unfold flatten
    split
    · rename_i h
      rw [isNil_iff] at h
      simp [level_concat, ih, flatIds, h, level]
    · rename_i h
      rw [isNil_iff] at h
      simp [level_concat, ih, ihn, flatIds, h]

theorem flatIds_of_level {ob : OB I} {l : List I} (h : ob.level = l.map fun i => (uid i, nil)) :
    ob.flatIds = l := by
  induction l generalizing ob with
  | nil =>
    rw [List.map_nil, level_nil] at h
    rw [h]
    rfl
  | cons i l ih =>
    cases ob with
    | nil => simp [level] at h
    | node id nst nxt =>
      simp only [level, List.map_cons, List.cons.injEq, Prod.mk.injEq] at h
      obtain ⟨⟨rfl, rfl⟩, h⟩ := h
      simp [flatIds, ih h, uid]

/-! ### `identifiers_per_hierarchy` -/

theorem packetize_spec {nb : Nat} (hnb : 1 ≤ nb) (ob : OB I) :
    ∃ k p ps, packetize nb ob = some (k, p :: ps) ∧ p.level.length = k ∧ k ≤ nb ∧
      (ob ≠ nil → 1 ≤ k) ∧ (∀ q ∈ ps, q.level.length = nb) ∧
      ((p :: ps).flatMap level) = ob.level := by
  induction ob with
  | nil => exact ⟨0, nil, [], rfl, rfl, Nat.zero_le _, by simp, by simp, by simp [level]⟩
  | node id nst nxt _ ih =>
    obtain ⟨k, p, ps, e, h1, h2, h3, h4, h5⟩ := ih
    unfold packetize
    rw [e]
    simp only
    split
    · rename_i hk
      refine ⟨1, node id nst nil, p :: ps, rfl, by simp [level], hnb, by simp, ?_, ?_⟩
      · intro q hq
        rcases List.mem_cons.1 hq with rfl | hq
        · omega
        · exact h4 q hq
      · rw [List.flatMap_cons, h5]
        simp [level]
    · rename_i hk
      refine ⟨k + 1, p.push id nst, ps, rfl, by simp [push, level, h1], by omega, by simp, h4, ?_⟩
      rw [List.flatMap_cons] at h5 ⊢
      simp [push, level, ← h5]

theorem pushPackets_level (d : I) (ps : List (OB I)) (c : Nat) (ob : OB I) :
    (pushPackets d ps c ob).2 = c + ps.length ∧ (pushPackets d ps c ob).1.level =
      ((ps.zipIdx (c + 1)).map fun p => ((⟨p.2, d⟩ : OId I), p.1)).reverse ++ ob.level := by
  induction ps generalizing c ob with
  | nil => simp [pushPackets]
  | cons p ps ih =>
    obtain ⟨h1, h2⟩ := ih (c + 1) (ob.push ⟨c + 1, d⟩ p)
    simp only [pushPackets, h1, h2]
    constructor
    · simp; omega
    · simp [push, level]

/-- Put back at its place the contents of the levels made by the strategy (artificial identifiers after `c`).
(Specification or proof device, not part of the code.) -/
def unpack (c : Nat) : OB I → OB I
  | nil => nil
  | node id nst nxt =>
    if c < id.artificial then concat (unpack c nst) (unpack c nxt)
    else node id nst (unpack c nxt)

/-- The levels made by the strategy have at most `nb` identifiers (and at least one). (Specification or proof device, not part of the code.) -/
def Bounded (c nb : Nat) : OB I → Prop
  | nil => True
  | node id nst nxt =>
    (c < id.artificial → 1 ≤ nst.level.length ∧ nst.level.length ≤ nb ∧ Bounded c nb nst) ∧ Bounded c nb nxt

theorem unpack_concat (c : Nat) (a b : OB I) : unpack c (a.concat b) = (unpack c a).concat (unpack c b) := by
  have assoc : ∀ x y z : OB I, (x.concat y).concat z = x.concat (y.concat z) := by
    intro x y z
    apply level_inj
    simp [level_concat]
  induction a with
  | nil => rfl
  | node id nst nxt _ ih =>
    simp only [concat, unpack]
    split
    · rw [ih, assoc]
    · rw [ih]; rfl

/-- What holds of the builder during the loop. (Specification or proof device, not part of the code.) -/
structure Packed (c0 nb : Nat) (ob0 ob : OB I) : Prop where
  unpack : ob.unpack c0 = ob0
  bounded : Bounded c0 nb ob
  flat : ob.flatIds = ob0.flatIds

theorem bounded_level (c nb : Nat) (ob : OB I) : Bounded c nb ob ↔ ∀ e ∈ ob.level, c < e.1.artificial →
    1 ≤ e.2.level.length ∧ e.2.level.length ≤ nb ∧ Bounded c nb e.2 := by
  induction ob with
  | nil => simp [Bounded, level]
  | node id nst nxt _ ih => simp [Bounded, level, ih]

theorem unpack_level (c : Nat) (ob : OB I) : (ob.unpack c).level =
    ob.level.flatMap fun e => if c < e.1.artificial then (e.2.unpack c).level else [e] := by
  induction ob with
  | nil => simp [unpack, level]
  | node id nst nxt _ ih =>
    simp only [unpack, level, List.flatMap_cons]
    split
    · rw [level_concat, ih]
    · simp [level, ih]

theorem flatIds_level (ob : OB I) : ob.flatIds =
    ob.level.flatMap fun e => if e.2 = nil then [e.1.user] else e.2.flatIds := by
  induction ob with
  | nil => simp [flatIds, level]
  | node id nst nxt _ ih => simp [flatIds, level, ih]

theorem zip_fst {ps : List (OB I)} {c : Nat} {d : I} {e : OId I × OB I}
    (he : e ∈ (ps.zipIdx c).map fun p => ((⟨p.2, d⟩ : OId I), p.1)) : c ≤ e.1.artificial ∧ e.2 ∈ ps := by
  rw [List.mem_map] at he
  obtain ⟨⟨p, i⟩, hp, rfl⟩ := he
  obtain ⟨h1, h2, h3⟩ := List.mem_zipIdx hp
  exact ⟨h1, by rw [h3]; exact List.getElem_mem _⟩

/-- One iteration of the loop. -/
theorem iteration {c0 c nb : Nat} (hnb : 2 ≤ nb) {d : I} {ob0 ob : OB I} (hc : c0 ≤ c) (h : Packed c0 nb ob0 ob)
    (hh : nb < ob.level.length) : ∃ ps, (∃ k, packetize nb ob = some (k, ps)) ∧
      let r := pushPackets d ps.reverse c nil
      c0 ≤ r.2 ∧ Packed c0 nb ob0 r.1 ∧ r.1.level.length < ob.level.length ∧ r.1 ≠ nil := by
  have hne : ob ≠ nil := by
    rintro rfl
    simp [level] at hh
  obtain ⟨k, p, ps, e, h1, h2, h3, h4, h5⟩ := packetize_spec (by omega : 1 ≤ nb) ob
  have h3 := h3 hne
  refine ⟨p :: ps, ⟨k, e⟩, ?_⟩
  simp only
  obtain ⟨r1, r2⟩ := pushPackets_level d (p :: ps).reverse c nil
  generalize hr : pushPackets d (p :: ps).reverse c nil = r at r1 r2
  rw [level, List.append_nil] at r2
  have hall : ∀ q ∈ p :: ps, 1 ≤ q.level.length ∧ q.level.length ≤ nb := by
    intro q hq
    rcases List.mem_cons.1 hq with rfl | hq
    · omega
    · rw [h4 q hq]; omega
  have hmem : ∀ e ∈ r.1.level, c0 < e.1.artificial ∧ e.2 ∈ p :: ps := by
    intro e he
    rw [r2, List.mem_reverse] at he
    obtain ⟨q1, q2⟩ := zip_fst he
    exact ⟨by omega, List.mem_reverse.1 q2⟩
  have hsnd : r.1.level.map Prod.snd = p :: ps := by
    rw [r2, List.map_reverse, List.map_map]
    have : ((Prod.snd : OId I × OB I → OB I) ∘ fun p : OB I × Nat => ((⟨p.2, d⟩ : OId I), p.1)) = Prod.fst := rfl
    rw [this]
    have hz : ∀ (l : List (OB I)) (n : Nat), (l.zipIdx n).map Prod.fst = l := by
      intro l
      induction l with
      | nil => simp
      | cons a l ih => intro n; simp [List.zipIdx_cons, ih]
    rw [hz, List.reverse_reverse]
  have hlen : r.1.level.length = ps.length + 1 := by
    have := congrArg List.length hsnd
    simpa using this
  have hsum : ob.level.length = k + ps.length * nb := by
    have := congrArg List.length h5
    rw [List.flatMap_cons, List.length_append, h1] at this
    rw [← this]
    have hl : ∀ ps : List (OB I), (∀ q ∈ ps, q.level.length = nb) → (ps.flatMap level).length = ps.length * nb := by
      intro ps
      induction ps with
      | nil => simp
      | cons q ps ih =>
        intro hq
        rw [List.flatMap_cons, List.length_append, hq q List.mem_cons_self,
          ih (fun q' h' => hq q' (List.mem_cons_of_mem _ h')), List.length_cons, Nat.succ_mul]
        omega
    rw [hl ps h4]
  have hcollect : ∀ {β : Type} (f : OId I × OB I → List β) (g : OB I → List β),
      (∀ e ∈ r.1.level, f e = g e.2) → r.1.level.flatMap f = (p :: ps).flatMap g := by
    intro β f g hfg
    rw [← hsnd, List.flatMap_map]
    exact List.flatMap_congr hfg
  refine ⟨by rw [r1]; omega, ⟨?_, ?_, ?_⟩, ?_, ?_⟩
  · apply level_inj
    rw [unpack_level, hcollect _ (fun q => (q.unpack c0).level) (fun e he => by rw [if_pos (hmem e he).1])]
    have : (p :: ps).flatMap (fun q => (q.unpack c0).level) =
        ((p :: ps).flatMap level).flatMap fun e => if c0 < e.1.artificial then (e.2.unpack c0).level else [e] := by
      rw [List.flatMap_assoc]
      exact List.flatMap_congr fun q _ => unpack_level c0 q
    rw [this, h5, ← unpack_level, h.unpack]
  · rw [bounded_level]
    intro e he _
    obtain ⟨_, q2⟩ := hmem e he
    refine ⟨(hall _ q2).1, (hall _ q2).2, ?_⟩
    rw [bounded_level]
    intro e' he'
    refine (bounded_level c0 nb ob).1 h.bounded e' ?_
    rw [← h5]
    exact List.mem_flatMap.2 ⟨_, q2, he'⟩
  · rw [flatIds_level, hcollect _ (fun q => q.flatIds)]
    · have : (p :: ps).flatMap (fun q => q.flatIds) =
          ((p :: ps).flatMap level).flatMap fun e => if e.2 = nil then [e.1.user] else e.2.flatIds := by
        rw [List.flatMap_assoc]
        exact List.flatMap_congr fun q _ => flatIds_level q
      rw [this, h5, ← flatIds_level, h.flat]
    · intro e he
      rw [if_neg]
      intro h0
      have := (hall _ (hmem e he).2).1
      rw [h0] at this
      simp [level] at this
  · rw [hlen, hsum]
    have hps : 1 ≤ ps.length := by
      by_contra h0
      have : ps.length = 0 := by omega
      rw [hsum, this] at hh
      omega
    have := Nat.mul_le_mul_left ps.length hnb
    omega
  · intro h0
    rw [h0] at hlen
    simp [level] at hlen

theorem packLoop_spec {c0 nb : Nat} (hnb : 2 ≤ nb) {d : I} {ob0 : OB I} :
    ∀ fuel (ob : OB I) (c : Nat), c0 ≤ c → Packed c0 nb ob0 ob → ob ≠ nil → ob.level.length ≤ fuel →
      ∃ r c', packLoop d nb fuel ob c = some (r, c') ∧ Packed c0 nb ob0 r ∧ r.level.length ≤ nb := by
  intro fuel
  induction fuel with
  | zero =>
    intro ob c _ _ hne hf
    exact absurd (level_nil.1 (List.length_eq_zero_iff.1 (by omega))) hne
  | succ fuel ih =>
    intro ob c hc hp hne hf
    unfold packLoop
    rw [height_eq, if_neg hne]
    simp only
    split
    · rename_i hh
      obtain ⟨ps, ⟨k, e⟩, h1, h2, h3, h4⟩ := iteration hnb (d := d) hc hp hh
      rw [e]
      simp only
      exact ih _ _ h1 h2 h4 (by omega)
    · rename_i hh
      exact ⟨ob, c, rfl, hp, by omega⟩

theorem unpack_self {c : Nat} {ob : OB I} (h : ∀ i ∈ ob.ids, i.artificial ≤ c) : ob.unpack c = ob := by
  induction ob with
  | nil => rfl
  | node id nst nxt _ ih =>
    have h1 := h id (by simp [ids])
    simp only [unpack, if_neg (Nat.not_lt.2 h1)]
    rw [ih fun i hi => h i (by simp [ids, hi])]

theorem bounded_self {c nb : Nat} {ob : OB I} (h : ∀ i ∈ ob.ids, i.artificial ≤ c) : Bounded c nb ob := by
  induction ob with
  | nil => trivial
  | node id nst nxt _ ih =>
    have h1 := h id (by simp [ids])
    exact ⟨fun h2 => by omega, ih fun i hi => h i (by simp [ids, hi])⟩

/-- With packets of no identifier, the loop does not end. -/
theorem packLoop_zero (d : I) : ∀ fuel (ob : OB I) (c : Nat), packLoop d 0 fuel ob c = none := by
  intro fuel
  induction fuel with
  | zero => intros; rfl
  | succ fuel ih =>
    intro ob c
    unfold packLoop
    rw [height_eq]
    split
    · rfl
    · rename_i h hh
      split at hh
      · cases hh
      · rename_i hne
        cases hh
        have : 0 < ob.level.length := by
          rw [List.length_pos_iff]
          exact fun h0 => hne (level_nil.1 h0)
        rw [if_pos this]
        split
        · rfl
        · exact ih _ _

end OB
end Verif
