import Verif.Mem.HashTable
import Verif.Mem.Lru
/-!
# The operation cache, with its hash table, its pool and its list of uses

`/repo/sdd/mem/cache.hh`.  Entries live in the slots of a pool; the hash table and the list of uses
(`lru_list_`) hold pointers to slots; each entry holds an iterator to its element of the list
(`lru_cit_`), which is modelled as the identity of that element.  Identities of elements of `std::list`
are given by a counter.

A call `cache(op)` is a look-up, possibly followed by the evaluation of the operation (any number of
other events, since evaluations are nested) and by the storage of the result.

Undefined behaviours (use of a dead slot, of an iterator to an element which has been removed, of an empty
list or pool) are the result `none`.
-/

set_option autoImplicit false
set_option linter.unusedSectionVars false

namespace Verif
namespace Cache

/-- A cache entry, `/repo/sdd/mem/cache_entry.hh:25-51`. -/
structure Entry (K R : Type) where
  op : K
  res : R
  cit : Nat

/-- The fields of a cache, `/repo/sdd/mem/cache.hh:125-184`: the hash table of entries (slot and operation), the slots of the pool
(`none` when free), the list of uses (identity and slot), the list of free slots, `max_size_`. -/
structure State (K R : Type) where
  table : HT (Nat × K)
  slots : Nat → Option (Entry K R)
  lru : List (Nat × Nat)
  freeList : List Nat
  maxSize : Nat
  nextId : Nat

section
variable {K R : Type} [DecidableEq K] (hash : K → Nat)

/-- `std::hash<cache_entry>`, `/repo/sdd/mem/cache_entry.hh:72-84`. -/
def hashE (e : Nat × K) : Nat := hash e.2

/-- `operator==` on entries, `/repo/sdd/mem/cache_entry.hh:53-60`. -/
def eqE (e f : Nat × K) : Bool := decide (e.2 = f.2)

/-- `max_size_`, `/repo/sdd/mem/cache.hh:199`. The product by 0.85 is exact in double precision up to a
relative error of 2^-53, which does not change its integral part for less than 2^52 buckets (17/20 of a power of two
is at least 1/5 away from the integers it is not equal to). -/
def maxSizeOf (buckets : Nat) : Nat := 17 * buckets / 20

/-- The constructors of the pool and of the cache, `/repo/sdd/mem/cache.hh:155-163,195-202`.  `none` is
the access outside of the pool when it has no slot. -/
def new (size : BitVec 64) : Option (State K R) :=
  let t : HT (Nat × K) := HT.new size
  if maxSizeOf t.buckets.length = 0 then none
  else some ⟨t, fun _ => none, [], List.range (maxSizeOf t.buckets.length), maxSizeOf t.buckets.length, 0⟩

/-- The look-up, `/repo/sdd/mem/cache.hh:221-234`: the result of a hit. -/
def lookup (k : K) (c : State K R) : Option (Option R × State K R) :=
  match HT.insertCheck hash (fun k (e : Nat × K) => decide (k = e.2)) k c.table with
  | none => none
  | some (none, _) => some (none, c)
  | some (some e, _) =>
    match c.slots e.1 with
    | none => none
    | some x =>
      match c.lru.find? (fun n => n.1 == x.cit) with
      | none => none
      | some n => some (some x.res, { c with lru := c.lru.eraseP (fun n => n.1 == x.cit) ++ [n] })

/-- The removal of the first entry of the list of uses, `/repo/sdd/mem/cache.hh:242-250`: its operation. -/
def evict (c : State K R) : Option (K × State K R) :=
  match c.lru with
  | [] => none
  | n :: lru =>
    match c.slots n.2 with
    | none => none
    | some x =>
      match HT.erase (hashE hash) eqE (n.2, x.op) c.table with
      | none => none
      | some t => some (x.op, { c with
          table := t
          slots := Function.update c.slots n.2 none
          freeList := n.2 :: c.freeList
          lru := lru })

/-- The creation of the new entry, `/repo/sdd/mem/cache.hh:252-258`. -/
def add (k : K) (r : R) (c : State K R) : Option (State K R) :=
  match c.freeList with
  | [] => none
  | s :: fl =>
    (HT.insertCommit (s, k) (HT.pos hash c.table.buckets.length k) c.table).map fun t =>
      { c with
        table := t
        slots := Function.update c.slots s (some ⟨k, r, c.nextId⟩)
        freeList := fl
        lru := c.lru ++ [(c.nextId, s)]
        nextId := c.nextId + 1 }

/-- What follows the evaluation, `/repo/sdd/mem/cache.hh:241-260`: the operation discarded, if any. -/
def store (k : K) (r : R) (c : State K R) : Option (Option K × State K R) :=
  if c.table.size = c.maxSize then
    match evict hash c with
    | none => none
    | some (o, c') => (add hash k r c').map fun c'' => (some o, c'')
  else (add hash k r c).map fun c'' => (none, c'')

/-- `clear`, `/repo/sdd/mem/cache.hh:264-273`: the slots are released one after the other; the list of uses is
not modified. -/
def clear (c : State K R) : State K R :=
  let ds := c.table.clear.1.map Prod.fst
  { c with
    table := c.table.clear.2
    slots := fun s => if s ∈ ds then none else c.slots s
    freeList := ds.reverse ++ c.freeList }

/-- What happens to a cache. (`/repo/sdd/mem/cache.hh`, lines 221-234, 241-260 and 263-273.) -/
inductive Ev (K R : Type) : Type where
  | lookup (k : K)
  | store (k : K) (r : R)
  | clear

/-- What is observed: the result of a look-up, and the operation discarded by a storage. (Results of `/repo/sdd/mem/cache.hh`, lines 211-261.) -/
inductive Out (K R : Type) : Type where
  | found (r : Option R)
  | stored (discarded : Option K)
  | cleared

/-- An event. (`/repo/sdd/mem/cache.hh`, lines 211-273.) -/
def exec (c : State K R) : Ev K R → Option (Out K R × State K R)
  | .lookup k => (lookup hash k c).map fun p => (.found p.1, p.2)
  | .store k r => (store hash k r c).map fun p => (.stored p.1, p.2)
  | .clear => some (.cleared, clear c)

/-- The operations in the cache. (Specification, not part of the code.) -/
def keys (c : State K R) : List K := c.table.elems.map Prod.snd

/-- A result is stored only for an operation which is not in the cache (it was looked up before, and its
evaluation does not evaluate it again). (Model of the environment: what the user or the system does.) -/
def Valid (c : State K R) : Ev K R → Prop
  | .store k _ => k ∉ keys c
  | _ => True

/-- A history of a cache: events with what was observed. (Model of the environment: what the user or the system does.) -/
inductive Hist (size : BitVec 64) : List (Ev K R × Out K R) → State K R → Prop where
  | new {c : State K R} : new size = some c → Hist size [] c
  | step {h : List (Ev K R × Out K R)} {c c' : State K R} {e : Ev K R} {o : Out K R} :
      Hist size h c → Valid c e → exec hash c e = some (o, c') → Hist size ((e, o) :: h) c'

end

/-! ## The invariant -/

section
variable {K R : Type} [DecidableEq K] {hash : K → Nat}

/-- The invariant of a cache. (Proof device, not part of the code.) -/
structure Inv (hash : K → Nat) (c : State K R) : Prop where
  pos : 0 < c.maxSize
  ht : HT.Inv (hashE hash) eqE c.table
  table : ∀ s k, (s, k) ∈ c.table.elems ↔ ∃ x, c.slots s = some x ∧ x.op = k
  slots : ∀ s x, c.slots s = some x → s < c.maxSize ∧ (x.cit, s) ∈ c.lru
  nodup : (c.lru.map Prod.fst).Nodup
  fresh : ∀ n ∈ c.lru, n.1 < c.nextId ∧ n.2 < c.maxSize
  freeNodup : c.freeList.Nodup
  free : ∀ s, s ∈ c.freeList ↔ s < c.maxSize ∧ c.slots s = none
  count : c.freeList.length + c.table.size = c.maxSize

theorem compatE : HT.Compat (hashE hash) (eqE (K := K)) where
  refl := by intro x; simp [eqE]
  symm := by intro x y h; simp [eqE] at *; exact h.symm
  trans := by intro x y z h h'; simp [eqE] at *; exact h.trans h'
  hash := by intro x y h; simp [eqE] at h; simp [hashE, h]

theorem new_inv {size : BitVec 64} {c : State K R} (h : new size = some c) (h2 : size.toNat ≤ 2 ^ 63) :
    Inv hash c ∧ c.table.elems = [] ∧ c.lru = [] := by
  unfold new at h
  simp only at h
  split at h
  · cases h
  · rename_i hpos
    cases h
    have h1 : 1 ≤ size.toNat := by
      rcases Nat.eq_zero_or_pos size.toNat with h0 | h0
      · exfalso
        apply hpos
        simp only [HT.new, List.length_replicate, (nextPower64_spec size).zero h0]
        rfl
      · exact h0
    obtain ⟨i, e, _⟩ := HT.new_inv (hashE hash) (eqE (K := K)) h1 h2
    refine ⟨⟨by simp only; omega, i, ?_, by simp, by simp, by simp, List.nodup_range, by simp, ?_⟩, e, rfl⟩
    · intro s k
      simp only
      rw [e]
      simp
    · simp only [List.length_range, i.size, e]
      rfl

/-- The slot of an operation is unique. -/
theorem Inv.slot_unique {c : State K R} (h : Inv hash c) {s s' : Nat} {x x' : Entry K R}
    (hs : c.slots s = some x) (hs' : c.slots s' = some x') (e : x.op = x'.op) : s = s' := by
  have h1 := (h.table s x.op).2 ⟨x, hs, rfl⟩
  have h2 := (h.table s' x.op).2 ⟨x', hs', e.symm⟩
  have := (compatE (hash := hash)).unique (x := (s, x.op)) (by simp [eqE]) (by simp [eqE])
    h.ht.distinct h1 h2
  cases this
  rfl

theorem mem_keys {c : State K R} (h : Inv hash c) (k : K) :
    k ∈ keys c ↔ ∃ s x, c.slots s = some x ∧ x.op = k := by
  simp only [keys, List.mem_map, Prod.exists, exists_eq_right]
  exact exists_congr fun s => h.table s k

theorem find_cit {c : State K R} (h : Inv hash c) {s : Nat} {x : Entry K R} (hs : c.slots s = some x) :
    c.lru.find? (fun n => n.1 == x.cit) = some (x.cit, s) := by
  have hm := (h.slots s x hs).2
  have hn := h.nodup
  generalize c.lru = l at hm hn
  induction l with
  | nil => simp at hm
  | cons n l ih =>
    simp only [List.map_cons, List.nodup_cons] at hn
    rcases List.mem_cons.1 hm with rfl | hm
    · simp
    · have hne : n.1 ≠ x.cit := fun e => hn.1 (by rw [e]; exact List.mem_map_of_mem (f := Prod.fst) hm)
      rw [List.find?_cons, beq_eq_false_iff_ne.2 hne]
      exact ih hm hn.2

/-- The effect of a look-up. -/
theorem lookup_spec {c : State K R} (h : Inv hash c) (k : K) :
    (k ∉ keys c ∧ lookup hash k c = some (none, c)) ∨
    ∃ s x, c.slots s = some x ∧ x.op = k ∧ lookup hash k c = some (some x.res,
        { c with lru := c.lru.eraseP (fun n => n.1 == x.cit) ++ [(x.cit, s)] }) ∧
      (c.lru.eraseP (fun n => n.1 == x.cit) ++ [(x.cit, s)]).Perm c.lru := by
  have hk : ∀ y : Nat × K, (decide (k = y.2)) = true → hash k = hashE hash y := by
    intro y hy
    simp at hy
    simp [hashE, hy]
  obtain ⟨c1, c2, c3⟩ := HT.insertCheck_spec h.ht (k := k) (hashK := hash)
    (eqK := fun k (e : Nat × K) => decide (k = e.2)) hk
  unfold lookup
  match hr : HT.insertCheck hash (fun k (e : Nat × K) => decide (k = e.2)) k c.table with
  | none => exact absurd hr c3
  | some (none, i) =>
    refine .inl ⟨?_, rfl⟩
    intro hm
    obtain ⟨⟨s, k'⟩, hm', rfl⟩ := List.mem_map.1 hm
    have := (c2 i hr).1 _ hm'
    simp at this
  | some (some (s, k'), i) =>
    obtain ⟨hm, he⟩ := c1 _ i hr
    simp only [decide_eq_true_eq] at he
    subst he
    obtain ⟨x, hx, hop⟩ := (h.table s k).1 hm
    refine .inr ⟨s, x, hx, hop, ?_, ?_⟩
    · simp only [hx, find_cit h hx]
    · exact (List.perm_append_singleton _ _).trans (HT.perm_eraseP _ _ _ (find_cit h hx)).symm

theorem lookup_inv {c : State K R} (h : Inv hash c) {s : Nat} {x : Entry K R} (hp :
    (c.lru.eraseP (fun n => n.1 == x.cit) ++ [(x.cit, s)]).Perm c.lru) :
    Inv hash { c with lru := c.lru.eraseP (fun n => n.1 == x.cit) ++ [(x.cit, s)] } :=
  ⟨h.pos, h.ht, h.table, fun s y hs => ⟨(h.slots s y hs).1, hp.mem_iff.2 (h.slots s y hs).2⟩,
    (hp.map Prod.fst).nodup_iff.2 h.nodup, fun n hn => h.fresh n (hp.mem_iff.1 hn), h.freeNodup, h.free,
    h.count⟩

/-- The effect of an eviction, when the cache is full. -/
theorem evict_spec {c : State K R} (h : Inv hash c) (hfull : c.table.size = c.maxSize) :
    ∃ n lru x c', c.lru = n :: lru ∧ c.slots n.2 = some x ∧ evict hash c = some (x.op, c') ∧
      Inv hash c' ∧ c'.lru = lru ∧ c'.slots = Function.update c.slots n.2 none ∧
      c'.freeList = n.2 :: c.freeList ∧ c'.maxSize = c.maxSize ∧ c'.nextId = c.nextId ∧
      (∀ k, k ∈ keys c' ↔ k ∈ keys c ∧ k ≠ x.op) ∧ c'.table.size + 1 = c.table.size ∧
      c'.table.buckets.length = c.table.buckets.length := by
  have hfl : c.freeList = [] := by
    have := h.count
    exact List.length_eq_zero_iff.1 (by omega)
  have hlive : ∀ s, s < c.maxSize → ∃ x, c.slots s = some x := by
    intro s hs
    cases hx : c.slots s with
    | some x => exact ⟨x, rfl⟩
    | none =>
      have := (h.free s).2 ⟨hs, hx⟩
      rw [hfl] at this
      simp at this
  match hl : c.lru with
  | [] =>
    obtain ⟨x, hx⟩ := hlive 0 h.pos
    have := (h.slots 0 x hx).2
    rw [hl] at this
    simp at this
  | n :: lru =>
    obtain ⟨hn1, hn2⟩ := h.fresh n (by rw [hl]; exact List.mem_cons_self)
    obtain ⟨x, hx⟩ := hlive n.2 hn2
    have hin : (n.2, x.op) ∈ c.table.elems := (h.table n.2 x.op).2 ⟨x, hx, rfl⟩
    have hfind : c.table.elems.find? (eqE (n.2, x.op)) = some (n.2, x.op) := by
      cases hf : c.table.elems.find? (eqE (n.2, x.op)) with
      | none =>
        rw [List.find?_eq_none] at hf
        exact absurd ((compatE (hash := hash)).refl _) (hf _ hin)
      | some e =>
        rw [(compatE (hash := hash)).unique ((compatE (hash := hash)).refl _) (List.find?_some hf)
          h.ht.distinct hin (List.mem_of_find?_eq_some hf)]
    obtain ⟨t, et, it, mt, hb⟩ := (HT.erase_spec compatE h.ht (n.2, x.op)).2 _ hfind
    have hsz : t.size + 1 = c.table.size := by
      have := mt.length_eq
      have h1 := it.size
      have h2 := h.ht.size
      simp only [List.length_cons] at this
      omega
    have hmem : ∀ s k, (s, k) ∈ t.elems ↔ (s, k) ∈ c.table.elems ∧ s ≠ n.2 := by
      intro s k
      have hd := List.pairwise_cons.1 (((compatE (hash := hash)).perm_distinct mt).1 h.ht.distinct)
      constructor
      · intro hm
        have hm' := mt.mem_iff.2 (List.mem_cons_of_mem _ hm)
        refine ⟨hm', ?_⟩
        rintro rfl
        obtain ⟨y, hy, rfl⟩ := (h.table n.2 k).1 hm'
        rw [hx] at hy
        cases hy
        have := hd.1 _ hm
        simp [eqE] at this
      · rintro ⟨hm, hne⟩
        rcases List.mem_cons.1 (mt.mem_iff.1 hm) with e | hm
        · cases e
          exact absurd rfl hne
        · exact hm
    have hnd := h.nodup
    rw [hl, List.map_cons, List.nodup_cons] at hnd
    refine ⟨n, lru, x, { c with
          table := t
          slots := Function.update c.slots n.2 none
          freeList := n.2 :: c.freeList
          lru := lru }, rfl, hx, by simp only [evict, hl, hx, et], ?_, rfl, rfl, rfl, rfl, rfl, ?_, hsz, hb⟩
    · refine ⟨h.pos, it, ?_, ?_, hnd.2, ?_, ?_, ?_, ?_⟩
      · intro s k
        simp only
        rw [hmem, h.table s k]
        by_cases e : s = n.2
        · subst e
          simp
        · rw [Function.update_of_ne e]
          simp [e]
      · intro s y hs
        simp only at hs ⊢
        by_cases e : s = n.2
        · rw [e, Function.update_self] at hs
          cases hs
        · rw [Function.update_of_ne e] at hs
          obtain ⟨h1, h2⟩ := h.slots s y hs
          rw [hl] at h2
          refine ⟨h1, (List.mem_cons.1 h2).resolve_left ?_⟩
          rintro rfl
          exact e rfl
      · intro m hm
        exact h.fresh m (by rw [hl]; exact List.mem_cons_of_mem _ hm)
      · simp only [hfl]
        simp
      · intro s
        simp only [hfl, List.mem_singleton]
        by_cases e : s = n.2
        · subst e
          simp [hn2]
        · rw [Function.update_of_ne e]
          simp only [e, false_iff, not_and]
          intro hs hnone
          obtain ⟨y, hy⟩ := hlive s hs
          rw [hy] at hnone
          cases hnone
      · simp only [List.length_cons]
        have := h.count
        omega
    · intro k
      simp only [keys, List.mem_map, Prod.exists, exists_eq_right, hmem]
      constructor
      · rintro ⟨s, hs, hne⟩
        refine ⟨⟨s, hs⟩, ?_⟩
        rintro rfl
        obtain ⟨y, hy, e⟩ := (h.table s x.op).1 hs
        exact hne (h.slot_unique hy hx e)
      · rintro ⟨⟨s, hs⟩, hne⟩
        refine ⟨s, hs, ?_⟩
        rintro rfl
        obtain ⟨y, hy, e⟩ := (h.table n.2 k).1 hs
        rw [hx] at hy
        cases hy
        exact hne e.symm

/-- The effect of an insertion, when the cache is not full. -/
theorem add_spec {c : State K R} (h : Inv hash c) (hfull : c.table.size ≠ c.maxSize) {k : K}
    (hk : k ∉ keys c) (r : R) :
    ∃ s c', add hash k r c = some c' ∧ Inv hash c' ∧ c.slots s = none ∧
      c'.slots = Function.update c.slots s (some ⟨k, r, c.nextId⟩) ∧
      c'.lru = c.lru ++ [(c.nextId, s)] ∧ c'.maxSize = c.maxSize ∧ c'.nextId = c.nextId + 1 ∧
      (∀ j, j ∈ keys c' ↔ j ∈ keys c ∨ j = k) ∧ c'.table.size = c.table.size + 1 := by
  match hfl : c.freeList with
  | [] =>
    have := h.count
    rw [hfl] at this
    simp at this
    exact absurd this hfull
  | s :: fl =>
    obtain ⟨hs1, hs2⟩ := (h.free s).1 (by rw [hfl]; exact List.mem_cons_self)
    have hx : ∀ y ∈ c.table.elems, eqE (s, k) y = false := by
      intro y hy
      simp only [eqE, decide_eq_false_iff_not]
      rintro rfl
      exact hk (List.mem_map_of_mem hy)
    obtain ⟨t, et, it, mt, hb⟩ := HT.insertCommit_spec compatE h.ht (x := (s, k))
      (i := HT.pos hash c.table.buckets.length k) rfl hx
    have hsz : t.size = c.table.size + 1 := by
      have := mt.length_eq
      have h1 := it.size
      have h2 := h.ht.size
      simp only [List.length_cons] at this
      omega
    have hnd := h.freeNodup
    rw [hfl, List.nodup_cons] at hnd
    refine ⟨s, { c with
        table := t
        slots := Function.update c.slots s (some ⟨k, r, c.nextId⟩)
        freeList := fl
        lru := c.lru ++ [(c.nextId, s)]
        nextId := c.nextId + 1 }, by simp only [add, hfl, et, Option.map_some], ?_, hs2, rfl, rfl, rfl, rfl, ?_, hsz⟩
    · refine ⟨h.pos, it, ?_, ?_, ?_, ?_, hnd.2, ?_, ?_⟩
      · intro s' k'
        simp only
        rw [mt.mem_iff, List.mem_cons, h.table s' k']
        by_cases e : s' = s
        · subst e
          rw [Function.update_self, hs2]
          simp [eq_comm]
        · rw [Function.update_of_ne e]
          simp [e]
      · intro s' y hs'
        simp only at hs' ⊢
        by_cases e : s' = s
        · subst e
          rw [Function.update_self] at hs'
          cases hs'
          exact ⟨hs1, by simp⟩
        · rw [Function.update_of_ne e] at hs'
          obtain ⟨h1, h2⟩ := h.slots s' y hs'
          exact ⟨h1, List.mem_append_left _ h2⟩
      · simp only [List.map_append, List.map_cons, List.map_nil]
        rw [List.nodup_append]
        refine ⟨h.nodup, by simp, ?_⟩
        intro a ha b hb
        simp only [List.mem_singleton] at hb
        subst hb
        obtain ⟨n, hn, rfl⟩ := List.mem_map.1 ha
        have := (h.fresh n hn).1
        omega
      · intro n hn
        simp only
        rcases List.mem_append.1 hn with hn | hn
        · have := h.fresh n hn
          exact ⟨by omega, this.2⟩
        · simp only [List.mem_singleton] at hn
          subst hn
          exact ⟨by simp, hs1⟩
      · intro s'
        simp only
        have h1 := h.free s'
        rw [hfl, List.mem_cons] at h1
        by_cases e : s' = s
        · subst e
          rw [Function.update_self]
          simp [hnd.1]
        · rw [Function.update_of_ne e, ← h1]
          simp [e]
      · simp only
        have := h.count
        rw [hfl, List.length_cons] at this
        omega
    · intro j
      simp only [keys, List.mem_map, Prod.exists, exists_eq_right, mt.mem_iff, List.mem_cons,
        Prod.mk.injEq]
      constructor
      · rintro ⟨s', ⟨_, e⟩ | h⟩
        · exact .inr e
        · exact .inl ⟨s', h⟩
      · rintro (⟨s', h⟩ | e)
        · exact ⟨s', .inr h⟩
        · exact ⟨s, .inl ⟨rfl, e⟩⟩

/-- The effect of a removal of all entries. -/
theorem clear_inv {c : State K R} (h : Inv hash c) : Inv hash (clear c) ∧ keys (clear c) = [] := by
  obtain ⟨e1, it, e2, hb⟩ := HT.clear_spec h.ht
  have hmem : ∀ s, s ∈ c.table.clear.1.map Prod.fst ↔ ∃ x, c.slots s = some x := by
    intro s
    rw [e1]
    simp only [List.mem_map, Prod.exists, exists_and_right, exists_eq_right]
    constructor
    · rintro ⟨k, hk⟩
      obtain ⟨x, hx, _⟩ := (h.table s k).1 hk
      exact ⟨x, hx⟩
    · rintro ⟨x, hx⟩
      exact ⟨x.op, (h.table s x.op).2 ⟨x, hx, rfl⟩⟩
  have hnone : ∀ s, (if s ∈ c.table.clear.1.map Prod.fst then none else c.slots s) = none := by
    intro s
    split
    · rfl
    · rename_i hs
      rw [hmem] at hs
      cases hx : c.slots s with
      | none => rfl
      | some x => exact absurd ⟨x, hx⟩ hs
  have hnd : (c.table.clear.1.map Prod.fst).Nodup := by
    rw [e1, List.Nodup, List.pairwise_map]
    refine h.ht.distinct.imp_of_mem fun {a b} ha hb hab => ?_
    intro e
    obtain ⟨x, hx, hxo⟩ := (h.table a.1 a.2).1 ha
    obtain ⟨y, hy, hyo⟩ := (h.table b.1 b.2).1 hb
    rw [e, hy] at hx
    cases hx
    rw [hxo] at hyo
    simp [eqE, hyo] at hab
  have hsz : (c.table.clear.2).size = 0 := by
    rw [it.size, e2]
    rfl
  refine ⟨⟨h.pos, it, ?_, ?_, h.nodup, h.fresh, ?_, ?_, ?_⟩, ?_⟩
  · intro s k
    simp only [clear, hnone]
    rw [e2]
    simp
  · intro s x hs
    simp only [clear, hnone] at hs
    cases hs
  · simp only [clear]
    rw [List.nodup_append]
    refine ⟨List.pairwise_reverse.2 (hnd.imp Ne.symm), h.freeNodup, ?_⟩
    intro a ha b hb e
    subst e
    rw [List.mem_reverse, hmem] at ha
    obtain ⟨x, hx⟩ := ha
    have := ((h.free a).1 hb).2
    rw [hx] at this
    cases this
  · intro s
    simp only [clear, hnone]
    rw [List.mem_append, List.mem_reverse, hmem, h.free s]
    constructor
    · rintro (⟨x, hx⟩ | h)
      · exact ⟨(h.slots s x hx).1, trivial⟩
      · exact ⟨h.1, trivial⟩
    · rintro ⟨hs, _⟩
      cases hx : c.slots s with
      | none => exact .inr ⟨hs, rfl⟩
      | some x => exact .inl ⟨x, rfl⟩
  · simp only [clear, hsz, List.length_append, List.length_reverse, List.length_map]
    rw [e1, ← h.ht.size]
    have := h.count
    omega
  · simp only [keys, clear]
    rw [e2]
    rfl

end
end Cache
end Verif
