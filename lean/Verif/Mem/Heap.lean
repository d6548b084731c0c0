import Verif.Mem.HashTable
import Mathlib.Algebra.BigOperators.Group.List.Basic
import Mathlib.Data.List.Nodup
/-!
# Unified, reference-counted data

`mem::unique`, `mem::ptr` and `mem::unique_table` (`/repo/sdd/mem/unique.hh`, `/repo/sdd/mem/ptr.hh`,
`/repo/sdd/mem/unique_table.hh`), with the deletion handlers of `/repo/sdd/internal_manager.hh:51-64`.

A unified datum is a label and a list of pointers to other unified data: a node of an SDD is its
variable and kind with the pointers of its arcs (values and successors); a set of values is a label only.
Equality and hash of data are those of the label and of the list of *addresses*.

Simplifications: there is one unique table for all types of data (the code has one per type, and objects of
different types have different labels); reference counters are natural numbers (`uint32_t` in the code,
an overflow needs 2^32 handles on the same datum); a system allocation always succeeds (`Mem/Oom.lean` is about those which fail).

Undefined behaviours (access to a freed object, decrement of a zero counter, data to erase not found,
construction in a block which is too small, double free, copy of a moved-from handle) are the result
`none`.
-/

set_option autoImplicit false
set_option linter.unusedSectionVars false

namespace Verif

/-- Memory addresses. (`Unique*` in `/repo/sdd/mem/ptr.hh`, line 72.) -/
abbrev Addr := Nat

namespace Heap

/-- The data of an object: `data_`, `/repo/sdd/mem/unique.hh:59`. -/
abbrev Key (L : Type) := L × List Addr

/-- An object in memory.  `birth` is a ghost field: the date of its construction. (`/repo/sdd/mem/unique.hh`, lines 28-60.) -/
structure Cell (L : Type) where
  key : Key L
  birth : Nat
  deriving DecidableEq

/-- The state of a variable of type `ptr`, `/repo/sdd/mem/ptr.hh:72`: out of its lifetime, null (moved
from), or pointing to an object. -/
inductive Slot : Type where
  | dead
  | moved
  | live (a : Addr)
  deriving DecidableEq

/-- What remains to be done during a cascade of deletions: the destruction of a `ptr` and the release of
the memory of an object, `/repo/sdd/mem/unique_table.hh:154-155`. -/
inductive Item : Type where
  | dec (a : Addr)
  | free (a : Addr)
  deriving DecidableEq

/-- The memory: the blocks given by the system with their size, the objects, their reference counters
(`ref_count_`, `/repo/sdd/mem/unique.hh:53`), the unique table (`set_`), the block kept by the unique
table with the size it recorded (`cache_`, `cache_size_`, `/repo/sdd/mem/unique_table.hh:75-78`), the
variables of the program.  `clock` is a ghost field. -/
structure State (L : Type) where
  blocks : List (Addr × Nat)
  cells : Addr → Option (Cell L)
  refs : Addr → Nat
  table : HT (Addr × Key L)
  spare : Option (Addr × Nat)
  vars : List Slot
  clock : Nat

section
variable {L : Type} [DecidableEq L] (hash : Key L → Nat) (bytes : Key L → Nat)

/-- `std::hash<unique>`, `/repo/sdd/mem/unique.hh:126-135`. -/
def hashE (e : Addr × Key L) : Nat := hash e.2

/-- `operator==` on `unique`, `/repo/sdd/mem/unique.hh:85-92`. -/
def eqE (e f : Addr × Key L) : Bool := decide (e.2 = f.2)

/-- `increment_reference_counter`, `/repo/sdd/mem/unique.hh:94-101`. -/
def inc (a : Addr) (s : State L) : Option (State L) :=
  match s.cells a with
  | none => none
  | some _ => some { s with refs := Function.update s.refs a (s.refs a + 1) }

/-- The increments of a list of copies of handles. (`/repo/sdd/mem/ptr.hh`, lines 86-92, for each pointer of a new datum.) -/
def incs (as : List Addr) (s : State L) : Option (State L) := as.foldlM (fun s a => inc a s) s

/-- `delete[]` of the block of an object which has been destroyed, `/repo/sdd/mem/unique_table.hh:155`. -/
def free (a : Addr) (s : State L) : Option (State L) :=
  if s.blocks.any (fun b => b.1 == a) then
    some { s with
      blocks := s.blocks.eraseP (fun b => b.1 == a)
      cells := Function.update s.cells a none }
  else none

/-- The destruction of a handle and what it entails: decrement, and if the counter is null the deletion
handler which removes the datum from the table, destroys its data (the pointers it contains, from the first to the last) and
releases its memory.  `/repo/sdd/mem/ptr.hh:140-150`, `/repo/sdd/mem/unique_table.hh:147-155`. -/
def destroy : Nat → List Item → State L → Option (State L)
  | _, [], s => some s
  | 0, _ :: _, _ => none
  | n + 1, .free a :: is, s => (free a s).bind (destroy n is)
  | n + 1, .dec a :: is, s =>
    match s.cells a with
    | none => none
    | some c =>
      if s.refs a = 0 then none
      else
        let s' := { s with refs := Function.update s.refs a (s.refs a - 1) }
        if s.refs a = 1 then
          match HT.erase (hashE hash) eqE (a, c.key) s'.table with
          | none => none
          | some t => destroy n (c.key.2.map Item.dec ++ Item.free a :: is) { s' with table := t }
        else destroy n is s'

/-- A bound on the number of steps of a cascade (the recursion of the code needs no bound; this one is
proved sufficient). (Proof device, not part of the code.) -/
def steps (s : State L) : Nat := (s.blocks.map fun b => s.refs b.1 + 1).sum

/-- The destruction of one handle. (`/repo/sdd/mem/ptr.hh`, lines 140-150.) -/
def drop (a : Addr) (s : State L) : Option (State L) := destroy hash (steps s) [.dec a] s

/-- `allocate`, `/repo/sdd/mem/unique_table.hh:126-142`; `fr` is the block the system would give. -/
def allocate (n : Nat) (fr : Addr) (s : State L) : Addr × State L :=
  match s.spare with
  | some (a, m) =>
    if n ≤ m then (a, { s with spare := none })
    else (fr, { s with blocks := (fr, n) :: s.blocks })
  | none => (fr, { s with blocks := (fr, n) :: s.blocks })

/-- The release of a block which is not an object. (`/repo/sdd/mem/unique_table.hh`, lines 105-115.) -/
def release (a : Addr) (s : State L) : Option (State L) :=
  if s.blocks.any (fun b => b.1 == a) then
    some { s with blocks := s.blocks.eraseP (fun b => b.1 == a) }
  else none

/-- What happens to the block of a datum which was already in the table,
`/repo/sdd/mem/unique_table.hh:103-115`. -/
def recycle (a : Addr) (n : Nat) (s : State L) : Option (State L) :=
  match s.spare with
  | some (b, m) =>
    if m < n then (release b s).map fun s' => { s' with spare := some (a, n) }
    else release a s
  | none => some { s with spare := some (a, n) }

/-- The construction of a datum in the memory given by `allocate` and its unification,
`/repo/sdd/dd/definition.hh:473-487` and `/repo/sdd/mem/unique_table.hh:94-123`: the address of the unified
datum.  A null `cache_` has size 0 and data have at least one byte, hence the case of `none` in
`recycle`. -/
def unify (l : L) (kids : List Addr) (fr : Addr) (s : State L) : Option (Addr × State L) :=
  let k : Key L := (l, kids)
  let r := allocate (bytes k) fr s
  -- the construction
  if r.2.blocks.any (fun b => b.1 == r.1 && decide (bytes k ≤ b.2)) then
    match incs kids r.2 with
    | none => none
    | some s1 =>
      match HT.insert (hashE hash) eqE (r.1, k) s1.table with
      | none => none
      | some ((_, true), t) =>
        some (r.1, { s1 with
          table := t
          cells := Function.update s1.cells r.1 (some ⟨k, s1.clock⟩)
          refs := Function.update s1.refs r.1 0
          clock := s1.clock + 1 })
      | some ((e, false), t) =>
        -- the destructor of the new datum
        match destroy hash (kids.length + steps s1) (kids.map Item.dec) { s1 with table := t } with
        | none => none
        | some s2 => (recycle r.1 (bytes k) s2).map fun s3 => (e.1, s3)
  else none

/-- The pointer of a handle which can be copied, `/repo/sdd/mem/ptr.hh:90,99`. -/
def target (s : State L) (v : Nat) : Option Addr :=
  match s.vars[v]? with
  | some (.live a) => some a
  | _ => none

/-- The pointer number `i` of the data of the object at an address, read through a reference to it, as given by `arc::valuation()`
(`/repo/sdd/dd/alpha.hh:44-50`) or `arc::successor()` (`/repo/sdd/dd/alpha.hh:52-58`); `none`: the object is not in memory, or it does
not have this pointer. -/
def load (s : State L) (a : Addr) (i : Nat) : Option Addr := (s.cells a).bind fun c => c.key.2[i]?

/-- The part number `i` of the datum held by a handle. (`/repo/sdd/dd/alpha.hh`, lines 44-58.) -/
def part (s : State L) (w i : Nat) : Option Addr := (target s w).bind fun a => load s a i

/-- The statements of a program on its handles. (Special members of `/repo/sdd/mem/ptr.hh`, lines 76-150, and creation of unified data.) -/
inductive Op (L : Type) : Type where
  /-- `v` is constructed with the unification of a datum; the pointers are copied from `ks`. `fr` is the
  block the system would allocate. -/
  | create (v : Nat) (l : L) (ks : List Nat) (fr : Addr)
  | copy (v w : Nat)
  | move (v w : Nat)
  | copyAssign (v w : Nat)
  | moveAssign (v w : Nat)
  | destroy (v : Nat)
  | swap (v w : Nat)
  /-- `v` is constructed with a copy of the part number `i` of the datum of `w`. -/
  | read (v w i : Nat)
  /-- the part number `i` of the datum of `w` is assigned to `v`, from a reference to this part -/
  | readAssign (v w i : Nat)

/-- The execution of a statement. (`/repo/sdd/mem/ptr.hh`, lines 76-150.) -/
def exec (s : State L) : Op L → Option (State L)
  | .create v l ks fr =>
    -- `/repo/sdd/mem/ptr.hh:76-82` for the last increment
    match s.vars[v]?, ks.mapM (target s) with
    | some .dead, some kids =>
      match unify hash bytes l kids fr s with
      | none => none
      | some (a, s') => (inc a s').map fun s'' => { s'' with vars := s''.vars.set v (.live a) }
    | _, _ => none
  | .copy v w =>
    -- `/repo/sdd/mem/ptr.hh:85-92`
    match s.vars[v]?, target s w with
    | some .dead, some a => (inc a s).map fun s' => { s' with vars := s'.vars.set v (.live a) }
    | _, _ => none
  | .move v w =>
    -- `/repo/sdd/mem/ptr.hh:114-119`
    match s.vars[v]?, s.vars[w]? with
    | some .dead, some .moved => some { s with vars := s.vars.set v .moved }
    | some .dead, some (.live a) => some { s with vars := (s.vars.set v (.live a)).set w .moved }
    | _, _ => none
  | .copyAssign v w =>
    -- `/repo/sdd/mem/ptr.hh:95-111`: the destination still has its old value during the deletion, which
    -- does not read it
    match s.vars[v]?, target s w with
    | some .moved, some b => (inc b s).map fun s' => { s' with vars := s'.vars.set v (.live b) }
    | some (.live a), some b =>
      match drop hash a s with
      | none => none
      | some s1 => (inc b s1).map fun s' => { s' with vars := s'.vars.set v (.live b) }
    | _, _ => none
  | .moveAssign v w =>
    -- `/repo/sdd/mem/ptr.hh:122-137`
    match s.vars[v]?, s.vars[w]? with
    | some .moved, some x =>
      if x = .dead then none else some { s with vars := (s.vars.set v x).set w .moved }
    | some (.live a), some x =>
      if x = .dead then none
      else (drop hash a s).map fun s1 => { s1 with vars := (s1.vars.set v x).set w .moved }
    | _, _ => none
  | .destroy v =>
    -- `/repo/sdd/mem/ptr.hh:140-150`
    match s.vars[v]? with
    | some .moved => some { s with vars := s.vars.set v .dead }
    | some (.live a) => (drop hash a s).map fun s1 => { s1 with vars := s1.vars.set v .dead }
    | _ => none
  | .swap v w =>
    -- `/repo/sdd/mem/ptr.hh:168-193`
    match s.vars[v]?, s.vars[w]? with
    | some x, some y =>
      if x = .dead ∨ y = .dead then none else some { s with vars := (s.vars.set v y).set w x }
    | _, _ => none
  | .read v w i =>
    -- `/repo/sdd/mem/ptr.hh:85-92`
    match s.vars[v]?, part s w i with
    | some .dead, some k => (inc k s).map fun s' => { s' with vars := s'.vars.set v (.live k) }
    | _, _ => none
  | .readAssign v w i =>
    -- `/repo/sdd/mem/ptr.hh:95-111`: `other` is a reference to a pointer of the datum of `w`, read at line 99 and, after the
    -- deletion, at line 108
    match s.vars[v]?, target s w with
    | some .moved, some b =>
      (load s b i).bind fun k => (inc k s).map fun s' => { s' with vars := s'.vars.set v (.live k) }
    | some (.live a), some b =>
      if (load s b i).isNone then none
      else
        match drop hash a s with
        | none => none
        | some s1 => (load s1 b i).bind fun k => (inc k s1).map fun s' => { s' with vars := s'.vars.set v (.live k) }
    | _, _ => none

/-- The initial state: no object, `n` variables which are not constructed yet. (`/repo/sdd/mem/unique_table.hh`, lines 84-86.) -/
def init (size : BitVec 64) (n : Nat) : State L where
  blocks := []
  cells := fun _ => none
  refs := fun _ => 0
  table := HT.new size
  spare := none
  vars := List.replicate n .dead
  clock := 0

/-- What a program may do: variables are constructed once, only used in their lifetime, never copied when
moved from and never assigned to themselves, nor assigned a reference to a part of themselves; the system gives blocks which are not in use.
(Model of the environment: what the user or the system does.) -/
def Valid (s : State L) : Op L → Prop
  | .create v _ ks fr => s.vars[v]? = some .dead ∧ (∀ k ∈ ks, ∃ a, s.vars[k]? = some (.live a)) ∧
      fr ∉ s.blocks.map Prod.fst
  | .copy v w => s.vars[v]? = some .dead ∧ ∃ a, s.vars[w]? = some (.live a)
  | .move v w => s.vars[v]? = some .dead ∧ ∃ x, s.vars[w]? = some x ∧ x ≠ .dead
  | .copyAssign v w => v ≠ w ∧ (∃ x, s.vars[v]? = some x ∧ x ≠ .dead) ∧ ∃ a, s.vars[w]? = some (.live a)
  | .moveAssign v w => v ≠ w ∧ (∃ x, s.vars[v]? = some x ∧ x ≠ .dead) ∧
      ∃ x, s.vars[w]? = some x ∧ x ≠ .dead
  | .destroy v => ∃ x, s.vars[v]? = some x ∧ x ≠ .dead
  | .swap v w => (∃ x, s.vars[v]? = some x ∧ x ≠ .dead) ∧ ∃ x, s.vars[w]? = some x ∧ x ≠ .dead
  | .read v w i => s.vars[v]? = some .dead ∧ ∃ k, part s w i = some k
  | .readAssign v w i => v ≠ w ∧ (∃ x, s.vars[v]? = some x ∧ x ≠ .dead) ∧ ∃ k, part s w i = some k

/-- The states of a program. (Model of the environment: what the user or the system does.) -/
inductive Reach (size : BitVec 64) (n : Nat) : State L → Prop where
  | init : Reach size n (init size n)
  | step {s s' : State L} {op : Op L} : Reach size n s → Valid s op →
      exec hash bytes s op = some s' → Reach size n s'

end

/-! ## The invariant -/

section
variable {L : Type} [DecidableEq L] {hash : Key L → Nat} {bytes : Key L → Nat}

/-- The number of pointers to an address in the data of the table. (Proof device, not part of the code.) -/
def inTable (a : Addr) (l : List (Addr × Key L)) : Nat := (l.map fun e => e.2.2.count a).sum

/-- The invariant, during a cascade of deletions where `P` remains to be done. (Proof device, not part of the code.) -/
structure Inv (hash : Key L → Nat) (P : List Item) (s : State L) : Prop where
  nodup : (s.blocks.map Prod.fst).Nodup
  alloc : ∀ a, a ∈ s.blocks.map Prod.fst ↔ (s.cells a).isSome ∨ ∃ n, s.spare = some (a, n)
  spareFree : ∀ a n, s.spare = some (a, n) → s.cells a = none
  spareSize : ∀ a n, s.spare = some (a, n) → ∃ m, n ≤ m ∧ (a, m) ∈ s.blocks
  ht : HT.Inv (hashE hash) eqE s.table
  table : ∀ a k, (a, k) ∈ s.table.elems ↔ ∃ c, s.cells a = some c ∧ c.key = k ∧ Item.free a ∉ P
  birth : ∀ a c, s.cells a = some c → c.birth < s.clock
  kids : ∀ a c, s.cells a = some c → Item.free a ∉ P → ∀ k ∈ c.key.2,
    ∃ c', s.cells k = some c' ∧ Item.free k ∉ P ∧ c'.birth < c.birth
  handles : ∀ a, Slot.live a ∈ s.vars → ∃ c, s.cells a = some c ∧ Item.free a ∉ P
  pend : ∀ a, Item.dec a ∈ P → ∃ c, s.cells a = some c ∧ Item.free a ∉ P
  refs : ∀ a c, s.cells a = some c → Item.free a ∉ P →
    s.refs a = s.vars.count (.live a) + inTable a s.table.elems + P.count (.dec a) ∧ 0 < s.refs a
  freed : ∀ a, Item.free a ∈ P → s.refs a = 0 ∧ (s.cells a).isSome ∧ P.count (.free a) = 1

theorem compatE : HT.Compat (hashE hash) (eqE (L := L)) where
  refl := by intro x; simp [eqE]
  symm := by intro x y h; simp [eqE] at *; exact h.symm
  trans := by intro x y z h h'; simp [eqE] at *; exact h.trans h'
  hash := by intro x y h; simp [eqE] at h; simp [hashE, h]

theorem mem_eraseP_blocks {bs : List (Addr × Nat)} (h : (bs.map Prod.fst).Nodup) (a : Addr) (b : Addr × Nat) :
    b ∈ bs.eraseP (fun b => b.1 == a) ↔ b ∈ bs ∧ b.1 ≠ a := by
  induction bs with
  | nil => simp
  | cons x bs ih =>
    simp only [List.map_cons, List.nodup_cons] at h
    rw [List.eraseP_cons]
    by_cases hx : x.1 = a
    · subst hx
      simp only [beq_self_eq_true, cond_true, List.mem_cons]
      constructor
      · intro hb
        exact ⟨.inr hb, fun e => h.1 (by rw [← e]; exact List.mem_map_of_mem hb)⟩
      · rintro ⟨rfl | hb, hne⟩
        · exact absurd rfl hne
        · exact hb
    · simp only [beq_eq_false_iff_ne.2 hx, cond_false, List.mem_cons, ih h.2]
      constructor
      · rintro (rfl | ⟨hb, hne⟩)
        · exact ⟨.inl rfl, hx⟩
        · exact ⟨.inr hb, hne⟩
      · rintro ⟨rfl | hb, hne⟩
        · exact .inl rfl
        · exact .inr ⟨hb, hne⟩

theorem nodup_eraseP_blocks {bs : List (Addr × Nat)} (h : (bs.map Prod.fst).Nodup) (p : Addr × Nat → Bool) :
    ((bs.eraseP p).map Prod.fst).Nodup :=
  h.sublist ((List.eraseP_sublist).map _)

theorem sum_eraseP {bs : List (Addr × Nat)} {a : Addr} (f : Addr × Nat → Nat)
    (h : bs.any (fun b => b.1 == a) = true) : ∃ b, b.1 = a ∧
    (bs.map f).sum = f b + ((bs.eraseP fun b => b.1 == a).map f).sum := by
  induction bs with
  | nil => simp at h
  | cons x bs ih =>
    rw [List.eraseP_cons]
    by_cases hx : x.1 = a
    · exact ⟨x, hx, by simp [hx]⟩
    · rw [List.any_cons, beq_eq_false_iff_ne.2 hx, Bool.false_or] at h
      obtain ⟨b, e, hs⟩ := ih h
      refine ⟨b, e, ?_⟩
      simp only [beq_eq_false_iff_ne.2 hx, cond_false, List.map_cons, List.sum_cons, hs]
      omega

theorem sum_update {bs : List (Addr × Nat)} {refs : Addr → Nat} {a : Addr}
    (h : (bs.map Prod.fst).Nodup) (ha : a ∈ bs.map Prod.fst) (hr : 0 < refs a) :
    (bs.map fun b => refs b.1 + 1).sum =
      (bs.map fun b => Function.update refs a (refs a - 1) b.1 + 1).sum + 1 := by
  induction bs with
  | nil => simp at ha
  | cons x bs ih =>
    simp only [List.map_cons, List.nodup_cons, List.mem_cons, List.sum_cons] at *
    by_cases hx : x.1 = a
    · subst hx
      have : (bs.map fun b => Function.update refs x.1 (refs x.1 - 1) b.1 + 1) =
          bs.map fun b => refs b.1 + 1 := by
        refine List.map_congr_left fun b hb => ?_
        rw [Function.update_of_ne]
        intro e
        exact h.1 (by rw [← e]; exact List.mem_map_of_mem hb)
      rw [this, Function.update_self]
      omega
    · rw [Function.update_of_ne hx, ih h.2 (ha.resolve_left fun e => hx e.symm)]
      omega

theorem inTable_perm {a : Addr} {l l' : List (Addr × Key L)} (h : l.Perm l') :
    inTable a l = inTable a l' := (h.map _).sum_eq

theorem inTable_cons (a : Addr) (e : Addr × Key L) (l : List (Addr × Key L)) :
    inTable a (e :: l) = e.2.2.count a + inTable a l := by
  simp [inTable]

theorem inTable_pos {a : Addr} {l : List (Addr × Key L)} {e : Addr × Key L} (he : e ∈ l)
    (ha : a ∈ e.2.2) : 0 < inTable a l := by
  induction l with
  | nil => simp at he
  | cons x l ih =>
    rw [inTable_cons]
    rcases List.mem_cons.1 he with rfl | he
    · have := List.count_pos_iff.2 ha
      omega
    · have := ih he
      omega

theorem count_map_dec (a : Addr) (ks : List Addr) : (ks.map Item.dec).count (Item.dec a) = ks.count a := by
  induction ks with
  | nil => rfl
  | cons k ks ih => simp [List.count_cons, ih]

theorem count_map_free (a : Addr) (ks : List Addr) : (ks.map Item.dec).count (Item.free a) = 0 := by
  rw [List.count_eq_zero]
  simp

theorem Inv.find {P : List Item} {s : State L} (h : Inv hash P s) {a : Addr} {k : Key L}
    (ha : (a, k) ∈ s.table.elems) : s.table.elems.find? (eqE (a, k)) = some (a, k) := by
  cases hf : s.table.elems.find? (eqE (a, k)) with
  | none =>
    rw [List.find?_eq_none] at hf
    exact absurd (compatE (hash := hash).refl (a, k)) (hf _ ha)
  | some e =>
    rw [(compatE (hash := hash)).unique ((compatE (hash := hash)).refl (a, k)) (List.find?_some hf)
      h.ht.distinct ha (List.mem_of_find?_eq_some hf)]

/-- A cascade of deletions ends, does not meet an undefined behaviour and keeps the invariant. What is pointed to by
variables is not deleted. -/
theorem destroy_inv : ∀ (n : Nat) (P : List Item) (s : State L), Inv hash P s → steps s ≤ n →
    ∃ s', destroy hash n P s = some s' ∧ Inv hash [] s' ∧ s'.vars = s.vars ∧ s'.spare = s.spare ∧
      s'.clock = s.clock ∧ (∀ a c, s'.cells a = some c → s.cells a = some c) ∧
      s'.blocks.Sublist s.blocks := by
  intro n
  induction n with
  | zero =>
    intro P s h hn
    cases P with
    | nil => exact ⟨s, rfl, h, rfl, rfl, rfl, fun _ _ h => h, .refl _⟩
    | cons i P =>
      exfalso
      have hb : s.blocks = [] := by
        cases hb : s.blocks with
        | nil => rfl
        | cons b bs =>
          simp only [steps, hb, List.map_cons, List.sum_cons] at hn
          omega
      have hc : ∀ a, (s.cells a).isSome → False := fun a ha => by
        have := (h.alloc a).2 (.inl ha)
        rw [hb] at this
        simp at this
      cases i with
      | dec a =>
        obtain ⟨c, e, _⟩ := h.pend a List.mem_cons_self
        exact hc a (by rw [e]; rfl)
      | free a => exact hc a (h.freed a List.mem_cons_self).2.1
  | succ n ih =>
    intro P s h hn
    cases P with
    | nil => exact ⟨s, rfl, h, rfl, rfl, rfl, fun _ _ h => h, .refl _⟩
    | cons i P =>
      cases i with
      | free a =>
        obtain ⟨h0, hsome, hcount⟩ := h.freed a List.mem_cons_self
        have hnot : Item.free a ∉ P := by
          rw [List.count_cons_self] at hcount
          exact List.count_eq_zero.1 (by omega)
        have hmem := (h.alloc a).2 (.inl hsome)
        have hany : s.blocks.any (fun b => b.1 == a) = true := by
          rw [List.any_eq_true]
          obtain ⟨b, hb, rfl⟩ := List.mem_map.1 hmem
          exact ⟨b, hb, by simp⟩
        have hne : ∀ {b : Addr}, Item.free b ∉ Item.free a :: P → b ≠ a := fun hb e =>
          hb (by rw [e]; exact List.mem_cons_self)
        have hne' : ∀ {b : Addr}, Item.free b ∉ P → b ≠ a → Item.free b ∉ Item.free a :: P :=
          fun hb e hm => by
            rcases List.mem_cons.1 hm with e' | hm
            · cases e'; exact e rfl
            · exact hb hm
        have hno : ∀ {b : Addr}, Item.free b ∉ Item.free a :: P → Item.free b ∉ P :=
          fun hb hm => hb (List.mem_cons_of_mem _ hm)
        have hcell : ∀ {b : Addr} {c : Cell L}, Function.update s.cells a none b = some c →
            s.cells b = some c ∧ b ≠ a := fun {b c} e => by
          by_cases hb : b = a
          · rw [hb, Function.update_self] at e; cases e
          · rw [Function.update_of_ne hb] at e; exact ⟨e, hb⟩
        have hinv : Inv hash P { s with
            blocks := s.blocks.eraseP (fun b => b.1 == a)
            cells := Function.update s.cells a none } := by
          refine ⟨nodup_eraseP_blocks h.nodup _, ?_, ?_, ?_, h.ht, ?_, ?_, ?_, ?_, ?_, ?_, ?_⟩
          · intro b
            simp only
            have h1 : b ∈ (s.blocks.eraseP fun b => b.1 == a).map Prod.fst ↔
                b ∈ s.blocks.map Prod.fst ∧ b ≠ a := by
              simp only [List.mem_map, mem_eraseP_blocks h.nodup]
              constructor
              · rintro ⟨x, ⟨hx, hxa⟩, rfl⟩
                exact ⟨⟨x, hx, rfl⟩, hxa⟩
              · rintro ⟨⟨x, hx, rfl⟩, hxa⟩
                exact ⟨x, ⟨hx, hxa⟩, rfl⟩
            rw [h1, h.alloc b]
            by_cases hb : b = a
            · subst hb
              simp only [ne_eq, not_true_eq_false, and_false, Function.update_self, Option.isSome_none,
                Bool.false_eq_true, false_or, false_iff, not_exists]
              intro m e
              rw [h.spareFree b m e] at hsome
              cases hsome
            · rw [Function.update_of_ne hb]
              simp [hb]
          · intro b m e
            by_cases hb : b = a
            · rw [hb]; exact Function.update_self ..
            · simp only
              rw [Function.update_of_ne hb]
              exact h.spareFree b m e
          · intro b m e
            obtain ⟨m', hm, hb⟩ := h.spareSize b m e
            refine ⟨m', hm, (mem_eraseP_blocks h.nodup a _).2 ⟨hb, ?_⟩⟩
            rintro rfl
            rw [h.spareFree _ m e] at hsome
            cases hsome
          · intro b k
            rw [h.table b k]
            constructor
            · rintro ⟨c, e, hk, hf⟩
              exact ⟨c, by simp only; rw [Function.update_of_ne (hne hf)]; exact e, hk, hno hf⟩
            · rintro ⟨c, e, hk, hf⟩
              obtain ⟨e, hb⟩ := hcell e
              exact ⟨c, e, hk, hne' hf hb⟩
          · intro b c e
            exact h.birth b c (hcell e).1
          · intro b c e hf k hk
            obtain ⟨e, hb⟩ := hcell e
            obtain ⟨c', e', hf', hlt⟩ := h.kids b c e (hne' hf hb) k hk
            exact ⟨c', by simp only; rw [Function.update_of_ne (hne hf')]; exact e', hno hf', hlt⟩
          · intro b hb
            obtain ⟨c, e, hf⟩ := h.handles b hb
            exact ⟨c, by simp only; rw [Function.update_of_ne (hne hf)]; exact e, hno hf⟩
          · intro b hb
            obtain ⟨c, e, hf⟩ := h.pend b (List.mem_cons_of_mem _ hb)
            exact ⟨c, by simp only; rw [Function.update_of_ne (hne hf)]; exact e, hno hf⟩
          · intro b c e hf
            obtain ⟨e, hb⟩ := hcell e
            have := h.refs b c e (hne' hf hb)
            rw [List.count_cons_of_ne (by simp)] at this
            exact this
          · intro b hb
            obtain ⟨h1, h2, h3⟩ := h.freed b (List.mem_cons_of_mem _ hb)
            have hba : b ≠ a := by rintro rfl; exact hnot hb
            refine ⟨h1, by simp only; rw [Function.update_of_ne hba]; exact h2, ?_⟩
            rwa [List.count_cons_of_ne (by simpa using Ne.symm hba)] at h3
        have hsteps : steps { s with
            blocks := s.blocks.eraseP (fun b => b.1 == a)
            cells := Function.update s.cells a none } ≤ n := by
          obtain ⟨b, hb, hs⟩ := sum_eraseP (fun b => s.refs b.1 + 1) hany
          simp only [steps] at hn ⊢
          omega
        obtain ⟨s', e, i', e1, e2, e3, e4, e5⟩ := ih P _ hinv hsteps
        refine ⟨s', ?_, i', e1, e2, e3, fun b c hc => (hcell (e4 b c hc)).1, e5.trans List.eraseP_sublist⟩
        rw [destroy, free, if_pos hany, Option.bind_some]
        exact e
      | dec a =>
        obtain ⟨c, hc, hfa⟩ := h.pend a List.mem_cons_self
        obtain ⟨hrefs, hpos⟩ := h.refs a c hc hfa
        have hmem := (h.alloc a).2 (.inl (by rw [hc]; rfl))
        have hno : ∀ {b : Addr}, Item.free b ∉ Item.dec a :: P → Item.free b ∉ P :=
          fun hb hm => hb (List.mem_cons_of_mem _ hm)
        have hyes : ∀ {b : Addr}, Item.free b ∉ P → Item.free b ∉ Item.dec a :: P :=
          fun hb hm => hb ((List.mem_cons.1 hm).resolve_left (by simp))
        have hsum := sum_update h.nodup hmem hpos
        rw [destroy]
        simp only [hc]
        rw [if_neg (by omega)]
        by_cases h1 : s.refs a = 1
        · rw [if_pos h1]
          rw [List.count_cons_self] at hrefs
          have hv0 : s.vars.count (.live a) = 0 := by omega
          have ht0 : inTable a s.table.elems = 0 := by omega
          have hP0 : P.count (.dec a) = 0 := by omega
          have hin : (a, c.key) ∈ s.table.elems := (h.table a c.key).2 ⟨c, hc, rfl, hfa⟩
          obtain ⟨t, et, it, mt, _⟩ := (HT.erase_spec compatE h.ht (a, c.key)).2 _ (h.find hin)
          simp only [et]
          have hkid : ∀ b d, s.cells b = some d → Item.free b ∉ Item.dec a :: P → a ∉ d.key.2 := by
            intro b d hd hb ha
            have := inTable_pos ((h.table b d.key).2 ⟨d, hd, rfl, hb⟩) ha
            omega
          have hselfkid : a ∉ c.key.2 := hkid a c hc hfa
          let P' := c.key.2.map Item.dec ++ Item.free a :: P
          have hfree' : ∀ {b : Addr}, Item.free b ∉ P' ↔ b ≠ a ∧ Item.free b ∉ Item.dec a :: P := by
            intro b
            simp only [P', List.mem_append, List.mem_map, reduceCtorEq, and_false, exists_false,
              false_or, List.mem_cons, Item.free.injEq]
            tauto
          have hinv : Inv hash P' { s with
              refs := Function.update s.refs a (s.refs a - 1)
              table := t } := by
            refine ⟨h.nodup, h.alloc, h.spareFree, h.spareSize, it, ?_, h.birth, ?_, ?_, ?_, ?_, ?_⟩
            · intro b k
              simp only
              have hmem' : (b, k) ∈ t.elems ↔ (b, k) ∈ s.table.elems ∧ b ≠ a := by
                have hnd := (compatE (hash := hash)).perm_distinct mt
                have hd := List.pairwise_cons.1 (hnd.1 h.ht.distinct)
                constructor
                · intro hb
                  have hb' := mt.mem_iff.2 (List.mem_cons_of_mem _ hb)
                  refine ⟨hb', ?_⟩
                  rintro rfl
                  obtain ⟨c', e', hk', _⟩ := (h.table b k).1 hb'
                  rw [hc] at e'
                  cases e'
                  have := hd.1 _ hb
                  rw [← hk'] at this
                  simp [eqE] at this
                · rintro ⟨hb, hne⟩
                  rcases List.mem_cons.1 (mt.mem_iff.1 hb) with e | hb
                  · cases e; exact absurd rfl hne
                  · exact hb
              rw [hmem', h.table b k]
              constructor
              · rintro ⟨⟨d, e, hk, hf⟩, hne⟩
                exact ⟨d, e, hk, hfree'.2 ⟨hne, hf⟩⟩
              · rintro ⟨d, e, hk, hf⟩
                exact ⟨⟨d, e, hk, (hfree'.1 hf).2⟩, (hfree'.1 hf).1⟩
            · intro b d e hf k hk
              obtain ⟨hba, hf⟩ := hfree'.1 hf
              obtain ⟨c', e', hf', hlt⟩ := h.kids b d e hf k hk
              refine ⟨c', e', hfree'.2 ⟨?_, hf'⟩, hlt⟩
              rintro rfl
              exact hkid b d e hf hk
            · intro b hb
              obtain ⟨d, e, hf⟩ := h.handles b hb
              refine ⟨d, e, hfree'.2 ⟨?_, hf⟩⟩
              rintro rfl
              have := List.count_pos_iff.2 hb
              simp only at this
              omega
            · intro b hb
              rcases List.mem_append.1 hb with hb | hb
              · obtain ⟨k, hk, e⟩ := List.mem_map.1 hb
                cases e
                obtain ⟨c', e', hf', hlt⟩ := h.kids a c hc hfa b hk
                refine ⟨c', e', hfree'.2 ⟨?_, hf'⟩⟩
                rintro rfl
                exact hselfkid hk
              · have hbP : Item.dec b ∈ P := (List.mem_cons.1 hb).resolve_left (by simp)
                obtain ⟨d, e, hf⟩ := h.pend b (List.mem_cons_of_mem _ hbP)
                refine ⟨d, e, hfree'.2 ⟨?_, hf⟩⟩
                rintro rfl
                have := List.count_pos_iff.2 hbP
                omega
            · intro b d e hf
              obtain ⟨hba, hf⟩ := hfree'.1 hf
              obtain ⟨hr, hp⟩ := h.refs b d e hf
              simp only
              rw [Function.update_of_ne hba]
              refine ⟨?_, hp⟩
              rw [inTable_perm mt, inTable_cons, List.count_cons_of_ne (by simpa using Ne.symm hba)] at hr
              simp only [P', List.count_append, count_map_dec]
              rw [List.count_cons_of_ne (by simp)]
              dsimp only at hr
              omega
            · intro b hb
              simp only
              by_cases hba : b = a
              · subst hba
                refine ⟨by rw [Function.update_self]; omega, by rw [hc]; rfl, ?_⟩
                simp only [P', List.count_append, count_map_free, List.count_cons_self]
                have := List.count_eq_zero.2 (hno hfa)
                omega
              · have hb' : Item.free b ∈ P := by
                  by_contra hn'
                  exact hfree'.2 ⟨hba, hyes hn'⟩ hb
                obtain ⟨h1', h2, h3⟩ := h.freed b (List.mem_cons_of_mem _ hb')
                refine ⟨by rw [Function.update_of_ne hba]; exact h1', h2, ?_⟩
                simp only [P', List.count_append, count_map_free]
                rw [List.count_cons_of_ne (by simpa using Ne.symm hba)]
                rw [List.count_cons_of_ne (by simp)] at h3
                omega
          obtain ⟨s', e, i', e1, e2, e3, e4, e5⟩ := ih P' _ hinv (by
            simp only [steps] at hn ⊢
            omega)
          exact ⟨s', e, i', e1, e2, e3, e4, e5⟩
        · rw [if_neg h1]
          have hinv : Inv hash P { s with refs := Function.update s.refs a (s.refs a - 1) } := by
            refine ⟨h.nodup, h.alloc, h.spareFree, h.spareSize, h.ht, ?_, h.birth, ?_, ?_, ?_, ?_, ?_⟩
            · intro b k
              rw [h.table b k]
              exact ⟨fun ⟨d, e, hk, hf⟩ => ⟨d, e, hk, hno hf⟩, fun ⟨d, e, hk, hf⟩ => ⟨d, e, hk, hyes hf⟩⟩
            · intro b d e hf k hk
              obtain ⟨c', e', hf', hlt⟩ := h.kids b d e (hyes hf) k hk
              exact ⟨c', e', hno hf', hlt⟩
            · intro b hb
              obtain ⟨d, e, hf⟩ := h.handles b hb
              exact ⟨d, e, hno hf⟩
            · intro b hb
              obtain ⟨d, e, hf⟩ := h.pend b (List.mem_cons_of_mem _ hb)
              exact ⟨d, e, hno hf⟩
            · intro b d e hf
              obtain ⟨hr, hp⟩ := h.refs b d e (hyes hf)
              simp only
              by_cases hba : b = a
              · subst hba
                rw [Function.update_self]
                rw [List.count_cons_self] at hr
                omega
              · rw [Function.update_of_ne hba]
                rw [List.count_cons_of_ne (by simpa using Ne.symm hba)] at hr
                exact ⟨hr, hp⟩
            · intro b hb
              obtain ⟨h1', h2, h3⟩ := h.freed b (List.mem_cons_of_mem _ hb)
              have hba : b ≠ a := by rintro rfl; omega
              refine ⟨by simp only; rw [Function.update_of_ne hba]; exact h1', h2, ?_⟩
              rwa [List.count_cons_of_ne (by simp)] at h3
          obtain ⟨s', e, i', e1, e2, e3, e4, e5⟩ := ih P _ hinv (by
            simp only [steps] at hn ⊢
            omega)
          exact ⟨s', e, i', e1, e2, e3, e4, e5⟩

/-! ## The statements keep the invariant -/

theorem destroy_vars : ∀ (n : Nat) (P : List Item) (s : State L) (V : List Slot),
    destroy hash n P { s with vars := V } = (destroy hash n P s).map fun s' => { s' with vars := V } := by
  intro n
  induction n with
  | zero => intro P s V; cases P <;> simp [destroy]
  | succ n ih =>
    intro P s V
    cases P with
    | nil => simp [destroy]
    | cons i P =>
      cases i with
      | free a =>
        simp only [destroy, free]
        split
        · simp only [Option.bind_some]
          exact ih P { s with
            blocks := s.blocks.eraseP (fun b => b.1 == a)
            cells := Function.update s.cells a none } V
        · rfl
      | dec a =>
        simp only [destroy]
        cases s.cells a with
        | none => rfl
        | some c =>
          simp only
          split
          · rfl
          · split
            · cases HT.erase (hashE hash) eqE (a, c.key) s.table with
              | none => rfl
              | some t =>
                simp only
                exact ih _ { s with refs := Function.update s.refs a (s.refs a - 1), table := t } V
            · exact ih _ { s with refs := Function.update s.refs a (s.refs a - 1) } V

/-- Changes of the handles, of the counters and of the arrangement of the table. -/
theorem Inv.upd {s : State L} (h : Inv hash [] s) {V : List Slot} {R : Addr → Nat}
    {T : HT (Addr × Key L)} {ds : List Addr} (hT : HT.Inv (hashE hash) eqE T)
    (hp : T.elems.Perm s.table.elems)
    (hV : ∀ a, Slot.live a ∈ V → (s.cells a).isSome) (hd : ∀ a ∈ ds, (s.cells a).isSome)
    (hR : ∀ a c, s.cells a = some c →
      R a = V.count (.live a) + inTable a s.table.elems + ds.count a ∧ 0 < R a) :
    Inv hash (ds.map Item.dec) { s with vars := V, refs := R, table := T } := by
  have hf : ∀ a, Item.free a ∉ ds.map Item.dec := by simp
  have hex : ∀ a, (s.cells a).isSome → ∃ c, s.cells a = some c ∧ Item.free a ∉ ds.map Item.dec :=
    fun a ha => by
      obtain ⟨c, hc⟩ := Option.isSome_iff_exists.1 ha
      exact ⟨c, hc, hf a⟩
  refine ⟨h.nodup, h.alloc, h.spareFree, h.spareSize, hT, ?_, h.birth, ?_, ?_, ?_, ?_, ?_⟩
  · intro a k
    simp only
    rw [hp.mem_iff, h.table a k]
    simp [hf]
  · intro a c hc _ k hk
    obtain ⟨c', e, _, hlt⟩ := h.kids a c hc (by simp) k hk
    exact ⟨c', e, hf k, hlt⟩
  · exact fun a ha => hex a (hV a ha)
  · intro a ha
    obtain ⟨b, hb, e⟩ := List.mem_map.1 ha
    cases e
    exact hex _ (hd _ hb)
  · intro a c hc _
    simp only
    rw [count_map_dec, inTable_perm hp]
    exact hR a c hc
  · intro a ha
    exact absurd ha (hf a)

theorem count_set {V : List Slot} {v : Nat} {x : Slot} (h : V[v]? = some x) (y z : Slot) :
    (V.set v y).count z + (if x = z then 1 else 0) = V.count z + if y = z then 1 else 0 := by
  induction V generalizing v with
  | nil => simp at h
  | cons w V ih =>
    cases v with
    | zero =>
      simp only [List.getElem?_cons_zero, Option.some.injEq] at h
      subst h
      simp only [List.set_cons_zero, List.count_cons, beq_iff_eq]
      omega
    | succ v =>
      simp only [List.getElem?_cons_succ] at h
      simp only [List.set_cons_succ, List.count_cons]
      have := ih h
      omega

theorem Inv.cell_of_var {s : State L} (h : Inv hash [] s) {v : Nat} {a : Addr}
    (hv : s.vars[v]? = some (.live a)) : ∃ c, s.cells a = some c := by
  obtain ⟨c, hc, _⟩ := h.handles a (List.mem_of_getElem? hv)
  exact ⟨c, hc⟩

theorem Inv.refs' {s : State L} (h : Inv hash [] s) {a : Addr} {c : Cell L} (hc : s.cells a = some c) :
    s.refs a = s.vars.count (.live a) + inTable a s.table.elems ∧ 0 < s.refs a := by
  have := h.refs a c hc (by simp)
  simpa using this

theorem mem_set_live {V : List Slot} {v : Nat} {x : Slot} {a : Addr} (h : Slot.live a ∈ V.set v x) :
    Slot.live a ∈ V ∨ x = .live a := by
  rcases List.mem_or_eq_of_mem_set h with h | h
  · exact .inl h
  · exact .inr h.symm

/-- What statements do to objects: they remain the same or disappear. (Specification, not part of the code.) -/
def Keeps (s s' : State L) : Prop :=
  ∀ a c, s.cells a = some c → s'.cells a = some c ∨ s'.cells a = none

/-- A new handle on an object, in place of a null or dead one. -/
theorem Inv.attach {s : State L} (h : Inv hash [] s) {v : Nat} {x : Slot} {b : Addr}
    (hv : s.vars[v]? = some x) (hx : ∀ a, x ≠ .live a) (hb : (s.cells b).isSome) :
    ∃ s', inc b s = some s' ∧ Inv hash [] { s' with vars := s'.vars.set v (.live b) } ∧
      s'.vars = s.vars ∧ s'.cells = s.cells := by
  obtain ⟨c, hc⟩ := Option.isSome_iff_exists.1 hb
  refine ⟨{ s with refs := Function.update s.refs b (s.refs b + 1) }, by simp only [inc, hc], ?_, rfl, rfl⟩
  refine h.upd (ds := []) h.ht (List.Perm.refl _) ?_ (by simp) ?_
  · intro a ha
    rcases mem_set_live ha with ha | ha
    · obtain ⟨c, hc, _⟩ := h.handles a ha
      rw [hc]; rfl
    · cases ha; exact hb
  · intro a d hd
    obtain ⟨hr, hp⟩ := h.refs' hd
    have hcs := count_set hv (.live b) (.live a)
    rw [if_neg (hx a)] at hcs
    simp only [Slot.live.injEq] at hcs
    dsimp only
    by_cases e : b = a
    · subst e
      rw [if_pos rfl] at hcs
      rw [Function.update_self]
      simp only [List.count_nil]
      omega
    · rw [if_neg e] at hcs
      rw [Function.update_of_ne (Ne.symm e)]
      simp only [List.count_nil]
      omega

/-- The destruction of a handle. -/
theorem Inv.detach {s : State L} (h : Inv hash [] s) {v : Nat} {a : Addr}
    (hv : s.vars[v]? = some (.live a)) {x : Slot} (hx : ∀ b, x ≠ .live b) :
    ∃ s', drop hash a s = some s' ∧ Inv hash [] { s' with vars := s.vars.set v x } ∧
      s'.vars = s.vars ∧ (∀ a c, s'.cells a = some c → s.cells a = some c) := by
  have hinv : Inv hash ([a].map Item.dec) { s with vars := s.vars.set v x } := by
    refine h.upd (ds := [a]) h.ht (List.Perm.refl _) ?_ ?_ ?_
    · intro b hb
      rcases mem_set_live hb with hb | hb
      · obtain ⟨c, hc, _⟩ := h.handles b hb
        rw [hc]; rfl
      · exact absurd hb (hx b)
    · intro b hb
      rw [List.mem_singleton.1 hb]
      obtain ⟨c, hc⟩ := h.cell_of_var hv
      rw [hc]; rfl
    · intro b d hd
      obtain ⟨hr, hp⟩ := h.refs' hd
      have hcs := count_set hv x (.live b)
      rw [if_neg (hx b)] at hcs
      simp only [Slot.live.injEq] at hcs
      rw [List.count_singleton]
      simp only [beq_iff_eq]
      omega
  obtain ⟨s', e, i, e1, e2, e3, e4, e5⟩ := destroy_inv (steps s) _ _ hinv (le_refl _)
  rw [destroy_vars] at e
  unfold drop
  simp only [List.map_cons, List.map_nil] at e
  cases hd : destroy hash (steps s) [Item.dec a] s with
  | none => rw [hd] at e; cases e
  | some s1 =>
    rw [hd, Option.map_some, Option.some.injEq] at e
    subst e
    refine ⟨s1, rfl, i, ?_, e4⟩
    have := destroy_vars (hash := hash) (steps s) [Item.dec a] s s.vars
    rw [hd, Option.map_some, Option.some.injEq] at this
    have h2 : s1.vars = ({ s1 with vars := s.vars } : State L).vars := congrArg State.vars this
    exact h2

theorem Inv.rename {s : State L} (h : Inv hash [] s) {V : List Slot}
    (hV : ∀ a, V.count (.live a) = s.vars.count (.live a)) : Inv hash [] { s with vars := V } := by
  refine h.upd (ds := []) h.ht (List.Perm.refl _) ?_ (by simp) ?_
  · intro a ha
    have : Slot.live a ∈ s.vars := by
      rw [← List.count_pos_iff, ← hV a, List.count_pos_iff]
      exact ha
    obtain ⟨c, hc, _⟩ := h.handles a this
    rw [hc]; rfl
  · intro a c hc
    rw [hV a]
    simpa using h.refs' hc

theorem incs_eq : ∀ (ks : List Addr) (s : State L), (∀ k ∈ ks, (s.cells k).isSome) →
    incs ks s = some { s with refs := fun a => s.refs a + ks.count a }
  | [], s, _ => rfl
  | k :: ks, s, h => by
    obtain ⟨c, hc⟩ := Option.isSome_iff_exists.1 (h k List.mem_cons_self)
    have ih := incs_eq ks { s with refs := Function.update s.refs k (s.refs k + 1) }
      (fun k hk => h k (List.mem_cons_of_mem _ hk))
    unfold incs at ih ⊢
    rw [List.foldlM_cons, inc, hc]
    simp only [Option.bind_eq_bind, Option.bind_some]
    rw [ih]
    congr 2
    funext a
    simp only
    by_cases e : a = k
    · subst e
      rw [Function.update_self, List.count_cons_self]
      omega
    · rw [Function.update_of_ne e, List.count_cons_of_ne (Ne.symm e)]

/-- The destruction of handles which are not the last ones. -/
theorem destroy_noop : ∀ (ks : List Addr) (n : Nat) (s : State L), ks.length ≤ n →
    (∀ k ∈ ks, (s.cells k).isSome ∧ ks.count k < s.refs k) →
    destroy hash n (ks.map Item.dec) s = some { s with refs := fun a => s.refs a - ks.count a }
  | [], n, s, _, _ => by cases n <;> rfl
  | k :: ks, 0, s, h, _ => by simp at h
  | k :: ks, n + 1, s, hn, h => by
    obtain ⟨hs, hlt⟩ := h k List.mem_cons_self
    obtain ⟨c, hc⟩ := Option.isSome_iff_exists.1 hs
    rw [List.count_cons_self] at hlt
    rw [List.map_cons, destroy]
    simp only [hc]
    rw [if_neg (by omega), if_neg (by omega),
      destroy_noop ks n _ (by simpa using hn) ?_]
    · congr 2
      funext a
      simp only
      by_cases e : a = k
      · subst e
        rw [Function.update_self, List.count_cons_self]
        omega
      · rw [Function.update_of_ne e, List.count_cons_of_ne (Ne.symm e)]
    · intro b hb
      refine ⟨(h b (List.mem_cons_of_mem _ hb)).1, ?_⟩
      have := (h b (List.mem_cons_of_mem _ hb)).2
      simp only
      by_cases e : b = k
      · subst e
        rw [Function.update_self]
        omega
      · rw [Function.update_of_ne e]
        rwa [List.count_cons_of_ne (Ne.symm e)] at this

theorem mapM_target {s : State L} : ∀ {ks : List Nat} (_ : ∀ k ∈ ks, ∃ a, s.vars[k]? = some (.live a)),
    ∃ as, ks.mapM (target s) = some as ∧
      List.Forall₂ (fun k a => s.vars[k]? = some (Slot.live a)) ks as
  | [], _ => ⟨[], rfl, .nil⟩
  | k :: ks, h => by
    obtain ⟨a, ha⟩ := h k List.mem_cons_self
    obtain ⟨as, e, hf⟩ := mapM_target (fun k hk => h k (List.mem_cons_of_mem _ hk))
    refine ⟨a :: as, ?_, .cons ha hf⟩
    rw [List.mapM_cons, target, ha, e]
    rfl

/-- The memory obtained by `allocate`: its address is a block which is large enough, unused. -/
theorem allocate_spec {s : State L} (h : Inv hash [] s) {n : Nat} {fr : Addr}
    (hfr : fr ∉ s.blocks.map Prod.fst) :
    let r := allocate n fr s
    r.2 = { s with blocks := r.2.blocks, spare := r.2.spare } ∧
    (∃ m, n ≤ m ∧ (r.1, m) ∈ r.2.blocks) ∧ s.cells r.1 = none ∧
    (r.2.blocks.map Prod.fst).Nodup ∧
    (∀ a, a ∈ r.2.blocks.map Prod.fst ↔ ((s.cells a).isSome ∨ ∃ n, r.2.spare = some (a, n)) ∨ a = r.1) ∧
    (∀ a m, r.2.spare = some (a, m) → a ≠ r.1 ∧ m < n ∧ s.cells a = none ∧
      ∃ m', m ≤ m' ∧ (a, m') ∈ r.2.blocks) := by
  have hfresh : s.cells fr = none := by
    cases hc : s.cells fr with
    | none => rfl
    | some c => exact absurd ((h.alloc fr).2 (.inl (by rw [hc]; rfl))) hfr
  have hnd : (((fr, n) :: s.blocks).map Prod.fst).Nodup := by
    rw [List.map_cons, List.nodup_cons]
    exact ⟨hfr, h.nodup⟩
  intro r
  cases hs : s.spare with
  | none =>
    have hr : r = (fr, { s with blocks := (fr, n) :: s.blocks }) := by
      simp only [r, allocate, hs]
    rw [hr]
    refine ⟨rfl, ⟨n, le_refl _, List.mem_cons_self⟩, hfresh, hnd, ?_, ?_⟩
    · intro a
      simp only [List.map_cons, List.mem_cons, h.alloc a]
      tauto
    · intro a m e
      simp only [hs] at e
      cases e
  | some am =>
    obtain ⟨b, m⟩ := am
    by_cases hm : n ≤ m
    · have hr : r = (b, { s with spare := none }) := by
        simp only [r, allocate, hs, if_pos hm]
      rw [hr]
      obtain ⟨m', hm', hb⟩ := h.spareSize b m hs
      refine ⟨rfl, ⟨m', by omega, hb⟩, h.spareFree b m hs, h.nodup, ?_, ?_⟩
      · intro a
        simp only [h.alloc a, hs, reduceCtorEq, exists_false, or_false]
        constructor
        · rintro (h | ⟨_, e⟩)
          · exact .inl h
          · cases e
            exact .inr rfl
        · rintro (h | rfl)
          · exact .inl h
          · exact .inr ⟨m, rfl⟩
      · intro a m e
        simp at e
    · have hr : r = (fr, { s with blocks := (fr, n) :: s.blocks }) := by
        simp only [r, allocate, hs, if_neg hm]
      rw [hr]
      refine ⟨rfl, ⟨n, le_refl _, List.mem_cons_self⟩, hfresh, hnd, ?_, ?_⟩
      · intro a
        simp only [List.map_cons, List.mem_cons, h.alloc a]
        tauto
      · intro a m'' e
        simp only [hs, Option.some.injEq, Prod.mk.injEq] at e
        obtain ⟨rfl, rfl⟩ := e
        obtain ⟨m', hm', hb⟩ := h.spareSize b m hs
        refine ⟨?_, by omega, h.spareFree b m hs, m', hm', List.mem_cons_of_mem _ hb⟩
        rintro rfl
        exact hfr (List.mem_map_of_mem hb)

/-- The construction and unification of a datum, with its first handle. -/
theorem create_spec {s : State L} (h : Inv hash [] s) {v : Nat} {l : L} {kids : List Addr} {fr : Addr}
    (hv : s.vars[v]? = some .dead) (hk : ∀ k ∈ kids, (s.cells k).isSome)
    (hfr : fr ∉ s.blocks.map Prod.fst) :
    ∃ a s' s'' c, unify hash bytes l kids fr s = some (a, s') ∧ inc a s' = some s'' ∧
      s''.vars = s.vars ∧ Inv hash [] { s'' with vars := s''.vars.set v (.live a) } ∧
      (∀ b d, s.cells b = some d → s''.cells b = some d) ∧
      s''.cells a = some c ∧ c.key = (l, kids) ∧
      (s.cells a = none → ∀ b d, s.cells b = some d → d.key ≠ (l, kids)) := by
  obtain ⟨hr, ⟨m, hm, hmem⟩, hnone, hnd, halloc, hspare⟩ := allocate_spec h (n := bytes (l, kids)) hfr
  generalize hr0 : allocate (bytes (l, kids)) fr s = r at *
  have hany : r.2.blocks.any (fun b => b.1 == r.1 && decide (bytes (l, kids) ≤ b.2)) = true := by
    rw [List.any_eq_true]
    exact ⟨_, hmem, by simp [hm]⟩
  have hcells : r.2.cells = s.cells := by rw [hr]
  have htab : r.2.table = s.table := by rw [hr]
  have hrefs : r.2.refs = s.refs := by rw [hr]
  have hvars : r.2.vars = s.vars := by rw [hr]
  have hclock : r.2.clock = s.clock := by rw [hr]
  unfold unify
  simp only [hr0]
  rw [if_pos hany, incs_eq kids r.2 (by rw [hcells]; exact hk)]
  simp only
  obtain ⟨t, et, it, mt, _⟩ := HT.insert_spec compatE h.ht (r.1, (l, kids))
  rw [htab, et]
  cases hf : s.table.elems.find? (eqE (r.1, (l, kids))) with
  | none =>
    rw [hf] at mt
    simp only [Option.isNone_none, if_true] at mt
    simp only [Option.getD_none, Option.isNone_none]
    have hnk : ∀ b d, s.cells b = some d → d.key ≠ (l, kids) := by
      intro b d hd e
      rw [List.find?_eq_none] at hf
      exact hf _ ((h.table b (l, kids)).2 ⟨d, hd, e, by simp⟩) (by simp [eqE])
    refine ⟨r.1, _, { r.2 with
        table := t
        cells := Function.update r.2.cells r.1 (some ⟨(l, kids), r.2.clock⟩)
        refs := Function.update (Function.update (fun a => r.2.refs a + kids.count a) r.1 0) r.1 1
        clock := r.2.clock + 1 }, ⟨(l, kids), r.2.clock⟩, rfl, by simp [inc], hvars, ?_, ?_,
      by simp only [Function.update_self], rfl, fun _ => hnk⟩
    · have hne : ∀ {b : Addr} {d : Cell L}, s.cells b = some d → b ≠ r.1 := by
        rintro b d hd rfl
        rw [hnone] at hd
        cases hd
      have hvars0 : s.vars.count (.live r.1) = 0 := by
        rw [List.count_eq_zero]
        intro hc
        obtain ⟨c, hc, _⟩ := h.handles _ hc
        exact hne hc rfl
      have htab0 : inTable r.1 s.table.elems = 0 := by
        by_contra hc
        have : ∃ e ∈ s.table.elems, r.1 ∈ e.2.2 := by
          by_contra hno
          push Not at hno
          apply hc
          unfold inTable
          rw [List.sum_eq_zero]
          intro x hx
          obtain ⟨e, he, rfl⟩ := List.mem_map.1 hx
          exact List.count_eq_zero.2 (hno e he)
        obtain ⟨⟨b, k⟩, he, hin⟩ := this
        obtain ⟨c, hc, rfl, _⟩ := (h.table b k).1 he
        obtain ⟨c', e', _, _⟩ := h.kids b c hc (by simp) r.1 hin
        exact hne e' rfl
      have hkids0 : kids.count r.1 = 0 := by
        rw [List.count_eq_zero]
        intro hc
        have := hk _ hc
        rw [hnone] at this
        cases this
      refine ⟨hnd, ?_, ?_, ?_, it, ?_, ?_, ?_, ?_, by simp, ?_, by simp⟩
      · intro a
        simp only
        rw [halloc a, hcells]
        by_cases e : a = r.1
        · subst e
          simp
        · rw [Function.update_of_ne e]
          simp [e]
      · intro a n e
        simp only at e ⊢
        rw [Function.update_of_ne (hspare a n e).1, hcells]
        exact (hspare a n e).2.2.1
      · intro a n e
        exact (hspare a n e).2.2.2
      · intro a k
        simp only
        rw [mt.mem_iff, List.mem_cons, h.table a k, hcells]
        by_cases e : a = r.1
        · subst e
          rw [Function.update_self, hnone]
          simp [eq_comm]
        · rw [Function.update_of_ne e]
          simp [e]
      · intro a c hc
        simp only [hclock, hcells] at hc ⊢
        by_cases e : a = r.1
        · subst e
          rw [Function.update_self] at hc
          cases hc
          simp
        · rw [Function.update_of_ne e] at hc
          have := h.birth a c hc
          omega
      · intro a c hc _ k hk'
        simp only [hclock, hcells] at hc ⊢
        by_cases e : a = r.1
        · subst e
          rw [Function.update_self] at hc
          cases hc
          obtain ⟨c', hc'⟩ := Option.isSome_iff_exists.1 (hk k hk')
          exact ⟨c', by rw [Function.update_of_ne (hne hc')]; exact hc', by simp, h.birth k c' hc'⟩
        · rw [Function.update_of_ne e] at hc
          obtain ⟨c', hc', _, hlt⟩ := h.kids a c hc (by simp) k hk'
          exact ⟨c', by rw [Function.update_of_ne (hne hc')]; exact hc', by simp, hlt⟩
      · intro a ha
        simp only [hvars, hcells] at ha ⊢
        rcases mem_set_live ha with ha | ha
        · obtain ⟨c, hc, _⟩ := h.handles a ha
          exact ⟨c, by rw [Function.update_of_ne (hne hc)]; exact hc, by simp⟩
        · cases ha
          exact ⟨_, Function.update_self .., by simp⟩
      · intro a c hc _
        simp only [hvars, hcells, hrefs] at hc ⊢
        rw [inTable_perm mt, inTable_cons]
        simp only
        have hcs := count_set hv (.live r.1) (.live a)
        simp only [reduceCtorEq, if_false, Slot.live.injEq] at hcs
        by_cases e : a = r.1
        · subst e
          simp only [Function.update_self, if_true] at hcs ⊢
          simp only [List.count_nil]
          omega
        · rw [Function.update_of_ne e] at hc
          simp only [Function.update_of_ne e]
          rw [if_neg (Ne.symm e)] at hcs
          have := h.refs' hc
          simp only [List.count_nil]
          omega
    · intro b d hd
      simp only
      rw [Function.update_of_ne, hcells]
      · exact hd
      · rintro rfl
        rw [hnone] at hd
        cases hd
  | some e =>
    rw [hf] at mt
    simp only [Option.isNone_some, Bool.false_eq_true, if_false] at mt
    simp only [Option.getD_some, Option.isNone_some]
    obtain ⟨b, k⟩ := e
    have hkb : k = (l, kids) := by
      have := List.find?_some hf
      simp [eqE] at this
      exact this.symm
    subst hkb
    obtain ⟨c, hc, hck, _⟩ := (h.table b _).1 (List.mem_of_find?_eq_some hf)
    rw [destroy_noop kids _ _ (by omega) ?_]
    swap
    · intro k hk'
      simp only [hcells, hrefs]
      refine ⟨hk k hk', ?_⟩
      obtain ⟨d, hd⟩ := Option.isSome_iff_exists.1 (hk k hk')
      have := (h.refs' hd).2
      omega
    simp only [hrefs, Nat.add_sub_cancel]
    -- the state once the memory is recycled
    have hrec : ∀ s2 : State L, s2.spare = r.2.spare → s2.blocks = r.2.blocks →
        ∃ B S, recycle r.1 (bytes (l, kids)) s2 = some { s2 with blocks := B, spare := S } ∧
          (B.map Prod.fst).Nodup ∧
          (∀ a, a ∈ B.map Prod.fst ↔ (s.cells a).isSome ∨ ∃ n, S = some (a, n)) ∧
          (∀ a n, S = some (a, n) → s.cells a = none ∧ ∃ m, n ≤ m ∧ (a, m) ∈ B) := by
      intro s2 e1 e2
      unfold recycle
      rw [e1]
      cases hs : r.2.spare with
      | none =>
        refine ⟨r.2.blocks, some (r.1, bytes (l, kids)), by simp only [← e2], hnd, ?_, ?_⟩
        · intro a
          rw [halloc a, hs]
          constructor
          · rintro ((h | ⟨_, e⟩) | rfl)
            · exact .inl h
            · cases e
            · exact .inr ⟨_, rfl⟩
          · rintro (h | ⟨_, e⟩)
            · exact .inl (.inl h)
            · cases e
              exact .inr rfl
        · intro a n e
          cases e
          exact ⟨hnone, m, hm, hmem⟩
      | some bm =>
        obtain ⟨b', m'⟩ := bm
        obtain ⟨hne, hlt, hb', m'', hm'', hmem''⟩ := hspare b' m' hs
        simp only
        rw [if_pos hlt, release, e2, if_pos]
        · refine ⟨r.2.blocks.eraseP (fun b => b.1 == b'), some (r.1, bytes (l, kids)), rfl,
            nodup_eraseP_blocks hnd _, ?_, ?_⟩
          · intro a
            have : a ∈ (r.2.blocks.eraseP fun b => b.1 == b').map Prod.fst ↔
                a ∈ r.2.blocks.map Prod.fst ∧ a ≠ b' := by
              simp only [List.mem_map, mem_eraseP_blocks hnd]
              constructor
              · rintro ⟨x, ⟨hx, hxa⟩, rfl⟩
                exact ⟨⟨x, hx, rfl⟩, hxa⟩
              · rintro ⟨⟨x, hx, rfl⟩, hxa⟩
                exact ⟨x, ⟨hx, hxa⟩, rfl⟩
            rw [this, halloc a, hs]
            simp only [Option.some.injEq, Prod.mk.injEq]
            constructor
            · rintro ⟨(h | ⟨_, rfl, _⟩) | rfl, hab⟩
              · exact .inl h
              · exact absurd rfl hab
              · exact .inr ⟨_, rfl, rfl⟩
            · rintro (h | ⟨_, rfl, _⟩)
              · refine ⟨.inl (.inl h), ?_⟩
                rintro rfl
                rw [hb'] at h
                cases h
              · exact ⟨.inr rfl, Ne.symm hne⟩
          · intro a n e
            cases e
            exact ⟨hnone, m, hm, (mem_eraseP_blocks hnd _ _).2 ⟨hmem, Ne.symm hne⟩⟩
        · rw [List.any_eq_true]
          exact ⟨_, hmem'', by simp⟩
    obtain ⟨B, S, er, hB1, hB2, hB3⟩ := hrec { r.2 with table := t, refs := s.refs } rfl rfl
    have hst : ({ r.2 with table := t, refs := fun a => s.refs a } : State L) =
        { r.2 with table := t, refs := s.refs } := rfl
    rw [er]
    have hfin : Inv hash [] { s with blocks := B, spare := S, table := t } := by
      have h0 := h.upd (V := s.vars) (R := s.refs) (ds := []) it mt
        (fun a ha => by
          obtain ⟨c, hc, _⟩ := h.handles a ha
          rw [hc]; rfl) (by simp) (fun a c hc => by simpa using h.refs' hc)
      exact ⟨hB1, hB2, fun a n e => (hB3 a n e).1, fun a n e => (hB3 a n e).2, h0.ht, h0.table, h0.birth,
        h0.kids, h0.handles, h0.pend, h0.refs, h0.freed⟩
    have hfin' : ({ r.2 with blocks := B, spare := S, table := t, refs := s.refs } : State L) =
        { s with blocks := B, spare := S, table := t } := by
      rw [hr]
    obtain ⟨s'', e1, i1, e2, e3⟩ := hfin.attach hv (by simp) (b := b) (by simp only [hc]; rfl)
    refine ⟨b, _, s'', c, rfl, ?_, e2, i1, fun b' d hd => by rw [e3]; exact hd, by rw [e3]; exact hc, hck,
      fun hn => ?_⟩
    · rw [← e1, ← hfin']
    · rw [hc] at hn
      cases hn

/-- A part is an object in memory, held by the object of the handle. -/
theorem part_some {s : State L} {w i : Nat} {k : Addr} (h : part s w i = some k) :
    ∃ b c, s.vars[w]? = some (.live b) ∧ s.cells b = some c ∧ c.key.2[i]? = some k := by
  unfold part target at h
  split at h
  · rename_i b hb
    simp only [Option.bind_some, load] at h
    cases hc : s.cells b with
    | none => rw [hc] at h; cases h
    | some c => rw [hc] at h; exact ⟨b, c, hb, hc, h⟩
  · cases h

theorem Inv.part_cell {s : State L} (h : Inv hash [] s) {b : Addr} {c : Cell L} {i : Nat} {k : Addr} (hc : s.cells b = some c)
    (hk : c.key.2[i]? = some k) : (s.cells k).isSome := by
  obtain ⟨c', hc', _⟩ := h.kids b c hc (by simp) k (List.mem_of_getElem? hk)
  rw [hc']; rfl

/-- Valid statements succeed and keep the invariant. -/
theorem exec_inv {s : State L} (h : Inv hash [] s) {op : Op L} (hv : Valid s op) :
    ∃ s', exec hash bytes s op = some s' ∧ Inv hash [] s' ∧ Keeps s s' := by
  cases op with
  | create v l ks fr =>
    obtain ⟨hv, hks, hfr⟩ := hv
    obtain ⟨kids, e, hf⟩ := mapM_target hks
    have hk : ∀ k ∈ kids, (s.cells k).isSome := by
      intro a ha
      have : ∀ {ks : List Nat} {as : List Addr},
          List.Forall₂ (fun k a => s.vars[k]? = some (Slot.live a)) ks as →
          a ∈ as → (s.cells a).isSome := by
        intro ks as hf
        induction hf with
        | nil => simp
        | cons h1 _ ih =>
          intro hm
          rcases List.mem_cons.1 hm with rfl | hm
          · obtain ⟨c, hc⟩ := h.cell_of_var h1
            rw [hc]; rfl
          · exact ih hm
      exact this hf ha
    obtain ⟨a, s', s'', c, e1, e2, e3, i, hkeep, _⟩ := create_spec (bytes := bytes) (l := l) h hv hk hfr
    refine ⟨_, ?_, i, fun b d hd => .inl (hkeep b d hd)⟩
    simp only [exec, hv, e, e1, e2, Option.map_some]
  | copy v w =>
    obtain ⟨hv, a, hw⟩ := hv
    obtain ⟨c, hc⟩ := h.cell_of_var hw
    obtain ⟨s', e, i, e1, e2⟩ := h.attach hv (by simp) (b := a) (by rw [hc]; rfl)
    refine ⟨_, by simp only [exec, target, hv, hw, e, Option.map_some], i, fun b d hd => .inl ?_⟩
    simp only [e2]
    exact hd
  | move v w =>
    obtain ⟨hv, x, hw, hx⟩ := hv
    have hne : v ≠ w := by
      rintro rfl
      rw [hv] at hw
      cases hw
      exact hx rfl
    cases x with
    | dead => exact absurd rfl hx
    | moved =>
      refine ⟨{ s with vars := s.vars.set v .moved }, by simp only [exec, hv, hw],
        h.rename fun a => ?_, fun b d hd => .inl hd⟩
      have := count_set hv .moved (.live a)
      simpa using this
    | live b =>
      refine ⟨{ s with vars := (s.vars.set v (.live b)).set w .moved }, by simp only [exec, hv, hw],
        h.rename fun a => ?_, fun b d hd => .inl hd⟩
      have h1 := count_set hv (.live b) (.live a)
      have h2 := count_set (V := s.vars.set v (.live b)) (v := w) (x := .live b)
        (by rw [List.getElem?_set_ne hne]; exact hw) .moved (.live a)
      simp only [reduceCtorEq, if_false] at h1 h2
      omega
  | copyAssign v w =>
    obtain ⟨hne, ⟨x, hv, hx⟩, b, hw⟩ := hv
    obtain ⟨c, hc⟩ := h.cell_of_var hw
    cases x with
    | dead => exact absurd rfl hx
    | moved =>
      obtain ⟨s', e, i, e1, e2⟩ := h.attach hv (by simp) (b := b) (by rw [hc]; rfl)
      refine ⟨_, by simp only [exec, target, hv, hw, e, Option.map_some], i, fun b d hd => .inl ?_⟩
      simp only [e2]
      exact hd
    | live a =>
      obtain ⟨s1, e1, i1, ev, ec⟩ := h.detach hv (x := .moved) (by simp)
      have hw' : (s.vars.set v .moved)[w]? = some (.live b) := by
        rw [List.getElem?_set_ne hne]; exact hw
      obtain ⟨c', hc'⟩ := i1.cell_of_var hw'
      obtain ⟨s2, e2, i2, ev2, ec2⟩ := i1.attach (v := v) (x := .moved) (b := b)
        (by
          have : v < s.vars.length := (List.getElem?_eq_some_iff.1 hv).1
          simp [List.getElem?_set_self this]) (by simp) (by simp only at hc' ⊢; rw [hc']; rfl)
      have e3 : inc b s1 = some { s2 with vars := s1.vars } := by
        simp only [inc] at e2 ⊢
        simp only at hc'
        rw [hc'] at e2 ⊢
        simp only [Option.some.injEq] at e2
        rw [← e2]
      refine ⟨_, by simp only [exec, target, hv, hw, e1, e3, Option.map_some]; rfl, ?_, fun a d hd => ?_⟩
      · rw [ev2] at i2
        rw [ev]
        simp only [List.set_set] at i2
        exact i2
      · simp only [ec2]
        cases hs : s1.cells a with
        | none => exact .inr rfl
        | some d' =>
          have := ec a d' hs
          rw [hd] at this
          cases this
          exact .inl rfl
  | moveAssign v w =>
    obtain ⟨hne, ⟨x, hv, hx⟩, y, hw, hy⟩ := hv
    have hset : ∀ (V : List Slot) (x : Slot), V[v]? = some x → V[w]? = some y → (∀ a, x ≠ .live a) →
        ∀ a, ((V.set v y).set w .moved).count (.live a) = V.count (.live a) := by
      intro V x hv hw hx a
      have h1 := count_set hv y (.live a)
      have h2 := count_set (V := V.set v y) (v := w) (x := y)
        (by rw [List.getElem?_set_ne hne]; exact hw) .moved (.live a)
      simp only [hx a, reduceCtorEq, if_false] at h1 h2
      omega
    cases x with
    | dead => exact absurd rfl hx
    | moved =>
      refine ⟨{ s with vars := (s.vars.set v y).set w .moved },
        by simp only [exec, hv, hw]; rw [if_neg hy], h.rename ?_, fun b d hd => .inl hd⟩
      exact hset _ .moved hv hw (by simp)
    | live a =>
      obtain ⟨s1, e1, i1, ev, ec⟩ := h.detach hv (x := .moved) (by simp)
      refine ⟨{ s1 with vars := (s1.vars.set v y).set w .moved },
        by simp only [exec, hv, hw, e1, Option.map_some]; rw [if_neg hy], ?_, fun a d hd => ?_⟩
      · have := i1.rename (V := ((s.vars.set v .moved).set v y).set w .moved) (hset _ .moved
          (by
            have : v < s.vars.length := (List.getElem?_eq_some_iff.1 hv).1
            simp [List.getElem?_set_self this])
          (by rw [List.getElem?_set_ne hne]; exact hw) (by simp))
        simp only [List.set_set] at this
        rw [ev]
        exact this
      · simp only
        cases hs : s1.cells a with
        | none => exact .inr rfl
        | some d' =>
          have := ec a d' hs
          rw [hd] at this
          cases this
          exact .inl rfl
  | destroy v =>
    obtain ⟨x, hv, hx⟩ := hv
    cases x with
    | dead => exact absurd rfl hx
    | moved =>
      refine ⟨{ s with vars := s.vars.set v .dead }, by simp only [exec, hv],
        h.rename fun a => ?_, fun b d hd => .inl hd⟩
      have := count_set hv .dead (.live a)
      simpa using this
    | live a =>
      obtain ⟨s1, e1, i1, ev, ec⟩ := h.detach hv (x := .dead) (by simp)
      refine ⟨{ s1 with vars := s1.vars.set v .dead }, by simp only [exec, hv, e1, Option.map_some], ?_,
        fun a d hd => ?_⟩
      · rw [ev]; exact i1
      · simp only
        cases hs : s1.cells a with
        | none => exact .inr rfl
        | some d' =>
          have := ec a d' hs
          rw [hd] at this
          cases this
          exact .inl rfl
  | swap v w =>
    obtain ⟨⟨x, hv, hx⟩, y, hw, hy⟩ := hv
    refine ⟨{ s with vars := (s.vars.set v y).set w x },
      by simp only [exec, hv, hw]; rw [if_neg (by tauto)], h.rename fun a => ?_, fun b d hd => .inl hd⟩
    by_cases hvw : v = w
    · subst hvw
      rw [hv] at hw
      cases hw
      rw [List.set_set]
      have := count_set hv x (.live a)
      omega
    · have h1 := count_set hv y (.live a)
      have h2 := count_set (V := s.vars.set v y) (v := w) (x := y)
        (by rw [List.getElem?_set_ne hvw]; exact hw) x (.live a)
      omega
  | read v w i =>
    obtain ⟨hv, k, hk⟩ := hv
    obtain ⟨b, c, hw, hc, hi⟩ := part_some hk
    obtain ⟨s', e, i', e1, e2⟩ := h.attach hv (by simp) (b := k) (h.part_cell hc hi)
    refine ⟨_, by simp only [exec, hv, hk, e, Option.map_some], i', fun b d hd => .inl ?_⟩
    simp only [e2]
    exact hd
  | readAssign v w i =>
    obtain ⟨hne, ⟨x, hv, hx⟩, k, hk⟩ := hv
    obtain ⟨b, c, hw, hc, hi⟩ := part_some hk
    have hl : load s b i = some k := by simp only [load, hc, Option.bind_some, hi]
    cases x with
    | dead => exact absurd rfl hx
    | moved =>
      obtain ⟨s', e, i', e1, e2⟩ := h.attach hv (by simp) (b := k) (h.part_cell hc hi)
      refine ⟨_, by simp only [exec, target, hv, hw, hl, Option.bind_some, e, Option.map_some], i', fun b d hd => .inl ?_⟩
      simp only [e2]
      exact hd
    | live a =>
      obtain ⟨s1, e1, i1, ev, ec⟩ := h.detach hv (x := .moved) (by simp)
      have hw' : (s.vars.set v .moved)[w]? = some (.live b) := by
        rw [List.getElem?_set_ne hne]; exact hw
      obtain ⟨c', hc'⟩ := i1.cell_of_var hw'
      simp only at hc'
      have hcc : c' = c := by
        have := ec b c' hc'
        rw [hc] at this
        cases this
        rfl
      subst hcc
      have hl1 : load s1 b i = some k := by simp only [load, hc', Option.bind_some, hi]
      have hk1 : (s1.cells k).isSome := i1.part_cell (b := b) hc' hi
      obtain ⟨s2, e2, i2, ev2, ec2⟩ := i1.attach (v := v) (x := .moved) (b := k)
        (by
          have : v < s.vars.length := (List.getElem?_eq_some_iff.1 hv).1
          simp [List.getElem?_set_self this]) (by simp) hk1
      obtain ⟨ck, hck⟩ := Option.isSome_iff_exists.1 hk1
      have e3 : inc k s1 = some { s2 with vars := s1.vars } := by
        simp only [inc] at e2 ⊢
        rw [hck] at e2 ⊢
        simp only [Option.some.injEq] at e2
        rw [← e2]
      refine ⟨{ s2 with vars := s1.vars.set v (.live k) }, ?_, ?_, fun a d hd => ?_⟩
      · simp only [exec, target, hv, hw, hl, Option.isNone_some, Bool.false_eq_true, if_false, e1, hl1, Option.bind_some, e3,
          Option.map_some]
      · rw [ev2] at i2
        rw [ev]
        simp only [List.set_set] at i2
        exact i2
      · simp only [ec2]
        cases hs : s1.cells a with
        | none => exact .inr rfl
        | some d' =>
          have := ec a d' hs
          rw [hd] at this
          cases this
          exact .inl rfl

theorem init_inv {size : BitVec 64} (h1 : 1 ≤ size.toNat) (h2 : size.toNat ≤ 2 ^ 63) (n : Nat) :
    Inv hash [] (init size n : State L) := by
  obtain ⟨i, e, _⟩ := HT.new_inv (hashE hash) (eqE (L := L)) h1 h2
  refine ⟨by simp [init], by simp [init], by simp [init], by simp [init], i, ?_, by simp [init],
    by simp [init], ?_, by simp, by simp [init], by simp⟩
  · intro a k
    simp only [init]
    rw [e]
    simp
  · intro a ha
    simp only [init] at ha
    have := List.eq_of_mem_replicate ha
    cases this

theorem reach_inv {size : BitVec 64} (h1 : 1 ≤ size.toNat) (h2 : size.toNat ≤ 2 ^ 63) {n : Nat}
    {s : State L} (h : Reach hash bytes size n s) : Inv hash [] s := by
  induction h with
  | init => exact init_inv h1 h2 n
  | step _ hv he ih =>
    obtain ⟨s', e, i, _⟩ := exec_inv (bytes := bytes) ih hv
    rw [he] at e
    cases e
    exact i

end
end Heap
end Verif
