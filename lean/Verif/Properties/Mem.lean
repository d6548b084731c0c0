import Verif.Mem.HeapStats
import Verif.Mem.HashTable
import Verif.Mem.Links
import Verif.Mem.HeapSem
import Verif.Mem.Shutdown
import Verif.Mem.Counter
/-!
# Properties of the memory layer
-/

set_option autoImplicit false
set_option linter.unusedSectionVars false

namespace Verif

/-! ## C21: the hash table is a set -/

/-- **C21**. Any sequence of `insert`, `erase`, two-phase insertions and `clear_and_dispose`, starting
from an empty table and for any hash function compatible with an equality, gives the results of the same
operations on a set (a list of elements pairwise different), and fails exactly when the specification
does (an absent element is erased).  The size is the cardinality of the set, the elements are those of
the set, and if no insertion in two phases is done the load factor is less than 3/4. -/
theorem C21_hash_table_is_a_set {α : Type} {hash : α → Nat} {eq : α → α → Bool}
    (hc : HT.Compat hash eq) (size : BitVec 64) (h1 : 1 ≤ size.toNat) (h2 : size.toNat ≤ 2 ^ 63)
    (ops : List (HT.TOp α)) :
    (HT.execs hash eq (HT.new size) ops = none ↔ HT.refExecs eq [] ops = none) ∧
    ∀ os t, HT.execs hash eq (HT.new size) ops = some (os, t) →
      ∃ l, HT.refExecs eq [] ops = some (os, l) ∧ (l.Pairwise fun x y => eq x y = false) ∧
        t.elems.Perm l ∧ t.size = l.length ∧
        ((∀ op ∈ ops, op.Rehashes) → 4 * t.size < 3 * t.buckets.length) ∧
        t.collisions.1 + t.collisions.2.1 + t.collisions.2.2 = t.buckets.length := by
  obtain ⟨i, e, hl⟩ := HT.new_inv (α := α) hash eq h1 h2
  have h := HT.execs_refines hc ops i (l := []) (by rw [e])
  match e1 : HT.execs hash eq (HT.new size) ops, e2 : HT.refExecs eq [] ops, h with
  | none, none, _ => exact ⟨by simp, by simp⟩
  | some (os, t), some (os', l), h =>
    obtain ⟨rfl, i', m, hl'⟩ := h
    refine ⟨by simp, fun os'' t' ht => ?_⟩
    cases ht
    exact ⟨l, rfl, (hc.perm_distinct m).1 i'.distinct, m, by rw [i'.size, m.length_eq],
      fun hr => hl' hr hl, (HT.collisions_spec _).1⟩

/-- **C21**, the links. The same for the pointers which link the data of the buckets: any correct use (`Links.Ref`: data are made before
they are inserted, are not inserted when they are in the table, and are not destroyed while they are in the table; two-phase insertions are given new
data; only elements are erased), starting from an empty table, gives the results of a set.  No loop walks through more than the number
of operations done, no memory is accessed but the one of living data, and no datum is lost:
walking through the buckets meets exactly the elements of the set, and clearing destroys exactly those. The number of buckets is a power of
two, and `collisions` returns the numbers of buckets which receive, from the hashes of the elements of the set, several elements, one and none. -/
theorem C21_links {P : Type} [DecidableEq P] {hash : P → Nat} {eq : P → P → Bool}
    (hc : HT.Compat hash eq) (size : BitVec 64) (h1 : 1 ≤ size.toNat) (h2 : size.toNat ≤ 2 ^ 63)
    (ops : List (Links.LOp P)) {os : List (HT.TOut P)} {r : Links.Ref P}
    (h : Links.Ref.execs eq ⟨[], [], []⟩ ops = some (os, r)) {n : Nat} (hn : ops.length < n) :
    ∃ s, Links.execs hash eq n (Links.new size) ops = some (os, s) ∧ s.size = r.set.length ∧
      (r.set.Pairwise fun x y => eq x y = false) ∧ (∀ p, (s.hooks p).isSome ↔ p ∈ r.alive) ∧
      (∃ l s', Links.clear n s = some (l, s') ∧ l.Perm r.set ∧ ∀ p, (s'.hooks p).isSome ↔ p ∈ r.alive ∧ p ∉ r.set) ∧
      ∃ k, s.buckets.length = 2 ^ k ∧ Links.collisions n s = some
        ((List.range (2 ^ k)).countP (fun i => decide (1 < r.set.countP fun x => decide (hash x % 2 ^ k = i))),
         (List.range (2 ^ k)).countP (fun i => decide (r.set.countP (fun x => decide (hash x % 2 ^ k = i)) = 1)),
         (List.range (2 ^ k)).countP (fun i => decide (r.set.countP (fun x => decide (hash x % 2 ^ k = i)) = 0))) := by
  obtain ⟨i, e, -⟩ := HT.new_inv (α := P) hash eq h1 h2
  obtain ⟨s, t, e1, ok, hl⟩ := Links.execs_refines (n := n) hc ops (s := Links.new size) (t := HT.new size)
    ⟨⟨Links.chains_replicate _ _, rfl, rfl⟩, i, by rw [e], fun p => by simp [Links.new], fun p hp => by simp at hp⟩
    (by simpa using hn) h
  have hnd := Links.nodup_of_distinct hc ok.inv
  obtain ⟨s', e2, -, hh⟩ := Links.clear_spec ok.rep hnd (lt_of_eq_of_lt ok.perm.length_eq hl)
  refine ⟨s, e1, by rw [ok.rep.size, ok.inv.size, ok.perm.length_eq], (hc.perm_distinct ok.perm).1 ok.inv.distinct, ok.alive,
    ⟨_, s', e2, ok.perm, fun p => ?_⟩, ?_⟩
  · rw [hh]
    by_cases hp : p ∈ r.set
    · simp [hp, ok.perm.mem_iff]
    · simp [hp, ok.perm.mem_iff, ok.alive]
  · obtain ⟨k, hk⟩ := ok.inv.placed.pow
    refine ⟨k, ok.rep.chains.length.trans hk, ?_⟩
    rw [Links.collisions_spec ok.rep (lt_of_eq_of_lt ok.perm.length_eq hl)]
    obtain ⟨-, c1, c2, c3⟩ := HT.collisions_spec t
    have key := fun q => ok.inv.placed.countP hk ok.perm (q := q)
    refine congrArg some (Prod.ext ?_ (Prod.ext ?_ ?_))
    · rw [c1]; exact key fun b => decide (1 < b)
    · rw [c2]; exact key fun b => decide (b = 1)
    · rw [c3]; exact key fun b => decide (b = 0)

/- A use which enlarges the table three times, erases in the middle of a bucket, and reuses the memory of a destroyed datum. -/
example : (Links.Ref.execs (fun a b : Nat => a % 10 == b % 10) ⟨[], [], []⟩
    [.make 3, .table (.insert 3), .make 13, .table (.insert 13), .free 13, .make 8, .table (.insert 8), .make 7, .table (.insert 7),
     .make 28, .table (.erase 28), .free 8, .make 18, .table (.insert2 18), .make 8, .table (.insert 8)]).map
      (fun q => (q.2.set, q.2.alive)) = some ([18, 7, 3], [8, 18, 28, 7, 3]) := by
  decide +kernel

/- A datum erased and inserted again by an insertion in two phases keeps its old link: the rest of its former bucket is found twice, which
is why such insertions are only given new data. -/
example : (Links.execs (fun n : Nat => n % 2) (fun a b => a == b) 9 (Links.new 4#64)
    [.make 1, .make 2, .make 3, .table (.insert 3), .table (.insert 1), .table (.erase 1), .table (.insert2 2), .table (.insert2 1)]).map
      (fun q => (Links.clear 9 q.2).isSome) = some false := by
  decide +kernel

/-- The two-phase insertion with a key of another type (an operation looking for its cache entry): the
check finds an element equal to the key if there is one and otherwise gives the bucket of the key. -/
theorem C21_two_phase_insertion {α K : Type} {hash : α → Nat} {eq : α → α → Bool}
    (hc : HT.Compat hash eq) {t : HT α} (h : HT.Inv hash eq t) {hashK : K → Nat} {eqK : K → α → Bool}
    {k : K} (hk : ∀ y, eqK k y = true → hashK k = hash y) :
    (∃ y i, HT.insertCheck hashK eqK k t = some (some y, i) ∧ y ∈ t.elems ∧ eqK k y = true) ∨
    (∃ i, HT.insertCheck hashK eqK k t = some (none, i) ∧ (∀ y ∈ t.elems, eqK k y = false) ∧
      ∀ x, hash x = hashK k → (∀ y ∈ t.elems, eq x y = false) →
        ∃ t', HT.insertCommit x i t = some t' ∧ HT.Inv hash eq t' ∧ t'.elems.Perm (x :: t.elems)) := by
  obtain ⟨c1, c2, c3⟩ := HT.insertCheck_spec h hk
  match hr : HT.insertCheck hashK eqK k t with
  | none => exact absurd hr c3
  | some (some y, i) => exact .inl ⟨y, i, rfl, c1 y i hr⟩
  | some (none, i) =>
    obtain ⟨hn, rfl⟩ := c2 i hr
    refine .inr ⟨_, rfl, hn, fun x hx hx' => ?_⟩
    have hpos : HT.pos hashK t.buckets.length k = HT.pos hash t.buckets.length x := by
      unfold HT.pos; rw [hx]
    obtain ⟨t', e, i', m, _⟩ := HT.insertCommit_spec hc h hpos hx'
    exact ⟨t', e, i', m⟩

/-- Numbers up to equality modulo 10, hashed modulo 5. -/
example : HT.Compat (fun n : Nat => n % 5) (fun a b => a % 10 == b % 10) where
  refl := by simp
  symm := by intro x y h; simp at *; omega
  trans := by intro x y z h h'; simp at *; omega
  hash := by intro x y h; simp at *; omega

example : (HT.execs (fun n : Nat => n % 5) (fun a b => a % 10 == b % 10) (HT.new 1#64)
    [.insert 3, .insert 13, .insert 8, .insert 7, .erase 28, .insert2 18, .insert 1]).map
      (fun r => (r.2.elems, r.2.size, r.2.nbRehash)) = some ([1, 7, 3, 18], 4, 3) := by
  decide +kernel

/-! ## C22: next_power_of_2 -/

/-- **C22**, 64 bits. -/
theorem C22_next_power_of_2 (x : BitVec 64) :
    (x.toNat = 0 → (nextPower64 x).toNat = 0) ∧
    (1 ≤ x.toNat → x.toNat ≤ 2 ^ 63 → (∃ k, (nextPower64 x).toNat = 2 ^ k) ∧
      x.toNat ≤ (nextPower64 x).toNat ∧ ∀ k, x.toNat ≤ 2 ^ k → (nextPower64 x).toNat ≤ 2 ^ k) ∧
    (2 ^ 63 < x.toNat → (nextPower64 x).toNat = 0) :=
  ⟨(nextPower64_spec x).zero, (nextPower64_spec x).range, (nextPower64_spec x).beyond⟩

/-- **C22**, 32 bits. -/
theorem C22_next_power_of_2_32 (x : BitVec 32) :
    (x.toNat = 0 → (nextPower32 x).toNat = 0) ∧
    (1 ≤ x.toNat → x.toNat ≤ 2 ^ 31 → (∃ k, (nextPower32 x).toNat = 2 ^ k) ∧
      x.toNat ≤ (nextPower32 x).toNat ∧ ∀ k, x.toNat ≤ 2 ^ k → (nextPower32 x).toNat ≤ 2 ^ k) ∧
    (2 ^ 31 < x.toNat → (nextPower32 x).toNat = 0) :=
  ⟨(nextPower32_spec x).zero, (nextPower32_spec x).range, (nextPower32_spec x).beyond⟩

example : nextPower64 1000#64 = 1024#64 ∧ nextPower32 1025#32 = 2048#32 := by decide +kernel

/-! ## C18, C19, C20: unified data and their handles -/

section
open Heap
variable {L : Type} [DecidableEq L] {hash : Key L → Nat} {bytes : Key L → Nat}

/-- **C18**. After any valid program on handles, for any hash function: the variables have the values the
same program computes when data are plain values (terms), and two variables hold the same pointer if and only
if their terms are equal. -/
theorem C18_unique_table {size : BitVec 64} (h1 : 1 ≤ size.toNat) (h2 : size.toNat ≤ 2 ^ 63) {n : Nat}
    {ops : List (Op L)} {s : State L} (hr : Runs hash bytes (init size n) ops s) :
    ∃ V, vexecs (List.replicate n VSlot.dead) ops = some V ∧ V.length = s.vars.length ∧
      (∀ (v : Nat) (a : Addr), s.vars[v]? = some (.live a) → ∃ t, V[v]? = some (.val t)) ∧
      (∀ (v : Nat) (t : Tree L), V[v]? = some (.val t) → ∃ a, s.vars[v]? = some (.live a)) ∧
      ∀ (v w : Nat) (a b : Addr) (t u : Tree L), s.vars[v]? = some (.live a) → s.vars[w]? = some (.live b) →
        V[v]? = some (.val t) → V[w]? = some (.val u) → (a = b ↔ t = u) := by
  obtain ⟨i, V, e, ha⟩ := runs_abs hr (init_inv h1 h2 n) (init_abs size n)
  have hval : ∀ (v : Nat) (a : Addr), s.vars[v]? = some (.live a) → ∃ t, V[v]? = some (.val t) ∧ Denotes s t a := by
    intro v a hv
    obtain ⟨y, hy, hr⟩ := forall₂_get ha hv
    cases y with
    | dead => exact hr.elim
    | moved => exact hr.elim
    | val t => exact ⟨t, hy, hr⟩
  refine ⟨V, e, ha.length_eq.symm, fun v a hv => ?_, fun v t hv => ?_, ?_⟩
  · obtain ⟨t, ht, _⟩ := hval v a hv
    exact ⟨t, ht⟩
  · have hlen : v < s.vars.length := by
      rw [ha.length_eq]
      exact (List.getElem?_eq_some_iff.1 hv).1
    obtain ⟨y, hy, hr⟩ := forall₂_get ha (List.getElem?_eq_getElem hlen)
    rw [hv] at hy
    cases hy
    cases hx : s.vars[v] with
    | dead => rw [hx] at hr; exact hr.elim
    | moved => rw [hx] at hr; exact hr.elim
    | live a => exact ⟨a, by rw [List.getElem?_eq_getElem hlen, hx]⟩
  · intro v w a b t u hv hw ht hu
    obtain ⟨t', ht', hd⟩ := hval v a hv
    obtain ⟨u', hu', hd'⟩ := hval w b hw
    rw [ht] at ht'
    rw [hu] at hu'
    cases ht'
    cases hu'
    constructor
    · rintro rfl
      exact denotes_fun _ _ hd hd'
    · rintro rfl
      exact denotes_inj i _ hd hd'

/-- **C19**. In every state of a program on handles, valid statements never meet an undefined behaviour
(access to a freed object, double free, construction in a block which is too small, missing element in the
table); an object is in memory exactly when it can be reached from a variable; the memory allocated is that of these objects
and at most one spare block; counters count the handles. -/
theorem C19_reference_counting {size : BitVec 64} (h1 : 1 ≤ size.toNat) (h2 : size.toNat ≤ 2 ^ 63)
    {n : Nat} {s : State L} (hr : Reach hash bytes size n s) :
    (∀ op, Valid s op → ∃ s', exec hash bytes s op = some s' ∧ Reach hash bytes size n s') ∧
    (∀ a, (s.cells a).isSome ↔ Reaches s a) ∧
    (s.blocks.map Prod.fst).Nodup ∧
    (∀ a, a ∈ s.blocks.map Prod.fst ↔ Reaches s a ∨ ∃ m, s.spare = some (a, m)) ∧
    ((∀ a, Slot.live a ∉ s.vars) → s.blocks.length ≤ 1) := by
  have i := reach_inv h1 h2 hr
  have halloc : ∀ a, a ∈ s.blocks.map Prod.fst ↔ Reaches s a ∨ ∃ m, s.spare = some (a, m) := by
    intro a
    rw [i.alloc a, i.live_iff a]
  refine ⟨fun op hv => ?_, i.live_iff, i.nodup, halloc, fun hno => ?_⟩
  · obtain ⟨s', e, _, _⟩ := exec_inv (bytes := bytes) i hv
    exact ⟨s', e, .step hr hv e⟩
  · have hnr : ∀ a, ¬ Reaches s a := by
      intro a ha
      induction ha with
      | handle h => exact hno _ h
      | kid _ _ _ ih => exact ih
    have hsub : ∀ a ∈ s.blocks.map Prod.fst, ∃ m, s.spare = some (a, m) := fun a ha =>
      ((halloc a).1 ha).resolve_left (hnr a)
    have hnd := i.nodup
    have hlen : (s.blocks.map Prod.fst).length = s.blocks.length := List.length_map _
    rw [← hlen]
    generalize s.blocks.map Prod.fst = l at hsub hnd
    match l with
    | [] => simp
    | [_] => simp
    | a :: b :: l =>
      exfalso
      obtain ⟨m, ha⟩ := hsub a List.mem_cons_self
      obtain ⟨m', hb⟩ := hsub b (List.mem_cons_of_mem _ List.mem_cons_self)
      rw [ha] at hb
      cases hb
      simp at hnd

/-- A handle which is the only reference to its object. -/
def demoHeap : Option (State Nat) :=
  exec (fun k => k.1 % 3) (fun k => 16 + 8 * k.2.length) (init 1#64 3) (.create 0 7 [] 100)

/-- **C20**, negation. Copying a handle to itself is an undefined behaviour when it is the only
reference to its object: the object is deleted, then its counter is incremented
(`/repo/sdd/mem/ptr.hh:95-111`). -/
theorem C20_negation : ∃ s : State Nat,
    Reach (fun k => k.1 % 3) (fun k => 16 + 8 * k.2.length) 1#64 3 s ∧
    s.vars[0]? = some (.live 100) ∧
    exec (fun k => k.1 % 3) (fun k => 16 + 8 * k.2.length) s (.copyAssign 0 0) = none ∧
    -- moving a handle to itself loses the object
    (exec (fun k => k.1 % 3) (fun k => 16 + 8 * k.2.length) s (.moveAssign 0 0)).map
      (fun s' => (s'.vars[0]?, s'.blocks)) = some (some .moved, []) := by
  have hv : Valid (init 1#64 3 : State Nat) (.create 0 7 [] 100) := ⟨rfl, by simp, by simp [init]⟩
  have he : demoHeap.isSome = true := by decide +kernel
  obtain ⟨s, hs⟩ := Option.isSome_iff_exists.1 he
  refine ⟨s, .step .init hv hs, ?_, ?_, ?_⟩
  · have : demoHeap.bind (fun s => s.vars[0]?) = some (.live 100) := by decide +kernel
    rw [hs] at this
    exact this
  · have : (demoHeap.bind fun s =>
      exec (fun k => k.1 % 3) (fun k => 16 + 8 * k.2.length) s (.copyAssign 0 0)).isNone = true := by
      decide +kernel
    rw [hs] at this
    simpa using this
  · have : (demoHeap.bind fun s =>
      (exec (fun k => k.1 % 3) (fun k => 16 + 8 * k.2.length) s (.moveAssign 0 0)).map
      (fun s' => (s'.vars[0]?, s'.blocks))) = some (some .moved, []) := by
      decide +kernel
    rw [hs] at this
    exact this

/-- When there is another reference to the object, giving up a handle only decrements a counter. -/
theorem drop_shared {s : State L} (i : Inv hash [] s) {v : Nat} {a : Addr} {c : Cell L} (hv : s.vars[v]? = some (.live a))
    (hc : s.cells a = some c)
    (hother : (∃ w, w ≠ v ∧ s.vars[w]? = some (.live a)) ∨
      ∃ b c, s.cells b = some c ∧ a ∈ c.key.2) :
    2 ≤ s.refs a ∧ destroy hash (steps s) ([a].map Item.dec) s = some { s with refs := fun b => s.refs b - [a].count b } := by
  obtain ⟨href, _⟩ := i.refs' hc
  have h2refs : 2 ≤ s.refs a := by
    have hcs := count_set hv .moved (.live a)
    simp only [if_true, reduceCtorEq, if_false] at hcs
    rcases hother with ⟨w, hwv, hw⟩ | ⟨b, d, hd, hin⟩
    · have : Slot.live a ∈ s.vars.set v .moved := by
        refine List.mem_iff_getElem?.2 ⟨w, ?_⟩
        rw [List.getElem?_set_ne (Ne.symm hwv), hw]
      have := List.count_pos_iff.2 this
      omega
    · have := inTable_pos ((i.table b d.key).2 ⟨d, hd, rfl, by simp⟩) hin
      omega
  have hmem := (i.alloc a).2 (.inl (by rw [hc]; rfl))
  have hsteps : 1 ≤ steps s := by
    have := sum_update i.nodup hmem (by omega : 0 < s.refs a)
    unfold steps
    omega
  exact ⟨h2refs, destroy_noop (hash := hash) [a] (steps s) s (by simpa using hsteps) (by
    intro k hk
    rw [List.mem_singleton.1 hk]
    refine ⟨by rw [hc]; rfl, ?_⟩
    simp
    omega)⟩

/-- **C20**, what holds: copying a handle to itself changes nothing when there is another
reference to the object (from another handle or from another object). -/
theorem C20_self_assignment_partial {size : BitVec 64} (h1 : 1 ≤ size.toNat) (h2 : size.toNat ≤ 2 ^ 63)
    {n : Nat} {s : State L} (hr : Reach hash bytes size n s) {v : Nat} {a : Addr}
    (hv : s.vars[v]? = some (.live a))
    (hother : (∃ w, w ≠ v ∧ s.vars[w]? = some (.live a)) ∨
      ∃ b c, s.cells b = some c ∧ a ∈ c.key.2) :
    exec hash bytes s (.copyAssign v v) = some s := by
  have i := reach_inv h1 h2 hr
  obtain ⟨c, hc⟩ := i.cell_of_var hv
  obtain ⟨h2refs, hd⟩ := drop_shared i hv hc hother
  simp only [exec, target, hv, drop]
  rw [show [Item.dec a] = [a].map Item.dec from rfl, hd]
  simp only [inc, hc, Option.map_some, Option.some.injEq]
  have hvars : s.vars.set v (.live a) = s.vars := by
    refine List.ext_getElem? fun i => ?_
    by_cases e : v = i
    · subst e
      rw [List.getElem?_set_self (List.getElem?_eq_some_iff.1 hv).1, hv]
    · rw [List.getElem?_set_ne e]
  have hrefs : Function.update (fun b => s.refs b - [a].count b) a (s.refs a - [a].count a + 1) =
      s.refs := by
    funext b
    by_cases e : b = a
    · subst e
      rw [Function.update_self]
      simp
      omega
    · rw [Function.update_of_ne e, List.count_eq_zero.2 (by simpa using e)]
      rfl
  rw [hvars, hrefs]

/-! ## C78: parts of data -/

/-- **C78**, what holds. Constructing a handle from a part of the datum of a handle (a valuation, a successor) always gives this part, and
other variables keep their values. So does the assignment of a reference to this part, when the handle which is assigned is not the
one whose datum is read, or when it is not the only reference to this datum. Missing: the other case, see `C78_negation`. -/
theorem C78_parts_partial {size : BitVec 64} (h1 : 1 ≤ size.toNat) (h2 : size.toNat ≤ 2 ^ 63) {n : Nat} {s : State L}
    (hr : Reach hash bytes size n s) {v w i : Nat} {l : L} {ts : List (Tree L)} {t : Tree L} (hw : Holds s w (.node l ts))
    (ht : ts[i]? = some t) :
    (s.vars[v]? = some .dead → ∃ s', exec hash bytes s (.read v w i) = some s' ∧ Holds s' v t ∧
      ∀ u t', u ≠ v → Holds s u t' → Holds s' u t') ∧
    ((∃ x, s.vars[v]? = some x ∧ x ≠ .dead) →
      (v = w → (∃ u a, u ≠ v ∧ s.vars[v]? = some (.live a) ∧ s.vars[u]? = some (.live a)) ∨
        ∃ a b c, s.vars[v]? = some (.live a) ∧ s.cells b = some c ∧ a ∈ c.key.2) →
      ∃ s', exec hash bytes s (.readAssign v w i) = some s' ∧ Holds s' v t ∧
        ∀ u t', u ≠ v → Holds s u t' → Holds s' u t') := by
  have inv := reach_inv h1 h2 hr
  obtain ⟨b, hwb, kids, birth, hb, hkids⟩ := hw
  have hlen : ∀ {ts : List (Tree L)} {as : List Addr}, DenotesL s ts as → ∀ {i : Nat} {t : Tree L}, ts[i]? = some t →
      ∃ k, as[i]? = some k ∧ Denotes s t k := by
    intro ts
    induction ts with
    | nil => intro as _ i t h; simp at h
    | cons t0 ts ih =>
      intro as hd i t h
      cases as with
      | nil => simp [DenotesL] at hd
      | cons a as =>
        cases i with
        | zero => simp only [List.getElem?_cons_zero, Option.some.injEq] at h; subst h; exact ⟨a, rfl, hd.1⟩
        | succ i => simpa using ih hd.2 (by simpa using h)
  obtain ⟨k, hk, hdk⟩ := hlen hkids ht
  have hl : load s b i = some k := by simp only [load, hb, Option.bind_some, hk]
  have hp : part s w i = some k := by simp only [part, target, hwb, Option.bind_some, hl]
  have fin : ∀ {op : Op L}, (op = .read v w i ∨ op = .readAssign v w i) → Valid s op → v < s.vars.length →
      ∃ s', exec hash bytes s op = some s' ∧ Holds s' v t ∧ ∀ u t', u ≠ v → Holds s u t' → Holds s' u t' := by
    intro op hop hv hlt
    obtain ⟨s', e, i1, hkeep⟩ := exec_inv (bytes := bytes) inv hv
    have heff : s'.vars = s.vars.set v (.live k) := by
      have := exec_vars inv hv e
      rcases hop with rfl | rfl <;>
      · obtain ⟨k', hk', hvars⟩ := this
        rw [hp] at hk'
        cases hk'
        exact hvars
    have live : ∀ {u : Nat} {a : Addr} {t' : Tree L}, s'.vars[u]? = some (.live a) → Denotes s t' a → Denotes s' t' a := by
      intro u a t' hu hd
      obtain ⟨c, hc⟩ := i1.cell_of_var hu
      exact denotes_keeps i1 hkeep t' hd (by rw [hc]; rfl)
    have hvk : s'.vars[v]? = some (.live k) := by rw [heff, List.getElem?_set_self hlt]
    refine ⟨s', e, ⟨k, hvk, live hvk hdk⟩, fun u t' hu ⟨a, ha, hd⟩ => ?_⟩
    have hua : s'.vars[u]? = some (.live a) := by rw [heff, List.getElem?_set_ne (Ne.symm hu), ha]
    exact ⟨a, hua, live hua hd⟩
  refine ⟨fun hv => fin (.inl rfl) ⟨hv, k, hp⟩ (List.getElem?_eq_some_iff.1 hv).1, fun ⟨x, hv, hx⟩ hother => ?_⟩
  have hlt := (List.getElem?_eq_some_iff.1 hv).1
  by_cases hne : v = w
  · subst hne
    obtain ⟨_, hd⟩ := drop_shared inv hwb hb (by
      rcases hother rfl with ⟨u, a, hu, ha, hua⟩ | ⟨a, b', c, ha, hc, hin⟩
      · rw [hwb] at ha; cases ha; exact .inl ⟨u, hu, hua⟩
      · rw [hwb] at ha; cases ha; exact .inr ⟨b', c, hc, hin⟩)
    obtain ⟨ck, hck⟩ := Option.isSome_iff_exists.1 (inv.part_cell hb hk)
    have e : exec hash bytes s (.readAssign v v i) =
        some { s with
          refs := Function.update (fun a => s.refs a - [b].count a) k (s.refs k - [b].count k + 1)
          vars := s.vars.set v (.live k) } := by
      simp only [exec, target, hwb, hl, Option.isNone_some, Bool.false_eq_true, if_false, drop]
      rw [show [Item.dec b] = [b].map Item.dec from rfl, hd]
      simp only [load, hb, Option.bind_some, hk, inc, hck, Option.map_some]
    have hsub : ∀ (s' : State L), s'.cells = s.cells → ∀ {t' : Tree L} {a : Addr}, Denotes s t' a → Denotes s' t' a :=
      fun _ hc _ _ h => denotes_sub (by rw [hc]; exact fun _ _ h => h) _ h
    refine ⟨_, e, ⟨k, List.getElem?_set_self hlt, hsub _ (by rfl) hdk⟩, fun u t' hu ⟨a, ha, hd⟩ => ⟨a, ?_, hsub _ (by rfl) hd⟩⟩
    simp only
    rw [List.getElem?_set_ne (Ne.symm hu), ha]
  · exact fin (.inr rfl) ⟨hne, ⟨x, hv, hx⟩, k, hp⟩ hlt

/-- A handle (the variable 1) which is the only reference to a datum with two parts. -/
def demoNode : List (Op Nat) := [.create 0 7 [] 100, .create 1 8 [0, 0] 200, .destroy 0]

/-- **C78 does not hold**: the assignment to a handle of a reference to a part of its own datum (`x = x_node.begin()->valuation()`) is an
undefined behaviour when the handle is the only reference to this datum: the datum is deleted, then the part is read
(`/repo/sdd/mem/ptr.hh:95-111`, `/repo/sdd/dd/alpha.hh:44-50`). With another reference, it gives the part. -/
theorem C78_negation : ∃ s : State Nat,
    Reach (fun k => k.1 % 3) (fun k => 16 + 8 * k.2.length) 1#64 3 s ∧ Holds s 1 (.node 8 [.node 7 [], .node 7 []]) ∧
    exec (fun k => k.1 % 3) (fun k => 16 + 8 * k.2.length) s (.readAssign 1 1 0) = none ∧
    ((exec (fun k => k.1 % 3) (fun k => 16 + 8 * k.2.length) s (.copy 2 1)).bind fun s' =>
      (exec (fun k => k.1 % 3) (fun k => 16 + 8 * k.2.length) s' (.readAssign 1 1 0)).map fun s'' => s''.vars) =
        some [.dead, .live 100, .live 200] := by
  have he : ((runB (fun k => k.1 % 3) (fun k => 16 + 8 * k.2.length) (init 1#64 3) demoNode).bind fun s =>
      some ((s.vars, s.cells 100, s.cells 200), (exec (fun k => k.1 % 3) (fun k => 16 + 8 * k.2.length) s (.readAssign 1 1 0)).isNone,
        ((exec (fun k => k.1 % 3) (fun k => 16 + 8 * k.2.length) s (.copy 2 1)).bind fun s' =>
      (exec (fun k => k.1 % 3) (fun k => 16 + 8 * k.2.length) s' (.readAssign 1 1 0)).map fun s'' => s''.vars))) =
      some (([.dead, .live 200, .dead], some ⟨(7, []), 0⟩, some ⟨(8, [100, 100]), 1⟩), true,
        some [.dead, .live 100, .live 200]) := by
    decide +kernel
  obtain ⟨s, hs, e⟩ := Option.bind_eq_some_iff.1 he
  simp only [Option.some.injEq, Prod.mk.injEq] at e
  obtain ⟨⟨e1, e2, e3⟩, e4, e5⟩ := e
  have h7 : Denotes s (.node 7 []) 100 := ⟨[], 0, e2, trivial⟩
  exact ⟨s, (runB_runs hs).reach .init, ⟨200, by rw [e1]; rfl, [100, 100], 1, e3, h7, h7, trivial⟩, by simpa using e4, e5⟩

-- the hypotheses of `C78_parts_partial`, for a handle which is not the only one
example : ((runB (fun k => k.1 % 3) (fun k => 16 + 8 * k.2.length) (init 1#64 3) (demoNode ++ [.copy 2 1])).map fun s =>
    (s.vars, s.cells 100, s.cells 200)) =
      some ([.dead, .live 200, .live 200], some ⟨(7, []), 0⟩, some ⟨(8, [100, 100]), 1⟩) := by decide +kernel

/-! ## C79: counters of references -/

/-- **C79**, partial. The counters of references have 32 bits (`M = 2 ^ 32`) and wrap. After any program, for any hash function, as long as
the handles and the pointers held by data which designate a same datum, together with those the statement makes, are fewer than `M`:
every statement is defined and does what it does with unbounded counters (so that C18, C19, C67, C74 and C78 hold), and data are in memory exactly
when they can be reached from handles, counted exactly.

What is missing: more pointers to a datum (`C79_negation`). -/
theorem C79_counters_partial {size : BitVec 64} (h1 : 1 ≤ size.toNat) (h2 : size.toNat ≤ 2 ^ 63) {M n : Nat} {s : State L}
    (hr : ReachB hash bytes M size n s) :
    Reach hash bytes size n s ∧
    (∀ op, Valid s op → (∀ a, s.vars.count (.live a) + inTable a s.table.elems + op.made < M) →
      ∃ s', execW hash bytes M s op = some s' ∧ exec hash bytes s op = some s' ∧ ReachB hash bytes M size n s') ∧
    (∀ a, (s.cells a).isSome ↔ Reaches s a) ∧
    ∀ a, (s.cells a).isSome → s.refs a = s.vars.count (.live a) + inTable a s.table.elems := by
  have hR := hr.reach h1 h2
  have hi := reach_inv h1 h2 hR
  refine ⟨hR, fun op hv hb => ?_, hi.live_iff, fun a ha => ?_⟩
  · obtain ⟨s', e, _⟩ := exec_inv (bytes := bytes) hi hv
    have e' := execW_eq hi hb e
    exact ⟨s', e', e, .step hr hv hb e'⟩
  · obtain ⟨c, hc⟩ := Option.isSome_iff_exists.1 ha
    exact (hi.refs' hc).1

/-- **C79 does not hold**, whatever the width of the counters (`M` values; `M = 2 ^ 32` in the code): with `M + 1` handles of a same datum (32 GB of
handles; no statement of the program is at fault), the counter is 1, and the destruction of one handle deletes the datum; all the other handles
designate a datum which does not exist any more, and the destruction or the copy of any of them is an undefined behaviour. (With assertions,
`/repo/sdd/mem/unique.hh:99` stops the program.) -/
theorem C79_negation {M : Nat} (hM : 1 < M) : ∃ s s' : State Nat, ReachW (fun _ => 0) (fun _ => 1) M 1#64 (M + 1) s ∧
    s.vars = List.replicate (M + 1) (.live 100) ∧ (s.cells 100).isSome ∧ Valid s (.destroy 0) ∧
    execW (fun _ => 0) (fun _ => 1) M s (.destroy 0) = some s' ∧
    ∀ v, 1 ≤ v → v ≤ M → s'.vars[v]? = some (.live 100) ∧ s'.cells 100 = none ∧
      execW (fun _ => 0) (fun _ => 1) M s' (.destroy v) = none ∧
      ∀ w, execW (fun _ => 0) (fun _ => 1) M s' (.copy w v) = none := by
  obtain ⟨s, s', h1, h2, h3, h4, h5, h6, h7, h8⟩ := wraps hM
  refine ⟨s, s', h1, h2, h3, h4, h5, fun v hv hv' => ⟨h6 v hv hv', h7, ?_, fun w => ?_⟩⟩
  · simp [execW, h6 v hv hv', dropW, steps, h8, destroyW]
  · simp only [execW, target, h6 v hv hv']
    split
    · simp_all [incW]
    · rfl

/-- A datum with two handles, and a datum with two pointers to it, with counters of 32 bits. -/
example : ∃ s, ReachB (fun k => k.1 % 3) (fun k => 16 + 8 * k.2.length) (2 ^ 32) 1#64 3 s ∧
    s.vars = [.live 100, .live 200, .live 100] ∧ s.refs 100 = 4 := by
  have key : ∀ (ops : List (Op Nat)) (s s' : State Nat), ReachB (fun k => k.1 % 3) (fun k => 16 + 8 * k.2.length) (2 ^ 32) 1#64 3 s →
      (ops.foldlM (fun s op => if validB s op && decide (s.vars.length + (s.table.elems.map fun e => e.2.2.length).sum + op.made < 2 ^ 32)
        then execW (fun k => k.1 % 3) (fun k => 16 + 8 * k.2.length) (2 ^ 32) s op else none) s) = some s' →
      ReachB (fun k => k.1 % 3) (fun k => 16 + 8 * k.2.length) (2 ^ 32) 1#64 3 s' := by
    intro ops
    induction ops with
    | nil => intro s s' h e; cases e; exact h
    | cons op ops ih =>
      intro s s' h e
      rw [List.foldlM_cons] at e
      split at e
      · rename_i hb
        rw [Bool.and_eq_true, decide_eq_true_eq] at hb
        cases he : execW (fun k => k.1 % 3) (fun k => 16 + 8 * k.2.length) (2 ^ 32) s op with
        | none => rw [he] at e; cases e
        | some s1 =>
          rw [he] at e
          exact ih s1 s' (.step h (validB_valid hb.1) (fun a => Nat.lt_of_le_of_lt (Nat.add_le_add_right (holders_le s a) _) hb.2) he) e
      · cases e
  have he : (([.create 0 7 [] 100, .create 1 8 [0, 0] 200, .copy 2 0] : List (Op Nat)).foldlM (fun s op =>
      if validB s op && decide (s.vars.length + (s.table.elems.map fun e => e.2.2.length).sum + op.made < 2 ^ 32)
        then execW (fun k => k.1 % 3) (fun k => 16 + 8 * k.2.length) (2 ^ 32) s op else none) (init 1#64 3)).map (fun s => (s.vars, s.refs 100)) =
      some ([.live 100, .live 200, .live 100], 4) := by decide +kernel
  obtain ⟨s, hs, e⟩ := Option.map_eq_some_iff.1 he
  simp only [Prod.mk.injEq] at e
  exact ⟨s, key _ _ _ .init hs, e.1, e.2⟩

/-- A program with sharing: two variables hold the same pointer, the third one another pointer. -/
def demoProgram : List (Op Nat) :=
  [.create 0 7 [] 100, .create 1 8 [0, 0] 200, .create 2 8 [0, 0] 300, .destroy 0, .create 0 9 [2, 1] 400,
    .copyAssign 1 0, .moveAssign 0 2, .destroy 1]

/-- The execution of a list of statements. -/
def demoRun (ops : List (Op Nat)) : Option (State Nat) :=
  ops.foldlM (fun s op => exec (fun k => k.1 % 3) (fun k => 16 + 8 * k.2.length) s op) (init 1#64 3)

example : (demoRun (demoProgram.take 3)).map (fun s => s.vars) =
    some [.live 100, .live 200, .live 200] := by decide +kernel

example : (demoRun (demoProgram.take 3)).map (fun s => (s.blocks, s.spare)) =
    some ([(300, 32), (200, 32), (100, 16)], some (300, 32)) := by decide +kernel

example : (demoRun demoProgram).map (fun s => (s.vars, s.blocks, s.table.size)) =
    some ([.live 200, .dead, .moved], [(200, 32), (100, 16)], 2) := by decide +kernel

/-! ## C67: the end of the library -/

/-- **C67**. At the end of any program accepted by the compiler (data of a type only hold data of the same type or of a lower one, in
the order values, SDDs, homomorphisms), for any hash function, when the only handles left are those of the members of the managers,
the destruction of the managers succeeds: no datum is erased from a unique table which was destroyed, nor by a handler which was
reset. Afterwards no datum remains and all memory was given back. -/
theorem C67_shutdown {size : BitVec 64} (h1 : 1 ≤ size.toNat) (h2 : size.toNat ≤ 2 ^ 63) {n : Nat} {lk : L → Kind} {vk : Nat → Kind}
    {ops : List (Op L)} {s : State L} (hr : Runs hash bytes (init size n) ops s) (ht : ProgTy lk vk (List.replicate n .dead) ops)
    {o : Members} (ho : o.Ty vk) (hn : o.all.Nodup) (hd : ∀ v ∈ o.all, ∃ x, s.vars[v]? = some x ∧ x ≠ .dead)
    (hu : ∀ v a, s.vars[v]? = some (.live a) → v ∈ o.all) :
    ∃ m, msteps hash lk ⟨s, fun _ => true, fun _ => true⟩ (shutdown o) = some m ∧ m.heap.blocks = [] ∧
      (∀ a, m.heap.cells a = none) ∧ ∀ k, m.table k = false ∧ m.handler k = false :=
  have h := hr.typed h1 h2 ht
  shutdown_ok h.1 h.2 ho hn hd hu

/-- Values are labelled by 0 and 1, SDDs by 2 to 4, homomorphisms by 5 and more. -/
def demoKind (l : Nat) : Kind := if l < 2 then .values else if l < 5 then .sdd else .hom

/-- The members: `empty`, `zero`, `one`, `id`, an operation and its result in a cache of SDDs (variables 4 and 5), in the cache of
homomorphisms (variables 6 and 7), a homomorphism in `saturation_fixpoint_data` (variable 8). Variable 9 is a variable of
the program, for a set of values. -/
def demoMembers : Members := ⟨[8], 3, 2, 1, [6, 7], [4, 5], 0⟩

/-- The kinds of the variables of the example. -/
def demoVar (v : Nat) : Kind := if v = 0 ∨ v = 9 then .values else if v = 3 ∨ v = 6 ∨ v = 8 then .hom else .sdd

/-- The statements of the example. -/
def demoLife : List (Op Nat) :=
  [.create 0 0 [] 100, .create 1 2 [] 200, .create 2 3 [] 300, .create 3 5 [] 400, .create 9 1 [] 500, .create 4 4 [9, 2] 600,
    .copy 5 4, .create 6 6 [9, 4, 3] 700, .create 7 4 [9, 4] 800, .copy 8 6, .destroy 9, .read 9 4 0, .readAssign 5 7 1, .destroy 9]

/-- The end of the program `ops`, then the steps of the destruction. -/
def demoEnd (ops : List (Op Nat)) (l : List MStep) : Option (Man Nat) :=
  (runB (fun k => k.1 % 3) (fun k => 16 + 8 * k.2.length) (init 1#64 10) ops).bind fun s =>
    msteps (fun k => k.1 % 3) demoKind ⟨s, fun _ => true, fun _ => true⟩ l

-- the hypotheses of C67 hold
example : ∃ s : State Nat, Runs (fun k => k.1 % 3) (fun k => 16 + 8 * k.2.length) (init 1#64 10) demoLife s ∧
    ProgTy demoKind demoVar (List.replicate 10 .dead) demoLife ∧ demoMembers.Ty demoVar ∧ demoMembers.all.Nodup ∧
    (∀ v ∈ demoMembers.all, ∃ x, s.vars[v]? = some x ∧ x ≠ .dead) ∧
    (∀ v a, s.vars[v]? = some (.live a) → v ∈ demoMembers.all) ∧ s.blocks.length = 8 := by
  have he : ((runB (fun k => k.1 % 3) (fun k => 16 + 8 * k.2.length) (init 1#64 10) demoLife).map fun s => (s.vars, s.blocks.length)) =
      some ([.live 100, .live 200, .live 300, .live 400, .live 600, .live 600, .live 700, .live 800, .live 700, .dead], 8) := by
    decide +kernel
  obtain ⟨s, hs, e⟩ := Option.map_eq_some_iff.1 he
  simp only [Prod.mk.injEq] at e
  refine ⟨s, runB_runs hs, ?_, ⟨by decide, rfl⟩, by decide, ?_, ?_, e.2⟩
  · decide +kernel
  · rw [e.1]
    intro v hv
    have : ∀ v ∈ demoMembers.all, ([Slot.live 100, .live 200, .live 300, .live 400, .live 600, .live 600, .live 700, .live 800,
      .live 700, .dead][v]?).any (· != .dead) = true := by decide
    exact any_notDead (this v hv)
  · rw [e.1]
    intro v a hv
    match v, hv with
    | 0, _ | 1, _ | 2, _ | 3, _ | 4, _ | 5, _ | 6, _ | 7, _ | 8, _ => decide
    | 9, hv => simp at hv
    | v + 10, hv => simp at hv

example : (demoEnd demoLife (shutdown demoMembers)).map (fun m => (m.heap.blocks, m.heap.vars)) =
    some ([], List.replicate 10 .dead) := by decide +kernel

-- The order of the members matters: the table of homomorphisms must outlive their cache.
example : (demoEnd demoLife ([8, 3, 2, 1].map .handle ++ .table .hom :: [6, 7].map .handle)).isNone = true := by decide +kernel

-- A handle of the program which outlives the manager is undefined behaviour when it is destroyed.
example : (demoEnd (demoLife ++ [.copy 9 0]) (shutdown demoMembers)).isSome = true ∧
    (demoEnd (demoLife ++ [.copy 9 0]) (shutdown demoMembers ++ [.handle 9])).isNone = true := by decide +kernel

end

end Verif
