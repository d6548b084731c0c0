import Verif.Mem.HashTable
import Mathlib.Data.List.Forall2
/-!
# The links of the intrusive hash table

`/repo/sdd/mem/hash_table.hh` again, one level below `Verif/Mem/HashTable.lean`: the data are linked by the pointer `hook.next` they
contain, and a bucket is a pointer to its first datum.  A pointer of the model stands for an address together with the datum which lives
there (the value, and thus the hash, of a datum are constant while it is alive).  `none` as the result of a function is an access to memory
which does not contain a living datum, an access outside of the array of buckets, the failed assertion of line 185, or a loop which does
more than `n` steps.

`Rep` relates this table to the one of `Verif/Mem/HashTable.lean`, whose buckets are lists.
-/

set_option autoImplicit false
set_option linter.unusedSectionVars false

namespace Verif

/-- The state of a table and of the memory: what the hook of each living datum contains (`intrusive_member_hook`,
`/repo/sdd/mem/hash_table.hh:26-31`), and the fields of the table (lines 52-66). -/
structure Links (P : Type) where
  hooks : P → Option (Option P)
  buckets : List (Option P)
  size : Nat
  nbRehash : Nat

namespace Links
variable {P : Type} [DecidableEq P]

/-- Writing a hook: `p->hook.next = q`. (`/repo/sdd/mem/hash_table.hh`, lines 124, 174, 267, 296.) -/
def write (m : P → Option (Option P)) (p : P) (q : Option P) : Option (P → Option (Option P)) :=
  match m p with
  | none => none
  | some _ => some fun r => if r = p then some q else m r

/-- The loops which look for an element: `/repo/sdd/mem/hash_table.hh:91-99` and `:286-293`. -/
def find (m : P → Option (Option P)) (eq : P → Bool) : Nat → Option P → Option (Option P)
  | 0, _ => none
  | _ + 1, none => some none
  | n + 1, some p =>
    match m p with
    | none => none
    | some q => if eq p then some (some p) else find m eq n q

/-- `insert_impl`, `/repo/sdd/mem/hash_table.hh:278-301`. (`size_` is incremented by the callers below when an element is inserted.) -/
def insertImpl (hash : P → Nat) (eq : P → P → Bool) (n : Nat) (x : P) (m : P → Option (Option P)) (bs : List (Option P)) :
    Option ((P × Bool) × (P → Option (Option P)) × List (Option P)) :=
  match m x with
  | none => none
  | some _ =>
    match bs[HT.pos hash bs.length x]? with
    | none => none
    | some b =>
      match find m (eq x) n b with
      | none => none
      | some (some y) => some ((y, false), m, bs)
      | some none => (write m x b).map fun m' => ((x, true), m', bs.set (HT.pos hash bs.length x) (some x))

/-- The loop on the data of a bucket in `rehash`, `/repo/sdd/mem/hash_table.hh:263-270`. -/
def move (hash : P → Nat) (eq : P → P → Bool) (k : Nat) : Nat → (P → Option (Option P)) × List (Option P) × Nat → Option P →
    Option ((P → Option (Option P)) × List (Option P) × Nat)
  | 0, _, _ => none
  | _ + 1, st, none => some st
  | n + 1, st, some p =>
    match st.1 p with
    | none => none
    | some next =>
      match write st.1 p none with
      | none => none
      | some m =>
        match insertImpl hash eq k p m st.2.1 with
        | none => none
        | some (r, m', bs) => move hash eq k n (m', bs, if r.2 then st.2.2 + 1 else st.2.2) next

/-- `rehash`, `/repo/sdd/mem/hash_table.hh:249-275`. -/
def rehash (hash : P → Nat) (eq : P → P → Bool) (n : Nat) (s : Links P) : Option (Links P) :=
  if 4 * s.size < 3 * s.buckets.length then some s
  else
    match s.buckets.foldlM (move hash eq n n) (s.hooks, List.replicate (s.buckets.length * 2) none, 0) with
    | none => none
    | some (m, bs, k) => some ⟨m, bs, k, s.nbRehash + 1⟩

/-- `insert`, `/repo/sdd/mem/hash_table.hh:135-141`. -/
def insert (hash : P → Nat) (eq : P → P → Bool) (n : Nat) (x : P) (s : Links P) : Option ((P × Bool) × Links P) :=
  match insertImpl hash eq n x s.hooks s.buckets with
  | none => none
  | some (r, m, bs) => (rehash hash eq n ⟨m, bs, if r.2 then s.size + 1 else s.size, s.nbRehash⟩).map fun s' => (r, s')

/-- The loop of `erase`, `/repo/sdd/mem/hash_table.hh:167-184`: the previous element, the one found and its hook. `none` is also the
assertion of line 185. -/
def findPrev (m : P → Option (Option P)) (eq : P → Bool) : Nat → Option P → Option P → Option (Option P × P × Option P)
  | 0, _, _ => none
  | _ + 1, _, none => none
  | n + 1, prev, some p =>
    match m p with
    | none => none
    | some q => if eq p then some (prev, p, q) else findPrev m eq n (some p) q

/-- `erase`, `/repo/sdd/mem/hash_table.hh:160-186`. -/
def erase (hash : P → Nat) (eq : P → P → Bool) (n : Nat) (x : P) (s : Links P) : Option (Links P) :=
  match s.hooks x with
  | none => none
  | some _ =>
    match s.buckets[HT.pos hash s.buckets.length x]? with
    | none => none
    | some b =>
      match findPrev s.hooks (eq x) n none b with
      | none => none
      | some (none, _, q) =>
        some { s with buckets := s.buckets.set (HT.pos hash s.buckets.length x) q, size := s.size - 1 }
      | some (some p, _, q) => (write s.hooks p q).map fun m => { s with hooks := m, size := s.size - 1 }

/-- `insert_check`, `/repo/sdd/mem/hash_table.hh:80-102`, for a key which is a datum. -/
def insertCheck (hash : P → Nat) (eq : P → P → Bool) (n : Nat) (x : P) (s : Links P) : Option (Option P × Nat) :=
  match s.hooks x with
  | none => none
  | some _ =>
    match s.buckets[HT.pos hash s.buckets.length x]? with
    | none => none
    | some b => (find s.hooks (eq x) n b).map fun r => (r, HT.pos hash s.buckets.length x)

/-- The loop of `insert_commit`, `/repo/sdd/mem/hash_table.hh:111-120`: the last element of the bucket. -/
def last (m : P → Option (Option P)) : Nat → Option P → Option P → Option (Option P)
  | 0, _, _ => none
  | _ + 1, prev, none => some prev
  | n + 1, _, some p =>
    match m p with
    | none => none
    | some q => last m n (some p) q

/-- `insert_commit`, `/repo/sdd/mem/hash_table.hh:104-132`. The hook of the inserted datum is not written: it must be null. -/
def insertCommit (n : Nat) (x : P) (i : Nat) (s : Links P) : Option (Links P) :=
  match s.buckets[i]? with
  | none => none
  | some b =>
    match last s.hooks n none b with
    | none => none
    | some none => some { s with buckets := s.buckets.set i (some x), size := s.size + 1 }
    | some (some p) => (write s.hooks p (some x)).map fun m => { s with hooks := m, size := s.size + 1 }

/-- The use of `insert_check` and `insert_commit`, as in `/repo/sdd/mem/cache.hh:221-258`. -/
def insert2 (hash : P → Nat) (eq : P → P → Bool) (n : Nat) (x : P) (s : Links P) : Option ((P × Bool) × Links P) :=
  match insertCheck hash eq n x s with
  | none => none
  | some (some y, _) => some ((y, false), s)
  | some (none, i) => (insertCommit n x i s).map fun s' => ((x, true), s')

/-- The loop on the data of a bucket in `clear_and_dispose`, `/repo/sdd/mem/hash_table.hh:195-200`, with a disposer which frees
(`/repo/sdd/mem/cache.hh:152-160`): the data given to the disposer and the memory afterwards. -/
def dispose : Nat → (P → Option (Option P)) → Option P → Option (List P × (P → Option (Option P)))
  | 0, _, _ => none
  | _ + 1, m, none => some ([], m)
  | n + 1, m, some p =>
    match m p with
    | none => none
    | some q => (dispose n (fun r => if r = p then none else m r) q).map fun r => (p :: r.1, r.2)

/-- The loop on the buckets of `clear_and_dispose`, `/repo/sdd/mem/hash_table.hh:192-202`. -/
def disposeAll (n : Nat) : (P → Option (Option P)) → List (Option P) → Option (List P × (P → Option (Option P)))
  | m, [] => some ([], m)
  | m, b :: bs =>
    match dispose n m b with
    | none => none
    | some (l, m') => (disposeAll n m' bs).map fun r => (l ++ r.1, r.2)

/-- `clear_and_dispose`, `/repo/sdd/mem/hash_table.hh:189-205`. -/
def clear (n : Nat) (s : Links P) : Option (List P × Links P) :=
  (disposeAll n s.hooks s.buckets).map fun r =>
    (r.1, { s with hooks := r.2, buckets := s.buckets.map fun _ => none, size := 0 })

/-- The inner loop of `collisions`, `/repo/sdd/mem/hash_table.hh:232-238`: the number of elements of a bucket. -/
def count (m : P → Option (Option P)) : Nat → Option P → Option Nat
  | 0, _ => none
  | _ + 1, none => some 0
  | n + 1, some p =>
    match m p with
    | none => none
    | some q => (count m n q).map (· + 1)

/-- `collisions`, `/repo/sdd/mem/hash_table.hh:223-246`. -/
def collisions (n : Nat) (s : Links P) : Option (Nat × Nat × Nat) :=
  s.buckets.foldlM (fun acc b => (count s.hooks n b).map fun nb =>
    if nb = 0 then (acc.1, acc.2.1, acc.2.2 + 1)
    else if nb = 1 then (acc.1, acc.2.1 + 1, acc.2.2)
    else (acc.1 + 1, acc.2.1, acc.2.2)) (0, 0, 0)

/-- The constructor, `/repo/sdd/mem/hash_table.hh:70-78`, when no datum exists. -/
def new (size : BitVec 64) : Links P := ⟨fun _ => none, List.replicate (nextPower64 size).toNat none, 0, 0⟩

/-- What is done with a table and its data: a datum is made (its hook is null, `/repo/sdd/mem/hash_table.hh:30`) or destroyed, and the
operations of the table. (Model of the environment: what the user or the system does.) -/
inductive LOp (P : Type) : Type where
  | make (x : P)
  | free (x : P)
  | table (op : HT.TOp P)

/-- The effects of these operations; nothing is returned by the first two. (`/repo/sdd/mem/hash_table.hh`, lines 80-205; making a datum
where there is a living one, and destroying one which is not alive, are errors.) -/
def exec (hash : P → Nat) (eq : P → P → Bool) (n : Nat) (s : Links P) : LOp P → Option (HT.TOut P × Links P)
  | .make x => if (s.hooks x).isSome then none else some (.erased, { s with hooks := fun r => if r = x then some none else s.hooks r })
  | .free x => if (s.hooks x).isSome then some (.erased, { s with hooks := fun r => if r = x then none else s.hooks r }) else none
  | .table (.insert x) => (insert hash eq n x s).map fun r => (.inserted r.1.1 r.1.2, r.2)
  | .table (.erase x) => (erase hash eq n x s).map fun s' => (.erased, s')
  | .table (.insert2 x) => (insert2 hash eq n x s).map fun r => (.inserted r.1.1 r.1.2, r.2)
  | .table .clear => (clear n s).map fun r => (.cleared r.1.length, r.2)

/-- A sequence of operations. (Proof device, not part of the code.) -/
def execs (hash : P → Nat) (eq : P → P → Bool) (n : Nat) : Links P → List (LOp P) → Option (List (HT.TOut P) × Links P)
  | s, [] => some ([], s)
  | s, op :: ops =>
    match exec hash eq n s op with
    | none => none
    | some (o, s') => (execs hash eq n s' ops).map fun r => (o :: r.1, r.2)

/-! ## Specification -/

/-- The specification of a table: the data in the set, the living data, and those which have never been in a table.
(Specification, not part of the code.) -/
structure Ref (P : Type) where
  set : List P
  alive : List P
  clean : List P

/-- Specification of an operation; `none` is an incorrect use.  One makes data which are not alive, destroys living data which are not in
the set, gives to the set living data which are not already in it (and, for the insertion in two phases, which have never been in a
set), and erases elements. Everything which is in the set when it is cleared is destroyed. -/
def Ref.exec (eq : P → P → Bool) (r : Ref P) : LOp P → Option (HT.TOut P × Ref P)
  | .make x => if x ∈ r.alive then none else some (.erased, ⟨r.set, x :: r.alive, x :: r.clean⟩)
  | .free x => if x ∈ r.alive ∧ x ∉ r.set then some (.erased, ⟨r.set, r.alive.filter (· ≠ x), r.clean.filter (· ≠ x)⟩) else none
  | .table (.insert x) =>
    if x ∈ r.alive ∧ x ∉ r.set then
      match r.set.find? (eq x) with
      | some y => some (.inserted y false, r)
      | none => some (.inserted x true, ⟨x :: r.set, r.alive, r.clean.filter (· ≠ x)⟩)
    else none
  | .table (.insert2 x) =>
    if x ∈ r.clean ∧ x ∉ r.set then
      match r.set.find? (eq x) with
      | some y => some (.inserted y false, r)
      | none => some (.inserted x true, ⟨x :: r.set, r.alive, r.clean.filter (· ≠ x)⟩)
    else none
  | .table (.erase x) =>
    if x ∈ r.alive then
      match r.set.find? (eq x) with
      | some _ => some (.erased, ⟨r.set.eraseP (eq x), r.alive, r.clean⟩)
      | none => none
    else none
  | .table .clear => some (.cleared r.set.length, ⟨[], r.alive.filter (· ∉ r.set), r.clean⟩)

/-- Specification of a sequence of operations. -/
def Ref.execs (eq : P → P → Bool) : Ref P → List (LOp P) → Option (List (HT.TOut P) × Ref P)
  | r, [] => some ([], r)
  | r, op :: ops =>
    match r.exec eq op with
    | none => none
    | some (o, r') => (r'.execs eq ops).map fun q => (o :: q.1, q.2)

/-! ## The relation with lists -/

/-- The data linked from a pointer. (Specification or proof device, not part of the code.) -/
def Chain (m : P → Option (Option P)) : List P → Option P → Prop
  | [], o => o = none
  | p :: l, o => o = some p ∧ ∃ q, m p = some q ∧ Chain m l q

/-- The buckets contain these lists. (Specification or proof device, not part of the code.) -/
def Chains (m : P → Option (Option P)) (bs : List (Option P)) (ls : List (List P)) : Prop :=
  List.Forall₂ (fun o l => Chain m l o) bs ls

/-- The table and the memory represent a table of lists. (Specification or proof device, not part of the code.) -/
structure Rep (s : Links P) (t : HT P) : Prop where
  chains : Chains s.hooks s.buckets t.buckets
  size : s.size = t.size
  nbRehash : s.nbRehash = t.nbRehash

section
variable {m m' : P → Option (Option P)}

theorem Chain.frame : ∀ {l : List P} {o : Option P}, Chain m l o → (∀ p ∈ l, m' p = m p) → Chain m' l o
  | [], _, h, _ => h
  | p :: l, o, ⟨h1, q, h2, h3⟩, hm =>
    ⟨h1, q, by rw [hm p (by simp), h2], h3.frame fun r hr => hm r (by simp [hr])⟩

theorem Chain.alive : ∀ {l : List P} {o : Option P}, Chain m l o → ∀ p ∈ l, ∃ q, m p = some q
  | _ :: _, _, ⟨_, q, h2, h3⟩, r, hr => by
    rcases List.mem_cons.1 hr with rfl | hr
    · exact ⟨q, h2⟩
    · exact h3.alive r hr

theorem Chains.frame {bs : List (Option P)} {ls : List (List P)} (h : Chains m bs ls)
    (hm : ∀ p ∈ ls.flatten, m' p = m p) : Chains m' bs ls := by
  induction h with
  | nil => exact .nil
  | cons h1 _ ih =>
    simp only [List.flatten_cons, List.mem_append] at hm
    exact .cons (h1.frame fun p hp => hm p (Or.inl hp)) (ih fun p hp => hm p (Or.inr hp))

theorem Chains.length {bs : List (Option P)} {ls : List (List P)} (h : Chains m bs ls) : bs.length = ls.length :=
  List.Forall₂.length_eq h

theorem Chains.get {bs : List (Option P)} {ls : List (List P)} (h : Chains m bs ls) : ∀ {i : Nat} {l : List P},
    ls[i]? = some l → ∃ o, bs[i]? = some o ∧ Chain m l o := by
  induction h with
  | nil => intro i l hl; simp at hl
  | @cons o l' bs ls h1 _ ih =>
    intro i l hl
    cases i with
    | zero =>
      simp only [List.getElem?_cons_zero, Option.some.injEq] at hl ⊢
      subst hl
      exact ⟨o, rfl, h1⟩
    | succ i =>
      simp only [List.getElem?_cons_succ] at hl ⊢
      exact ih hl

theorem Chains.set {bs : List (Option P)} {ls : List (List P)} (h : Chains m bs ls) : ∀ (i : Nat) {l : List P} {o : Option P},
    Chain m' l o → (∀ (j : Nat) l', j ≠ i → ls[j]? = some l' → ∀ p ∈ l', m' p = m p) → Chains m' (bs.set i o) (ls.set i l) := by
  induction h with
  | nil => intro i l o _ _; exact .nil
  | @cons o' l' bs ls h1 h2 ih =>
    intro i l o hl hm
    cases i with
    | zero =>
      refine .cons hl (Chains.frame h2 fun p hp => ?_)
      obtain ⟨j, b, hb, hp⟩ := HT.mem_flatten_iff.1 hp
      exact hm (j + 1) b (by simp) (by simpa using hb) p hp
    | succ i =>
      refine .cons (h1.frame (hm 0 l' (by simp) rfl)) (ih i hl fun j b hj hb => hm (j + 1) b (by omega) (by simpa using hb))

theorem Chains.bucket_le {ls : List (List P)} {i : Nat} {l : List P} (h : ls[i]? = some l) : l.length ≤ ls.flatten.length := by
  obtain ⟨rest, h1, _⟩ := HT.flatten_set ls i l h
  rw [h1.length_eq]
  simp

theorem find_spec (eq : P → Bool) : ∀ {l : List P} {o : Option P} {n : Nat}, Chain m l o → l.length < n →
    find m eq n o = some (l.find? eq)
  | [], o, n + 1, h, _ => by rw [show o = none from h]; rfl
  | p :: l, o, n + 1, ⟨h1, q, h2, h3⟩, hn => by
    subst h1
    have := find_spec eq (n := n) h3 (by simpa using hn)
    simp only [find, h2, List.find?_cons]
    cases eq p <;> simp [this]

theorem write_spec {p : P} {q q' : Option P} (h : m p = some q) : write m p q' = some fun r => if r = p then some q' else m r := by
  simp [write, h]

end

section
variable {hash : P → Nat} {eq : P → P → Bool}

theorem insertImpl_spec {m : P → Option (Option P)} {bs : List (Option P)} {ls ls' : List (List P)} {x : P} {r : P × Bool} {n : Nat}
    (h : Chains m bs ls) (hx : (m x).isSome) (hnx : x ∉ ls.flatten) (hn : ls.flatten.length < n)
    (e : HT.insertImpl hash eq x ls = some (r, ls')) :
    ∃ m' bs', insertImpl hash eq n x m bs = some (r, m', bs') ∧ Chains m' bs' ls' ∧ (∀ p, p ≠ x → m' p = m p) ∧
      (m' x).isSome ∧ (r.2 = false → m' = m ∧ ls' = ls) ∧ (r.2 = true → r.1 = x ∧ ls'.flatten.Perm (x :: ls.flatten)) := by
  obtain ⟨q, hq⟩ := Option.isSome_iff_exists.1 hx
  unfold HT.insertImpl at e
  match hb : ls[HT.pos hash ls.length x]?, e with
  | some b, e =>
    obtain ⟨o, ho, hc⟩ := h.get hb
    have hf := find_spec (eq x) (n := n) hc (lt_of_le_of_lt (Chains.bucket_le hb) hn)
    unfold insertImpl
    rw [hq]
    simp only [h.length, ho, hf]
    match hy : b.find? (eq x), e with
    | some y, e =>
      simp only [hy, Option.some.injEq, Prod.mk.injEq] at e
      obtain ⟨rfl, rfl⟩ := e
      exact ⟨m, bs, rfl, h, fun _ _ => rfl, hx, fun _ => ⟨rfl, rfl⟩, by simp⟩
    | none, e =>
      simp only [hy, Option.some.injEq, Prod.mk.injEq] at e
      obtain ⟨rfl, rfl⟩ := e
      simp only [write_spec hq, Option.map_some]
      refine ⟨_, _, rfl, ?_, fun p hp => by simp [hp], by simp, by simp, fun _ => ⟨by trivial, ?_⟩⟩
      · refine h.set _ ⟨rfl, o, by simp, hc.frame fun p hp => ?_⟩ fun j l' _ hl' p hp => ?_
        · have : p ≠ x := fun e => hnx (e ▸ HT.mem_flatten_iff.2 ⟨_, b, hb, hp⟩)
          simp [this]
        · have : p ≠ x := fun e => hnx (e ▸ HT.mem_flatten_iff.2 ⟨_, l', hl', hp⟩)
          simp [this]
      · obtain ⟨rest, h1, h2⟩ := HT.flatten_set ls _ b hb
        refine (h2 (x :: b)).trans ?_
        simpa using h1.symm

theorem move_spec {n : Nat} : ∀ {l : List P} {k : Nat} {o : Option P} {m : P → Option (Option P)} {bs : List (Option P)}
    {ls ls' : List (List P)} {c c' : Nat}, Chain m l o → Chains m bs ls → (l ++ ls.flatten).Nodup → l.length + ls.flatten.length < n →
    l.length < k → l.foldlM (HT.rehashStep hash eq) (ls, c) = some (ls', c') →
    ∃ m' bs', move hash eq n k (m, bs, c) o = some (m', bs', c') ∧ Chains m' bs' ls' ∧ (∀ p, p ∉ l → m' p = m p) ∧
      (∀ p, (m' p).isSome = (m p).isSome) ∧ ls'.flatten.length ≤ l.length + ls.flatten.length ∧
      (∀ p ∈ ls'.flatten, p ∈ l ∨ p ∈ ls.flatten) ∧ ls'.flatten.Nodup
  | [], k + 1, o, m, bs, ls, ls', c, c', h, hs, hnd, hn, hk, e => by
    rw [show o = none from h]
    simp only [List.foldlM_nil] at e
    cases e
    exact ⟨m, bs, rfl, hs, fun _ _ => rfl, fun _ => rfl, by simp, fun p hp => .inr hp, by simpa using hnd⟩
  | x :: l, k + 1, o, m, bs, ls, ls', c, c', ⟨h1, q, h2, h3⟩, hs, hnd, hn, hk, e => by
    subst h1
    simp only [List.cons_append, List.nodup_cons, List.mem_append, not_or] at hnd
    obtain ⟨⟨hxl, hxs⟩, hnd⟩ := hnd
    simp only [List.length_cons] at hn hk
    have hfr : ∀ p, p ≠ x → (fun r => if r = x then some none else m r) p = m p := fun p hp => by simp [hp]
    have hs1 : Chains (fun r => if r = x then some none else m r) bs ls := hs.frame fun p hp => hfr p fun e => hxs (e ▸ hp)
    have h31 : Chain (fun r => if r = x then some none else m r) l q := h3.frame fun p hp => hfr p fun e => hxl (e ▸ hp)
    rw [List.foldlM_cons] at e
    match e1 : HT.insertImpl hash eq x ls, e with
    | none, e => simp [HT.rehashStep, e1] at e
    | some (r, ls1), e =>
      simp only [HT.rehashStep, e1] at e
      obtain ⟨m1, bs1, e2, hs2, hfr1, hsome, hF, hT⟩ := insertImpl_spec (n := n) hs1 (by simp) hxs (by omega) e1
      have h32 : Chain m1 l q := h31.frame fun p hp => hfr1 p fun e => hxl (e ▸ hp)
      have hnd1 : (l ++ ls1.flatten).Nodup ∧ ls1.flatten.length ≤ ls.flatten.length + 1 ∧
          ∀ p ∈ ls1.flatten, p = x ∨ p ∈ ls.flatten := by
        cases hr : r.2 with
        | false =>
          obtain ⟨-, rfl⟩ := hF hr
          exact ⟨hnd, by omega, fun p hp => .inr hp⟩
        | true =>
          obtain ⟨-, hp⟩ := hT hr
          refine ⟨((List.Perm.refl l).append hp).nodup_iff.2 ?_, by rw [hp.length_eq]; simp, fun p h => by
            simpa using hp.mem_iff.1 h⟩
          refine (List.perm_middle (a := x)).nodup_iff.2 (List.nodup_cons.2 ⟨by simp [hxl, hxs], hnd⟩)
      obtain ⟨m2, bs2, e3, hs3, hfr2, hsome2, hlen, hmem, hnd2⟩ := move_spec (n := n) (k := k) (c' := c') h32 hs2 hnd1.1
        (by have := hnd1.2.1; omega) (by omega) e
      refine ⟨m2, bs2, ?_, hs3, fun p hp => ?_, fun p => ?_, ?_, fun p hp => ?_, hnd2⟩
      · simp only [move, h2, write_spec h2, e2]
        exact e3
      · simp only [List.mem_cons, not_or] at hp
        rw [hfr2 p hp.2, hfr1 p hp.1]
        exact hfr p hp.1
      · rw [hsome2]
        by_cases hp : p = x
        · subst hp; simp [hsome, h2]
        · rw [hfr1 p hp]
          simp [hp]
      · have := hnd1.2.1
        simp only [List.length_cons]
        omega
      · rcases hmem p hp with h | h
        · simp [h]
        · rcases hnd1.2.2 p h with h | h <;> simp [h]

theorem moves_spec {n : Nat} : ∀ {olds : List (List P)} {obs : List (Option P)} {m : P → Option (Option P)} {bs : List (Option P)}
    {ls ls' : List (List P)} {c c' : Nat}, Chains m obs olds → Chains m bs ls → (olds.flatten ++ ls.flatten).Nodup →
    olds.flatten.length + ls.flatten.length < n → olds.flatten.foldlM (HT.rehashStep hash eq) (ls, c) = some (ls', c') →
    ∃ m' bs', obs.foldlM (move hash eq n n) (m, bs, c) = some (m', bs', c') ∧ Chains m' bs' ls' ∧
      (∀ p, p ∉ olds.flatten → m' p = m p) ∧ ∀ p, (m' p).isSome = (m p).isSome
  | [], _, m, bs, ls, ls', c, c', .nil, hs, hnd, hn, e => by
    simp only [List.flatten_nil, List.foldlM_nil] at e
    cases e
    exact ⟨m, bs, rfl, hs, fun _ _ => rfl, fun _ => rfl⟩
  | l :: olds, _, m, bs, ls, ls', c, c', @List.Forall₂.cons _ _ _ o _ obs _ h1 h2, hs, hnd, hn, e => by
    simp only [List.flatten_cons, List.length_append, List.append_assoc] at hnd hn
    rw [List.flatten_cons, List.foldlM_append] at e
    match e1 : l.foldlM (HT.rehashStep hash eq) (ls, c), e with
    | none, e => simp at e
    | some (ls1, c1), e =>
      simp only [Option.bind_eq_bind, Option.bind_some] at e
      have hd := List.nodup_append.1 hnd
      obtain ⟨m1, bs1, e2, hs1, hfr, hsome, hlen, hmem, hnd1⟩ := move_spec (n := n) (k := n) (c' := c1) h1 hs
        (List.nodup_append.2 ⟨hd.1, (List.nodup_append.1 hd.2.1).2.1, fun a ha b hb => hd.2.2 a ha b (by simp [hb])⟩)
        (by omega) (by omega) e1
      have hdis : ∀ p ∈ olds.flatten, p ∉ l := fun p hp hl => hd.2.2 p hl p (by simp [hp]) rfl
      have h21 : Chains m1 obs olds := Chains.frame h2 fun p hp => hfr p (hdis p hp)
      obtain ⟨m2, bs2, e3, hs2, hfr2, hsome2⟩ := moves_spec (n := n) (c' := c') h21 hs1
        (List.nodup_append.2 ⟨(List.nodup_append.1 hd.2.1).1, hnd1, fun a ha b hb hab => by
          rcases hmem b hb with hb | hb
          · exact hdis a ha (hab ▸ hb)
          · exact (List.nodup_append.1 hd.2.1).2.2 a ha b hb hab⟩) (by omega) e
      refine ⟨m2, bs2, ?_, hs2, fun p hp => ?_, fun p => by rw [hsome2, hsome]⟩
      · rw [List.foldlM_cons, e2]
        exact e3
      · simp only [List.flatten_cons, List.mem_append, not_or] at hp
        rw [hfr2 p hp.2, hfr p hp.1]

theorem chains_replicate (m : P → Option (Option P)) : ∀ n, Chains m (List.replicate n none) (List.replicate n [])
  | 0 => .nil
  | n + 1 => .cons rfl (chains_replicate m n)

theorem rehash_spec {s : Links P} {t t' : HT P} {n : Nat} (h : Rep s t) (hnd : t.elems.Nodup) (hn : t.elems.length < n)
    (e : HT.rehash hash eq t = some t') :
    ∃ s', rehash hash eq n s = some s' ∧ Rep s' t' ∧ (∀ p, p ∉ t.elems → s'.hooks p = s.hooks p) ∧
      ∀ p, (s'.hooks p).isSome = (s.hooks p).isSome := by
  unfold HT.rehash at e
  unfold rehash
  rw [h.size, h.chains.length]
  split at e
  · rename_i hl
    cases e
    rw [if_pos hl]
    exact ⟨s, rfl, h, fun _ _ => rfl, fun _ => rfl⟩
  · rename_i hl
    rw [if_neg hl]
    match e1 : t.buckets.flatten.foldlM (HT.rehashStep hash eq) (List.replicate (t.buckets.length * 2) [], 0), e with
    | some (bs, c), e =>
      cases e
      obtain ⟨m', bs', e2, h2, h3, h4⟩ := moves_spec (n := n) h.chains (chains_replicate s.hooks (t.buckets.length * 2))
        (by rw [HT.flatten_replicate, List.append_nil]; exact hnd) (by rw [HT.flatten_replicate]; exact hn) e1
      simp only [e2]
      exact ⟨_, rfl, ⟨h2, rfl, by simp [h.nbRehash]⟩, h3, h4⟩

theorem insert_spec {s : Links P} {t t' : HT P} {n : Nat} {x : P} {r : P × Bool} (h : Rep s t) (hnd : t.elems.Nodup)
    (hx : (s.hooks x).isSome) (hnx : x ∉ t.elems) (hn : t.elems.length + 1 < n) (e : HT.insert hash eq x t = some (r, t')) :
    ∃ s', insert hash eq n x s = some (r, s') ∧ Rep s' t' ∧ (∀ p, p ≠ x → p ∉ t.elems → s'.hooks p = s.hooks p) ∧
      (r.2 = false → s'.hooks x = s.hooks x) ∧ ∀ p, (s'.hooks p).isSome = (s.hooks p).isSome := by
  unfold HT.insert at e
  match e1 : HT.insertImpl hash eq x t.buckets, e with
  | some (r1, bs), e =>
    obtain ⟨m1, bs1, e2, hs, hfr, hsome, hF, hT⟩ := insertImpl_spec (n := n) h.chains hx hnx
      (show t.elems.length < n by omega) e1
    simp only [] at e
    match e3 : HT.rehash hash eq ⟨bs, if r1.2 then t.size + 1 else t.size, t.nbRehash⟩, e with
    | some t1, e =>
      simp only [Option.some.injEq, Prod.mk.injEq] at e
      obtain ⟨rfl, rfl⟩ := e
      have hp : bs.flatten.Nodup ∧ bs.flatten.length ≤ t.elems.length + 1 ∧ ∀ p ∈ bs.flatten, p = x ∧ r1.2 = true ∨ p ∈ t.elems := by
        cases hr : r1.2 with
        | false =>
          obtain ⟨-, rfl⟩ := hF hr
          exact ⟨hnd, Nat.le_succ _, fun p hp => .inr hp⟩
        | true =>
          obtain ⟨-, hp⟩ := hT hr
          exact ⟨hp.nodup_iff.2 (List.nodup_cons.2 ⟨hnx, hnd⟩), by rw [hp.length_eq]; exact le_rfl, fun p h => by
            simpa [HT.elems] using hp.mem_iff.1 h⟩
      obtain ⟨s', e4, hr, hfr2, hs2⟩ := rehash_spec (n := n)
        (s := ⟨m1, bs1, if r1.2 then s.size + 1 else s.size, s.nbRehash⟩)
        (t := ⟨bs, if r1.2 then t.size + 1 else t.size, t.nbRehash⟩) ⟨hs, by simp [h.size], h.nbRehash⟩ hp.1
        (lt_of_le_of_lt hp.2.1 hn) e3
      refine ⟨s', by simp [insert, e2, e4], hr, fun p h1 h2 => ?_, fun hr => ?_, fun p => ?_⟩
      · refine (hfr2 p fun hh => ?_).trans (hfr p h1)
        rcases hp.2.2 p hh with ⟨h, -⟩ | h
        · exact h1 h
        · exact h2 h
      · refine (hfr2 x fun hh => ?_).trans (congrFun (hF hr).1 x)
        rcases hp.2.2 x hh with ⟨-, h⟩ | h
        · simp [hr] at h
        · exact hnx h
      · rw [hs2]
        by_cases hpx : p = x
        · subst hpx; simp [hsome, hx]
        · simp [hfr p hpx]

/-- Another datum is linked after `p`. -/
theorem Chain.relink {m : P → Option (Option P)} {p : P} {q : Option P} {rest rest' : List P} (hr : Chain m rest' q) :
    ∀ {pre : List P} {o : Option P}, Chain m (pre ++ p :: rest) o → p ∉ pre → p ∉ rest' →
    Chain (fun r => if r = p then some q else m r) (pre ++ p :: rest') o
  | [], o, ⟨h1, _, _, _⟩, _, h => ⟨h1, q, by simp, hr.frame fun r hr => by
      have : r ≠ p := fun e => h (e ▸ hr)
      simp [this]⟩
  | a :: pre, o, ⟨h1, q', h2, h3⟩, hp, h => by
    simp only [List.mem_cons, not_or] at hp
    exact ⟨h1, q', by simpa [Ne.symm hp.1] using h2, Chain.relink hr h3 hp.2 h⟩

theorem findPrev_spec {m : P → Option (Option P)} {eq : P → Bool} : ∀ {l : List P} {o prev : Option P} {n : Nat}, Chain m l o →
    l.length < n → l.any eq = true → ∃ pre y post q, l = pre ++ y :: post ∧ l.eraseP eq = pre ++ post ∧
      findPrev m eq n prev o = some (pre.getLast?.or prev, y, q) ∧ Chain m post q
  | p :: l, o, prev, n + 1, ⟨h1, q, h2, h3⟩, hn, ha => by
    subst h1
    cases he : eq p with
    | true => exact ⟨[], p, l, q, rfl, by simp [he], by simp [findPrev, h2, he], h3⟩
    | false =>
      simp only [List.any_cons, he, Bool.false_or] at ha
      obtain ⟨pre, y, post, q', e1, e2, e3, e4⟩ := findPrev_spec (prev := some p) (n := n) h3 (by simpa using hn) ha
      refine ⟨p :: pre, y, post, q', by simp [e1], by simp [he, e2], ?_, e4⟩
      simp only [findPrev, h2, he, e3]
      rcases List.eq_nil_or_concat pre with rfl | ⟨pre', z, rfl⟩ <;> simp [List.getLast?_cons]

theorem last_spec {m : P → Option (Option P)} : ∀ {l : List P} {o prev : Option P} {n : Nat}, Chain m l o → l.length < n →
    last m n prev o = some (l.getLast?.or prev)
  | [], o, prev, n + 1, h, _ => by rw [show o = none from h]; rfl
  | p :: l, o, prev, n + 1, ⟨h1, q, h2, h3⟩, hn => by
    subst h1
    simp only [last, h2, last_spec (prev := some p) (n := n) h3 (by simpa using hn)]
    rcases List.eq_nil_or_concat l with rfl | ⟨l', z, rfl⟩ <;> simp [List.getLast?_cons]

theorem erase_spec {s : Links P} {t t' : HT P} {n : Nat} {x : P} (h : Rep s t) (hnd : t.elems.Nodup)
    (hx : (s.hooks x).isSome) (hn : t.elems.length < n) (e : HT.erase hash eq x t = some t') :
    ∃ s', erase hash eq n x s = some s' ∧ Rep s' t' ∧ (∀ p, p ∉ t.elems → s'.hooks p = s.hooks p) ∧
      ∀ p, (s'.hooks p).isSome = (s.hooks p).isSome := by
  obtain ⟨q0, hq0⟩ := Option.isSome_iff_exists.1 hx
  unfold HT.erase at e
  match hb : t.buckets[HT.pos hash t.buckets.length x]?, e with
  | some b, e =>
    simp only [] at e
    split at e
    case isFalse => cases e
    rename_i ha
    cases e
    obtain ⟨o, ho, hc⟩ := h.chains.get hb
    have hbn : b.Nodup := by
      obtain ⟨rest, h1, _⟩ := HT.flatten_set t.buckets _ b hb
      exact (List.nodup_append.1 (h1.nodup_iff.1 hnd)).1
    have hother : ∀ j l', j ≠ HT.pos hash t.buckets.length x → t.buckets[j]? = some l' → ∀ p ∈ l', p ∉ b := by
      intro j l' hj hl' p hp hpb
      obtain ⟨rest, h1, _⟩ := HT.flatten_set t.buckets _ b hb
      have hd := List.nodup_append.1 (h1.nodup_iff.1 hnd)
      have h2 : p ∈ (t.buckets.set (HT.pos hash t.buckets.length x) []).flatten :=
        HT.mem_flatten_iff.2 ⟨j, l', by rw [List.getElem?_set_ne (Ne.symm hj)]; exact hl', hp⟩
      obtain ⟨rest', h1', h2'⟩ := HT.flatten_set t.buckets _ b hb
      have h3 := (h2' []).mem_iff.1 h2
      exact (List.nodup_append.1 (h1'.nodup_iff.1 hnd)).2.2 p hpb p h3 rfl
    obtain ⟨pre, y, post, q, e1, e2, e3, e4⟩ := findPrev_spec (prev := none) hc
      (lt_of_le_of_lt (Chains.bucket_le hb) hn) ha
    unfold erase
    simp only [hq0, h.chains.length, ho, e3, Option.or_none]
    rcases List.eq_nil_or_concat pre with rfl | ⟨pre', p, rfl⟩
    · refine ⟨_, rfl, ⟨?_, by simp [h.size], h.nbRehash⟩, fun _ _ => rfl, fun _ => rfl⟩
      simp only [List.nil_append] at e2
      rw [e2]
      exact h.chains.set _ e4 fun _ _ _ _ _ _ => rfl
    · rw [List.concat_eq_append] at e1 e2 e3 ⊢
      have hpb : p ∈ b := by simp [e1]
      obtain ⟨q1, hq1⟩ := hc.alive p hpb
      simp only [List.getLast?_append, List.getLast?_singleton, Option.some_or, write_spec hq1, Option.map_some]
      refine ⟨_, rfl, ⟨?_, by simp [h.size], h.nbRehash⟩, fun r hr => ?_, fun r => ?_⟩
      · have hbn' := hbn
        rw [e1] at hc hbn'
        simp only [List.append_assoc, List.singleton_append] at hc e2 hbn'
        have hd := List.nodup_append.1 hbn'
        have hch : Chain (fun r => if r = p then some q else s.hooks r) (pre' ++ p :: post) o :=
          Chain.relink (rest := y :: post) e4 hc (fun h => hd.2.2 p h p (by simp) rfl)
            (fun h => (List.nodup_cons.1 hd.2.1).1 (by simp [h]))
        rw [e2]
        have hset := h.chains.set (m' := fun r => if r = p then some q else s.hooks r) (HT.pos hash t.buckets.length x) hch
          fun j l' hj hl' r hr => by
            have : r ≠ p := fun e => hother j l' hj hl' r hr (e ▸ hpb)
            simp [this]
        have hsame : s.buckets.set (HT.pos hash t.buckets.length x) o = s.buckets := by
          obtain ⟨hlt, hget⟩ := List.getElem?_eq_some_iff.1 ho
          rw [← hget]
          exact List.set_getElem_self hlt
        rw [hsame] at hset
        exact hset
      · have : r ≠ p := fun e => hr (e ▸ HT.mem_flatten_iff.2 ⟨_, b, hb, hpb⟩)
        simp [this]
      · by_cases hrp : r = p
        · subst hrp; simp [hq1]
        · simp [hrp]

theorem insertCheck_spec {s : Links P} {t : HT P} {n : Nat} {x : P} {r : Option P × Nat} (h : Rep s t)
    (hx : (s.hooks x).isSome) (hn : t.elems.length < n) (e : HT.insertCheck hash eq x t = some r) :
    insertCheck hash eq n x s = some r := by
  obtain ⟨q0, hq0⟩ := Option.isSome_iff_exists.1 hx
  unfold HT.insertCheck at e
  match hb : t.buckets[HT.pos hash t.buckets.length x]?, e with
  | some b, e =>
    obtain ⟨o, ho, hc⟩ := h.chains.get hb
    cases e
    simp [insertCheck, hq0, h.chains.length, ho, find_spec (eq x) (n := n) hc (lt_of_le_of_lt (Chains.bucket_le hb) hn)]

theorem insertCommit_spec {s : Links P} {t t' : HT P} {n : Nat} {x : P} {i : Nat} (h : Rep s t) (hnd : t.elems.Nodup)
    (hx : s.hooks x = some none) (hnx : x ∉ t.elems) (hn : t.elems.length < n) (e : HT.insertCommit x i t = some t') :
    ∃ s', insertCommit n x i s = some s' ∧ Rep s' t' ∧ (∀ p, p ∉ t.elems → s'.hooks p = s.hooks p) ∧
      ∀ p, (s'.hooks p).isSome = (s.hooks p).isSome := by
  unfold HT.insertCommit at e
  match hb : t.buckets[i]?, e with
  | some b, e =>
    cases e
    obtain ⟨o, ho, hc⟩ := h.chains.get hb
    have hbn : b.Nodup := by
      obtain ⟨rest, h1, _⟩ := HT.flatten_set t.buckets _ b hb
      exact (List.nodup_append.1 (h1.nodup_iff.1 hnd)).1
    have hxb : x ∉ b := fun h => hnx (HT.mem_flatten_iff.2 ⟨_, b, hb, h⟩)
    have hsing : ∀ m : P → Option (Option P), m x = some none → Chain m [x] (some x) := fun m hm => ⟨rfl, none, hm, rfl⟩
    unfold insertCommit
    simp only [ho, last_spec (prev := none) hc (lt_of_le_of_lt (Chains.bucket_le hb) hn), Option.or_none]
    rcases List.eq_nil_or_concat b with rfl | ⟨pre, p, rfl⟩
    · refine ⟨_, rfl, ⟨?_, by simp [h.size], h.nbRehash⟩, fun _ _ => rfl, fun _ => rfl⟩
      exact h.chains.set _ (hsing _ hx) fun _ _ _ _ _ _ => rfl
    · rw [List.concat_eq_append] at hc hbn hxb hb ⊢
      obtain ⟨q1, hq1⟩ := hc.alive p (by simp)
      simp only [List.getLast?_append, List.getLast?_singleton, Option.some_or, write_spec hq1, Option.map_some]
      have hd := List.nodup_append.1 hbn
      have hxp : p ≠ x := fun e => hxb (by simp [e])
      refine ⟨_, rfl, ⟨?_, by simp [h.size], h.nbRehash⟩, fun r hr => ?_, fun r => ?_⟩
      · have hch := Chain.relink (rest := []) (hsing s.hooks hx) hc (fun h => hd.2.2 p h p (by simp) rfl) (by simp [hxp])
        have hset := h.chains.set (m' := fun r => if r = p then some (some x) else s.hooks r) i hch
          fun j l' hj hl' r hr => by
            have : r ≠ p := by
              rintro rfl
              obtain ⟨rest', h1', h2'⟩ := HT.flatten_set t.buckets _ _ hb
              have h2 : r ∈ (t.buckets.set i []).flatten :=
                HT.mem_flatten_iff.2 ⟨j, l', by rw [List.getElem?_set_ne (Ne.symm hj)]; exact hl', hr⟩
              exact (List.nodup_append.1 (h1'.nodup_iff.1 hnd)).2.2 r (by simp) r ((h2' []).mem_iff.1 h2) rfl
            simp [this]
        have hsame : s.buckets.set i o = s.buckets := by
          obtain ⟨hlt, hget⟩ := List.getElem?_eq_some_iff.1 ho
          rw [← hget]
          exact List.set_getElem_self hlt
        rw [hsame] at hset
        simpa using hset
      · have : r ≠ p := fun e => hr (e ▸ HT.mem_flatten_iff.2 ⟨_, _, hb, by simp⟩)
        simp [this]
      · by_cases hrp : r = p
        · subst hrp; simp [hq1]
        · simp [hrp]

theorem dispose_spec : ∀ {l : List P} {o : Option P} {n : Nat} {m : P → Option (Option P)}, Chain m l o → l.Nodup → l.length < n →
    dispose n m o = some (l, fun r => if r ∈ l then none else m r)
  | [], o, n + 1, m, h, _, _ => by rw [show o = none from h]; simp [dispose]
  | p :: l, o, n + 1, m, ⟨h1, q, h2, h3⟩, hnd, hn => by
    subst h1
    rw [List.nodup_cons] at hnd
    have h4 : Chain (fun r => if r = p then none else m r) l q := h3.frame fun r hr => by
      have : r ≠ p := fun e => hnd.1 (e ▸ hr)
      simp [this]
    simp only [dispose, h2, dispose_spec (n := n) h4 hnd.2 (by simpa using hn), Option.map_some, List.mem_cons]
    congr 2
    funext r
    by_cases h : r ∈ l <;> by_cases h' : r = p <;> simp [h, h']

theorem disposeAll_spec {n : Nat} : ∀ {ls : List (List P)} {bs : List (Option P)} {m : P → Option (Option P)}, Chains m bs ls →
    ls.flatten.Nodup → ls.flatten.length < n → disposeAll n m bs = some (ls.flatten, fun r => if r ∈ ls.flatten then none else m r)
  | [], _, m, .nil, _, _ => by simp [disposeAll]
  | l :: ls, _, m, @List.Forall₂.cons _ _ _ o _ bs _ h1 h2, hnd, hn => by
    simp only [List.flatten_cons, List.length_append] at hnd hn
    have hd := List.nodup_append.1 hnd
    have h3 : Chains (fun r => if r ∈ l then none else m r) bs ls := Chains.frame h2 fun p hp => by
      have : p ∉ l := fun h => hd.2.2 p h p hp rfl
      simp [this]
    simp only [disposeAll, dispose_spec (n := n) h1 hd.1 (by omega), disposeAll_spec h3 hd.2.1 (show ls.flatten.length < n by omega), Option.map_some,
      List.flatten_cons, List.mem_append]
    congr 2
    funext r
    by_cases h : r ∈ l <;> by_cases h' : r ∈ ls.flatten <;> simp [h, h']

theorem clear_spec {s : Links P} {t : HT P} {n : Nat} (h : Rep s t) (hnd : t.elems.Nodup) (hn : t.elems.length < n) :
    ∃ s', clear n s = some (t.clear.1, s') ∧ Rep s' t.clear.2 ∧
      s'.hooks = fun r => if r ∈ t.elems then none else s.hooks r := by
  have hd := disposeAll_spec h.chains hnd hn
  refine ⟨⟨fun r => if r ∈ t.elems then none else s.hooks r, s.buckets.map fun _ => none, 0, s.nbRehash⟩, ?_,
    ⟨?_, rfl, h.nbRehash⟩, rfl⟩
  · simp only [clear, hd, Option.map_some]
    rfl
  have := chains_replicate (fun r => if r ∈ t.elems then none else s.hooks r) t.buckets.length
  simpa [HT.clear, List.map_const', h.chains.length] using this

theorem count_spec {m : P → Option (Option P)} : ∀ {l : List P} {o : Option P} {n : Nat}, Chain m l o → l.length < n →
    count m n o = some l.length
  | [], o, n + 1, h, _ => by rw [show o = none from h]; rfl
  | p :: l, o, n + 1, ⟨h1, q, h2, h3⟩, hn => by
    subst h1
    simp [count, h2, count_spec (n := n) h3 (by simpa using hn)]

theorem collisions_spec {s : Links P} {t : HT P} {n : Nat} (h : Rep s t) (hn : t.elems.length < n) :
    collisions n s = some t.collisions := by
  have key : ∀ {bs : List (Option P)} {ls : List (List P)} (acc : Nat × Nat × Nat), Chains s.hooks bs ls → ls.flatten.length < n →
      bs.foldlM (fun acc b => (count s.hooks n b).map fun nb =>
        if nb = 0 then (acc.1, acc.2.1, acc.2.2 + 1)
        else if nb = 1 then (acc.1, acc.2.1 + 1, acc.2.2)
        else (acc.1 + 1, acc.2.1, acc.2.2)) acc =
      some (ls.foldl (fun acc b =>
        if b.length = 0 then (acc.1, acc.2.1, acc.2.2 + 1)
        else if b.length = 1 then (acc.1, acc.2.1 + 1, acc.2.2)
        else (acc.1 + 1, acc.2.1, acc.2.2)) acc) := by
    intro bs ls acc h
    induction h generalizing acc with
    | nil => intro _; rfl
    | cons h1 _ ih =>
      intro hn
      simp only [List.flatten_cons, List.length_append] at hn
      rw [List.foldlM_cons, count_spec h1 (show _ < n by omega), List.foldl_cons]
      exact ih _ (by omega)
  exact key _ h.chains hn

/-- The relation between the specification and the table with its memory. (Proof device, not part of the code.) -/
structure Ok (hash : P → Nat) (eq : P → P → Bool) (s : Links P) (r : Ref P) (t : HT P) : Prop where
  rep : Rep s t
  inv : HT.Inv hash eq t
  perm : t.elems.Perm r.set
  alive : ∀ p, (s.hooks p).isSome ↔ p ∈ r.alive
  clean : ∀ p ∈ r.clean, s.hooks p = some none ∧ p ∉ r.set

theorem nodup_of_distinct (hc : HT.Compat hash eq) {t : HT P} (h : HT.Inv hash eq t) : t.elems.Nodup :=
  h.distinct.imp fun {a b} hab e => by subst e; rw [hc.refl] at hab; cases hab

theorem exec_refines (hc : HT.Compat hash eq) {s : Links P} {r r' : Ref P} {t : HT P} {op : LOp P} {o : HT.TOut P} {n : Nat}
    (h : Ok hash eq s r t) (hn : r.set.length + 1 < n) (e : r.exec eq op = some (o, r')) :
    ∃ s' t', exec hash eq n s op = some (o, s') ∧ Ok hash eq s' r' t' ∧ r'.set.length ≤ r.set.length + 1 := by
  have hnd := nodup_of_distinct hc h.inv
  have hlen := h.perm.length_eq
  cases op with
  | make x =>
    simp only [Ref.exec] at e
    split at e
    · cases e
    rename_i hx
    cases e
    have hx' : s.hooks x = none := by
      cases hh : s.hooks x with
      | none => rfl
      | some q => exact absurd ((h.alive x).1 (by simp [hh])) hx
    have hxe : x ∉ t.elems := by
      intro hm
      obtain ⟨i, b, hb, hxb⟩ := HT.mem_flatten_iff.1 hm
      obtain ⟨o, _, hc⟩ := h.rep.chains.get hb
      obtain ⟨q, hq⟩ := hc.alive x hxb
      simp [hx'] at hq
    refine ⟨{ s with hooks := fun r => if r = x then some none else s.hooks r }, t, by simp [exec, hx'], ⟨⟨?_, h.rep.size, h.rep.nbRehash⟩,
      h.inv, h.perm, fun p => ?_, fun p hp => ?_⟩, Nat.le_succ _⟩
    · exact h.rep.chains.frame fun p hp => by
        have : p ≠ x := fun e => hxe (e ▸ hp)
        simp [this]
    · by_cases hpx : p = x
      · simp [hpx]
      · simp [hpx, h.alive]
    · rcases List.mem_cons.1 hp with rfl | hp
      · exact ⟨by simp, fun hm => hxe (h.perm.mem_iff.2 hm)⟩
      · by_cases hpx : p = x
        · subst hpx; exact ⟨by simp, fun hm => hxe (h.perm.mem_iff.2 hm)⟩
        · simpa [hpx] using h.clean p hp
  | free x =>
    simp only [Ref.exec] at e
    split at e
    case isFalse => cases e
    rename_i hx
    cases e
    have hxe : x ∉ t.elems := fun hm => hx.2 (h.perm.mem_iff.1 hm)
    refine ⟨{ s with hooks := fun r => if r = x then none else s.hooks r }, t, by simp [exec, (h.alive x).2 hx.1], ⟨⟨?_, h.rep.size, h.rep.nbRehash⟩,
      h.inv, h.perm, fun p => ?_, fun p hp => ?_⟩, Nat.le_succ _⟩
    · exact h.rep.chains.frame fun p hp => by
        have : p ≠ x := fun e => hxe (e ▸ hp)
        simp [this]
    · by_cases hpx : p = x
      · simp [hpx]
      · simp [hpx, h.alive]
    · obtain ⟨hp, hpx⟩ := List.mem_filter.1 hp
      simp only [ne_eq, decide_not, Bool.not_eq_eq_eq_not, Bool.not_true, decide_eq_false_iff_not] at hpx
      simpa [hpx] using h.clean p hp
  | table op =>
    cases op with
    | insert x =>
      simp only [Ref.exec] at e
      split at e
      case isFalse => cases e
      rename_i hx
      have hxe : x ∉ t.elems := fun hm => hx.2 (h.perm.mem_iff.1 hm)
      obtain ⟨t', e1, hinv, hperm, -⟩ := HT.insert_spec hc h.inv x
      have hfp := hc.find_perm h.perm h.inv.distinct x
      rw [hfp] at e1 hperm
      obtain ⟨s', e2, hrep, hfr, hF, hs⟩ := insert_spec (n := n) h.rep hnd ((h.alive x).2 hx.1) hxe (by omega) e1
      match hf : r.set.find? (eq x), e with
      | some y, e =>
        cases e
        rw [hf] at e2 hperm hF
        refine ⟨s', t', by simp [exec, e2], ⟨hrep, hinv, by simpa using hperm.trans (by simpa using h.perm), fun p => by
          rw [hs]; exact h.alive p, fun p hp => ?_⟩, Nat.le_succ _⟩
        obtain ⟨h1, h2⟩ := h.clean p hp
        refine ⟨?_, h2⟩
        by_cases hpx : p = x
        · subst hpx; rw [hF rfl, h1]
        · rw [hfr p hpx fun hm => h2 (h.perm.mem_iff.1 hm), h1]
      | none, e =>
        cases e
        rw [hf] at e2 hperm
        refine ⟨s', t', by simp [exec, e2], ⟨hrep, hinv, by simpa using hperm.trans (by simpa using h.perm.cons x), fun p => by
          rw [hs]; exact h.alive p, fun p hp => ?_⟩, by simp⟩
        obtain ⟨hp, hpx⟩ := List.mem_filter.1 hp
        simp only [ne_eq, decide_not, Bool.not_eq_eq_eq_not, Bool.not_true, decide_eq_false_iff_not] at hpx
        obtain ⟨h1, h2⟩ := h.clean p hp
        exact ⟨by rw [hfr p hpx fun hm => h2 (h.perm.mem_iff.1 hm), h1], by simp [hpx, h2]⟩
    | erase x =>
      simp only [Ref.exec] at e
      split at e
      case isFalse => cases e
      rename_i hx
      match hf : r.set.find? (eq x), e with
      | some y, e =>
        cases e
        have hfp := hc.find_perm h.perm h.inv.distinct x
        obtain ⟨t', e1, hinv, hperm, -⟩ := (HT.erase_spec hc h.inv x).2 y (hfp.trans hf)
        obtain ⟨s', e2, hrep, hfr, hs⟩ := erase_spec (n := n) h.rep hnd ((h.alive x).2 hx) (by omega) e1
        refine ⟨s', t', by simp [exec, e2], ⟨hrep, hinv, ?_, fun p => by rw [hs]; exact h.alive p, fun p hp => ?_⟩, ?_⟩
        · exact (hperm.symm.trans (h.perm.trans (HT.perm_eraseP _ _ y hf))).cons_inv
        · obtain ⟨h1, h2⟩ := h.clean p hp
          exact ⟨by rw [hfr p fun hm => h2 (h.perm.mem_iff.1 hm), h1], fun hm => h2 (List.mem_of_mem_eraseP hm)⟩
        · exact le_trans (List.length_eraseP_le) (Nat.le_succ _)
    | insert2 x =>
      simp only [Ref.exec] at e
      split at e
      case isFalse => cases e
      rename_i hx
      have hxe : x ∉ t.elems := fun hm => hx.2 (h.perm.mem_iff.1 hm)
      obtain ⟨h1, -⟩ := h.clean x hx.1
      have hsome : (s.hooks x).isSome := by simp [h1]
      have hfp := hc.find_perm h.perm h.inv.distinct x
      obtain ⟨b, hb⟩ := h.inv.placed.get hash x
      have hfb := hc.find_bucket h.inv.placed h.inv.distinct hb
      have e0 : HT.insertCheck hash eq x t = some (t.elems.find? (eq x), HT.pos hash t.buckets.length x) := by
        simp [HT.insertCheck, hb, hfb, HT.elems]
      have e1 := insertCheck_spec (n := n) h.rep hsome (by omega) e0
      rw [hfp] at e1
      match hf : r.set.find? (eq x), e with
      | some y, e =>
        cases e
        rw [hf] at e1
        exact ⟨s, t, by simp [exec, insert2, e1], h, Nat.le_succ _⟩
      | none, e =>
        cases e
        rw [hf] at e1
        obtain ⟨t', e2, hinv, hperm, -⟩ := HT.insertCommit_spec hc h.inv (x := x) rfl fun y hy => by
          have := List.find?_eq_none.1 (hfp.trans hf) y hy
          simpa using this
        obtain ⟨s', e3, hrep, hfr, hs⟩ := insertCommit_spec (n := n) h.rep hnd h1 hxe (by omega) e2
        refine ⟨s', t', by simp [exec, insert2, e1, e3], ⟨hrep, hinv, hperm.trans (h.perm.cons x), fun p => by
          rw [hs]; exact h.alive p, fun p hp => ?_⟩, by simp⟩
        obtain ⟨hp, hpx⟩ := List.mem_filter.1 hp
        simp only [ne_eq, decide_not, Bool.not_eq_eq_eq_not, Bool.not_true, decide_eq_false_iff_not] at hpx
        obtain ⟨h1, h2⟩ := h.clean p hp
        exact ⟨by rw [hfr p fun hm => h2 (h.perm.mem_iff.1 hm), h1], by simp [hpx, h2]⟩
    | clear =>
      simp only [Ref.exec] at e
      cases e
      obtain ⟨e1, hinv, hemp, -⟩ := HT.clear_spec h.inv
      obtain ⟨s', e2, hrep, hh⟩ := clear_spec (n := n) h.rep hnd (by omega)
      refine ⟨s', t.clear.2, by simp [exec, e2, e1, hlen], ⟨hrep, hinv, by rw [hemp], fun p => ?_, fun p hp => ?_⟩, by simp⟩
      · rw [hh]
        by_cases hp : p ∈ r.set
        · simp [hp, h.perm.mem_iff]
        · simp [hp, h.perm.mem_iff, h.alive]
      · obtain ⟨h1, h2⟩ := h.clean p hp
        rw [hh]
        simp [h.perm.mem_iff, h1, h2]

theorem execs_refines (hc : HT.Compat hash eq) {n : Nat} : ∀ (ops : List (LOp P)) {s : Links P} {r r' : Ref P} {t : HT P}
    {os : List (HT.TOut P)}, Ok hash eq s r t → r.set.length + ops.length < n → r.execs eq ops = some (os, r') →
    ∃ s' t', execs hash eq n s ops = some (os, s') ∧ Ok hash eq s' r' t' ∧ r'.set.length < n
  | [], s, r, r', t, os, h, hn, e => by
    cases e
    exact ⟨s, t, rfl, h, by simpa using hn⟩
  | op :: ops, s, r, r', t, os, h, hn, e => by
    simp only [Ref.execs] at e
    match e1 : r.exec eq op, e with
    | some (o, r1), e =>
      obtain ⟨⟨os', r2⟩, e2, e⟩ := Option.map_eq_some_iff.1 e
      · cases e
        simp only [List.length_cons] at hn
        obtain ⟨s1, t1, e3, h1, hl⟩ := exec_refines (n := n) hc h (by omega) e1
        obtain ⟨s2, t2, e4, h2, hl2⟩ := execs_refines (n := n) hc ops h1 (by omega) e2
        exact ⟨s2, t2, by simp [execs, e3, e4], h2, hl2⟩

end

end Links
end Verif
