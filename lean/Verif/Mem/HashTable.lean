import Verif.Mem.NextPower
import Mathlib.Data.List.Perm.Basic
/-!
# The intrusive hash table

`/repo/sdd/mem/hash_table.hh`.  The singly linked list of a bucket (`hook.next`) is a list, so that
elements are the things linked: an element of the model stands for a pointer together with the data it
points to (which is constant while it is in the table).  Loads are compared to the maximal load exactly:
`size / nb_buckets < 0.75` is `4 * size < 3 * nb_buckets` (the quotient of an integer below 2^53 by a
power of two is exact in double precision).
-/

set_option autoImplicit false
set_option linter.unusedSectionVars false

namespace Verif

/-- The fields of a hash table, `/repo/sdd/mem/hash_table.hh:52-66`; `nb_buckets_` is the length of
`buckets`. -/
structure HT (α : Type) where
  buckets : List (List α)
  size : Nat
  nbRehash : Nat

namespace HT
variable {α : Type}

/-- The position of an element: `hash & (nb_buckets - 1)`, `/repo/sdd/mem/hash_table.hh:282`. -/
def pos {K : Type} (hash : K → Nat) (nb : Nat) (x : K) : Nat := hash x &&& (nb - 1)

/-- The constructor, `/repo/sdd/mem/hash_table.hh:70-78`. -/
def new (size : BitVec 64) : HT α := ⟨List.replicate (nextPower64 size).toNat [], 0, 0⟩

/-- `insert_impl`, `/repo/sdd/mem/hash_table.hh:278-301`: the result and the new buckets.  `none` is an
access outside of the array of buckets.  (`size_` is incremented by the callers below when the second
component of the result is true.) -/
def insertImpl (hash : α → Nat) (eq : α → α → Bool) (x : α) (bs : List (List α)) :
    Option ((α × Bool) × List (List α)) :=
  match bs[pos hash bs.length x]? with
  | none => none
  | some b =>
    match b.find? (eq x) with
    | some y => some ((y, false), bs)
    | none => some ((x, true), bs.set (pos hash bs.length x) (x :: b))

/-- The body of the loop of `rehash`, `/repo/sdd/mem/hash_table.hh:261-270`. -/
def rehashStep (hash : α → Nat) (eq : α → α → Bool) (st : List (List α) × Nat) (x : α) :
    Option (List (List α) × Nat) :=
  match insertImpl hash eq x st.1 with
  | none => none
  | some (r, bs) => some (bs, if r.2 then st.2 + 1 else st.2)

/-- `rehash`, `/repo/sdd/mem/hash_table.hh:249-275`. The buckets are visited one after the other, each
from its first element to its last one. -/
def rehash (hash : α → Nat) (eq : α → α → Bool) (t : HT α) : Option (HT α) :=
  if 4 * t.size < 3 * t.buckets.length then some t
  else
    match t.buckets.flatten.foldlM (rehashStep hash eq)
        (List.replicate (t.buckets.length * 2) [], 0) with
    | none => none
    | some (bs, n) => some ⟨bs, n, t.nbRehash + 1⟩

/-- `insert`, `/repo/sdd/mem/hash_table.hh:135-141`. -/
def insert (hash : α → Nat) (eq : α → α → Bool) (x : α) (t : HT α) : Option ((α × Bool) × HT α) :=
  match insertImpl hash eq x t.buckets with
  | none => none
  | some (r, bs) =>
    match rehash hash eq ⟨bs, if r.2 then t.size + 1 else t.size, t.nbRehash⟩ with
    | none => none
    | some t' => some (r, t')

/-- `erase`, `/repo/sdd/mem/hash_table.hh:160-186`. `none` is the assertion of line 185 (the element is
not found) or an access outside of the array. -/
def erase (hash : α → Nat) (eq : α → α → Bool) (x : α) (t : HT α) : Option (HT α) :=
  match t.buckets[pos hash t.buckets.length x]? with
  | none => none
  | some b =>
    if b.any (eq x) then
      some { t with
        buckets := t.buckets.set (pos hash t.buckets.length x) (b.eraseP (eq x))
        size := t.size - 1 }
    else none

/-- `insert_check`, `/repo/sdd/mem/hash_table.hh:80-102`: the element found, if any, and the position of
the bucket (`commit_data`). -/
def insertCheck {K : Type} (hashK : K → Nat) (eqK : K → α → Bool) (k : K) (t : HT α) :
    Option (Option α × Nat) :=
  match t.buckets[pos hashK t.buckets.length k]? with
  | none => none
  | some b => some (b.find? (eqK k), pos hashK t.buckets.length k)

/-- `insert_commit`, `/repo/sdd/mem/hash_table.hh:104-132`: append at the end of the bucket. -/
def insertCommit (x : α) (i : Nat) (t : HT α) : Option (HT α) :=
  match t.buckets[i]? with
  | none => none
  | some b => some { t with buckets := t.buckets.set i (b ++ [x]), size := t.size + 1 }

/-- `clear_and_dispose`, `/repo/sdd/mem/hash_table.hh:189-205`: the elements given to the disposer, in
order, and the new table. -/
def clear (t : HT α) : List α × HT α :=
  (t.buckets.flatten, { t with buckets := t.buckets.map fun _ => [], size := 0 })

/-- `collisions`, `/repo/sdd/mem/hash_table.hh:223-246`. -/
def collisions (t : HT α) : Nat × Nat × Nat :=
  t.buckets.foldl (fun acc b =>
    if b.length = 0 then (acc.1, acc.2.1, acc.2.2 + 1)
    else if b.length = 1 then (acc.1, acc.2.1 + 1, acc.2.2)
    else (acc.1 + 1, acc.2.1, acc.2.2)) (0, 0, 0)

/-- The elements of a table. (Specification, not part of the code.) -/
def elems (t : HT α) : List α := t.buckets.flatten

/-- Equality is an equivalence and equal elements have equal hashes. (Specification or proof device, not part of the code.) -/
structure Compat (hash : α → Nat) (eq : α → α → Bool) : Prop where
  refl : ∀ x, eq x x = true
  symm : ∀ x y, eq x y = true → eq y x = true
  trans : ∀ x y z, eq x y = true → eq y z = true → eq x z = true
  hash : ∀ x y, eq x y = true → hash x = hash y

/-- The number of buckets is a power of two and all elements are in the right bucket. (Specification or proof device, not part of the code.) -/
structure Placed (hash : α → Nat) (bs : List (List α)) : Prop where
  pow : ∃ k, bs.length = 2 ^ k
  placed : ∀ i b, bs[i]? = some b → ∀ x ∈ b, pos hash bs.length x = i

/-- The invariant of a table. (Specification or proof device, not part of the code.) -/
structure Inv (hash : α → Nat) (eq : α → α → Bool) (t : HT α) : Prop where
  placed : Placed hash t.buckets
  size : t.size = t.elems.length
  distinct : t.elems.Pairwise fun x y => eq x y = false

section
variable {hash : α → Nat} {eq : α → α → Bool}

theorem pos_lt {K : Type} (hashK : K → Nat) {nb k : Nat} (h : nb = 2 ^ k) (x : K) :
    pos hashK nb x < nb := by
  unfold pos
  rw [h, Nat.and_two_pow_sub_one_eq_mod]
  exact Nat.mod_lt _ (Nat.two_pow_pos k)

theorem Placed.get {K : Type} {bs : List (List α)} (h : Placed hash bs) (hashK : K → Nat) (x : K) :
    ∃ b, bs[pos hashK bs.length x]? = some b := by
  obtain ⟨k, hk⟩ := h.pow
  exact ⟨_, List.getElem?_eq_getElem (pos_lt hashK hk x)⟩

/-- The elements, separated in those of a bucket and the others. -/
theorem flatten_set (bs : List (List α)) : ∀ (i : Nat) (b : List α), bs[i]? = some b →
    ∃ rest, bs.flatten.Perm (b ++ rest) ∧ ∀ b', (bs.set i b').flatten.Perm (b' ++ rest) := by
  induction bs with
  | nil => intro i b h; simp at h
  | cons c bs ih =>
    intro i b h
    cases i with
    | zero =>
      simp at h
      subst h
      exact ⟨bs.flatten, by simp, fun b' => by simp⟩
    | succ i =>
      simp at h
      obtain ⟨rest, h1, h2⟩ := ih i b h
      have sw : ∀ b : List α, (c ++ (b ++ rest)).Perm (b ++ (c ++ rest)) := fun b => by
        rw [← List.append_assoc, ← List.append_assoc]
        exact (List.perm_append_comm).append_right rest
      refine ⟨c ++ rest, ?_, fun b' => ?_⟩
      · rw [List.flatten_cons]
        exact (h1.append_left c).trans (sw b)
      · rw [List.set_cons_succ, List.flatten_cons]
        exact ((h2 b').append_left c).trans (sw b')

theorem mem_flatten_iff {bs : List (List α)} {x : α} :
    x ∈ bs.flatten ↔ ∃ (i : Nat) (b : List α), bs[i]? = some b ∧ x ∈ b := by
  rw [List.mem_flatten]
  constructor
  · rintro ⟨b, hb, hx⟩
    obtain ⟨i, hi⟩ := List.mem_iff_getElem?.1 hb
    exact ⟨i, b, hi, hx⟩
  · rintro ⟨i, b, hb, hx⟩
    exact ⟨b, List.mem_of_getElem? hb, hx⟩

/-- An element equal to `k` can only be in the bucket of `k`. -/
theorem Placed.mem_bucket {K : Type} {bs : List (List α)} (h : Placed hash bs) {hashK : K → Nat}
    {k : K} {y : α} (hk : hashK k = hash y) {b : List α} (hb : bs[pos hashK bs.length k]? = some b)
    (hy : y ∈ bs.flatten) : y ∈ b := by
  obtain ⟨i, b', hb', hy'⟩ := mem_flatten_iff.1 hy
  have := h.placed i b' hb' y hy'
  have e : pos hashK bs.length k = i := by rw [← this]; unfold pos; rw [hk]
  rw [e, hb'] at hb
  cases hb
  exact hy'

theorem Placed.set {bs : List (List α)} (h : Placed hash bs) {i : Nat} {b' : List α}
    (hb : ∀ x ∈ b', pos hash bs.length x = i) : Placed hash (bs.set i b') := by
  refine ⟨by simpa using h.pow, fun j b hj x hx => ?_⟩
  rw [List.length_set]
  by_cases hij : i = j
  · subst hij
    by_cases hl : i < bs.length
    · rw [List.getElem?_set_self hl] at hj
      cases hj
      exact hb x hx
    · rw [List.getElem?_eq_none (by simp; omega)] at hj
      cases hj
  · rw [List.getElem?_set_ne hij] at hj
    exact h.placed j b hj x hx

theorem Compat.eq_comm (hc : Compat hash eq) (x y : α) : eq x y = eq y x := by
  rw [Bool.eq_iff_iff]; exact ⟨hc.symm x y, hc.symm y x⟩

theorem Compat.perm_distinct (hc : Compat hash eq) {l l' : List α} (h : l.Perm l') :
    (l.Pairwise fun x y => eq x y = false) ↔ l'.Pairwise fun x y => eq x y = false :=
  h.pairwise_iff fun {x y} hxy => by rw [hc.eq_comm]; exact hxy

/-- In a set of pairwise different elements, at most one is equal to a given one. -/
theorem Compat.unique (hc : Compat hash eq) {x y z : α} (hxy : eq x y = true) (hxz : eq x z = true) :
    ∀ {l : List α}, (l.Pairwise fun x y => eq x y = false) → y ∈ l → z ∈ l → y = z := by
  have hyz : eq y z = true := hc.trans _ _ _ (hc.symm _ _ hxy) hxz
  intro l
  induction l with
  | nil => intro _ h; simp at h
  | cons a l ih =>
    intro h hy hz
    have h' := List.pairwise_cons.1 h
    rcases List.mem_cons.1 hy with rfl | hy
    · rcases List.mem_cons.1 hz with rfl | hz
      · rfl
      · rw [h'.1 z hz] at hyz; cases hyz
    · rcases List.mem_cons.1 hz with rfl | hz
      · rename_i hy'
        have := h'.1 y hy'
        rw [hc.eq_comm, hyz] at this; cases this
      · exact ih h'.2 hy hz

theorem Compat.find_perm (hc : Compat hash eq) {l l' : List α} (h : l.Perm l')
    (hd : l.Pairwise fun x y => eq x y = false) (x : α) : l.find? (eq x) = l'.find? (eq x) := by
  cases h1 : l.find? (eq x) with
  | none =>
    rw [List.find?_eq_none] at h1
    symm
    rw [List.find?_eq_none]
    exact fun y hy => h1 y (h.mem_iff.2 hy)
  | some y =>
    have hy := List.mem_of_find?_eq_some h1
    have hxy := List.find?_some h1
    cases h2 : l'.find? (eq x) with
    | none =>
      rw [List.find?_eq_none] at h2
      exact absurd hxy (h2 y (h.mem_iff.1 hy))
    | some z =>
      have hz := h.mem_iff.2 (List.mem_of_find?_eq_some h2)
      rw [hc.unique hxy (List.find?_some h2) hd hy hz]

theorem Compat.find_bucket (hc : Compat hash eq) {bs : List (List α)} (h : Placed hash bs)
    (hd : bs.flatten.Pairwise fun x y => eq x y = false) {x : α} {b : List α}
    (hb : bs[pos hash bs.length x]? = some b) : b.find? (eq x) = bs.flatten.find? (eq x) := by
  cases h2 : bs.flatten.find? (eq x) with
  | none =>
    rw [List.find?_eq_none] at h2 ⊢
    exact fun y hy => h2 y (mem_flatten_iff.2 ⟨_, b, hb, hy⟩)
  | some y =>
    have hy := List.mem_of_find?_eq_some h2
    have hxy := List.find?_some h2
    have hyb := h.mem_bucket (hc.hash x y hxy) hb hy
    cases h1 : b.find? (eq x) with
    | none =>
      rw [List.find?_eq_none] at h1
      exact absurd hxy (h1 y hyb)
    | some z =>
      have hz := mem_flatten_iff.2 ⟨_, b, hb, List.mem_of_find?_eq_some h1⟩
      rw [hc.unique (List.find?_some h1) hxy hd hz hy]

/-- The effect of `insert_impl`. -/
theorem insertImpl_spec (hc : Compat hash eq) {bs : List (List α)} (h : Placed hash bs)
    (hd : bs.flatten.Pairwise fun x y => eq x y = false) (x : α) :
    (∀ y, bs.flatten.find? (eq x) = some y → insertImpl hash eq x bs = some ((y, false), bs)) ∧
    (bs.flatten.find? (eq x) = none → ∃ bs', insertImpl hash eq x bs = some ((x, true), bs') ∧
      bs'.length = bs.length ∧ Placed hash bs' ∧ bs'.flatten.Perm (x :: bs.flatten) ∧
      bs'.flatten.Pairwise fun x y => eq x y = false) := by
  obtain ⟨b, hb⟩ := h.get hash x
  have hf := hc.find_bucket h hd hb
  unfold insertImpl
  rw [hb]
  simp only [hf]
  refine ⟨fun y hy => by rw [hy], fun hn => ?_⟩
  rw [hn]
  obtain ⟨rest, h1, h2⟩ := flatten_set bs _ b hb
  have hp : ((bs.set (pos hash bs.length x) (x :: b)).flatten).Perm (x :: bs.flatten) :=
    (h2 _).trans (by simpa using h1.symm)
  refine ⟨_, rfl, by simp, ?_, hp, ?_⟩
  · refine h.set fun y hy => ?_
    rcases List.mem_cons.1 hy with rfl | hy
    · rfl
    · exact h.placed _ b hb y hy
  · rw [hc.perm_distinct hp, List.pairwise_cons]
    refine ⟨fun y hy => ?_, hd⟩
    rw [List.find?_eq_none] at hn
    simpa using hn y hy

theorem placed_replicate (hash : α → Nat) {n : Nat} (h : ∃ k, n = 2 ^ k) :
    Placed hash (List.replicate n ([] : List α)) := by
  refine ⟨by simpa using h, fun i b hb x hx => ?_⟩
  rw [List.getElem?_replicate] at hb
  split at hb
  · cases hb; simp at hx
  · cases hb

theorem flatten_replicate (n : Nat) : (List.replicate n ([] : List α)).flatten = [] := by
  induction n with
  | zero => rfl
  | succ n ih => simp [List.replicate_succ, ih]

theorem rehash_loop (hc : Compat hash eq) : ∀ (l : List α) (bs : List (List α)) (n : Nat),
    Placed hash bs → n = bs.flatten.length →
    ((l ++ bs.flatten).Pairwise fun x y => eq x y = false) →
    ∃ bs', l.foldlM (rehashStep hash eq) (bs, n) = some (bs', n + l.length) ∧ Placed hash bs' ∧
      bs'.length = bs.length ∧ bs'.flatten.Perm (l ++ bs.flatten)
  | [], bs, n, h, _, _ => ⟨bs, rfl, h, rfl, by simp⟩
  | x :: l, bs, n, h, hn, hd => by
    have hd' := List.pairwise_cons.1 hd
    have hdb := (List.pairwise_append.1 hd).2.1
    have hnf : bs.flatten.find? (eq x) = none := by
      rw [List.find?_eq_none]
      intro y hy
      simp [hd'.1 y (by simp [hy])]
    obtain ⟨bs1, e1, l1, p1, m1, d1⟩ := (insertImpl_spec hc h hdb x).2 hnf
    have hperm : (l ++ bs1.flatten).Perm (x :: (l ++ bs.flatten)) :=
      (m1.append_left l).trans (List.perm_middle)
    obtain ⟨bs2, e2, p2, l2, m2⟩ := rehash_loop hc l bs1 (n + 1) p1
      (by rw [m1.length_eq, hn]; simp) ((hc.perm_distinct hperm).2 hd)
    refine ⟨bs2, ?_, p2, l2.trans l1, m2.trans hperm⟩
    rw [List.foldlM_cons]
    have : rehashStep hash eq (bs, n) x = some (bs1, n + 1) := by
      unfold rehashStep
      simp only
      rw [e1]
      rfl
    rw [this]
    simp only [Option.bind_eq_bind, Option.bind_some, List.length_cons]
    rw [e2, Nat.add_assoc, Nat.add_comm 1]

/-- The effect of `rehash`: the same elements, and a load below its maximum. -/
theorem rehash_spec (hc : Compat hash eq) {t : HT α} (h : Inv hash eq t) :
    ∃ t', rehash hash eq t = some t' ∧ Inv hash eq t' ∧ t'.elems.Perm t.elems ∧
      (4 * t.size < 3 * (2 * t.buckets.length) → 4 * t'.size < 3 * t'.buckets.length) := by
  unfold rehash
  split
  · rename_i hlt
    exact ⟨t, rfl, h, List.Perm.refl _, fun _ => hlt⟩
  · obtain ⟨k, hk⟩ := h.placed.pow
    have hp : Placed hash (List.replicate (t.buckets.length * 2) ([] : List α)) :=
      placed_replicate hash ⟨k + 1, by rw [hk, pow_succ]⟩
    obtain ⟨bs, e, p, l, m⟩ := rehash_loop hc t.buckets.flatten _ 0 hp
      (by rw [flatten_replicate]; rfl) (by rw [flatten_replicate, List.append_nil]; exact h.distinct)
    rw [flatten_replicate, List.append_nil] at m
    rw [e]
    refine ⟨_, rfl, ⟨p, ?_, (hc.perm_distinct m).2 h.distinct⟩, m, fun hl => ?_⟩
    · simp only [elems]
      rw [m.length_eq, Nat.zero_add]
    · simp only [List.length_replicate] at l
      simp only [l, Nat.zero_add]
      have := h.size
      simp only [elems] at this
      omega

/-- The effect of `insert`. -/
theorem insert_spec (hc : Compat hash eq) {t : HT α} (h : Inv hash eq t) (x : α) :
    ∃ t', insert hash eq x t = some ((((t.elems.find? (eq x)).getD x),
        (t.elems.find? (eq x)).isNone), t') ∧ Inv hash eq t' ∧
      t'.elems.Perm (if (t.elems.find? (eq x)).isNone then x :: t.elems else t.elems) ∧
      (4 * t.size < 3 * t.buckets.length → 4 * t'.size < 3 * t'.buckets.length) := by
  have sp := insertImpl_spec hc h.placed h.distinct x
  unfold insert
  cases hf : t.elems.find? (eq x) with
  | some y =>
    rw [sp.1 y hf]
    simp only
    obtain ⟨t', e, i, m, l⟩ := rehash_spec hc (t := ⟨t.buckets, t.size, t.nbRehash⟩) h
    refine ⟨t', ?_, i, m, fun hl => l (by simp only; omega)⟩
    rw [show (if false = true then t.size + 1 else t.size) = t.size from rfl, e]
    rfl
  | none =>
    obtain ⟨bs, e1, l1, p1, m1, d1⟩ := sp.2 hf
    rw [e1]
    simp only
    have hi : Inv hash eq ⟨bs, t.size + 1, t.nbRehash⟩ :=
      ⟨p1, by simp only [elems]; rw [m1.length_eq, h.size]; rfl, d1⟩
    obtain ⟨k, hk⟩ := h.placed.pow
    have hpos := Nat.two_pow_pos k
    obtain ⟨t', e, i, m, l⟩ := rehash_spec hc hi
    refine ⟨t', ?_, i, m.trans m1, fun hl => l (by
      simp only [l1]
      rcases Nat.lt_or_ge t.buckets.length 2 with hb | hb <;> omega)⟩
    rw [if_pos trivial, e]
    rfl

theorem perm_eraseP (p : α → Bool) : ∀ (l : List α) (y : α), l.find? p = some y →
    l.Perm (y :: l.eraseP p)
  | [], y, h => by simp at h
  | a :: l, y, h => by
    rw [List.find?_cons] at h
    split at h
    · rename_i ha
      cases h
      simp [ha]
    · rename_i ha
      rw [List.eraseP_cons_of_neg (by simp [ha])]
      exact ((perm_eraseP p l y h).cons a).trans (List.Perm.swap y a _)

/-- The effect of `erase`. -/
theorem erase_spec (hc : Compat hash eq) {t : HT α} (h : Inv hash eq t) (x : α) :
    (t.elems.find? (eq x) = none → erase hash eq x t = none) ∧
    (∀ y, t.elems.find? (eq x) = some y → ∃ t', erase hash eq x t = some t' ∧ Inv hash eq t' ∧
      t.elems.Perm (y :: t'.elems) ∧ t'.buckets.length = t.buckets.length) := by
  obtain ⟨b, hb⟩ := h.placed.get hash x
  have hf := hc.find_bucket h.placed h.distinct hb
  unfold erase
  rw [hb]
  simp only
  refine ⟨fun hn => ?_, fun y hy => ?_⟩
  · rw [if_neg]
    unfold elems at hn
    rw [hn, List.find?_eq_none] at hf
    rw [List.any_eq_true]
    rintro ⟨y, hy, hxy⟩
    exact hf y hy hxy
  · unfold elems at hy
    rw [hy] at hf
    rw [if_pos (List.any_eq_true.2 ⟨y, List.mem_of_find?_eq_some hf, List.find?_some hf⟩)]
    obtain ⟨rest, h1, h2⟩ := flatten_set t.buckets _ b hb
    have hp : t.elems.Perm
        (y :: (t.buckets.set (pos hash t.buckets.length x) (b.eraseP (eq x))).flatten) :=
      h1.trans (((perm_eraseP _ b y hf).append_right rest).trans ((h2 _).symm.cons y))
    have hd := (hc.perm_distinct hp).1 h.distinct
    refine ⟨_, rfl, ⟨?_, ?_, (List.pairwise_cons.1 hd).2⟩, hp, by simp⟩
    · exact h.placed.set fun z hz => h.placed.placed _ b hb z (List.mem_of_mem_eraseP hz)
    · have := hp.length_eq
      simp only [List.length_cons] at this
      simp only [elems, h.size] at this ⊢
      omega

theorem new_inv (hash : α → Nat) (eq : α → α → Bool) {size : BitVec 64} (h1 : 1 ≤ size.toNat)
    (h2 : size.toNat ≤ 2 ^ 63) :
    Inv hash eq (new size) ∧ (new size : HT α).elems = [] ∧
      4 * (new size : HT α).size < 3 * (new size : HT α).buckets.length := by
  obtain ⟨⟨k, hk⟩, _, _⟩ := (nextPower64_spec size).range h1 h2
  have e : (new size : HT α).elems = [] := flatten_replicate _
  refine ⟨⟨placed_replicate hash ⟨k, hk⟩, by rw [e]; rfl, by rw [e]; exact .nil⟩, e, ?_⟩
  have := Nat.two_pow_pos k
  simp only [new, List.length_replicate, hk]
  omega

/-- The effect of `insert_check`. -/
theorem insertCheck_spec {K : Type} {t : HT α} (h : Inv hash eq t) {hashK : K → Nat}
    {eqK : K → α → Bool} {k : K} (hk : ∀ y, eqK k y = true → hashK k = hash y) :
    (∀ y i, insertCheck hashK eqK k t = some (some y, i) → y ∈ t.elems ∧ eqK k y = true) ∧
    (∀ i, insertCheck hashK eqK k t = some (none, i) → (∀ y ∈ t.elems, eqK k y = false) ∧
      i = pos hashK t.buckets.length k) ∧ insertCheck hashK eqK k t ≠ none := by
  obtain ⟨b, hb⟩ := h.placed.get hashK k
  unfold insertCheck
  rw [hb]
  simp only [Option.some.injEq, Prod.mk.injEq, ne_eq, reduceCtorEq, not_false_eq_true, and_true]
  refine ⟨?_, ?_⟩
  · rintro y i ⟨hf, _⟩
    exact ⟨mem_flatten_iff.2 ⟨_, b, hb, List.mem_of_find?_eq_some hf⟩, List.find?_some hf⟩
  · rintro i ⟨hf, rfl⟩
    refine ⟨fun y hy => ?_, rfl⟩
    by_contra hc
    have hxy : eqK k y = true := by simpa using hc
    have := h.placed.mem_bucket (hk y hxy) hb hy
    rw [List.find?_eq_none] at hf
    exact hf y this hxy

/-- The effect of `insert_commit`, at the position of the element. -/
theorem insertCommit_spec (hc : Compat hash eq) {t : HT α} (h : Inv hash eq t) {x : α} {i : Nat}
    (hi : i = pos hash t.buckets.length x) (hx : ∀ y ∈ t.elems, eq x y = false) :
    ∃ t', insertCommit x i t = some t' ∧ Inv hash eq t' ∧ t'.elems.Perm (x :: t.elems) ∧
      t'.buckets.length = t.buckets.length := by
  subst hi
  obtain ⟨b, hb⟩ := h.placed.get hash x
  unfold insertCommit
  rw [hb]
  obtain ⟨rest, h1, h2⟩ := flatten_set t.buckets _ b hb
  have hp : (t.buckets.set (pos hash t.buckets.length x) (b ++ [x])).flatten.Perm (x :: t.elems) := by
    refine (h2 _).trans ?_
    rw [List.append_assoc]
    exact List.perm_middle.trans ((by simpa [elems] using h1.symm : (b ++ ([] ++ rest)).Perm t.elems).cons x)
  refine ⟨_, rfl, ⟨h.placed.set fun y hy => ?_, ?_, ?_⟩, hp, by simp⟩
  · rcases List.mem_append.1 hy with hy | hy
    · exact h.placed.placed _ b hb y hy
    · rw [List.mem_singleton.1 hy]
  · simp only [elems]
    rw [hp.length_eq, h.size]
    rfl
  · refine (hc.perm_distinct hp).2 (List.pairwise_cons.2 ⟨hx, h.distinct⟩)

/-- The effect of `clear_and_dispose`. -/
theorem clear_spec {t : HT α} (h : Inv hash eq t) :
    t.clear.1 = t.elems ∧ Inv hash eq t.clear.2 ∧ t.clear.2.elems = [] ∧
      t.clear.2.buckets.length = t.buckets.length := by
  have e : (t.buckets.map fun _ => ([] : List α)) = List.replicate t.buckets.length [] := by
    rw [List.map_const']
  have e' : t.clear.2.elems = [] := by
    simp only [clear, elems]
    rw [e]
    exact flatten_replicate _
  refine ⟨rfl, ⟨?_, by rw [e']; rfl, by rw [e']; exact .nil⟩, e', by simp [clear]⟩
  simp only [clear]
  rw [e]
  exact placed_replicate hash h.placed.pow

theorem length_bucket {f : α → Nat} (bs : List (List α)) : ∀ (off i : Nat), (∀ j b, bs[j]? = some b → ∀ x ∈ b, f x = off + j) →
    bs.flatten.countP (fun x => decide (f x = off + i)) = (bs[i]?.map List.length).getD 0 := by
  induction bs with
  | nil => intro off i _; simp
  | cons b bs ih =>
    intro off i h
    have hb := h 0 b rfl
    have ih := fun i' => ih (off + 1) i' fun j b' hj x hx => by rw [h (j + 1) b' hj x hx]; omega
    rw [List.flatten_cons, List.countP_append]
    cases i with
    | zero =>
      have h1 : b.countP (fun x => decide (f x = off + 0)) = b.length := by
        rw [List.countP_eq_length]
        intro x hx
        simp [hb x hx]
      have h2 : bs.flatten.countP (fun x => decide (f x = off + 0)) = 0 := by
        rw [List.countP_eq_zero]
        intro x hx
        obtain ⟨j, b', hj, hx'⟩ := mem_flatten_iff.1 hx
        have := h (j + 1) b' hj x hx'
        simp only [decide_eq_true_eq]
        omega
      rw [h1, h2]
      simp
    | succ i =>
      have h1 : b.countP (fun x => decide (f x = off + (i + 1))) = 0 := by
        rw [List.countP_eq_zero]
        intro x hx
        have := hb x hx
        simp only [decide_eq_true_eq]
        omega
      rw [h1, Nat.zero_add, show off + (i + 1) = off + 1 + i by omega, ih i]
      simp

/-- The buckets which receive a given number of elements. -/
theorem Placed.countP {hash : α → Nat} {bs : List (List α)} (h : Placed hash bs) {k : Nat} (hk : bs.length = 2 ^ k) {l : List α}
    (hl : bs.flatten.Perm l) {q : Nat → Bool} : bs.countP (fun b => q b.length) =
      (List.range (2 ^ k)).countP fun i => q (l.countP fun x => decide (hash x % 2 ^ k = i)) := by
  have e : bs.map List.length = (List.range (2 ^ k)).map fun i => l.countP fun x => decide (hash x % 2 ^ k = i) := by
    refine List.ext_getElem (by simp [hk]) fun i h1 h2 => ?_
    simp only [List.getElem_map, List.getElem_range]
    rw [← hl.countP_eq]
    have := length_bucket (f := fun x => hash x % 2 ^ k) bs 0 i fun j b hj x hx => by
      rw [← Nat.and_two_pow_sub_one_eq_mod, ← hk, Nat.zero_add]
      exact h.placed j b hj x hx
    rw [List.length_map] at h1
    rw [Nat.zero_add, List.getElem?_eq_getElem h1] at this
    simpa using this.symm
  have := congrArg (List.countP q) e
  rwa [List.countP_map, List.countP_map] at this

theorem collisions_spec (t : HT α) :
    t.collisions.1 + t.collisions.2.1 + t.collisions.2.2 = t.buckets.length ∧
    t.collisions.1 = t.buckets.countP (fun b => decide (1 < b.length)) ∧
    t.collisions.2.1 = t.buckets.countP (fun b => decide (b.length = 1)) ∧
    t.collisions.2.2 = t.buckets.countP (fun b => decide (b.length = 0)) := by
  unfold collisions
  have key : ∀ (bs : List (List α)) (acc : Nat × Nat × Nat),
      bs.foldl (fun acc b =>
        if b.length = 0 then (acc.1, acc.2.1, acc.2.2 + 1)
        else if b.length = 1 then (acc.1, acc.2.1 + 1, acc.2.2)
        else (acc.1 + 1, acc.2.1, acc.2.2)) acc =
      (acc.1 + bs.countP (fun b => decide (1 < b.length)),
        acc.2.1 + bs.countP (fun b => decide (b.length = 1)),
        acc.2.2 + bs.countP (fun b => decide (b.length = 0))) ∧
      bs.countP (fun b => decide (1 < b.length)) + bs.countP (fun b => decide (b.length = 1)) +
        bs.countP (fun b => decide (b.length = 0)) = bs.length := by
    intro bs
    induction bs with
    | nil => simp
    | cons b bs ih =>
      intro acc
      rw [List.foldl_cons]
      simp only [List.countP_cons, List.length_cons]
      by_cases h0 : b.length = 0
      · rw [if_pos h0, (ih _).1]
        have := (ih acc).2
        simp only [h0]; simp at this ⊢; omega
      · by_cases h1 : b.length = 1
        · rw [if_neg h0, if_pos h1, (ih _).1]
          have := (ih acc).2
          simp only [h1]; simp at this ⊢; omega
        · rw [if_neg h0, if_neg h1, (ih _).1]
          have := (ih acc).2
          have h2 : 1 < b.length := by omega
          simp only [h0, h1, h2]; simp at this ⊢; omega
  have k := key t.buckets (0, 0, 0)
  rw [k.1]
  simp only [Nat.zero_add]
  exact ⟨k.2, trivial, trivial, trivial⟩

end

/-! ## Sequences of operations -/

/-- Operations on a set: `insert`, `erase`, `insert_check` followed by `insert_commit` if nothing was
found, and `clear_and_dispose`. (`/repo/sdd/mem/hash_table.hh`, lines 80-205.) -/
inductive TOp (α : Type) : Type where
  | insert (x : α)
  | erase (x : α)
  | insert2 (x : α)
  | clear

/-- Their results: the element in the set and whether it has been inserted, nothing, or the number of
elements disposed of. (`/repo/sdd/mem/hash_table.hh`, lines 80-205.) -/
inductive TOut (α : Type) : Type where
  | inserted (x : α) (new : Bool)
  | erased
  | cleared (n : Nat)

/-- The use of `insert_check` and `insert_commit`, as in `/repo/sdd/mem/cache.hh:221-258`. -/
def insert2 (hash : α → Nat) (eq : α → α → Bool) (x : α) (t : HT α) : Option ((α × Bool) × HT α) :=
  match insertCheck hash eq x t with
  | none => none
  | some (some y, _) => some ((y, false), t)
  | some (none, i) => (insertCommit x i t).map fun t' => ((x, true), t')

/-- An operation of the table. (`/repo/sdd/mem/hash_table.hh`, lines 80-205.) -/
def exec (hash : α → Nat) (eq : α → α → Bool) (t : HT α) : TOp α → Option (TOut α × HT α)
  | .insert x => (insert hash eq x t).map fun r => (.inserted r.1.1 r.1.2, r.2)
  | .erase x => (erase hash eq x t).map fun t' => (.erased, t')
  | .insert2 x => (insert2 hash eq x t).map fun r => (.inserted r.1.1 r.1.2, r.2)
  | .clear => some (.cleared t.clear.1.length, t.clear.2)

/-- A sequence of operations. (Proof device, not part of the code.) -/
def execs (hash : α → Nat) (eq : α → α → Bool) : HT α → List (TOp α) → Option (List (TOut α) × HT α)
  | t, [] => some ([], t)
  | t, op :: ops =>
    match exec hash eq t op with
    | none => none
    | some (o, t') => (execs hash eq t' ops).map fun r => (o :: r.1, r.2)

/-- Specification: a set of elements up to `eq`, as a list; erasing an absent element is an error. -/
def refExec (eq : α → α → Bool) (l : List α) : TOp α → Option (TOut α × List α)
  | .insert x | .insert2 x =>
    match l.find? (eq x) with
    | some y => some (.inserted y false, l)
    | none => some (.inserted x true, x :: l)
  | .erase x =>
    match l.find? (eq x) with
    | some _ => some (.erased, l.eraseP (eq x))
    | none => none
  | .clear => some (.cleared l.length, [])

/-- Specification of a sequence of operations. -/
def refExecs (eq : α → α → Bool) : List α → List (TOp α) → Option (List (TOut α) × List α)
  | l, [] => some ([], l)
  | l, op :: ops =>
    match refExec eq l op with
    | none => none
    | some (o, l') => (refExecs eq l' ops).map fun r => (o :: r.1, r.2)

/-- The operation is not the insertion in two phases, which does not enlarge the table. (Specification or proof device, not part of the code.) -/
def TOp.Rehashes : TOp α → Prop
  | .insert2 _ => False
  | _ => True

section
variable {hash : α → Nat} {eq : α → α → Bool}

theorem exec_refines (hc : Compat hash eq) {t : HT α} (h : Inv hash eq t) {l : List α}
    (hp : t.elems.Perm l) (op : TOp α) :
    match exec hash eq t op, refExec eq l op with
    | none, none => True
    | some (o, t'), some (o', l') => o = o' ∧ Inv hash eq t' ∧ t'.elems.Perm l' ∧
        (op.Rehashes → 4 * t.size < 3 * t.buckets.length → 4 * t'.size < 3 * t'.buckets.length)
    | _, _ => False := by
  have hfind := fun x => hc.find_perm hp h.distinct x
  cases op with
  | insert x =>
    obtain ⟨t', e, i, m, hl'⟩ := insert_spec hc h x
    simp only [exec, refExec, e, Option.map_some]
    rw [← hfind x]
    cases hf : t.elems.find? (eq x) with
    | none =>
      rw [hf] at m
      exact ⟨rfl, i, m.trans (hp.cons x), fun _ => hl'⟩
    | some y =>
      rw [hf] at m
      exact ⟨rfl, i, m.trans hp, fun _ => hl'⟩
  | erase x =>
    simp only [exec, refExec]
    rw [← hfind x]
    cases hf : t.elems.find? (eq x) with
    | none => rw [(erase_spec hc h x).1 hf]; trivial
    | some y =>
      obtain ⟨t', e, i, m, hb⟩ := (erase_spec hc h x).2 y hf
      rw [e]
      refine ⟨rfl, i, ?_, fun _ hl => ?_⟩
      · refine (List.perm_cons y).1 (m.symm.trans (hp.trans (perm_eraseP _ l y ?_)))
        rw [← hfind x, hf]
      · have h1 := m.length_eq
        have h2 := i.size
        have h3 := h.size
        simp only [List.length_cons] at h1
        rw [hb]; omega
  | insert2 x =>
    simp only [exec, refExec]
    rw [← hfind x]
    have hk := fun y => hc.hash x y
    obtain ⟨c1, c2, c3⟩ := insertCheck_spec h (k := x) (hashK := hash) (eqK := eq) hk
    unfold insert2
    match hr : insertCheck hash eq x t with
    | none => exact absurd hr c3
    | some (some y, i) =>
      obtain ⟨hy, hxy⟩ := c1 y i hr
      cases hf : t.elems.find? (eq x) with
      | none =>
        rw [List.find?_eq_none] at hf
        exact absurd hxy (hf y hy)
      | some z =>
        have := hc.unique (List.find?_some hf) hxy h.distinct (List.mem_of_find?_eq_some hf) hy
        subst this
        exact ⟨rfl, h, hp, fun hr => hr.elim⟩
    | some (none, i) =>
      obtain ⟨hn, hi⟩ := c2 i hr
      have hf : t.elems.find? (eq x) = none := by
        rw [List.find?_eq_none]
        intro y hy
        simp [hn y hy]
      rw [hf]
      obtain ⟨t', e, i', m, _⟩ := insertCommit_spec hc h hi hn
      simp only [e, Option.map_some]
      exact ⟨trivial, i', m.trans (hp.cons x), fun hr => hr.elim⟩
  | clear =>
    obtain ⟨e, i, m, hl⟩ := clear_spec h
    simp only [exec, refExec]
    refine ⟨by rw [e, hp.length_eq], i, by rw [m], fun _ hl' => ?_⟩
    rw [hl, i.size, m]
    simp only [List.length_nil]
    omega

theorem execs_refines (hc : Compat hash eq) : ∀ (ops : List (TOp α)) {t : HT α}, Inv hash eq t →
    ∀ {l : List α}, t.elems.Perm l →
    match execs hash eq t ops, refExecs eq l ops with
    | none, none => True
    | some (os, t'), some (os', l') => os = os' ∧ Inv hash eq t' ∧ t'.elems.Perm l' ∧
        ((∀ op ∈ ops, op.Rehashes) → 4 * t.size < 3 * t.buckets.length →
          4 * t'.size < 3 * t'.buckets.length)
    | _, _ => False
  | [], t, h, l, hp => ⟨rfl, h, hp, fun _ hl => hl⟩
  | op :: ops, t, h, l, hp => by
    have h1 := exec_refines hc h hp op
    simp only [execs, refExecs]
    match e1 : exec hash eq t op, e2 : refExec eq l op, h1 with
    | none, none, _ => trivial
    | some (o, t'), some (o', l'), h1 =>
      obtain ⟨rfl, i, m, hl⟩ := h1
      have h2 := execs_refines hc ops i m
      match e3 : execs hash eq t' ops, e4 : refExecs eq l' ops, h2 with
      | none, none, _ => simp [e3, e4]
      | some (os, t''), some (os', l''), h2 =>
        obtain ⟨rfl, h3, h4, h5⟩ := h2
        simp only [e3, e4, Option.map_some]
        exact ⟨trivial, h3, h4, fun hr hl' => h5 (fun o ho => hr o (List.mem_cons_of_mem _ ho))
          (hl (hr op List.mem_cons_self) hl')⟩

end
end HT
end Verif
