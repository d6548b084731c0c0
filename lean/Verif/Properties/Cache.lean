import Verif.Mem.CacheHist
import Verif.Mem.Exhaust
/-!
# Properties of the operation cache
-/

set_option autoImplicit false
set_option linter.unusedSectionVars false

namespace Verif
open Cache

section
variable {K R : Type} [DecidableEq K] {hash : K → Nat} {size : BitVec 64}

/-- **C16**, the part which holds: while the cache has not been cleared, the entry discarded when the cache is full is the one
whose last look-up or storage is the oldest one among all entries.

Missing: histories with calls to `clear()`, for which the property is false (`C16_negation`). -/
theorem C16_lru_eviction_partial (hsz : size.toNat ≤ 2 ^ 63) {h : List (Ev K R × Out K R)}
    {c c' : State K R} (hh : Hist hash size h c) (hc : ∀ e ∈ h, e.1 ≠ .clear) {k d : K} {r : R}
    (hk : k ∉ keys c) (he : exec hash c (.store k r) = some (.stored (some d), c')) :
    d ∈ keys c ∧ ∀ j ∈ keys c, j ≠ d → lastUse h d < lastUse h j :=
  hh.evicts_lru hsz hc hk he

/-- **C55.** For any hash function and any history of look-ups, storages and removals of all entries (`clear()`), of a
cache of size at least 2:
1. the next event never uses an entry which does not exist any more (memory safety), even though
  `clear()` leaves positions of removed entries in the list of uses;
2. the cache never holds more than 85% of the number of buckets, nor twice the same operation;
3. a look-up finds exactly the last result stored since the last `clear()`, unless it was discarded since;
4. a storage discards an entry exactly when the cache is full, and this entry was in the cache. -/
theorem C55_cache_is_a_bounded_map (hsz : size.toNat ≤ 2 ^ 63) {h : List (Ev K R × Out K R)}
    {c : State K R} (hh : Hist hash size h c) :
    (∀ e, Valid c e → exec hash c e ≠ none) ∧
    ((keys c).length ≤ 17 * (nextPower64 size).toNat / 20 ∧ (keys c).Nodup) ∧
    (∀ k, (exec hash c (.lookup k)).map Prod.fst = some (.found (contents h k)) ∧
      (k ∈ keys c ↔ contents h k ≠ none)) ∧
    (∀ k r o c', k ∉ keys c → exec hash c (.store k r) = some (o, c') →
      (o = .stored none ∧ (keys c).length < 17 * (nextPower64 size).toNat / 20) ∨
      (∃ d, o = .stored (some d) ∧ d ∈ keys c ∧ d ∉ keys c' ∧
        (keys c).length = 17 * (nextPower64 size).toNat / 20)) := by
  obtain ⟨hi, hm⟩ := hh.inv hsz
  have hma := hh.matches hsz
  have hmax : c.maxSize = 17 * (nextPower64 size).toNat / 20 := hm
  have hcount := hi.count
  have hkey : ∀ k, k ∈ keys c ↔ contents h k ≠ none := by
    intro k
    rw [mem_keys hi]
    constructor
    · rintro ⟨s, x, hs, h1⟩ e
      have := (hma k x.res).2 ⟨s, x, hs, h1, rfl⟩
      rw [e] at this
      cases this
    · intro hne
      cases hr : contents h k with
      | none => exact absurd hr hne
      | some r =>
        obtain ⟨s, x, hs, h1, _⟩ := (hma k r).1 hr
        exact ⟨s, x, hs, h1⟩
  refine ⟨?_, ⟨?_, keys_nodup hi⟩, ?_, ?_⟩
  · intro e hv
    obtain ⟨o, c', e, _⟩ := exec_inv hi hv
    rw [e]
    exact Option.some_ne_none _
  · rw [keys_length hi]
    omega
  · intro k
    refine ⟨?_, hkey k⟩
    rcases lookup_spec hi k with ⟨hn, e⟩ | ⟨s, x, hs, h1, e, _⟩
    · have : contents h k = none := by
        by_contra hne
        exact hn ((hkey k).2 hne)
      simp only [exec, e, Option.map_some, this]
    · have := (hma k x.res).2 ⟨s, x, hs, h1, rfl⟩
      simp only [exec, e, Option.map_some, this]
  · intro k r o c' hk he
    rw [keys_length hi]
    rcases store_spec hi hk r with ⟨hlt, s, c2, e, _⟩ | ⟨hfull, n, l, x, c2, hl, hx, e, _, _, _, _, hk2⟩
    · simp only [exec, e, Option.map_some, Option.some.injEq, Prod.mk.injEq] at he
      exact .inl ⟨he.1.symm, by omega⟩
    · simp only [exec, e, Option.map_some, Option.some.injEq, Prod.mk.injEq] at he
      obtain ⟨rfl, rfl⟩ := he
      have hxk : x.op ∈ keys c := (mem_keys hi _).2 ⟨_, x, hx, rfl⟩
      refine .inr ⟨x.op, rfl, hxk, ?_, by omega⟩
      rw [hk2]
      rintro (h | h)
      · exact h.2 rfl
      · exact hk (h ▸ hxk)

/-- **C55**, construction: the constructor of a cache is defined exactly for sizes from 2 to 2^63 (a cache of
size 0 or 1 writes outside of its pool). -/
theorem C55_cache_construction (size : BitVec 64) :
    (Cache.new size : Option (State K R)) ≠ none ↔ 2 ≤ size.toNat ∧ size.toNat ≤ 2 ^ 63 := by
  have hs := nextPower64_spec size
  have hnew : (Cache.new size : Option (State K R)) ≠ none ↔ maxSizeOf (nextPower64 size).toNat ≠ 0 := by
    unfold Cache.new
    simp only [HT.new, List.length_replicate]
    split <;> simp [*]
  rw [hnew]
  unfold maxSizeOf
  rcases Nat.lt_or_ge (2 ^ 63) size.toNat with h | h
  · rw [hs.beyond h]
    constructor
    · intro h; exact absurd rfl h
    · omega
  · rcases Nat.eq_zero_or_pos size.toNat with h0 | h0
    · rw [hs.zero h0]
      simp [h0]
    · obtain ⟨⟨k, hk⟩, h1, h2⟩ := hs.range h0 h
      constructor
      · intro h3
        refine ⟨?_, h⟩
        by_contra h4
        have h5 := h2 0 (by omega)
        have h6 : (nextPower64 size).toNat = 1 := by
          have : 2 ^ 0 = 1 := rfl
          omega
        rw [h6] at h3
        exact h3 rfl
      · rintro ⟨h3, _⟩ h4
        omega

/-- **C55**, link with the operations: a cache behaves as the list of entries used by the operations on SDDs and
homomorphisms, for some choice of the discarded entries. -/
theorem C55_cache_refines_list (hsz : size.toNat ≤ 2 ^ 63) {h : List (Ev K R × Out K R)}
    {c : State K R} (hh : Hist hash size h c) {l : Lru K R} (ha : Abs c l) :
    (∀ k, ∃ c', exec hash c (.lookup k) = some (.found (lruFind l k), c') ∧ Abs c' (lruTouch l k)) ∧
    (∀ k r, k ∉ keys c → ∃ o c' pick l', exec hash c (.store k r) = some (.stored o, c') ∧
      lruInsert c.maxSize pick l k r = some l' ∧ Abs c' l') ∧
    (∃ c', exec hash c .clear = some (.cleared, c') ∧ Abs c' ([] : Lru K R)) := by
  have hi := (hh.inv hsz).1
  refine ⟨?_, ?_, ?_⟩
  · intro k
    obtain ⟨c', e, a⟩ := lookup_abs hi ha k
    exact ⟨c', by simp only [exec, e, Option.map_some], a⟩
  · intro k r hk
    obtain ⟨o, c', p, l', e, e', a⟩ := store_abs hi ha hk r
    exact ⟨o, c', p, l', by simp only [exec, e, Option.map_some], e', a⟩
  · exact ⟨_, rfl, clear_abs hi⟩

end

/-! ### Concrete histories -/

deriving instance DecidableEq for Cache.Out

/-- A test of the validity of an event. -/
def validB {K R : Type} [DecidableEq K] (c : State K R) : Ev K R → Bool
  | .store k _ => decide (k ∉ keys c)
  | _ => true

/-- The execution of a list of events, when they are valid: the history and the state. -/
def runCache {K R : Type} [DecidableEq K] (hash : K → Nat) (size : BitVec 64) :
    List (Ev K R) → Option (List (Ev K R × Out K R) × State K R)
  | [] => (Cache.new size).map fun c => ([], c)
  | e :: es =>
    match runCache hash size es with
    | none => none
    | some (h, c) =>
      if validB c e then
        (exec hash c e).map fun p => ((e, p.1) :: h, p.2)
      else none

theorem runCache_hist {K R : Type} [DecidableEq K] {hash : K → Nat} {size : BitVec 64}
    {es : List (Ev K R)} {h : List (Ev K R × Out K R)} {c : State K R}
    (e : runCache hash size es = some (h, c)) : Hist hash size h c := by
  induction es generalizing h c with
  | nil =>
    simp only [runCache, Option.map_eq_some_iff, Prod.mk.injEq] at e
    obtain ⟨c', hc, rfl, rfl⟩ := e
    exact .new hc
  | cons x es ih =>
    unfold runCache at e
    split at e
    · cases e
    · rename_i h' c' hr
      split at e
      · rename_i hv
        rw [Option.map_eq_some_iff] at e
        obtain ⟨⟨o, c''⟩, he, e⟩ := e
        cases e
        refine .step (ih hr) ?_ he
        cases x <;> simp_all [Valid, validB]
      · cases e

/-- Three results are stored in a cache of size 4 (hence of 3 entries), which is then cleared; three other ones are
stored (newest first). -/
def afterClear : List (Ev Nat Nat) :=
  [.store 7 70, .store 6 60, .store 5 50, .clear, .store 3 30, .store 2 20, .store 1 10]

/-- **C16** is false after a call to `clear()`: the next storage discards the entry which was just stored. -/
theorem C16_negation : ∃ (h : List (Ev Nat Nat × Out Nat Nat)) (c c' : State Nat Nat) (d j : Nat),
    Hist id 4#64 h c ∧ 8 ∉ keys c ∧ exec id c (.store 8 80) = some (.stored (some d), c') ∧
    d ∈ keys c ∧ j ∈ keys c ∧ j ≠ d ∧ lastUse h j < lastUse h d := by
  have key : ∃ p, runCache id 4#64 afterClear = some p ∧ 8 ∉ keys p.2 ∧
      ((exec id p.2 (.store 8 80)).map Prod.fst = some (.stored (some 7))) ∧ 7 ∈ keys p.2 ∧ 5 ∈ keys p.2 ∧
      lastUse p.1 5 < lastUse p.1 7 := by
    have : (runCache id 4#64 afterClear).isSome ∧ ∀ p ∈ runCache id 4#64 afterClear, 8 ∉ keys p.2 ∧
      ((exec id p.2 (.store 8 80)).map Prod.fst = some (.stored (some 7))) ∧ 7 ∈ keys p.2 ∧ 5 ∈ keys p.2 ∧
      lastUse p.1 5 < lastUse p.1 7 := by decide +kernel
    obtain ⟨h1, h2⟩ := this
    obtain ⟨p, hp⟩ := Option.isSome_iff_exists.1 h1
    exact ⟨p, hp, h2 p hp⟩
  obtain ⟨⟨h, c⟩, hr, h8, he, h7, h5, hl⟩ := key
  rw [Option.map_eq_some_iff] at he
  obtain ⟨⟨o, c'⟩, he, ho⟩ := he
  simp only at ho
  subst ho
  exact ⟨h, c, c', 7, 5, runCache_hist hr, h8, he, h7, h5, by decide, hl⟩

/-- A history without removal of all entries: three results are stored, the first one is looked up, and
the next storage discards the second one. -/
example : ((runCache id 4#64 [.store 8 80, .lookup 1, .store 3 30, .store 2 20, .store 1 10]).map
    fun p => (p.1.map Prod.snd, keys p.2)) =
    some ([.stored (some 2), .found (some 10), .stored none, .stored none, .stored none], [8, 1, 3]) := by
  decide +kernel

/-! ## C81: failed allocations -/

section
variable {K R : Type} [DecidableEq K] {hash : K → Nat} {size : BitVec 64}

/-- **C81**, the part which holds for caches. After any history of look-ups, storages, storages whose allocation fails, and `clear()`:
1. a look-up is defined and answers as the contents say: a failed storage adds nothing to the contents, and removes at most one entry;
2. the next storage, failing or not, is defined unless some allocation has failed in the past and the number of failures and the number of
  entries are exactly the capacity of the cache;
3. what the cache can still hold is its capacity without the number of failures.

Missing: the storages of the second point, for which the property is false (`C81_negation`). -/
theorem C81_cache_partial (hsz : size.toNat ≤ 2 ^ 63) {f : Nat} {M : K → Option R} {c : State K R} (hh : HistF hash size f M c) :
    (∀ k, (exec hash c (.lookup k)).map Prod.fst = some (.found (M k))) ∧
    (∀ k, k ∈ keys c ↔ (M k).isSome) ∧
    (∀ k r, k ∉ keys c → (exec hash c (.store k r) = none ↔ 0 < f ∧ (keys c).length + f = 17 * (nextPower64 size).toNat / 20)) ∧
    (storeFails hash c = none ↔ 0 < f ∧ (keys c).length + f = 17 * (nextPower64 size).toNat / 20) ∧
    (keys c).Nodup ∧ (keys c).length + f ≤ 17 * (nextPower64 size).toNat / 20 := by
  obtain ⟨⟨l, h⟩, hm⟩ := hh.inv hsz
  have hm' : c.maxSize = 17 * (nextPower64 size).toNat / 20 := hm
  rw [← hm']
  refine ⟨fun k => ?_, fun k => ?_, fun k r hk => ?_, ?_, keys_nodup (c := plus c l) h.inv, ?_⟩
  · obtain ⟨c', e, -⟩ := h.lookup k
    simp [exec, e]
  · refine (mem_keys h.inv k).trans ?_
    rw [Option.isSome_iff_exists]
    constructor
    · rintro ⟨s, x, h1, h2⟩
      exact ⟨x.res, (h.holds k x.res).2 ⟨s, x, h1, h2, rfl⟩⟩
    · rintro ⟨r, hr⟩
      obtain ⟨s, x, h1, h2, -⟩ := (h.holds k r).1 hr
      exact ⟨s, x, h1, h2⟩
  · rcases h.store hk r with ⟨e, hf⟩ | ⟨o, c', e, -, -, hn⟩
    · simpa [exec, e] using hf
    · simp only [exec, e, Option.map_some, reduceCtorEq, false_iff]
      exact hn
  · rcases h.storeFails with ⟨e, hf⟩ | ⟨o, c', l', e, -, -, hn⟩
    · simpa [e] using hf
    · simp only [e, reduceCtorEq, false_iff]
      exact hn
  · have := h.count
    omega

end

/-- **C81** is false for caches: in a cache of 3 entries, one failed allocation and two storages later, the next storage takes a slot from an
empty pool (a null pointer is dereferenced). -/
theorem C81_negation : ∃ (M : Nat → Option Nat) (c : State Nat Nat),
    HistF id 4#64 1 M c ∧ 4 ∉ keys c ∧ exec id c (.store 4 40) = none := by
  have key : ∃ c0 d c1 o2 c2 o3 c3, (Cache.new 4#64 : Option (State Nat Nat)) = some c0 ∧ storeFails id c0 = some (d, c1) ∧
      2 ∉ keys c1 ∧ exec id c1 (.store 2 20) = some (o2, c2) ∧ 3 ∉ keys c2 ∧ exec id c2 (.store 3 30) = some (o3, c3) ∧
      4 ∉ keys c3 ∧ (exec id c3 (.store 4 40)).isNone := by
    refine ⟨_, _, _, _, _, _, _, rfl, rfl, ?_, rfl, ?_, rfl, ?_, ?_⟩ <;> decide +kernel
  obtain ⟨c0, d, c1, o2, c2, o3, c3, e0, e1, n2, e2, n3, e3, n4, e4⟩ := key
  exact ⟨_, c3, .step (.step (e := .store 2 20) (.fails (.new e0) e1) n2 e2) (e := .store 3 30) n3 e3, n4, Option.isNone_iff_eq_none.1 e4⟩

/-- **C81** for hash tables which grow (those of the unique tables). After any history of insertions whose allocation may fail, and removals:
1. the table contains exactly what was inserted and not removed, including the data whose insertion threw an exception;
2. the next insertion is defined; it throws only when its allocation fails, and then the table is too loaded; otherwise it answers with the
  datum which was already there, if any.

What is lost after a failure is the bound on the load of the table, and the memory of the datum whose insertion threw, which no handle refers
to. -/
theorem C81_table {α : Type} {hash : α → Nat} {eq : α → α → Bool} (hc : HT.Compat hash eq) {size : BitVec 64} (h1 : 1 ≤ size.toNat)
    (h2 : size.toNat ≤ 2 ^ 63) {l : List α} {t : HT α} (hh : HT.HistF hash eq size l t) :
    t.elems.Perm l ∧ t.size = l.length ∧ l.Pairwise (fun x y => eq x y = false) ∧
    ∀ fail x, ∃ o t', HT.insertF hash eq fail x t = some (o, t') ∧
      t'.elems.Perm (if (l.find? (eq x)).isSome then l else x :: l) ∧
      (o = none → fail = true ∧ 3 * t'.buckets.length ≤ 4 * t'.size) ∧
      (∀ r, o = some r → r = ((l.find? (eq x)).getD x, (l.find? (eq x)).isNone)) := by
  obtain ⟨hi, hp⟩ := hh.inv hc h1 h2
  have hf := fun x => hc.find_perm hp hi.distinct x
  refine ⟨hp, hi.size.trans hp.length_eq, ?_, fun fail x => ?_⟩
  · refine (hp.pairwise_iff ?_).1 hi.distinct
    intro x y h
    cases e : eq y x with
    | false => rfl
    | true =>
      rw [hc.symm _ _ e] at h
      cases h
  · obtain ⟨o, t', e, i, p, hn, hs⟩ := HT.insertF_spec hc hi fail x
    rw [hf x] at p hs
    refine ⟨o, t', e, p.trans ?_, hn, hs⟩
    split
    · exact hp
    · exact hp.cons x

/-- A table of 2 buckets: the allocation of the second insertion fails; the datum is in the table all the same, and the third insertion, of
the same datum, throws too; the fourth one, which is given memory, finds it. -/
example : ((HT.insertF id (· == ·) false 1 (HT.new 2#64)).bind fun p1 => (HT.insertF id (· == ·) true 2 p1.2).bind fun p2 =>
    (HT.insertF id (· == ·) true 2 p2.2).bind fun p3 => (HT.insertF id (· == ·) false 2 p3.2).map fun p4 =>
      [(p1.1, p1.2.elems), (p2.1, p2.2.elems), (p3.1, p3.2.elems), (p4.1, p4.2.elems)]) =
    some [(some (1, true), [1]), (none, [2, 1]), (none, [2, 1]), (some (2, false), [1, 2])] := by
  decide +kernel

end Verif
