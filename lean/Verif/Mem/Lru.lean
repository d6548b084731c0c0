import Mathlib.Data.List.Basic
import Mathlib.Tactic.Common
/-!
# The operation cache seen as a bounded association list

`/repo/sdd/mem/cache.hh`.  The entries are listed from the least to the most recently used one (the
order of `lru_list_`).  The hash table holding the same entries is modelled in `Verif.Mem.HashTable`;
here a look-up is a search in the list, with the equality of operations.
-/

set_option autoImplicit false
set_option linter.unusedSectionVars false

namespace Verif

/-- The entries of a cache, oldest first (`lru_list_`, `/repo/sdd/mem/cache.hh:135`). -/
abbrev Lru (K R : Type) := List (K × R)

section
variable {K R : Type} [DecidableEq K]

/-- `set_.insert_check`, `/repo/sdd/mem/cache.hh:221-225`. -/
def lruFind (c : Lru K R) (k : K) : Option R := (c.find? fun e => e.1 = k).map Prod.snd

/-- On a hit, the entry is moved to the end of the list, `/repo/sdd/mem/cache.hh:228-234`. -/
def lruTouch (c : Lru K R) (k : K) : Lru K R :=
  match c.find? fun e => e.1 = k with
  | none => c
  | some e => c.eraseP (fun e => e.1 = k) ++ [e]

/-- After a miss: eviction of an entry when the cache is full, then insertion,
`/repo/sdd/mem/cache.hh:241-260`.  The position of the discarded entry is a parameter: 0 is the least
recently used entry, but other entries may be discarded after a call to `clear()` (see
`Verif.Mem.Cache`, where the policy is modelled).  `none` is the undefined behaviour of `front()` on an
empty list, when the maximal size is 0. -/
def lruInsert (cap pick : Nat) (c : Lru K R) (k : K) (r : R) : Option (Lru K R) :=
  if c.length = cap then
    if c.isEmpty then none
    else some (c.eraseIdx (pick % c.length) ++ [(k, r)])
  else some (c ++ [(k, r)])

theorem lruFind_mem {c : Lru K R} {k : K} {r : R} (h : lruFind c k = some r) : (k, r) ∈ c := by
  unfold lruFind at h
  rw [Option.map_eq_some_iff] at h
  obtain ⟨e, he, rfl⟩ := h
  have h1 := List.mem_of_find?_eq_some he
  have h2 := List.find?_some he
  simp at h2
  subst h2
  exact h1

theorem lruFind_none {c : Lru K R} {k : K} : lruFind c k = none ↔ ∀ r, (k, r) ∉ c := by
  unfold lruFind
  rw [Option.map_eq_none_iff, List.find?_eq_none]
  constructor
  · intro h r hr; simpa using h _ hr
  · rintro h ⟨k', r⟩ hr
    simp
    rintro rfl
    exact h r hr

theorem lruTouch_perm (c : Lru K R) (k : K) : (lruTouch c k).Perm c := by
  unfold lruTouch
  split
  · exact List.Perm.refl _
  · rename_i e he
    induction c with
    | nil => simp at he
    | cons d c ih =>
      rw [List.find?_cons] at he
      split at he
      · rename_i hd
        cases he
        simp at hd
        simp [hd]
      · rename_i hd
        simp at hd
        simp [hd]
        exact ih he

theorem mem_lruTouch {c : Lru K R} {k : K} {e : K × R} : e ∈ lruTouch c k ↔ e ∈ c :=
  (lruTouch_perm c k).mem_iff

theorem mem_lruInsert {cap pick : Nat} {c c' : Lru K R} {k : K} {r : R}
    (h : lruInsert cap pick c k r = some c') {e : K × R} (he : e ∈ c') : e ∈ c ∨ e = (k, r) := by
  unfold lruInsert at h
  split at h
  · split at h
    · simp at h
    · cases h
      rw [List.mem_append, List.mem_singleton] at he
      exact he.imp (fun h => List.mem_of_mem_eraseIdx h) id
  · cases h
    simpa using he

theorem lruInsert_isSome {cap pick : Nat} {c : Lru K R} {k : K} {r : R} (h : 0 < cap) :
    ∃ c', lruInsert cap pick c k r = some c' := by
  unfold lruInsert
  split
  · rename_i h1
    split
    · rename_i h2
      rw [List.isEmpty_iff] at h2
      subst h2
      simp at h1; omega
    · exact ⟨_, rfl⟩
  · exact ⟨_, rfl⟩

end
end Verif
