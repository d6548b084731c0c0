import Verif.Mem.CacheHist
/-!
# Failed allocations in caches and hash tables

`/repo/sdd/mem/cache.hh`: to store a result, a slot of the pool is taken, the entry is constructed in it, and only then an element is
inserted in the list of uses (`std::list`, lines 252-255), which allocates and may throw `std::bad_alloc`.  The slot is then lost: nothing
designates the entry it contains.

`/repo/sdd/mem/hash_table.hh`: `insert` links the element and then enlarges the table (lines 135-141), which allocates and may throw.

A lost slot is neither free nor designated; the model does not keep what it contains (the references held by the lost entry are never released).
-/

set_option autoImplicit false
set_option linter.unusedSectionVars false

namespace Verif
namespace Cache

section
variable {K R : Type} [DecidableEq K] (hash : K → Nat)

/-- A slot is taken from the pool and lost, `/repo/sdd/mem/cache.hh:165-173,252-255`. -/
def lose (c : State K R) : Option (State K R) :=
  match c.freeList with
  | [] => none
  | _ :: fl => some { c with freeList := fl }

/-- What follows the evaluation when the insertion in the list of uses throws, `/repo/sdd/mem/cache.hh:241-255`: the operation discarded,
if any. -/
def storeFails (c : State K R) : Option (Option K × State K R) :=
  if c.table.size = c.maxSize then
    match evict hash c with
    | none => none
    | some (o, c') => (lose c').map fun c'' => (some o, c'')
  else (lose c).map fun c'' => (none, c'')

/-- Specification of the contents of a cache, as a partial function: without what was discarded. -/
def without (M : K → Option R) : Option K → K → Option R
  | none => M
  | some d => fun k => if k = d then none else M k

/-- Specification of the contents of a cache after an event and what was observed. -/
def after (M : K → Option R) : Ev K R → Out K R → K → Option R
  | .store j r, .stored d => fun k => if k = j then some r else without M d k
  | .clear, _ => fun _ => none
  | _, _ => M

/-- A history of a cache with failed allocations: their number, the contents and the state. (Model of the environment: what the user or the
system does.) -/
inductive HistF (size : BitVec 64) : Nat → (K → Option R) → State K R → Prop where
  | new {c : State K R} : new size = some c → HistF size 0 (fun _ => none) c
  | step {f : Nat} {M : K → Option R} {c c' : State K R} {e : Ev K R} {o : Out K R} :
      HistF size f M c → Valid c e → exec hash c e = some (o, c') → HistF size f (after M e o) c'
  | fails {f : Nat} {M : K → Option R} {c c' : State K R} {d : Option K} :
      HistF size f M c → storeFails hash c = some (d, c') → HistF size (f + 1) (without M d) c'

end

section
variable {K R : Type} [DecidableEq K] {hash : K → Nat}

/-- The state without its losses. (Proof device, not part of the code.) -/
def plus (c : State K R) (leaked : List Nat) : State K R := { c with freeList := c.freeList ++ leaked }

/-- The invariant of a cache which has lost some slots. (Proof device, not part of the code.) -/
structure InvF (hash : K → Nat) (f : Nat) (M : K → Option R) (c : State K R) (leaked : List Nat) : Prop where
  inv : Inv hash (plus c leaked)
  len : leaked.length = f
  holds : ∀ k r, M k = some r ↔ ∃ s x, c.slots s = some x ∧ x.op = k ∧ x.res = r

theorem Inv.perm {c : State K R} (h : Inv hash c) {fl : List Nat} (hp : fl.Perm c.freeList) : Inv hash { c with freeList := fl } :=
  ⟨h.pos, h.ht, h.table, h.slots, h.nodup, h.fresh, hp.nodup_iff.2 h.freeNodup, fun s => by simpa using hp.mem_iff.trans (h.free s),
    by simpa [hp.length_eq] using h.count⟩

theorem plus_nil (c : State K R) : plus c [] = c := by simp [plus]

theorem lookup_plus (c : State K R) (leaked : List Nat) (k : K) :
    lookup hash k (plus c leaked) = (lookup hash k c).map fun p => (p.1, plus p.2 leaked) := by
  unfold lookup plus
  simp only []
  split
  · rfl
  · rfl
  · split
    · rfl
    · split <;> rfl

theorem add_plus {c : State K R} (leaked : List Nat) (k : K) (r : R) (hne : c.freeList ≠ []) :
    add hash k r (plus c leaked) = (add hash k r c).map fun c' => plus c' leaked := by
  unfold add plus
  cases hfl : c.freeList with
  | nil => exact absurd hfl hne
  | cons s fl =>
    simp only [List.cons_append, Option.map_map]
    rfl

theorem clear_plus (c : State K R) (leaked : List Nat) : clear (plus c leaked) = plus (clear c) leaked := by
  unfold clear plus
  simp only [List.append_assoc]

theorem keys_plus (c : State K R) (leaked : List Nat) : keys (plus c leaked) = keys c := rfl

theorem length_keys {c : State K R} {leaked : List Nat} (h : Inv hash (plus c leaked)) : (keys c).length = c.table.size := by
  simp only [keys, List.length_map]
  exact h.ht.size.symm

/-- No slot is lost when the cache is full. -/
theorem InvF.full {f : Nat} {M : K → Option R} {c : State K R} {leaked : List Nat} (h : InvF hash f M c leaked)
    (hf : c.table.size = c.maxSize) : leaked = [] ∧ c.freeList = [] ∧ f = 0 := by
  have hc := h.inv.count
  have hl := h.len
  simp only [plus, List.length_append] at hc
  have h1 : leaked = [] := List.length_eq_zero_iff.1 (by omega)
  exact ⟨h1, List.length_eq_zero_iff.1 (by omega), by rw [← hl, h1]; rfl⟩

theorem InvF.count {f : Nat} {M : K → Option R} {c : State K R} {leaked : List Nat} (h : InvF hash f M c leaked) :
    c.freeList.length + f + (keys c).length = c.maxSize := by
  have hc := h.inv.count
  have hl := h.len
  rw [length_keys h.inv]
  simp only [plus, List.length_append] at hc
  omega

theorem InvF.lookup {f : Nat} {M : K → Option R} {c : State K R} {leaked : List Nat} (h : InvF hash f M c leaked) (k : K) :
    ∃ c', lookup hash k c = some (M k, c') ∧ InvF hash f M c' leaked ∧ c'.maxSize = c.maxSize := by
  have hlp := lookup_plus (hash := hash) c leaked k
  rcases lookup_spec h.inv k with ⟨hn, e⟩ | ⟨s, x, hs, hop, e, hp⟩
  · rw [e] at hlp
    obtain ⟨⟨r, c'⟩, e1, e2⟩ := Option.map_eq_some_iff.1 hlp.symm
    simp only [Prod.mk.injEq] at e2
    obtain ⟨rfl, e2⟩ := e2
    have hM : M k = none := by
      cases hM : M k with
      | none => rfl
      | some r =>
        obtain ⟨s, x, h1, h2, -⟩ := (h.holds k r).1 hM
        exact absurd ((mem_keys h.inv k).2 ⟨s, x, h1, h2⟩) hn
    refine ⟨c', by rw [e1, hM], ⟨by rw [e2]; exact h.inv, h.len, fun j q => ?_⟩, ?_⟩
    · rw [h.holds j q]
      have : c'.slots = c.slots := by simpa only [plus] using congrArg State.slots e2
      rw [this]
    · simpa only [plus] using congrArg State.maxSize e2
  · rw [e] at hlp
    obtain ⟨⟨r, c'⟩, e1, e2⟩ := Option.map_eq_some_iff.1 hlp.symm
    simp only [Prod.mk.injEq] at e2
    obtain ⟨rfl, e2⟩ := e2
    refine ⟨c', by rw [e1, (h.holds k x.res).2 ⟨s, x, hs, hop, rfl⟩], ⟨by rw [e2]; exact lookup_inv h.inv hp, h.len, fun j q => ?_⟩, ?_⟩
    · rw [h.holds j q]
      have : c'.slots = c.slots := by simpa only [plus] using congrArg State.slots e2
      rw [this]
    · simpa only [plus] using congrArg State.maxSize e2

/-- The contents after the removal of an entry. -/
theorem without_spec {c : State K R} (h : Inv hash c) {M : K → Option R}
    (hM : ∀ k r, M k = some r ↔ ∃ s x, c.slots s = some x ∧ x.op = k ∧ x.res = r) {s0 : Nat} {x0 : Entry K R}
    (h0 : c.slots s0 = some x0) (k : K) (r : R) :
    without M (some x0.op) k = some r ↔ ∃ s x, Function.update c.slots s0 none s = some x ∧ x.op = k ∧ x.res = r := by
  simp only [without]
  split
  · rename_i hk
    simp only [reduceCtorEq, false_iff]
    rintro ⟨s, x, hs, h1, -⟩
    by_cases e : s = s0
    · rw [e, Function.update_self] at hs
      cases hs
    · rw [Function.update_of_ne e] at hs
      exact e (h.slot_unique hs h0 (h1.trans hk))
  · rename_i hk
    rw [hM]
    constructor
    · rintro ⟨s, x, hs, h1, h2⟩
      refine ⟨s, x, ?_, h1, h2⟩
      rw [Function.update_of_ne]
      · exact hs
      · rintro rfl
        rw [h0] at hs
        cases hs
        exact hk h1.symm
    · rintro ⟨s, x, hs, h1, h2⟩
      by_cases e : s = s0
      · rw [e, Function.update_self] at hs
        cases hs
      · rw [Function.update_of_ne e] at hs
        exact ⟨s, x, hs, h1, h2⟩

/-- The contents after an addition. -/
theorem added_spec {slots : Nat → Option (Entry K R)} {M : K → Option R}
    (hM : ∀ k r, M k = some r ↔ ∃ s x, slots s = some x ∧ x.op = k ∧ x.res = r) {s0 : Nat} (h0 : slots s0 = none) {j : K}
    (hj : M j = none) {q : R} {i : Nat} (k : K) (r : R) :
    (if k = j then some q else M k) = some r ↔
      ∃ s x, Function.update slots s0 (some ⟨j, q, i⟩) s = some x ∧ x.op = k ∧ x.res = r := by
  have hne : ∀ s x, slots s = some x → s ≠ s0 := by
    rintro s x hs rfl
    rw [h0] at hs
    cases hs
  split
  · rename_i hk
    subst hk
    constructor
    · intro e
      cases e
      exact ⟨s0, _, Function.update_self .., rfl, rfl⟩
    · rintro ⟨s, x, hs, h1, h2⟩
      by_cases e : s = s0
      · rw [e, Function.update_self] at hs
        cases hs
        exact congrArg some h2
      · rw [Function.update_of_ne e] at hs
        have := (hM k r).2 ⟨s, x, hs, h1, h2⟩
        rw [hj] at this
        cases this
  · rename_i hk
    rw [hM]
    constructor
    · rintro ⟨s, x, hs, h1, h2⟩
      exact ⟨s, x, by rw [Function.update_of_ne (hne s x hs)]; exact hs, h1, h2⟩
    · rintro ⟨s, x, hs, h1, h2⟩
      by_cases e : s = s0
      · rw [e, Function.update_self] at hs
        cases hs
        exact absurd h1.symm hk
      · rw [Function.update_of_ne e] at hs
        exact ⟨s, x, hs, h1, h2⟩

theorem InvF.none_of_not_mem {f : Nat} {M : K → Option R} {c : State K R} {leaked : List Nat} (h : InvF hash f M c leaked) {k : K}
    (hk : k ∉ keys c) : M k = none := by
  cases hM : M k with
  | none => rfl
  | some r =>
    obtain ⟨s, x, h1, h2, -⟩ := (h.holds k r).1 hM
    exact absurd ((mem_keys h.inv k).2 ⟨s, x, h1, h2⟩) hk

/-- A storage: undefined exactly when no slot is left because some are lost. -/
theorem InvF.store {f : Nat} {M : K → Option R} {c : State K R} {leaked : List Nat} (h : InvF hash f M c leaked) {k : K}
    (hk : k ∉ keys c) (r : R) :
    (store hash k r c = none ∧ 0 < f ∧ (keys c).length + f = c.maxSize) ∨
    ∃ o c', store hash k r c = some (o, c') ∧ InvF hash f (after M (.store k r) (.stored o)) c' leaked ∧ c'.maxSize = c.maxSize ∧
      ¬ (0 < f ∧ (keys c).length + f = c.maxSize) := by
  have hMk := h.none_of_not_mem hk
  by_cases hfull : c.table.size = c.maxSize
  · obtain ⟨rfl, hfl, rfl⟩ := h.full hfull
    have hi := h.inv
    rw [plus_nil] at hi
    obtain ⟨n, lru, x, c1, hl, hx, he, i1, l1, s1, f1, m1, n1, k1, z1, b1⟩ := evict_spec hi hfull
    have hk1 : k ∉ keys c1 := fun hm => hk ((k1 k).1 hm).1
    obtain ⟨s, c2, ha, i2, hs, s2, l2, m2, n2, k2, z2⟩ := add_spec i1 (by omega) hk1 r
    refine .inr ⟨some x.op, c2, by simp only [Cache.store, hfull, if_true, he, ha, Option.map_some], ⟨by rw [plus_nil]; exact i2, rfl, ?_⟩,
      by rw [m2, m1], by simp⟩
    intro j q
    rw [s2]
    exact added_spec (M := without M (some x.op)) (slots := c1.slots) (fun k r => by rw [s1]; exact without_spec hi h.holds hx k r) hs
      (by simp only [without]; split <;> [rfl; exact hMk]) j q
  · cases hfl : c.freeList with
    | nil =>
      have hc := h.count
      have hlk := length_keys h.inv
      refine .inl ⟨by simp [Cache.store, hfull, add, hfl], ?_, ?_⟩
      · rw [hfl] at hc
        simp only [List.length_nil] at hc
        omega
      · rw [hfl] at hc
        simp only [List.length_nil] at hc
        omega
    | cons s0 fl =>
      have hc := h.count
      rw [hfl, List.length_cons] at hc
      obtain ⟨s, c2, ha, i2, hs, s2, l2, m2, n2, k2, z2⟩ := add_spec h.inv hfull (k := k) hk r
      rw [add_plus leaked k r (by simp [hfl])] at ha
      obtain ⟨c', e1, e2⟩ := Option.map_eq_some_iff.1 ha
      subst e2
      refine .inr ⟨none, c', by simp only [Cache.store, hfull, if_false, e1, Option.map_some], ⟨i2, h.len, ?_⟩, m2, by omega⟩
      intro j q
      have hs2 : c'.slots = _ := s2
      rw [hs2]
      exact added_spec h.holds hs hMk j q

/-- A storage whose allocation fails. -/
theorem InvF.storeFails {f : Nat} {M : K → Option R} {c : State K R} {leaked : List Nat} (h : InvF hash f M c leaked) :
    (storeFails hash c = none ∧ 0 < f ∧ (keys c).length + f = c.maxSize) ∨
    ∃ d c' l', storeFails hash c = some (d, c') ∧ InvF hash (f + 1) (without M d) c' l' ∧ c'.maxSize = c.maxSize ∧
      ¬ (0 < f ∧ (keys c).length + f = c.maxSize) := by
  by_cases hfull : c.table.size = c.maxSize
  · obtain ⟨rfl, hfl, rfl⟩ := h.full hfull
    have hi := h.inv
    rw [plus_nil] at hi
    obtain ⟨n, lru, x, c1, hl, hx, he, i1, l1, s1, f1, m1, n1, k1, z1, b1⟩ := evict_spec hi hfull
    rw [hfl] at f1
    refine .inr ⟨some x.op, { c1 with freeList := [] }, [n.2], by simp [Cache.storeFails, hfull, he, lose, f1], ⟨?_, rfl, ?_⟩, m1,
      by simp⟩
    · exact i1.perm (fl := [n.2]) (by rw [f1])
    · intro j q
      have : ({ c1 with freeList := [] } : State K R).slots = Function.update c.slots n.2 none := s1
      rw [this]
      exact without_spec hi h.holds hx j q
  · cases hfl : c.freeList with
    | nil =>
      have hc := h.count
      have hlk := length_keys h.inv
      rw [hfl] at hc
      simp only [List.length_nil] at hc
      exact .inl ⟨by simp [Cache.storeFails, hfull, lose, hfl], by omega, by omega⟩
    | cons s0 fl =>
      have hc := h.count
      rw [hfl, List.length_cons] at hc
      refine .inr ⟨none, { c with freeList := fl }, leaked ++ [s0], by simp [Cache.storeFails, hfull, lose, hfl], ⟨?_, by simp [h.len], h.holds⟩,
        rfl, by omega⟩
      refine h.inv.perm (fl := fl ++ (leaked ++ [s0])) ?_
      simp only [plus, hfl, List.cons_append]
      rw [← List.append_assoc]
      exact List.perm_append_singleton _ _

theorem HistF.inv {size : BitVec 64} (hsz : size.toNat ≤ 2 ^ 63) {f : Nat} {M : K → Option R} {c : State K R}
    (hh : HistF hash size f M c) : (∃ leaked, InvF hash f M c leaked) ∧ c.maxSize = maxSizeOf (nextPower64 size).toNat := by
  induction hh with
  | @new c e =>
    obtain ⟨i, e1, _⟩ := new_inv (hash := hash) e hsz
    refine ⟨⟨[], by rw [plus_nil]; exact i, rfl, fun k r => ?_⟩, ((Hist.new e).inv (hash := hash) hsz).2⟩
    simp only [reduceCtorEq, false_iff]
    rintro ⟨s, x, hs, _, _⟩
    have := (i.table s x.op).2 ⟨x, hs, rfl⟩
    rw [e1] at this
    simp at this
  | @step f M c c' e o hh hv he ih =>
    obtain ⟨⟨leaked, h⟩, hm⟩ := ih
    cases e with
    | lookup k =>
      obtain ⟨c1, e1, h1, m1⟩ := h.lookup k
      simp only [exec, e1, Option.map_some, Option.some.injEq, Prod.mk.injEq] at he
      obtain ⟨rfl, rfl⟩ := he
      exact ⟨⟨leaked, h1⟩, m1.trans hm⟩
    | store k r =>
      rcases h.store hv r with ⟨e1, -⟩ | ⟨o1, c1, e1, h1, m1, -⟩
      · simp [exec, e1] at he
      · simp only [exec, e1, Option.map_some, Option.some.injEq, Prod.mk.injEq] at he
        obtain ⟨rfl, rfl⟩ := he
        exact ⟨⟨leaked, h1⟩, m1.trans hm⟩
    | clear =>
      simp only [exec, Option.some.injEq, Prod.mk.injEq] at he
      obtain ⟨rfl, rfl⟩ := he
      obtain ⟨i, hk⟩ := clear_inv h.inv
      rw [clear_plus] at i hk
      refine ⟨⟨leaked, i, h.len, fun k r => ?_⟩, hm⟩
      simp only [after, reduceCtorEq, false_iff]
      rintro ⟨s, x, hs, _, _⟩
      have := (mem_keys i x.op).2 ⟨s, x, hs, rfl⟩
      rw [hk] at this
      simp at this
  | @fails f M c c' d hh he ih =>
    obtain ⟨⟨leaked, h⟩, hm⟩ := ih
    rcases h.storeFails with ⟨e1, -⟩ | ⟨d1, c1, l1, e1, h1, m1, -⟩
    · rw [e1] at he
      cases he
    · rw [e1] at he
      cases he
      exact ⟨⟨l1, h1⟩, m1.trans hm⟩

end
end Cache

namespace HT
variable {α : Type}

/-- `insert` when the allocation of `rehash` may fail, `/repo/sdd/mem/hash_table.hh:135-141,249-257`: the result, or `none` when
`std::bad_alloc` is thrown, and the table. -/
def insertF (hash : α → Nat) (eq : α → α → Bool) (fail : Bool) (x : α) (t : HT α) : Option (Option (α × Bool) × HT α) :=
  match insertImpl hash eq x t.buckets with
  | none => none
  | some (r, bs) =>
    if fail ∧ ¬ 4 * (if r.2 then t.size + 1 else t.size) < 3 * bs.length then
      some (none, ⟨bs, if r.2 then t.size + 1 else t.size, t.nbRehash + 1⟩)
    else (rehash hash eq ⟨bs, if r.2 then t.size + 1 else t.size, t.nbRehash⟩).map fun t' => (some r, t')

/-- A sequence of insertions and removals in a table whose allocations may fail: whether each operation throws. (Model of the environment:
what the user or the system does.) -/
inductive HistF (hash : α → Nat) (eq : α → α → Bool) (size : BitVec 64) : List α → HT α → Prop where
  | new : HistF hash eq size [] (HT.new size)
  | insert {l : List α} {t t' : HT α} (fail : Bool) (x : α) {o : Option (α × Bool)} : HistF hash eq size l t →
      insertF hash eq fail x t = some (o, t') → HistF hash eq size (if (l.find? (eq x)).isSome then l else x :: l) t'
  | erase {l : List α} {t t' : HT α} (x : α) : HistF hash eq size l t →
      HT.erase hash eq x t = some t' → HistF hash eq size (l.eraseP (eq x)) t'

section
variable {hash : α → Nat} {eq : α → α → Bool}

theorem insertF_spec (hc : Compat hash eq) {t : HT α} (h : Inv hash eq t) (fail : Bool) (x : α) :
    ∃ o t', insertF hash eq fail x t = some (o, t') ∧ Inv hash eq t' ∧
      t'.elems.Perm (if (t.elems.find? (eq x)).isSome then t.elems else x :: t.elems) ∧
      (o = none → fail = true ∧ 3 * t'.buckets.length ≤ 4 * t'.size) ∧
      (∀ r, o = some r → r = ((t.elems.find? (eq x)).getD x, (t.elems.find? (eq x)).isNone)) := by
  have sp := insertImpl_spec hc h.placed h.distinct x
  have key : ∀ (r : α × Bool) (bs : List (List α)), insertImpl hash eq x t.buckets = some (r, bs) →
      r = ((t.elems.find? (eq x)).getD x, (t.elems.find? (eq x)).isNone) →
      Inv hash eq ⟨bs, if r.2 then t.size + 1 else t.size, t.nbRehash⟩ →
      bs.flatten.Perm (if (t.elems.find? (eq x)).isSome then t.elems else x :: t.elems) →
      ∃ o t', insertF hash eq fail x t = some (o, t') ∧ Inv hash eq t' ∧
        t'.elems.Perm (if (t.elems.find? (eq x)).isSome then t.elems else x :: t.elems) ∧
        (o = none → fail = true ∧ 3 * t'.buckets.length ≤ 4 * t'.size) ∧
        (∀ r, o = some r → r = ((t.elems.find? (eq x)).getD x, (t.elems.find? (eq x)).isNone)) := by
    intro r bs e hr hi hp
    simp only [insertF, e]
    by_cases hl : fail = true ∧ ¬ 4 * (if r.2 then t.size + 1 else t.size) < 3 * bs.length
    · rw [if_pos hl]
      exact ⟨none, ⟨bs, if r.2 then t.size + 1 else t.size, t.nbRehash + 1⟩, rfl, ⟨hi.placed, hi.size, hi.distinct⟩, hp,
        fun _ => ⟨hl.1, Nat.le_of_not_lt hl.2⟩, fun r h => (by cases h)⟩
    · rw [if_neg hl]
      obtain ⟨t', e', i, m, -⟩ := rehash_spec hc hi
      rw [e']
      exact ⟨some r, t', rfl, i, m.trans hp, fun h => (by cases h), fun r' h => (by cases h; exact hr)⟩
  cases hf : t.elems.find? (eq x) with
  | some y =>
    rw [hf] at key
    exact key _ _ (sp.1 y hf) rfl ⟨h.placed, h.size, h.distinct⟩ (List.Perm.refl _)
  | none =>
    obtain ⟨bs', e, hlen, hp, hperm, hd⟩ := sp.2 hf
    rw [hf] at key
    refine key _ _ e rfl ⟨hp, ?_, hd⟩ hperm
    have := hperm.length_eq
    have h2 := h.size
    simp only [elems, List.length_cons] at this h2 ⊢
    simp only [if_true]
    omega

theorem HistF.inv (hc : Compat hash eq) {size : BitVec 64} (h1 : 1 ≤ size.toNat) (h2 : size.toNat ≤ 2 ^ 63) {l : List α} {t : HT α}
    (h : HistF hash eq size l t) : Inv hash eq t ∧ t.elems.Perm l := by
  induction h with
  | new =>
    obtain ⟨i, e, -⟩ := new_inv (α := α) hash eq h1 h2
    exact ⟨i, by rw [e]⟩
  | @insert l t t' fail x o _ he ih =>
    obtain ⟨o', t1, e1, i1, p1, -⟩ := insertF_spec hc ih.1 fail x
    rw [he] at e1
    cases e1
    refine ⟨i1, p1.trans ?_⟩
    rw [hc.find_perm ih.2 ih.1.distinct x]
    split
    · exact ih.2
    · exact ih.2.cons x
  | @erase l t t' x _ he ih =>
    have hfp := hc.find_perm ih.2 ih.1.distinct x
    cases hf : t.elems.find? (eq x) with
    | none =>
      rw [(erase_spec hc ih.1 x).1 hf] at he
      cases he
    | some y =>
      obtain ⟨t1, e1, i1, p1, -⟩ := (erase_spec hc ih.1 x).2 y hf
      rw [he] at e1
      cases e1
      exact ⟨i1, (p1.symm.trans (ih.2.trans (perm_eraseP _ _ y (hfp.symm.trans hf)))).cons_inv⟩

end
end HT
end Verif
