import Verif.Mem.Cache
import Mathlib.Data.List.Nodup
/-!
# Histories of a cache

What a cache holds, as a function of its history; which entry is discarded; and the link with the lists of
entries used by the machine of `Verif.DD.Machine`.
-/

set_option autoImplicit false
set_option linter.unusedSectionVars false

namespace Verif
namespace Cache

section
variable {K R : Type} [DecidableEq K] {hash : K → Nat}

/-- The effect of the storage of a result. -/
theorem store_spec {c : State K R} (h : Inv hash c) {k : K} (hk : k ∉ keys c) (r : R) :
    (c.table.size < c.maxSize ∧ ∃ s c', store hash k r c = some (none, c') ∧ Inv hash c' ∧
      c.slots s = none ∧
      c'.slots = Function.update c.slots s (some ⟨k, r, c.nextId⟩) ∧
      c'.lru = c.lru ++ [(c.nextId, s)] ∧ c'.maxSize = c.maxSize ∧
      (∀ j, j ∈ keys c' ↔ j ∈ keys c ∨ j = k)) ∨
    (c.table.size = c.maxSize ∧ ∃ n lru x c', c.lru = n :: lru ∧ c.slots n.2 = some x ∧
      store hash k r c = some (some x.op, c') ∧ Inv hash c' ∧
      c'.slots = Function.update c.slots n.2 (some ⟨k, r, c.nextId⟩) ∧
      c'.lru = lru ++ [(c.nextId, n.2)] ∧ c'.maxSize = c.maxSize ∧
      (∀ j, j ∈ keys c' ↔ (j ∈ keys c ∧ j ≠ x.op) ∨ j = k)) := by
  by_cases hfull : c.table.size = c.maxSize
  · right
    obtain ⟨n, lru, x, c1, hl, hx, he, i1, l1, s1, f1, m1, n1, k1, z1, b1⟩ := evict_spec h hfull
    have hk1 : k ∉ keys c1 := fun hm => hk ((k1 k).1 hm).1
    obtain ⟨s, c2, ha, i2, hs, s2, l2, m2, n2, k2, z2⟩ := add_spec i1 (by omega) hk1 r
    have hsn : s = n.2 := by
      have ha' := ha
      unfold add at ha'
      rw [f1] at ha'
      simp only [Option.map_eq_some_iff] at ha'
      obtain ⟨t, _, e⟩ := ha'
      have e1 := congrArg State.slots e
      simp only at e1
      rw [s2] at e1
      have e2 := congrFun e1 n.2
      rw [Function.update_self] at e2
      by_contra hne
      rw [Function.update_of_ne (Ne.symm hne), s1, Function.update_self] at e2
      cases e2
    subst hsn
    refine ⟨hfull, n, lru, x, c2, hl, hx, ?_, i2, ?_, ?_, by rw [m2, m1], ?_⟩
    · simp only [store, hfull, if_true, he, ha, Option.map_some]
    · rw [s2, s1, n1, Function.update_idem]
    · rw [l2, l1, n1]
    · intro j
      rw [k2, k1]
  · left
    obtain ⟨s, c2, ha, i2, hs, s2, l2, m2, n2, k2, z2⟩ := add_spec h hfull hk r
    have := h.count
    exact ⟨by omega, s, c2, by simp only [store, hfull, if_false, ha, Option.map_some], i2, hs, s2, l2, m2, k2⟩

/-- Events are always defined, and keep the invariant. -/
theorem exec_inv {c : State K R} (h : Inv hash c) {e : Ev K R} (hv : Valid c e) :
    ∃ o c', exec hash c e = some (o, c') ∧ Inv hash c' ∧ c'.maxSize = c.maxSize := by
  cases e with
  | lookup k =>
    rcases lookup_spec h k with ⟨_, e⟩ | ⟨s, x, hs, rfl, e, hp⟩
    · exact ⟨_, _, by simp only [exec, e, Option.map_some]; rfl, h, rfl⟩
    · exact ⟨_, _, by simp only [exec, e, Option.map_some]; rfl, lookup_inv h hp, rfl⟩
  | store k r =>
    rcases store_spec h hv r with ⟨_, s, c', e, i, _, _, _, m, _⟩ | ⟨_, n, l, x, c', _, _, e, i, _, _, m, _⟩
    · exact ⟨_, _, by simp only [exec, e, Option.map_some]; rfl, i, m⟩
    · exact ⟨_, _, by simp only [exec, e, Option.map_some]; rfl, i, m⟩
  | clear => exact ⟨_, _, rfl, (clear_inv h).1, rfl⟩

theorem Hist.inv {size : BitVec 64} (hsz : size.toNat ≤ 2 ^ 63) {h : List (Ev K R × Out K R)}
    {c : State K R} (hh : Hist hash size h c) :
    Inv hash c ∧ c.maxSize = maxSizeOf (nextPower64 size).toNat := by
  induction hh with
  | new e =>
    refine ⟨(new_inv e hsz).1, ?_⟩
    unfold Cache.new at e
    simp only at e
    split at e
    · cases e
    · cases e
      simp [HT.new]
  | step _ hv he ih =>
    obtain ⟨o, c', e, i, m⟩ := exec_inv ih.1 hv
    rw [he] at e
    cases e
    exact ⟨i, m.trans ih.2⟩

/-- What a cache holds for an operation, read from its history (newest event first): the last result stored
since the last removal of all entries, unless the operation was discarded since. (Specification or proof device, not part of the code.) -/
def contents : List (Ev K R × Out K R) → K → Option R
  | [], _ => none
  | (.lookup _, _) :: h, k => contents h k
  | (.clear, _) :: _, _ => none
  | (.store j r, o) :: h, k =>
    if j = k then some r
    else match o with
      | .stored (some d) => if d = k then none else contents h k
      | _ => contents h k

/-- When an operation was looked up or stored for the last time (0 when it was not). (Specification or proof device, not part of the code.) -/
def lastUse : List (Ev K R × Out K R) → K → Nat
  | [], _ => 0
  | (.lookup j, _) :: h, k => if j = k then h.length + 1 else lastUse h k
  | (.store j _, _) :: h, k => if j = k then h.length + 1 else lastUse h k
  | (.clear, _) :: h, k => lastUse h k

theorem lastUse_le (h : List (Ev K R × Out K R)) (k : K) : lastUse h k ≤ h.length := by
  induction h with
  | nil => simp [lastUse]
  | cons e h ih =>
    obtain ⟨e, o⟩ := e
    cases e <;> simp only [lastUse, List.length_cons] <;> (try split) <;> omega

/-- The state holds the contents given by the history. (Specification or proof device, not part of the code.) -/
def Matches (h : List (Ev K R × Out K R)) (c : State K R) : Prop :=
  ∀ k r, contents h k = some r ↔ ∃ s x, c.slots s = some x ∧ x.op = k ∧ x.res = r

theorem Hist.matches {size : BitVec 64} (hsz : size.toNat ≤ 2 ^ 63) {h : List (Ev K R × Out K R)}
    {c : State K R} (hh : Hist hash size h c) : Matches h c := by
  induction hh with
  | new e =>
    obtain ⟨i, e, _⟩ := new_inv (hash := hash) e hsz
    intro k r
    simp only [contents, reduceCtorEq, false_iff]
    rintro ⟨s, x, hs, _, _⟩
    have := (i.table s x.op).2 ⟨x, hs, rfl⟩
    rw [e] at this
    simp at this
  | @step h c c' e o hh hv he ih =>
    have hi := (hh.inv hsz).1
    cases e with
    | lookup k =>
      have hsl : c'.slots = c.slots := by
        rcases lookup_spec hi k with ⟨_, e⟩ | ⟨s, x, hs, rfl, e, hp⟩
        · simp only [exec, e, Option.map_some, Option.some.injEq, Prod.mk.injEq] at he
          rw [← he.2]
        · simp only [exec, e, Option.map_some, Option.some.injEq, Prod.mk.injEq] at he
          rw [← he.2]
      intro j r
      rw [hsl]
      exact ih j r
    | clear =>
      simp only [exec, Option.some.injEq, Prod.mk.injEq] at he
      obtain ⟨rfl, rfl⟩ := he
      obtain ⟨i, hk⟩ := clear_inv hi
      intro k r
      simp only [contents, reduceCtorEq, false_iff]
      rintro ⟨s, x, hs, _, _⟩
      have := (mem_keys i x.op).2 ⟨s, x, hs, rfl⟩
      rw [hk] at this
      simp at this
    | store k r =>
      have hk' : ∀ s x, c.slots s = some x → x.op ≠ k := by
        intro s x hs e
        exact hv ((mem_keys hi k).2 ⟨s, x, hs, e⟩)
      rcases store_spec hi hv r with ⟨_, s, c2, e, i, hs, s2, _, _, _⟩ | ⟨_, n, l, x, c2, _, hx, e, i, s2, _, _, _⟩
      · simp only [exec, e, Option.map_some, Option.some.injEq, Prod.mk.injEq] at he
        obtain ⟨rfl, rfl⟩ := he
        intro j q
        rw [s2]
        simp only [contents]
        by_cases hjk : k = j
        · subst hjk
          simp only [if_true, Option.some.injEq]
          constructor
          · rintro rfl
            exact ⟨s, _, Function.update_self .., rfl, rfl⟩
          · rintro ⟨s', y, hy, h1, h2⟩
            by_cases e : s' = s
            · rw [e, Function.update_self] at hy
              cases hy
              exact h2
            · rw [Function.update_of_ne e] at hy
              exact absurd h1 (hk' _ _ hy)
        · simp only [if_neg hjk]
          rw [ih j q]
          constructor
          · rintro ⟨s', y, hy, h1, h2⟩
            refine ⟨s', y, ?_, h1, h2⟩
            rw [Function.update_of_ne]
            · exact hy
            · rintro rfl
              rw [hs] at hy
              cases hy
          · rintro ⟨s', y, hy, h1, h2⟩
            by_cases e : s' = s
            · rw [e, Function.update_self] at hy
              cases hy
              exact absurd h1 hjk
            · rw [Function.update_of_ne e] at hy
              exact ⟨s', y, hy, h1, h2⟩
      · simp only [exec, e, Option.map_some, Option.some.injEq, Prod.mk.injEq] at he
        obtain ⟨rfl, rfl⟩ := he
        intro j q
        rw [s2]
        simp only [contents]
        by_cases hjk : k = j
        · subst hjk
          simp only [if_true, Option.some.injEq]
          constructor
          · rintro rfl
            exact ⟨n.2, _, Function.update_self .., rfl, rfl⟩
          · rintro ⟨s', y, hy, h1, h2⟩
            by_cases e : s' = n.2
            · rw [e, Function.update_self] at hy
              cases hy
              exact h2
            · rw [Function.update_of_ne e] at hy
              exact absurd h1 (hk' _ _ hy)
        · simp only [if_neg hjk]
          by_cases hd : x.op = j
          · simp only [if_pos hd, reduceCtorEq, false_iff]
            rintro ⟨s', y, hy, h1, h2⟩
            by_cases e : s' = n.2
            · rw [e, Function.update_self] at hy
              cases hy
              exact absurd h1 hjk
            · rw [Function.update_of_ne e] at hy
              exact e (hi.slot_unique hy hx (h1.trans hd.symm))
          · simp only [if_neg hd]
            rw [ih j q]
            constructor
            · rintro ⟨s', y, hy, h1, h2⟩
              refine ⟨s', y, ?_, h1, h2⟩
              rw [Function.update_of_ne]
              · exact hy
              · rintro rfl
                rw [hx] at hy
                cases hy
                exact hd h1
            · rintro ⟨s', y, hy, h1, h2⟩
              by_cases e : s' = n.2
              · rw [e, Function.update_self] at hy
                cases hy
                exact absurd h1 hjk
              · rw [Function.update_of_ne e] at hy
                exact ⟨s', y, hy, h1, h2⟩

/-- No removal of all entries. (Specification or proof device, not part of the code.) -/
def NoClear (h : List (Ev K R × Out K R)) : Prop := ∀ e ∈ h, e.1 ≠ .clear

/-- While no removal of all entries occurs, the list of uses has an element for each entry, sorted by
last use. (Specification or proof device, not part of the code.) -/
structure Exact (h : List (Ev K R × Out K R)) (c : State K R) : Prop where
  own : ∀ n ∈ c.lru, ∃ x, c.slots n.2 = some x ∧ x.cit = n.1
  sorted : c.lru.Pairwise fun n m => ∀ x y, c.slots n.2 = some x → c.slots m.2 = some y →
    lastUse h x.op < lastUse h y.op

theorem Hist.exact {size : BitVec 64} (hsz : size.toNat ≤ 2 ^ 63) {h : List (Ev K R × Out K R)}
    {c : State K R} (hh : Hist hash size h c) (hc : NoClear h) : Exact h c := by
  induction hh with
  | new e =>
    obtain ⟨i, _, e⟩ := new_inv (hash := hash) e hsz
    exact ⟨by simp [e], by simp [e]⟩
  | @step h c c' e o hh hv he ih =>
    have hi := (hh.inv hsz).1
    have ih := ih fun e he => hc e (List.mem_cons_of_mem _ he)
    have hlt : ∀ k, lastUse h k < h.length + 1 := fun k => Nat.lt_succ_of_le (lastUse_le h k)
    cases e with
    | clear => exact absurd rfl (hc _ List.mem_cons_self)
    | lookup k =>
      rcases lookup_spec hi k with ⟨hn, e⟩ | ⟨s, x, hs, rfl, e, hp⟩
      · simp only [exec, e, Option.map_some, Option.some.injEq, Prod.mk.injEq] at he
        obtain ⟨rfl, rfl⟩ := he
        refine ⟨ih.own, ih.sorted.imp ?_⟩
        intro n m hnm y z hy hz
        have h1 : k ≠ y.op := fun e => hn ((mem_keys hi k).2 ⟨_, y, hy, e.symm⟩)
        have h2 : k ≠ z.op := fun e => hn ((mem_keys hi k).2 ⟨_, z, hz, e.symm⟩)
        simp only [lastUse, if_neg h1, if_neg h2]
        exact hnm y z hy hz
      · simp only [exec, e, Option.map_some, Option.some.injEq, Prod.mk.injEq] at he
        obtain ⟨rfl, rfl⟩ := he
        refine ⟨fun n hn => ih.own n (hp.mem_iff.1 hn), ?_⟩
        simp only
        have hnd : ((c.lru.eraseP fun n => n.1 == x.cit) ++ [(x.cit, s)]).map Prod.fst |>.Nodup :=
          (hp.map Prod.fst).nodup_iff.2 hi.nodup
        rw [List.map_append, List.nodup_append] at hnd
        have hne : ∀ n ∈ c.lru.eraseP (fun n => n.1 == x.cit), ∀ y, c.slots n.2 = some y → y.op ≠ x.op := by
          intro n hn y hy e
          have hns := hi.slot_unique hy hs e
          obtain ⟨y', hy', hc'⟩ := ih.own n (List.mem_of_mem_eraseP hn)
          rw [hns, hs] at hy'
          cases hy'
          exact hnd.2.2 n.1 (List.mem_map_of_mem hn) x.cit (by simp) hc'.symm
        rw [List.pairwise_append]
        refine ⟨?_, by simp, ?_⟩
        · refine (ih.sorted.sublist List.eraseP_sublist).imp_of_mem ?_
          intro n m hn hm hnm y z hy hz
          simp only [lastUse, if_neg (hne n hn y hy).symm, if_neg (hne m hm z hz).symm]
          exact hnm y z hy hz
        · intro n hn m hm y z hy hz
          simp only [List.mem_singleton] at hm
          subst hm
          simp only at hz
          rw [hs] at hz
          cases hz
          simp only [lastUse, if_neg (hne n hn y hy).symm, if_true]
          exact hlt _
    | store k r =>
      have hk' : ∀ s x, c.slots s = some x → k ≠ x.op := by
        intro s x hs e
        exact hv ((mem_keys hi k).2 ⟨s, x, hs, e.symm⟩)
      rcases store_spec hi hv r with ⟨_, s, c2, e, i, hs, s2, l2, _, _⟩ | ⟨_, n0, l, x, c2, hl, hx, e, i, s2, l2, _, _⟩
      · simp only [exec, e, Option.map_some, Option.some.injEq, Prod.mk.injEq] at he
        obtain ⟨rfl, rfl⟩ := he
        have hns : ∀ n ∈ c.lru, n.2 ≠ s := by
          intro n hn e
          obtain ⟨y, hy, _⟩ := ih.own n hn
          rw [e, hs] at hy
          cases hy
        refine ⟨?_, ?_⟩
        · intro n hn
          rw [l2] at hn
          rw [s2]
          rcases List.mem_append.1 hn with hn | hn
          · rw [Function.update_of_ne (hns n hn)]
            exact ih.own n hn
          · simp only [List.mem_singleton] at hn
            subst hn
            exact ⟨_, Function.update_self .., rfl⟩
        · rw [l2, s2, List.pairwise_append]
          refine ⟨?_, by simp, ?_⟩
          · refine ih.sorted.imp_of_mem ?_
            intro n m hn hm hnm y z hy hz
            rw [Function.update_of_ne (hns n hn)] at hy
            rw [Function.update_of_ne (hns m hm)] at hz
            simp only [lastUse, if_neg (hk' _ _ hy), if_neg (hk' _ _ hz)]
            exact hnm y z hy hz
          · intro n hn m hm y z hy hz
            simp only [List.mem_singleton] at hm
            subst hm
            rw [Function.update_of_ne (hns n hn)] at hy
            rw [Function.update_self] at hz
            cases hz
            simp only [lastUse, if_neg (hk' _ _ hy), if_true]
            exact hlt _
      · simp only [exec, e, Option.map_some, Option.some.injEq, Prod.mk.injEq] at he
        obtain ⟨rfl, rfl⟩ := he
        have hnd := hi.nodup
        rw [hl, List.map_cons, List.nodup_cons] at hnd
        have hmem : ∀ n ∈ l, n ∈ c.lru := fun n hn => by rw [hl]; exact List.mem_cons_of_mem _ hn
        have hns : ∀ n ∈ l, n.2 ≠ n0.2 := by
          intro n hn e
          obtain ⟨y, hy, hc1⟩ := ih.own n (hmem n hn)
          obtain ⟨y', hy', hc2⟩ := ih.own n0 (by rw [hl]; exact List.mem_cons_self)
          rw [e, hy'] at hy
          cases hy
          rw [hc1] at hc2
          exact hnd.1 (by rw [← hc2]; exact List.mem_map_of_mem hn)
        have hso := ih.sorted
        rw [hl, List.pairwise_cons] at hso
        refine ⟨?_, ?_⟩
        · intro n hn
          rw [l2] at hn
          rw [s2]
          rcases List.mem_append.1 hn with hn | hn
          · rw [Function.update_of_ne (hns n hn)]
            exact ih.own n (hmem n hn)
          · simp only [List.mem_singleton] at hn
            subst hn
            exact ⟨_, Function.update_self .., rfl⟩
        · rw [l2, s2, List.pairwise_append]
          refine ⟨?_, by simp, ?_⟩
          · refine hso.2.imp_of_mem ?_
            intro n m hn hm hnm y z hy hz
            rw [Function.update_of_ne (hns n hn)] at hy
            rw [Function.update_of_ne (hns m hm)] at hz
            simp only [lastUse, if_neg (hk' _ _ hy), if_neg (hk' _ _ hz)]
            exact hnm y z hy hz
          · intro n hn m hm y z hy hz
            simp only [List.mem_singleton] at hm
            subst hm
            rw [Function.update_of_ne (hns n hn)] at hy
            rw [Function.update_self] at hz
            cases hz
            simp only [lastUse, if_neg (hk' _ _ hy), if_true]
            exact hlt _

/-- Without removal of all entries, the entry discarded is the one used the longest ago. -/
theorem Hist.evicts_lru {size : BitVec 64} (hsz : size.toNat ≤ 2 ^ 63) {h : List (Ev K R × Out K R)}
    {c c' : State K R} (hh : Hist hash size h c) (hc : NoClear h) {k d : K} {r : R}
    (hk : k ∉ keys c) (he : exec hash c (.store k r) = some (.stored (some d), c')) :
    d ∈ keys c ∧ ∀ j ∈ keys c, j ≠ d → lastUse h d < lastUse h j := by
  have hi := (hh.inv hsz).1
  have hx' := hh.exact hsz hc
  rcases store_spec hi hk r with ⟨_, s, c2, e, _⟩ | ⟨_, n, l, x, c2, hl, hx, e, _⟩
  · simp [exec, e] at he
  · simp only [exec, e, Option.map_some, Option.some.injEq, Prod.mk.injEq, Out.stored.injEq] at he
    obtain ⟨rfl, rfl⟩ := he
    refine ⟨(mem_keys hi _).2 ⟨_, x, hx, rfl⟩, ?_⟩
    intro j hj hne
    obtain ⟨s, y, hy, rfl⟩ := (mem_keys hi j).1 hj
    have hin := (hi.slots s y hy).2
    have hso := hx'.sorted
    rw [hl, List.pairwise_cons] at hso
    rw [hl] at hin
    rcases List.mem_cons.1 hin with e | hin
    · rw [← e, hy] at hx
      cases hx
      exact absurd rfl hne
    · exact hso.1 _ hin x y hx hy

theorem keys_nodup {c : State K R} (h : Inv hash c) : (keys c).Nodup := by
  rw [keys, List.Nodup, List.pairwise_map]
  refine h.ht.distinct.imp ?_
  intro a b hab e
  simp [eqE, e] at hab

theorem keys_length {c : State K R} (h : Inv hash c) : (keys c).length = c.table.size := by
  rw [keys, List.length_map, h.ht.size]

/-! ## The link with the lists of entries used by the operations -/

/-- A cache seen as a list of entries. (Specification or proof device, not part of the code.) -/
structure Abs (c : State K R) (l : Lru K R) : Prop where
  nodup : (l.map Prod.fst).Nodup
  mem : ∀ k r, (k, r) ∈ l ↔ ∃ s x, c.slots s = some x ∧ x.op = k ∧ x.res = r

theorem Abs.keys {c : State K R} {l : Lru K R} (h : Inv hash c) (ha : Abs c l) :
    (l.map Prod.fst).Perm (keys c) := by
  rw [List.perm_ext_iff_of_nodup ha.nodup (keys_nodup h)]
  intro k
  rw [mem_keys h]
  constructor
  · intro hm
    obtain ⟨⟨k, r⟩, hm', rfl⟩ := List.mem_map.1 hm
    obtain ⟨s, x, hs, h1, _⟩ := (ha.mem k r).1 hm'
    exact ⟨s, x, hs, h1⟩
  · rintro ⟨s, x, hs, rfl⟩
    exact List.mem_map.2 ⟨(x.op, x.res), (ha.mem _ _).2 ⟨s, x, hs, rfl, rfl⟩, rfl⟩

theorem Abs.length {c : State K R} {l : Lru K R} (h : Inv hash c) (ha : Abs c l) :
    l.length = c.table.size := by
  have := (ha.keys h).length_eq
  rw [keys_length h] at this
  simpa using this

theorem new_abs {size : BitVec 64} {c : State K R} (h : new size = some c) :
    Abs c [] := by
  unfold new at h
  simp only at h
  split at h
  · cases h
  · cases h
    exact ⟨by simp, by simp⟩

theorem lookup_abs {c : State K R} {l : Lru K R} (h : Inv hash c) (ha : Abs c l) (k : K) :
    ∃ c', lookup hash k c = some (lruFind l k, c') ∧ Abs c' (lruTouch l k) := by
  have htouch : ∀ {c' : State K R}, c'.slots = c.slots → Abs c' (lruTouch l k) := by
    intro c' e
    refine ⟨((lruTouch_perm l k).map Prod.fst).nodup_iff.2 ha.nodup, ?_⟩
    intro j r
    rw [mem_lruTouch, e]
    exact ha.mem j r
  rcases lookup_spec h k with ⟨hn, e⟩ | ⟨s, x, hs, rfl, e, hp⟩
  · have : lruFind l k = none := by
      rw [lruFind_none]
      intro r hr
      obtain ⟨s, x, hs, h1, _⟩ := (ha.mem k r).1 hr
      exact hn ((mem_keys h k).2 ⟨s, x, hs, h1⟩)
    exact ⟨c, by rw [this, e], htouch rfl⟩
  · have : lruFind l x.op = some x.res := by
      cases hf : lruFind l x.op with
      | none =>
        rw [lruFind_none] at hf
        exact absurd ((ha.mem _ _).2 ⟨s, x, hs, rfl, rfl⟩) (hf x.res)
      | some r =>
        obtain ⟨s', y, hy, h1, h2⟩ := (ha.mem _ _).1 (lruFind_mem hf)
        have := h.slot_unique hy hs h1
        rw [this, hs] at hy
        cases hy
        rw [h2]
    exact ⟨{ c with lru := c.lru.eraseP (fun n => n.1 == x.cit) ++ [(x.cit, s)] },
      by rw [this, e], htouch rfl⟩

theorem exists_idx {k : K} {r : R} {l : Lru K R} (hm : (k, r) ∈ l) (hn : (l.map Prod.fst).Nodup) :
    ∃ i, i < l.length ∧ ∀ e, e ∈ l.eraseIdx i ↔ e ∈ l ∧ e.1 ≠ k := by
  obtain ⟨i, hi, he⟩ := List.mem_iff_getElem.1 hm
  refine ⟨i, hi, ?_⟩
  intro e
  rw [List.mem_eraseIdx_iff_getElem]
  constructor
  · rintro ⟨j, hj, hne, rfl⟩
    refine ⟨List.getElem_mem _, ?_⟩
    intro hk
    apply hne
    exact (List.Nodup.getElem_inj_iff hn (i := j) (j := i) (hi := by simpa using hj)
      (hj := by simpa using hi)).1 (by simp [hk, he])
  · rintro ⟨hm, hne⟩
    obtain ⟨j, hj, rfl⟩ := List.mem_iff_getElem.1 hm
    refine ⟨j, hj, ?_, rfl⟩
    rintro rfl
    rw [he] at hne
    exact hne rfl

theorem store_abs {c : State K R} {l : Lru K R} (h : Inv hash c) (ha : Abs c l) {k : K} (hk : k ∉ keys c)
    (r : R) : ∃ o c' pick l', store hash k r c = some (o, c') ∧
      lruInsert c.maxSize pick l k r = some l' ∧ Abs c' l' := by
  have hlen := ha.length h
  have hk' : ∀ s x, c.slots s = some x → x.op ≠ k := by
    intro s x hs e
    exact hk ((mem_keys h k).2 ⟨s, x, hs, e⟩)
  have hkl : ∀ e ∈ l, e.1 ≠ k := by
    rintro ⟨j, q⟩ he rfl
    obtain ⟨s, x, hs, h1, _⟩ := (ha.mem _ _).1 he
    exact hk' s x hs h1
  rcases store_spec h hk r with ⟨hlt, s, c2, e, i, hs, s2, _⟩ | ⟨hfull, n, lru, x, c2, _, hx, e, i, s2, _⟩
  · refine ⟨_, c2, 0, l ++ [(k, r)], e, by simp [lruInsert, hlen, Nat.ne_of_lt hlt], ?_, ?_⟩
    · rw [List.map_append, List.nodup_append]
      refine ⟨ha.nodup, by simp, ?_⟩
      intro a hm b hb e
      simp only [List.map_cons, List.map_nil, List.mem_singleton] at hb
      obtain ⟨p, hp, rfl⟩ := List.mem_map.1 hm
      exact hkl p hp (e.trans hb)
    · intro j q
      rw [List.mem_append, List.mem_singleton, ha.mem, s2]
      constructor
      · rintro (⟨s', y, hy, h1, h2⟩ | e)
        · refine ⟨s', y, ?_, h1, h2⟩
          rw [Function.update_of_ne]
          · exact hy
          · rintro rfl
            rw [hs] at hy
            cases hy
        · cases e
          exact ⟨s, _, Function.update_self .., rfl, rfl⟩
      · rintro ⟨s', y, hy, h1, h2⟩
        by_cases e : s' = s
        · rw [e, Function.update_self] at hy
          cases hy
          exact .inr (by rw [← h1, ← h2])
        · rw [Function.update_of_ne e] at hy
          exact .inl ⟨s', y, hy, h1, h2⟩
  · obtain ⟨i, hi, hmem⟩ := exists_idx ((ha.mem x.op x.res).2 ⟨_, x, hx, rfl, rfl⟩) ha.nodup
    have hne : l ≠ [] := by
      rintro rfl
      simp at hi
    refine ⟨_, c2, i, l.eraseIdx i ++ [(k, r)], e, ?_, ?_, ?_⟩
    · simp only [lruInsert, hlen, hfull, if_true, List.isEmpty_iff, hne, if_false]
      rw [← hfull, Nat.mod_eq_of_lt (hlen ▸ hi)]
    · rw [List.map_append, List.nodup_append]
      refine ⟨ha.nodup.sublist ((List.eraseIdx_sublist _ _).map _), by simp, ?_⟩
      intro a hm b hb e
      simp only [List.map_cons, List.map_nil, List.mem_singleton] at hb
      obtain ⟨p, hp, rfl⟩ := List.mem_map.1 hm
      exact hkl p ((hmem p).1 hp).1 (e.trans hb)
    · intro j q
      rw [List.mem_append, List.mem_singleton, hmem, ha.mem, s2]
      constructor
      · rintro (⟨⟨s', y, hy, h1, h2⟩, hd⟩ | e)
        · refine ⟨s', y, ?_, h1, h2⟩
          rw [Function.update_of_ne]
          · exact hy
          · rintro rfl
            rw [hx] at hy
            cases hy
            exact hd h1.symm
        · cases e
          exact ⟨n.2, _, Function.update_self .., rfl, rfl⟩
      · rintro ⟨s', y, hy, h1, h2⟩
        by_cases e : s' = n.2
        · rw [e, Function.update_self] at hy
          cases hy
          exact .inr (by rw [← h1, ← h2])
        · rw [Function.update_of_ne e] at hy
          refine .inl ⟨⟨s', y, hy, h1, h2⟩, ?_⟩
          intro hd
          exact e (h.slot_unique hy hx (h1.trans hd))

theorem clear_abs {c : State K R} (h : Inv hash c) : Abs (clear c) ([] : Lru K R) := by
  obtain ⟨i, hk⟩ := clear_inv h
  refine ⟨by simp, ?_⟩
  intro k r
  simp only [List.not_mem_nil, false_iff]
  rintro ⟨s, x, hs, _, _⟩
  have := (mem_keys i x.op).2 ⟨s, x, hs, rfl⟩
  rw [hk] at this
  simp at this

end
end Cache
end Verif
