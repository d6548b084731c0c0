import Verif.Mem.CacheHist
/-!
# Statistics of a cache

`/repo/sdd/mem/cache.hh:61-94,283-293`.
-/

set_option autoImplicit false
set_option linter.unusedSectionVars false

namespace Verif
namespace Cache

section
variable {K R : Type} [DecidableEq K] {hash : K → Nat}

/-- The counters of `cache_statistics`, `/repo/sdd/mem/cache.hh:63-94`. -/
structure CStats where
  hits : Nat
  misses : Nat
  filtered : Nat
  discarded : Nat

/-- A call of the cache begins with the filters, which may reject the operation (it is then evaluated without the cache),
`/repo/sdd/mem/cache.hh:214-219`. -/
inductive Ev' (K R : Type) : Type where
  | filtered (k : K)
  | ev (e : Ev K R)

/-- The updates of the counters, `/repo/sdd/mem/cache.hh:217,230,236,249`. -/
def CStats.count (st : CStats) : Out K R → CStats
  | .found (some _) => { st with hits := st.hits + 1 }
  | .found none => { st with misses := st.misses + 1 }
  | .stored (some _) => { st with discarded := st.discarded + 1 }
  | .stored none => st
  | .cleared => st

/-- An event with the counters. (`/repo/sdd/mem/cache.hh`, lines 211-273, with the assignments to `stats_`.) -/
def execC (hash : K → Nat) (c : State K R) (st : CStats) : Ev' K R → Option (Option (Out K R) × State K R × CStats)
  | .filtered _ => some (none, c, { st with filtered := st.filtered + 1 })
  | .ev e => (exec hash c e).map fun p => (some p.1, p.2, st.count p.1)

/-- Histories with counters: the events which reach the table with what they observed, and the number of filtered operations.
(Specification or proof device, not part of the code.) -/
inductive CHist (hash : K → Nat) (size : BitVec 64) :
    List (Ev K R × Out K R) → Nat → State K R → CStats → Prop where
  | new {c : State K R} : new size = some c → CHist hash size [] 0 c ⟨0, 0, 0, 0⟩
  | ev {h : List (Ev K R × Out K R)} {f : Nat} {c c' : State K R} {st st' : CStats} {e : Ev K R} {o : Out K R} :
      CHist hash size h f c st → Valid c e → execC hash c st (.ev e) = some (some o, c', st') →
      CHist hash size ((e, o) :: h) f c' st'
  | filtered {h : List (Ev K R × Out K R)} {f : Nat} {c c' : State K R} {st st' : CStats} {k : K} :
      CHist hash size h f c st → execC hash c st (.filtered k) = some (none, c', st') →
      CHist hash size h (f + 1) c' st'

/-- Is it a look-up? (Specification or proof device, not part of the code.) -/
def Ev.isLookup : Ev K R → Bool
  | .lookup _ => true
  | _ => false

/-- Is it a storage? (Specification or proof device, not part of the code.) -/
def Ev.isStore : Ev K R → Bool
  | .store _ _ => true
  | _ => false

/-- Specification: the number of look-ups of an operation which is in the contents of the cache at that time (`contents`
only depends on the history). -/
def expectedHits : List (Ev K R × Out K R) → Nat
  | [] => 0
  | (.lookup k, _) :: h => (if (contents h k).isSome then 1 else 0) + expectedHits h
  | _ :: h => expectedHits h

/-- Specification: the number of storages since the last `clear()`. -/
def storesSinceClear : List (Ev K R × Out K R) → Nat
  | [] => 0
  | (.clear, _) :: _ => 0
  | (.store _ _, _) :: h => storesSinceClear h + 1
  | (.lookup _, _) :: h => storesSinceClear h

/-- Specification: the number of entries discarded, in all and since the last `clear()`. -/
def discards : List (Ev K R × Out K R) → Nat
  | [] => 0
  | (_, .stored (some _)) :: h => discards h + 1
  | _ :: h => discards h

/-- Specification: the number of entries discarded since the last `clear()`. -/
def discardsSinceClear : List (Ev K R × Out K R) → Nat
  | [] => 0
  | (.clear, _) :: _ => 0
  | (_, .stored (some _)) :: h => discardsSinceClear h + 1
  | _ :: h => discardsSinceClear h

theorem CHist.hist {size : BitVec 64} {h : List (Ev K R × Out K R)} {f : Nat} {c : State K R} {st : CStats}
    (hh : CHist hash size h f c st) : Hist hash size h c := by
  induction hh with
  | new h => exact .new h
  | @ev h f c c' st st' e o _ hv he ih =>
    simp only [execC] at he
    cases e1 : exec hash c e with
    | none => rw [e1] at he; cases he
    | some p =>
      rw [e1] at he
      simp only [Option.map_some, Option.some.injEq, Prod.mk.injEq] at he
      obtain ⟨rfl, rfl, _⟩ := he
      exact .step ih hv e1
  | filtered _ he ih =>
    simp only [execC, Option.some.injEq, Prod.mk.injEq, true_and] at he
    rw [← he.1]
    exact ih

/-- What the counters count. -/
theorem CHist.spec {size : BitVec 64} (hsz : size.toNat ≤ 2 ^ 63) {h : List (Ev K R × Out K R)} {f : Nat}
    {c : State K R} {st : CStats} (hh : CHist hash size h f c st) :
    st.filtered = f ∧ st.hits + st.misses = h.countP (fun e => e.1.isLookup) ∧ st.hits = expectedHits h ∧
    st.discarded = discards h ∧ c.table.size + discardsSinceClear h = storesSinceClear h := by
  induction hh with
  | @new c h =>
    obtain ⟨i, e, _⟩ := new_inv (hash := hash) h hsz
    refine ⟨rfl, rfl, rfl, rfl, ?_⟩
    rw [i.ht.size, e]
    rfl
  | @ev h f c c' st st' e o hh hv he ih =>
    obtain ⟨h1, h2, h3, h4, h5⟩ := ih
    have hi := (hh.hist.inv hsz).1
    have hma := hh.hist.matches hsz
    simp only [execC] at he
    cases e1 : exec hash c e with
    | none => rw [e1] at he; cases he
    | some p =>
      rw [e1] at he
      simp only [Option.map_some, Option.some.injEq, Prod.mk.injEq] at he
      obtain ⟨rfl, rfl, rfl⟩ := he
      cases e with
      | lookup k =>
        rcases lookup_spec hi k with ⟨hn, e⟩ | ⟨s, x, hs, h6, e, _⟩
        · have hc : contents h k = none := by
            cases hr : contents h k with
            | none => rfl
            | some r =>
              obtain ⟨s, x, hs, h6, _⟩ := (hma k r).1 hr
              exact absurd ((mem_keys hi k).2 ⟨s, x, hs, h6⟩) hn
          simp only [exec, e, Option.map_some, Option.some.injEq] at e1
          subst e1
          refine ⟨h1, ?_, ?_, h4, h5⟩
          · simp only [CStats.count, List.countP_cons, Ev.isLookup, if_true] at h2 ⊢; omega
          · simp only [CStats.count, expectedHits, hc]; simpa using h3
        · have hc := (hma k x.res).2 ⟨s, x, hs, h6, rfl⟩
          simp only [exec, e, Option.map_some, Option.some.injEq] at e1
          subst e1
          refine ⟨h1, ?_, ?_, h4, h5⟩
          · simp only [CStats.count, List.countP_cons, Ev.isLookup, if_true] at h2 ⊢; omega
          · simp only [CStats.count, expectedHits, hc]; simp; omega
      | store k r =>
        rcases store_spec hi hv r with ⟨hlt, s, c2, e, hr⟩ | ⟨hfull, n, l, x, c2, hl, hx, e, hr⟩
        · obtain ⟨i2, _, _, _, _, k2⟩ := hr
          simp only [exec, e, Option.map_some, Option.some.injEq] at e1
          subst e1
          have hp : (keys c2).Perm (k :: keys c) := by
            refine (List.perm_ext_iff_of_nodup (keys_nodup i2) (List.nodup_cons.2 ⟨hv, keys_nodup hi⟩)).2 fun j => ?_
            rw [k2, List.mem_cons, or_comm]
          have := hp.length_eq
          rw [List.length_cons, keys_length i2, keys_length hi] at this
          refine ⟨h1, by simpa [CStats.count, Ev.isLookup] using h2, h3, h4, ?_⟩
          simp only [storesSinceClear, discardsSinceClear]
          omega
        · obtain ⟨i2, _, _, _, k2⟩ := hr
          simp only [exec, e, Option.map_some, Option.some.injEq] at e1
          subst e1
          have hxk : x.op ∈ keys c := (mem_keys hi _).2 ⟨_, x, hx, rfl⟩
          have hp : (keys c2).Perm (k :: (keys c).erase x.op) := by
            refine (List.perm_ext_iff_of_nodup (keys_nodup i2) (List.nodup_cons.2
              ⟨fun hm => hv (List.mem_of_mem_erase hm), (keys_nodup hi).erase _⟩)).2 fun j => ?_
            rw [k2, List.mem_cons, (keys_nodup hi).mem_erase_iff, or_comm, and_comm]
          have := hp.length_eq
          rw [List.length_cons, keys_length i2, List.length_erase_of_mem hxk, keys_length hi] at this
          have hpos := List.length_pos_of_mem hxk
          rw [keys_length hi] at hpos
          refine ⟨h1, by simpa [CStats.count, Ev.isLookup] using h2, h3, by simp [CStats.count, discards, h4], ?_⟩
          simp only [storesSinceClear, discardsSinceClear]
          omega
      | clear =>
        simp only [exec, Option.some.injEq] at e1
        subst e1
        exact ⟨h1, by simpa [CStats.count, Ev.isLookup] using h2, h3, h4, by simp [clear, HT.clear, storesSinceClear, discardsSinceClear]⟩
  | filtered _ he ih =>
    simp only [execC, Option.some.injEq, Prod.mk.injEq, true_and] at he
    obtain ⟨rfl, rfl⟩ := he
    obtain ⟨h1, h2, h3, h4, h5⟩ := ih
    exact ⟨by simp [h1], h2, h3, h4, h5⟩

end
end Cache
end Verif
