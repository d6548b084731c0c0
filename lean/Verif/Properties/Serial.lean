import Verif.Tools.Serial
import Verif.Properties.Stats
import Verif.Properties.Export
/-!
# Properties of saved statistics
-/

set_option autoImplicit false
set_option linter.unusedSectionVars false

namespace Verif
open Serial

/-- **C84**, SDDs. What is saved for an SDD under each name is the number this name announces: the sizes of the different data below the SDD; its
different flat and hierarchical nodes, their arcs, and for each number of arcs the nodes which have it (modulo the width of the counters). No name hides another. -/
theorem C84_sdd {V : Type} [DecidableEq V] (z : Sizes) (x : SDD V) : ∃ l l' : List (SDD V), l.Nodup ∧
    (∀ a, a ∈ l ↔ Sub a x ∧ (a.isFlat || a.isHier) = true) ∧ l'.Nodup ∧ (∀ a, a ∈ l' ↔ Sub a x) ∧
    (saveSdd (sstats z x)).names.Nodup ∧
    (saveSdd (sstats z x)).get "bytes" = some (.num ((l'.map z.weight).sum % 2 ^ 64)) ∧
    (saveSdd (sstats z x)).get "flat nodes" = some (.num (l.countP SDD.isFlat % 2 ^ 32)) ∧
    (saveSdd (sstats z x)).get "hierarchical nodes" = some (.num (l.countP SDD.isHier % 2 ^ 32)) ∧
    (saveSdd (sstats z x)).get "flat arcs" = some (.num (((l.filter SDD.isFlat).map SDD.nbArcs).sum % 2 ^ 32)) ∧
    (saveSdd (sstats z x)).get "hierarchical arcs" = some (.num (((l.filter SDD.isHier).map SDD.nbArcs).sum % 2 ^ 32)) ∧
    ∃ f : Freq, (saveSdd (sstats z x)).get "arcs frequency" = some (.freq f) ∧
      ∀ k, f.get k = ((l.countP fun a => a.isFlat && a.nbArcs == k) % 2 ^ 32, (l.countP fun a => a.isHier && a.nbArcs == k) % 2 ^ 32) := by
  obtain ⟨h1, h2⟩ := distinctNodes_spec x
  obtain ⟨l', h3, h4, h5⟩ := sizeBytes_spec z x
  refine ⟨distinctNodes x, l', h1, h2, h3, h4, by show (["bytes", "flat nodes", "hierarchical nodes", "flat arcs", "hierarchical arcs", "arcs frequency"]).Nodup; decide, ?_⟩
  have hn : (sstats z x).nodes = _ := nodes_eq x
  have ha : (sstats z x).arcs = _ := numberOfArcs_eq x
  have hb : (sstats z x).bytes = _ := h5
  refine ⟨?_, ?_, ?_, ?_, ?_, arcsFreq x, rfl, arcsFreq_get x⟩
  · show some (SVal.num (sstats z x).bytes) = _
    rw [hb]; rfl
  · show some (SVal.num (sstats z x).nodes.1) = _
    rw [hn]; rfl
  · show some (SVal.num (sstats z x).nodes.2) = _
    rw [hn]; rfl
  · show some (SVal.num (sstats z x).arcs.1) = _
    rw [ha]; rfl
  · show some (SVal.num (sstats z x).arcs.2) = _
    rw [ha]; rfl

section
open Heap
variable {L : Type} [DecidableEq L] {hash : Key L → Nat} {bytes : Key L → Nat}

open Classical in
/-- **C84**, unique tables: after any program on handles, what is saved under each name is the number this name announces. -/
theorem C84_unique_table {size : BitVec 64} (h1 : 1 ≤ size.toNat) (h2 : size.toNat ≤ 2 ^ 63) {n : Nat}
    {tr : List (State L × Heap.Op L × State L)} {s : State L} {st : TStats} (hr : TRun hash bytes size n tr s st) :
    (saveTable (report s st)).names.Nodup ∧
    (saveTable (report s st)).get "# accesses" = some (.num (tr.countP fun e => e.2.1.isCreate)) ∧
    (saveTable (report s st)).get "# hits" = some (.num (tr.countP fun e => decide (Known e.1 e.2.1))) ∧
    (saveTable (report s st)).get "# misses" = some (.num (tr.countP fun e => e.2.1.isCreate && !decide (Known e.1 e.2.1))) ∧
    (∃ as : List Addr, as.Nodup ∧ (∀ a, a ∈ as ↔ Reaches s a) ∧ (saveTable (report s st)).get "#" = some (.num as.length) ∧
      ∃ b, (saveTable (report s st)).get "# buckets" = some (.num b) ∧ (saveTable (report s st)).get "load factor" = some (.ratio as.length b)) ∧
    (∃ p, (saveTable (report s st)).get "# peak" = some (.num p) ∧
      (∀ e ∈ tr, ∀ as : List Addr, as.Nodup → (∀ a, a ∈ as ↔ Reaches e.2.2 a) → as.length ≤ p) ∧
      (p = 0 ∨ ∃ e ∈ tr, ∃ as : List Addr, as.Nodup ∧ (∀ a, a ∈ as ↔ Reaches e.2.2 a) ∧ as.length = p)) ∧
    (∃ r k, (saveTable (report s st)).get "# rehash" = some (.num r) ∧ (saveTable (report s st)).get "# buckets" = some (.num (2 ^ k)) ∧
      2 ^ k = (nextPower64 size).toNat * 2 ^ r ∧
      ∃ el : List (Addr × Key L), el.Nodup ∧ (∀ a d, (a, d) ∈ el ↔ Reaches s a ∧ ∃ c, s.cells a = some c ∧ c.key = d) ∧
        (saveTable (report s st)).get "# collisions" = some (.num ((List.range (2 ^ k)).countP fun i =>
          decide (2 ≤ el.countP fun x => decide (hash x.2 % 2 ^ k = i)))) ∧
        (saveTable (report s st)).get "# alone" = some (.num ((List.range (2 ^ k)).countP fun i =>
          decide (el.countP (fun x => decide (hash x.2 % 2 ^ k = i)) = 1))) ∧
        (saveTable (report s st)).get "# empty" = some (.num ((List.range (2 ^ k)).countP fun i =>
          decide (el.countP (fun x => decide (hash x.2 % 2 ^ k = i)) = 0)))) := by
  obtain ⟨r, -⟩ := hr.spec h1 h2
  have i := reach_inv h1 h2 r
  obtain ⟨⟨a1, a2, a3⟩, ⟨as, b1, b2, b3⟩, ⟨-, c2, c3⟩, -, -, -, d4, -⟩ := C58_unique_table_statistics h1 h2 hr
  refine ⟨by show (["#", "# peak", "# accesses", "# hits", "# misses", "# rehash", "# collisions", "# alone", "# empty", "# buckets",
      "load factor"]).Nodup; decide, congrArg (fun n => some (SVal.num n)) a1, congrArg (fun n => some (SVal.num n)) a2,
    congrArg (fun n => some (SVal.num n)) ?_, ⟨as, b1, b2, congrArg (fun n => some (SVal.num n)) b3, _, rfl,
      congrArg (fun n => some (SVal.ratio n _)) b3⟩, ⟨_, rfl, c2, c3⟩, ?_⟩
  · have hk : ∀ l : List (State L × Heap.Op L × State L), l.countP (fun e => decide (Known e.1 e.2.1)) +
        l.countP (fun e => e.2.1.isCreate && !decide (Known e.1 e.2.1)) = l.countP (fun e => e.2.1.isCreate) := by
      intro l
      induction l with
      | nil => rfl
      | cons e l ih =>
        rw [List.countP_cons, List.countP_cons, List.countP_cons, ← ih]
        have : Known e.1 e.2.1 → e.2.1.isCreate = true := by
          intro h
          rcases e with ⟨s, op, s'⟩
          cases op <;> first | rfl | exact h.elim
        by_cases h : Known e.1 e.2.1
        · simp [h, this h]; omega
        · simp [h]; omega
    have := hk tr
    omega
  · obtain ⟨k, hk⟩ := i.ht.placed.pow
    obtain ⟨-, e1, e2, e3⟩ := HT.collisions_spec s.table
    have key := fun q => i.ht.placed.countP hk (.refl _) (q := q)
    refine ⟨_, k, rfl, congrArg (fun n => some (SVal.num n)) hk, hk ▸ d4, s.table.elems, ?_, fun a d => ?_, ?_, ?_, ?_⟩
    · refine List.Pairwise.imp (fun {x y} h => ?_) i.ht.distinct
      rintro rfl
      simp [eqE] at h
    · rw [i.table]
      constructor
      · rintro ⟨c, h1, h2, -⟩
        exact ⟨(i.live_iff _).1 (by rw [h1]; rfl), c, h1, h2⟩
      · rintro ⟨-, c, h1, h2⟩
        exact ⟨c, h1, h2, by simp⟩
    · refine congrArg (fun n => some (SVal.num n)) ?_
      show s.table.collisions.1 = _
      rw [e1]; exact key fun b => decide (1 < b)
    · refine congrArg (fun n => some (SVal.num n)) ?_
      show s.table.collisions.2.1 = _
      rw [e2]; exact key fun b => decide (b = 1)
    · refine congrArg (fun n => some (SVal.num n)) ?_
      show s.table.collisions.2.2 = _
      rw [e3]; exact key fun b => decide (b = 0)

end

section
open Cache
variable {K R : Type} [DecidableEq K] {hash : K → Nat} {size : BitVec 64}

/-- **C84**, caches: after any history of a cache, what is saved under each name is the number this name announces. -/
theorem C84_cache (hsz : size.toNat ≤ 2 ^ 63) {h : List (Ev K R × Out K R)} {f : Nat}
    {c : State K R} {st : CStats} (hh : CHist hash size h f c st) :
    (saveCache (cacheReport c st)).names.Nodup ∧
    (saveCache (cacheReport c st)).get "# filtered" = some (.num f) ∧
    (saveCache (cacheReport c st)).get "# hits" = some (.num (expectedHits h)) ∧
    (∃ m, (saveCache (cacheReport c st)).get "# misses" = some (.num m) ∧ expectedHits h + m = h.countP fun e => e.1.isLookup) ∧
    (saveCache (cacheReport c st)).get "# discarded" = some (.num (discards h)) ∧
    ∃ n k, (saveCache (cacheReport c st)).get "#" = some (.num n) ∧ n + discardsSinceClear h = storesSinceClear h ∧
      (saveCache (cacheReport c st)).get "# buckets" = some (.num (2 ^ k)) ∧
      (saveCache (cacheReport c st)).get "load factor" = some (.ratio n (2 ^ k)) ∧
      ∃ ks : List K, ks.Nodup ∧ ks.length = n ∧ (∀ x, x ∈ ks ↔ (contents h x).isSome) ∧
        (saveCache (cacheReport c st)).get "# collisions" = some (.num ((List.range (2 ^ k)).countP fun i =>
          decide (2 ≤ ks.countP fun x => decide (hash x % 2 ^ k = i)))) ∧
        (saveCache (cacheReport c st)).get "# alone" = some (.num ((List.range (2 ^ k)).countP fun i =>
          decide (ks.countP (fun x => decide (hash x % 2 ^ k = i)) = 1))) ∧
        (saveCache (cacheReport c st)).get "# empty" = some (.num ((List.range (2 ^ k)).countP fun i =>
          decide (ks.countP (fun x => decide (hash x % 2 ^ k = i)) = 0))) := by
  obtain ⟨h1, h2, h3, h4, h5, -⟩ := C58_cache_statistics hsz hh
  have i := (hh.hist.inv hsz).1
  have hm := hh.hist.matches hsz
  refine ⟨by show (["#", "# hits", "# misses", "# filtered", "# discarded", "# collisions", "# alone", "# empty", "# buckets",
      "load factor"]).Nodup; decide, congrArg (fun n => some (SVal.num n)) h1, congrArg (fun n => some (SVal.num n)) h2,
    ⟨_, rfl, h2 ▸ h3⟩, congrArg (fun n => some (SVal.num n)) h4, ?_⟩
  obtain ⟨k, hk⟩ := i.ht.placed.pow
  obtain ⟨-, e1, e2, e3⟩ := HT.collisions_spec c.table
  have key := fun q => i.ht.placed.countP hk (.refl _) (q := q)
  have hc : ∀ j, (keys c).countP (fun x => decide (hash x % 2 ^ k = j)) =
      c.table.elems.countP fun x => decide (hashE hash x % 2 ^ k = j) := fun j => by
    rw [keys, List.countP_map]; rfl
  refine ⟨_, k, rfl, h5, congrArg (fun n => some (SVal.num n)) hk, congrArg (fun n => some (SVal.ratio _ n)) hk, keys c, keys_nodup i,
    keys_length i, fun x => ?_, ?_, ?_, ?_⟩
  · rw [mem_keys i, Option.isSome_iff_exists]
    constructor
    · rintro ⟨s, y, h1, h2⟩
      exact ⟨y.res, (hm x y.res).2 ⟨s, y, h1, h2, rfl⟩⟩
    · rintro ⟨r, hr⟩
      obtain ⟨s, y, h1, h2, -⟩ := (hm x r).1 hr
      exact ⟨s, y, h1, h2⟩
  · refine congrArg (fun n => some (SVal.num n)) ?_
    show c.table.collisions.1 = _
    simp only [hc]
    rw [e1]; exact key fun b => decide (1 < b)
  · refine congrArg (fun n => some (SVal.num n)) ?_
    show c.table.collisions.2.1 = _
    simp only [hc]
    rw [e2]; exact key fun b => decide (b = 1)
  · refine congrArg (fun n => some (SVal.num n)) ?_
    show c.table.collisions.2.2 = _
    simp only [hc]
    rw [e3]; exact key fun b => decide (b = 0)

end

/-- **C84**, managers: what is saved for a manager has, under the name of each table and of each cache, the statistics of this table or cache, whose
contents are given by `C84_unique_table` and `C84_cache`. No name hides another. -/
theorem C84_manager (t : Tables) :
    (saveManager (mstats t)).names.Nodup ∧ (saveManager (mstats t)).names.length = 7 ∧
    (saveManager (mstats t)).get "SDD unique table" = some (saveTable t.sdds) ∧
    (saveManager (mstats t)).get "hom unique table" = some (saveTable t.homs) ∧
    (saveManager (mstats t)).get "values" = some (saveTable t.values) ∧
    (saveManager (mstats t)).get "SDD sums cache" = some (saveCache t.sums) ∧
    (saveManager (mstats t)).get "SDD intersections cache" = some (saveCache t.inters) ∧
    (saveManager (mstats t)).get "SDD differences cache" = some (saveCache t.diffs) ∧
    (saveManager (mstats t)).get "hom cache" = some (saveCache t.homApps) :=
  ⟨by show (["SDD unique table", "SDD differences cache", "SDD intersections cache", "SDD sums cache", "hom unique table", "hom cache",
    "values"]).Nodup; decide, rfl, rfl, rfl, rfl, rfl, rfl, rfl, rfl⟩

/- A shared node is counted once. (The hypotheses of the other theorems are those of C58, met by the runs of `Properties/Stats`.) -/
example : (saveSdd (sstats ⟨1, 2, 8, 4, 6⟩ (.flat 1 [(1, .flat 0 [(5, .one)]), (2, .flat 0 [(5, .one)])]))).get "flat arcs" =
    some (.num 3) := rfl

end Verif
