import Verif.Mem.HeapStats
import Verif.Mem.CacheStats
import Verif.Mem.SddHeap
import Verif.Values.Concrete
/-!
# Properties of the memory of SDDs and of the statistics
-/

set_option autoImplicit false
set_option linter.unusedSectionVars false

namespace Verif

section
open Heap
variable {V E : Type} [DecidableEq V] {C : Cfg V E} {hash : Key (SLabel V) → Nat} {bytes : Key (SLabel V) → Nat}

/-- **C01**, down to pointers: after any program on handles, for any hash function, two canonical SDDs in memory are at the same
address exactly when they contain the same paths. (`operator==` on SDDs compares addresses, `/repo/sdd/dd/definition.hh:366-372`.) -/
theorem C01_pointer_equality (hC : C.Lawful) {size : BitVec 64} (h1 : 1 ≤ size.toNat) (h2 : size.toNat ≤ 2 ^ 63)
    {n : Nat} {s : State (SLabel V)} (hr : Reach hash bytes size n s) {x y : SDD V} (hx : WF C x) (hy : WF C y)
    {a b : Addr} (ha : Denotes s x.tree a) (hb : Denotes s y.tree b) :
    a = b ↔ ∀ p, Mem C p x ↔ Mem C p y := by
  have i := reach_inv h1 h2 hr
  constructor
  · rintro rfl
    have := SDD.tree_inj x y (denotes_fun _ _ ha hb)
    exact fun p => by rw [this]
  · intro h
    have := canonical_ext hC hx hy h
    subst this
    exact denotes_inj i _ ha hb

end

section
open Heap
variable {L : Type} [DecidableEq L] {hash : Key L → Nat} {bytes : Key L → Nat}

/-- **C18**, data do not move: a datum (a term) which is in memory before and after a statement is at the same address. Hence the
order of the addresses of the nodes in memory, with which arcs and operands are sorted, does not change. -/
theorem C18_stable_addresses {size : BitVec 64} (h1 : 1 ≤ size.toNat) (h2 : size.toNat ≤ 2 ^ 63)
    {n : Nat} {s s' : State L} (hr : Reach hash bytes size n s) {op : Heap.Op L} (hv : Valid s op)
    (he : exec hash bytes s op = some s') {t : Tree L} {a a' : Addr} (ha : Denotes s t a) (ha' : Denotes s' t a') :
    a = a' := exec_stable (reach_inv h1 h2 hr) hv he ha ha'

open Classical in
/-- **C58**, unique tables. For any history of a program on handles and any hash function, the statistics of the unique table
are exact: `access` is the number of unifications, `hits` the number of those whose datum was already in memory, `misses` the
number of the others; `size` is the number of data in memory, `peak` its maximum over the history; buckets are all counted
once in `collisions`, `alone` or `empty`; the number of buckets has been doubled `rehash` times; the load is below 3/4. -/
theorem C58_unique_table_statistics {size : BitVec 64} (h1 : 1 ≤ size.toNat) (h2 : size.toNat ≤ 2 ^ 63) {n : Nat}
    {tr : List (State L × Heap.Op L × State L)} {s : State L} {st : TStats} (hr : TRun hash bytes size n tr s st) :
    ((report s st).access = tr.countP (fun e => e.2.1.isCreate) ∧
      (report s st).hits = tr.countP (fun e => decide (Known e.1 e.2.1)) ∧
      (report s st).hits + (report s st).misses = (report s st).access) ∧
    (∃ as : List Addr, as.Nodup ∧ (∀ a, a ∈ as ↔ Reaches s a) ∧ (report s st).size = as.length) ∧
    ((report s st).size ≤ (report s st).peak ∧
      (∀ e ∈ tr, ∀ as : List Addr, as.Nodup → (∀ a, a ∈ as ↔ Reaches e.2.2 a) → as.length ≤ (report s st).peak) ∧
      ((report s st).peak = 0 ∨ ∃ e ∈ tr, ∃ as : List Addr, as.Nodup ∧ (∀ a, a ∈ as ↔ Reaches e.2.2 a) ∧
        as.length = (report s st).peak)) ∧
    ((report s st).collisions + (report s st).alone + (report s st).empty = (report s st).buckets ∧
      (report s st).alone + 2 * (report s st).collisions ≤ (report s st).size ∧
      ((report s st).collisions = 0 → (report s st).size = (report s st).alone) ∧
      (report s st).buckets = (nextPower64 size).toNat * 2 ^ (report s st).rehash ∧
      (report s st).loadNum = (report s st).size ∧ (report s st).loadDen = (report s st).buckets ∧
      4 * (report s st).loadNum < 3 * (report s st).loadDen) := by
  obtain ⟨r, hl, hrs, hpk, hall, hex, ha, hh, hsum⟩ := hr.spec h1 h2
  have i := reach_inv h1 h2 r
  have hsz : ∀ {s : State L}, Reach hash bytes size n s → ∃ as : List Addr, as.Nodup ∧
      (∀ a, a ∈ as ↔ Reaches s a) ∧ s.table.size = as.length := by
    intro s hr
    have i := reach_inv h1 h2 hr
    obtain ⟨as, h3, h4, h5⟩ := i.size
    exact ⟨as, h3, fun a => by rw [h4, i.live_iff], h5⟩
  refine ⟨⟨ha, ?_, hsum⟩, hsz r, ⟨hpk, ?_, ?_⟩, (HT.collisions_spec s.table).1, ?_, ?_, hl.2, rfl, rfl, hl.1⟩
  · show st.hits = _
    convert hh
  · intro e he as hn hm
    obtain ⟨bs, h3, h4, h5⟩ := hsz (hrs e he)
    have := hall e he
    rw [h5] at this
    have hp := (List.perm_ext_iff_of_nodup hn h3).2 fun a => by rw [hm, h4]
    rw [hp.length_eq]
    exact this
  · rcases hex with h0 | ⟨e, he, h0⟩
    · exact .inl h0
    · obtain ⟨bs, h3, h4, h5⟩ := hsz (hrs e he)
      exact .inr ⟨e, he, bs, h3, h4, h5.symm.trans h0⟩
  · have := (HT.collisions_le s.table).1
    rw [← i.ht.size] at this
    exact this
  · have := (HT.collisions_le s.table).2
    rw [← i.ht.size] at this
    exact this

end

section
open Cache
variable {K R : Type} [DecidableEq K] {hash : K → Nat} {size : BitVec 64}

/-- **C58**, caches. For any history of a cache and any hash function, `filtered` counts the operations rejected by the filters,
`hits` the look-ups of operations stored since the last `clear()` and not discarded since, `misses` the other look-ups, `discarded`
the entries discarded; the number of entries is the number of those stored and not discarded since the last `clear()`; buckets
are all counted once in `collisions`, `alone` or `empty`. -/
theorem C58_cache_statistics (hsz : size.toNat ≤ 2 ^ 63) {h : List (Ev K R × Out K R)} {f : Nat}
    {c : State K R} {st : CStats} (hh : CHist hash size h f c st) :
    st.filtered = f ∧ st.hits = expectedHits h ∧ st.hits + st.misses = h.countP (fun e => e.1.isLookup) ∧
    st.discarded = discards h ∧ c.table.size + discardsSinceClear h = storesSinceClear h ∧
    c.table.collisions.1 + c.table.collisions.2.1 + c.table.collisions.2.2 = c.table.buckets.length := by
  obtain ⟨h1, h2, h3, h4, h5⟩ := hh.spec hsz
  exact ⟨h1, h3, h2, h4, h5, (HT.collisions_spec _).1⟩

end

/-! ## Concrete cases -/

namespace DemoS
open Heap

/-- A hash function with collisions. -/
def hash (k : Key (SLabel (BitVec 8))) : Nat := k.2.length
/-- The sizes of data. -/
def bytes (k : Key (SLabel (BitVec 8))) : Nat := 16 + 8 * k.2.length

/-- The node of variable 0 whose only arc has the values 5 and leads to |1|, built twice; then the first handle is destroyed. -/
def ops : List (Heap.Op (SLabel (BitVec 8))) :=
  [.create 0 .one [] 100, .create 1 (.values 5#8) [] 200, .create 2 (.flat 0) [1, 0] 300,
   .create 3 (.flat 0) [1, 0] 400, .destroy 2]

/-- Is a statement valid? -/
def validB (s : State (SLabel (BitVec 8))) : Heap.Op (SLabel (BitVec 8)) → Bool
  | .create v _ ks fr => s.vars[v]? == some .dead &&
      ks.all (fun k => match s.vars[k]? with | some (.live _) => true | _ => false) && !(s.blocks.map Prod.fst).contains fr
  | .destroy v => match s.vars[v]? with | some .dead => false | some _ => true | none => false
  | _ => false

theorem valid_of {s : State (SLabel (BitVec 8))} {op : Heap.Op (SLabel (BitVec 8))} (h : validB s op = true) : Valid s op := by
  cases op with
  | create v l ks fr =>
    simp only [validB, Bool.and_eq_true, beq_iff_eq, List.all_eq_true, Bool.not_eq_true', List.contains_eq_mem,
      decide_eq_false_iff_not] at h
    refine ⟨h.1.1, fun k hk => ?_, h.2⟩
    have := h.1.2 k hk
    split at this
    · rename_i a e; exact ⟨a, e⟩
    · cases this
  | destroy v =>
    simp only [validB] at h
    split at h
    · cases h
    · rename_i x hx e
      exact ⟨x, e, fun h' => hx (by rw [h'])⟩
    · cases h
  | _ => cases h

/-- The run of a list of statements. -/
def go : List (Heap.Op (SLabel (BitVec 8))) → State (SLabel (BitVec 8)) × TStats → Option (State (SLabel (BitVec 8)) × TStats)
  | [], p => some p
  | op :: ops, p => if validB p.1 op then (execT hash bytes p.1 p.2 op).bind (go ops) else none

theorem go_run {size : BitVec 64} {n : Nat} : ∀ (ops : List (Heap.Op (SLabel (BitVec 8)))) {tr} {s s' : State (SLabel (BitVec 8))}
    {st st' : TStats}, TRun hash bytes size n tr s st → go ops (s, st) = some (s', st') →
    ∃ tr', TRun hash bytes size n tr' s' st' ∧ tr'.length = ops.length + tr.length
  | [], tr, s, s', st, st', hr, h => by
    simp only [go, Option.some.injEq, Prod.mk.injEq] at h
    obtain ⟨rfl, rfl⟩ := h
    exact ⟨tr, hr, by simp⟩
  | op :: ops, tr, s, s', st, st', hr, h => by
    simp only [go] at h
    split at h
    · rename_i hv
      cases e : execT hash bytes s st op with
      | none => rw [e] at h; cases h
      | some p =>
        rw [e] at h
        obtain ⟨tr', h1, h2⟩ := go_run ops (.step hr (valid_of hv) e) h
        exact ⟨tr', h1, by rw [h2, List.length_cons, List.length_cons]; omega⟩
    · cases h

/-- The hypotheses of C58 are met by a run of five statements: one of the unifications is a hit; three data remain in memory. -/
example : ∃ tr s st, TRun hash bytes 1#64 4 tr s st ∧ tr.length = 5 ∧ st.access = 4 ∧ st.hits = 1 ∧
    s.table.size = 3 ∧ s.table.nbRehash = 3 := by
  have h : ((go ops (init 1#64 4, ⟨0, 0, 0, 0⟩)).map fun p =>
      (p.2.access, p.2.hits, p.1.table.size, p.1.table.nbRehash)) = some (4, 1, 3, 3) := by decide +kernel
  cases e : go ops (init 1#64 4, ⟨0, 0, 0, 0⟩) with
  | none => rw [e] at h; cases h
  | some p =>
    rw [e] at h
    simp only [Option.map_some, Option.some.injEq, Prod.mk.injEq] at h
    obtain ⟨tr, h1, h2⟩ := go_run ops .init e
    exact ⟨tr, p.1, p.2, h1, h2, h.1, h.2.1, h.2.2.1, h.2.2.2⟩

/-- Is an event valid? -/
def validC (c : Cache.State Nat Nat) : Cache.Ev Nat Nat → Bool
  | .store k _ => !(Cache.keys c).contains k
  | _ => true

/-- The run of a list of events of a cache with operations in `Nat`. -/
def goC : List (Cache.Ev' Nat Nat) → List (Cache.Ev Nat Nat × Cache.Out Nat Nat) × Nat × Cache.State Nat Nat × Cache.CStats →
    Option (List (Cache.Ev Nat Nat × Cache.Out Nat Nat) × Nat × Cache.State Nat Nat × Cache.CStats)
  | [], p => some p
  | .filtered k :: es, (h, f, c, st) =>
    match Cache.execC id c st (.filtered k) with
    | some (none, c', st') => goC es (h, f + 1, c', st')
    | _ => none
  | .ev e :: es, (h, f, c, st) =>
    if validC c e then
      match Cache.execC id c st (.ev e) with
      | some (some o, c', st') => goC es ((e, o) :: h, f, c', st')
      | _ => none
    else none

theorem goC_hist {size : BitVec 64} : ∀ (es : List (Cache.Ev' Nat Nat)) {h h' f f' c c' st st'},
    Cache.CHist id size h f c st → goC es (h, f, c, st) = some (h', f', c', st') → Cache.CHist id size h' f' c' st'
  | [], h, h', f, f', c, c', st, st', hh, e => by
    simp only [goC, Option.some.injEq, Prod.mk.injEq] at e
    obtain ⟨rfl, rfl, rfl, rfl⟩ := e
    exact hh
  | .filtered k :: es, h, h', f, f', c, c', st, st', hh, e => by
    simp only [goC] at e
    split at e
    · rename_i c1 st1 e1; exact goC_hist es (.filtered hh e1) e
    · cases e
  | .ev ev :: es, h, h', f, f', c, c', st, st', hh, e => by
    simp only [goC] at e
    split at e
    · rename_i hv
      split at e
      · rename_i o c1 st1 e1
        refine goC_hist es (.ev hh ?_ e1) e
        cases ev with
        | store k r => simpa [Cache.Valid, validC] using hv
        | lookup k => trivial
        | clear => trivial
      · cases e
    · cases e

/-- The hypotheses of C58 are met by a history with a filtered operation, a hit, two misses, a discarded entry and a `clear()`. -/
example : ∃ h c st, Cache.CHist (K := Nat) (R := Nat) id 4#64 h 1 c st ∧ st.hits = 1 ∧ st.misses = 2 ∧ st.discarded = 1 ∧
    c.table.size = 1 ∧ h.length = 9 := by
  let es : List (Cache.Ev' Nat Nat) := [.filtered 7, .ev (.lookup 1), .ev (.store 1 10), .ev (.store 2 20), .ev (.store 3 30),
    .ev (.lookup 1), .ev (.store 8 80), .ev (.lookup 2), .ev .clear, .ev (.store 5 50)]
  have h : (((Cache.new 4#64).bind fun c => goC es ([], 0, c, ⟨0, 0, 0, 0⟩)).map fun p =>
      (p.2.1, p.2.2.2.hits, p.2.2.2.misses, p.2.2.2.discarded, p.2.2.1.table.size, p.1.length)) =
      some (1, 1, 2, 1, 1, 9) := by decide +kernel
  cases e0 : Cache.new (K := Nat) (R := Nat) 4#64 with
  | none => rw [e0] at h; cases h
  | some c =>
    rw [e0, Option.bind_some] at h
    cases e : goC es ([], 0, c, ⟨0, 0, 0, 0⟩) with
    | none => rw [e] at h; cases h
    | some p =>
      rw [e] at h
      simp only [Option.map_some, Option.some.injEq, Prod.mk.injEq] at h
      obtain ⟨h1, h2, h3, h4, h5, h6⟩ := h
      exact ⟨p.1, p.2.2.1, p.2.2.2, h1 ▸ goC_hist es (.new e0) e, h2, h3, h4, h5, h6⟩

/-- The SDD of the run above: the paths of variable 0 with value 0 or 2 (bits of 5). -/
def x : SDD (BitVec 8) := .flat 0 [(5#8, .one)]

theorem x_wf : WF (bitCfg none) x := by
  refine ⟨2, .flat _ _ _ _ rfl ?_ ?_⟩
  · refine ⟨by simp, ?_, by simp, by simp, by simp⟩
    intro arc harc
    rw [List.mem_singleton] at harc
    subst harc
    exact ⟨2, by show (5#8).getLsbD 2 = true; decide⟩
  · intro arc harc
    rw [List.mem_singleton] at harc
    subst harc
    exact .one _ trivial

/-- The hypotheses of `C01_pointer_equality` are met: the SDD is in memory at the end of the run, where it was first built. -/
example : ∃ s, Reach hash bytes 1#64 4 s ∧ WF (bitCfg none) x ∧ Denotes s x.tree 300 := by
  have h : ∀ a k, (a, k) ∈ [(300, (SLabel.flat 0, [200, 100])), (200, (.values 5#8, [])), (100, (.one, []))] →
      ((go ops (init 1#64 4, ⟨0, 0, 0, 0⟩)).bind fun p => (p.1.cells a).map fun c => c.key) = some k := by
    have : ∀ e ∈ [(300, (SLabel.flat 0, [200, 100])), (200, (.values 5#8, [])), (100, (.one, []))],
      ((go ops (init 1#64 4, ⟨0, 0, 0, 0⟩)).bind fun p => (p.1.cells e.1).map fun c => c.key) = some e.2 := by
      decide +kernel
    exact fun a k hm => this (a, k) hm
  cases e : go ops (init 1#64 4, ⟨0, 0, 0, 0⟩) with
  | none => rw [e] at h; cases h 100 (.one, []) (by simp)
  | some p =>
    rw [e] at h
    simp only [Option.bind_some, Option.map_eq_some_iff] at h
    obtain ⟨⟨_, b1⟩, h1, rfl⟩ := h 300 (.flat 0, [200, 100]) (by simp)
    obtain ⟨⟨_, b2⟩, h2, rfl⟩ := h 200 (.values 5#8, []) (by simp)
    obtain ⟨⟨_, b3⟩, h3, rfl⟩ := h 100 (.one, []) (by simp)
    obtain ⟨tr, hr, _⟩ := go_run ops .init e
    exact ⟨p.1, (hr.spec (by decide) (by decide)).1, x_wf, ⟨_, _, h1, ⟨_, _, h2, trivial⟩, ⟨_, _, h3, trivial⟩, trivial⟩⟩

end DemoS

end Verif
