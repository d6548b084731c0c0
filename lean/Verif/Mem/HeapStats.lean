import Verif.Mem.HeapSem
/-!
# Statistics of the unique table

`/repo/sdd/mem/unique_table.hh:17-53,158-169`.
-/

set_option autoImplicit false
set_option linter.unusedSectionVars false

namespace Verif

namespace HT
variable {α : Type} {hash : α → Nat} {eq : α → α → Bool}

/-- The load is below the maximum, and the number of buckets is the first one (`b`) doubled at each rehash.
(Specification or proof device, not part of the code.) -/
def Load (b : Nat) (t : HT α) : Prop :=
  4 * t.size < 3 * t.buckets.length ∧ t.buckets.length = b * 2 ^ t.nbRehash

theorem erase_load {b : Nat} {x : α} {t t' : HT α} (h : erase hash eq x t = some t') (hl : Load b t) :
    Load b t' := by
  unfold erase at h
  split at h
  · cases h
  · split at h
    · cases h
      refine ⟨?_, by simpa using hl.2⟩
      have := hl.1
      simp only [List.length_set]
      omega
    · cases h

theorem insertImpl_length {x : α} {bs bs' : List (List α)} {r : α × Bool}
    (h : insertImpl hash eq x bs = some (r, bs')) : bs'.length = bs.length := by
  unfold insertImpl at h
  split at h
  · cases h
  · split at h <;> cases h <;> simp

theorem foldlM_length : ∀ (l : List α) (st st' : List (List α) × Nat),
    l.foldlM (rehashStep hash eq) st = some st' → st'.1.length = st.1.length
  | [], st, st', h => by cases h; rfl
  | x :: l, st, st', h => by
    rw [List.foldlM_cons] at h
    cases e : rehashStep hash eq st x with
    | none => rw [e] at h; cases h
    | some st1 =>
      rw [e] at h
      rw [foldlM_length l st1 st' h]
      unfold rehashStep at e
      split at e
      · cases e
      · rename_i r bs h1
        cases e
        exact insertImpl_length h1

theorem rehash_length {t t' : HT α} (h : rehash hash eq t = some t') :
    (t'.nbRehash = t.nbRehash ∧ t'.buckets.length = t.buckets.length) ∨
      (t'.nbRehash = t.nbRehash + 1 ∧ t'.buckets.length = t.buckets.length * 2) := by
  unfold rehash at h
  split at h
  · cases h; exact .inl ⟨rfl, rfl⟩
  · split at h
    · cases h
    · rename_i bs n h4
      cases h
      have := foldlM_length _ _ _ h4
      simp only [List.length_replicate] at this
      exact .inr ⟨rfl, this⟩

theorem insert_load {b : Nat} {x : α} {t t' : HT α} {r : α × Bool} (hc : Compat hash eq) (hi : Inv hash eq t)
    (h : insert hash eq x t = some (r, t')) (hl : Load b t) : Load b t' := by
  obtain ⟨t2, e, _, _, h2⟩ := insert_spec hc hi x
  rw [h] at e
  cases e
  refine ⟨h2 hl.1, ?_⟩
  unfold insert at h
  split at h
  · cases h
  · rename_i r bs h1
    have hb := insertImpl_length h1
    split at h
    · cases h
    · rename_i t3 h3
      cases h
      rcases rehash_length h3 with ⟨e1, e2⟩ | ⟨e1, e2⟩
      · rw [e1, e2, hb, hl.2]
      · rw [e1, e2, hb, hl.2, Nat.pow_succ, Nat.mul_assoc]

/-- `collisions()` counts the elements: each bucket which is not empty has one, or at least two. -/
theorem collisions_le (t : HT α) : t.collisions.2.1 + 2 * t.collisions.1 ≤ t.elems.length ∧
    (t.collisions.1 = 0 → t.elems.length = t.collisions.2.1) := by
  obtain ⟨_, h1, h2, _⟩ := collisions_spec t
  rw [h1, h2]
  unfold elems
  generalize t.buckets = bs
  induction bs with
  | nil => simp
  | cons b bs ih =>
    simp only [List.countP_cons, List.flatten_cons, List.length_append, decide_eq_true_eq]
    obtain ⟨ih1, ih2⟩ := ih
    constructor
    · split <;> split <;> omega
    · intro h
      split at h
      · omega
      · have := ih2 (by omega)
        split <;> omega

end HT

namespace Heap
variable {L : Type} [DecidableEq L] {hash : Key L → Nat} {bytes : Key L → Nat}

/-- A cascade of deletions only removes objects. -/
theorem destroy_only : ∀ (n : Nat) (P : List Item) {s s' : State L} {b : Nat}, destroy hash n P s = some s' →
    (∀ a c, s'.cells a = some c → s.cells a = some c) ∧ (HT.Load b s.table → HT.Load b s'.table) := by
  intro n
  induction n with
  | zero =>
    intro P s s' b h
    cases P with
    | nil => simp only [destroy, Option.some.injEq] at h; subst h; exact ⟨fun _ _ h => h, fun h => h⟩
    | cons i P => simp [destroy] at h
  | succ n ih =>
    intro P s s' b h
    cases P with
    | nil => simp only [destroy, Option.some.injEq] at h; subst h; exact ⟨fun _ _ h => h, fun h => h⟩
    | cons i P =>
      cases i with
      | free a =>
        simp only [destroy, free] at h
        split at h
        · simp only [Option.bind_some] at h
          obtain ⟨h1, h2⟩ := ih P (b := b) h
          refine ⟨fun a' c hc => ?_, h2⟩
          have := h1 a' c hc
          simp only at this
          by_cases e : a' = a
          · subst e; rw [Function.update_self] at this; cases this
          · rw [Function.update_of_ne e] at this; exact this
        · cases h
      | dec a =>
        simp only [destroy] at h
        split at h
        · cases h
        · split at h
          · cases h
          · split at h
            · split at h
              · cases h
              · rename_i t ht
                obtain ⟨h1, h2⟩ := ih _ (b := b) h
                exact ⟨h1, fun hl => h2 (HT.erase_load ht hl)⟩
            · exact ih P (s := { s with refs := Function.update s.refs a (s.refs a - 1) }) (b := b) h

theorem inc_only {a : Addr} {s s' : State L} (h : inc a s = some s') : s'.cells = s.cells ∧ s'.table = s.table := by
  unfold inc at h
  split at h
  · cases h
  · cases h; exact ⟨rfl, rfl⟩

theorem incs_only : ∀ (as : List Addr) {s s' : State L}, incs as s = some s' → s'.table = s.table
  | [], s, s', h => by simp only [incs, List.foldlM_nil] at h; cases h; rfl
  | a :: as, s, s', h => by
    simp only [incs, List.foldlM_cons] at h
    cases e : inc a s with
    | none => rw [e] at h; cases h
    | some s1 =>
      rw [e] at h
      rw [incs_only as h, (inc_only e).2]

theorem recycle_only {a n : Nat} {s s' : State L} (h : recycle a n s = some s') : s'.table = s.table := by
  unfold recycle at h
  split at h
  · split at h
    · unfold release at h
      split at h
      · cases h; rfl
      · cases h
    · unfold release at h
      split at h
      · cases h; rfl
      · cases h
  · cases h; rfl

theorem allocate_table (n fr : Nat) (s : State L) : (allocate n fr s).2.table = s.table := by
  unfold allocate
  split
  · split <;> rfl
  · rfl

theorem unify_load {b : Nat} {l : L} {kids : List Addr} {fr a : Addr} {s s' : State L}
    (hi : HT.Inv (hashE hash) eqE s.table) (h : unify hash bytes l kids fr s = some (a, s'))
    (hl : HT.Load b s.table) : HT.Load b s'.table := by
  unfold unify at h
  simp only at h
  split at h
  · split at h
    · cases h
    · rename_i s1 h1
      have ht := (incs_only _ h1).trans (allocate_table _ _ s)
      split at h
      · cases h
      · rename_i t h2
        cases h
        rw [ht] at h2
        exact HT.insert_load compatE hi h2 hl
      · rename_i e t h2
        rw [ht] at h2
        split at h
        · cases h
        · rename_i s2 h3
          have := (destroy_only _ _ (b := b) h3).2 (HT.insert_load compatE hi h2 hl)
          cases e4 : recycle (allocate (bytes (l, kids)) fr s).1 (bytes (l, kids)) s2 with
          | none => rw [e4] at h; cases h
          | some s3 =>
            rw [e4] at h
            cases h
            rw [recycle_only e4]
            exact this
  · cases h

/-- Is it a unification? (Specification or proof device, not part of the code.) -/
def Op.isCreate : Op L → Bool
  | .create _ _ _ _ => true
  | _ => false

/-- What statements do to the objects (only a creation adds one, and it keeps all others) and to the load. -/
theorem exec_only {s s' : State L} {op : Op L} {b : Nat} (h : Inv hash [] s) (hv : Valid s op)
    (he : exec hash bytes s op = some s') :
    ((∀ a c, s'.cells a = some c → s.cells a = some c) ∨
      (op.isCreate = true ∧ ∀ a c, s.cells a = some c → s'.cells a = some c)) ∧
      (HT.Load b s.table → HT.Load b s'.table) := by
  cases op with
  | create v l ks fr =>
    obtain ⟨hv, hks, hfr⟩ := hv
    obtain ⟨kids, e, hf⟩ := mapM_target hks
    have hk : ∀ k ∈ kids, (s.cells k).isSome := by
      intro a ha
      have : ∀ {ks : List Nat} {as : List Addr},
          List.Forall₂ (fun k a => s.vars[k]? = some (Slot.live a)) ks as →
          a ∈ as → (s.cells a).isSome := by
        intro ks as hf
        induction hf with
        | nil => simp
        | cons h1 _ ih =>
          intro hm
          rcases List.mem_cons.1 hm with rfl | hm
          · obtain ⟨c, hc⟩ := h.cell_of_var h1
            rw [hc]; rfl
          · exact ih hm
      exact this hf ha
    obtain ⟨a, s1, s2, c, e1, e2, e3, i, hkeep, _⟩ := create_spec (bytes := bytes) (l := l) h hv hk hfr
    simp only [exec, hv, e, e1, e2, Option.map_some, Option.some.injEq] at he
    subst he
    refine ⟨.inr ⟨rfl, hkeep⟩, fun hl => ?_⟩
    simp only [(inc_only e2).2]
    exact unify_load h.ht e1 hl
  | copy v w =>
    simp only [exec] at he
    split at he
    · rename_i a _ _
      cases e : inc a s with
      | none => rw [e] at he; cases he
      | some s1 =>
        rw [e] at he
        cases he
        simp only [(inc_only e).1, (inc_only e).2]
        exact ⟨.inl fun _ _ h => h, fun h => h⟩
    · cases he
  | move v w =>
    simp only [exec] at he
    split at he
    · cases he; exact ⟨.inl fun _ _ h => h, fun h => h⟩
    · cases he; exact ⟨.inl fun _ _ h => h, fun h => h⟩
    · cases he
  | copyAssign v w =>
    simp only [exec] at he
    split at he
    · rename_i b' _ _
      cases e : inc b' s with
      | none => rw [e] at he; cases he
      | some s1 =>
        rw [e] at he
        cases he
        simp only [(inc_only e).1, (inc_only e).2]
        exact ⟨.inl fun _ _ h => h, fun h => h⟩
    · rename_i a b' _ _
      split at he
      · cases he
      · rename_i s1 h1
        obtain ⟨h2, h3⟩ := destroy_only _ _ (b := b) h1
        cases e : inc b' s1 with
        | none => rw [e] at he; cases he
        | some s2 =>
          rw [e] at he
          cases he
          simp only [(inc_only e).1, (inc_only e).2]
          exact ⟨.inl h2, h3⟩
    · cases he
  | moveAssign v w =>
    simp only [exec] at he
    split at he
    · split at he
      · cases he
      · cases he; exact ⟨.inl fun _ _ h => h, fun h => h⟩
    · rename_i a _ _ _
      split at he
      · cases he
      · cases e : drop hash a s with
        | none => rw [e] at he; cases he
        | some s1 =>
          obtain ⟨h2, h3⟩ := destroy_only _ _ (b := b) e
          rw [e] at he
          cases he
          exact ⟨.inl h2, h3⟩
    · cases he
  | destroy v =>
    simp only [exec] at he
    split at he
    · cases he; exact ⟨.inl fun _ _ h => h, fun h => h⟩
    · rename_i a _
      cases e : drop hash a s with
      | none => rw [e] at he; cases he
      | some s1 =>
        obtain ⟨h2, h3⟩ := destroy_only _ _ (b := b) e
        rw [e] at he
        cases he
        exact ⟨.inl h2, h3⟩
    · cases he
  | swap v w =>
    simp only [exec] at he
    split at he
    · split at he
      · cases he
      · cases he; exact ⟨.inl fun _ _ h => h, fun h => h⟩
    · cases he
  | read v w i =>
    simp only [exec] at he
    split at he
    · rename_i a _ _
      cases e : inc a s with
      | none => rw [e] at he; cases he
      | some s1 =>
        rw [e] at he
        cases he
        simp only [(inc_only e).1, (inc_only e).2]
        exact ⟨.inl fun _ _ h => h, fun h => h⟩
    · cases he
  | readAssign v w i =>
    simp only [exec] at he
    split at he
    · simp only [Option.bind_eq_some_iff, Option.map_eq_some_iff] at he
      obtain ⟨k, _, s1, e, rfl⟩ := he
      simp only [(inc_only e).1, (inc_only e).2]
      exact ⟨.inl fun _ _ h => h, fun h => h⟩
    · split at he
      · cases he
      · split at he
        · cases he
        · rename_i s1 h1
          obtain ⟨h2, h3⟩ := destroy_only _ _ (b := b) h1
          simp only [Option.bind_eq_some_iff, Option.map_eq_some_iff] at he
          obtain ⟨k, _, s2, e, rfl⟩ := he
          simp only [(inc_only e).1, (inc_only e).2]
          exact ⟨.inl h2, h3⟩
    · cases he

mutual
theorem denotes_sub {s s' : State L} (hk : ∀ a c, s.cells a = some c → s'.cells a = some c) :
    ∀ (t : Tree L) {a : Addr}, Denotes s t a → Denotes s' t a
  | .node _ ts, a, ⟨kids, b, ha, hkids⟩ => ⟨kids, b, hk a _ ha, denotesL_sub hk ts hkids⟩
theorem denotesL_sub {s s' : State L} (hk : ∀ a c, s.cells a = some c → s'.cells a = some c) :
    ∀ (ts : List (Tree L)) {as : List Addr}, DenotesL s ts as → DenotesL s' ts as
  | [], [], _ => trivial
  | t :: ts, a :: as, ⟨h1, h2⟩ => ⟨denotes_sub hk t h1, denotesL_sub hk ts h2⟩
  | [], _ :: _, h => by simp [DenotesL] at h
  | _ :: _, [], h => by simp [DenotesL] at h
end

/-- A datum does not move: it is at the same address before and after any statement, when it is in memory before and
after. -/
theorem exec_stable {s s' : State L} {op : Op L} (h : Inv hash [] s) (hv : Valid s op)
    (he : exec hash bytes s op = some s') {t : Tree L} {a a' : Addr} (ha : Denotes s t a)
    (ha' : Denotes s' t a') : a = a' := by
  obtain ⟨s1, e1, i1, _⟩ := exec_inv (bytes := bytes) h hv
  rw [he] at e1
  cases e1
  rcases (exec_only (b := 0) h hv he).1 with hs | ⟨_, hs⟩
  · exact denotes_inj h t ha (denotes_sub hs t ha')
  · exact denotes_inj i1 t (denotes_sub hs t ha) ha'

/-! ## Counters -/

/-- The counters of `unique_table_statistics` which are updated by unifications,
`/repo/sdd/mem/unique_table.hh:17-53`. -/
structure TStats where
  peak : Nat
  access : Nat
  hits : Nat
  misses : Nat

/-- The second component of the insertion in the table made by `unify`: is the datum new?
`/repo/sdd/mem/unique_table.hh:100`. -/
def insertion (hash bytes : Key L → Nat) (l : L) (kids : List Addr) (fr : Addr) (s : State L) : Option Bool :=
  let r := allocate (bytes (l, kids)) fr s
  (incs kids r.2).bind fun s1 => (HT.insert (hashE hash) eqE (r.1, (l, kids)) s1.table).map fun p => p.1.2

/-- The updates of the counters by a unification, `/repo/sdd/mem/unique_table.hh:97-121`; `size` is `set_.size()` after the
insertion. -/
def TStats.unify (st : TStats) (ins : Bool) (size : Nat) : TStats :=
  if ins then { st with access := st.access + 1, misses := st.misses + 1, peak := max st.peak size }
  else { st with access := st.access + 1, hits := st.hits + 1 }

/-- The execution of a statement with the counters.  (After a new datum has been inserted, the table does not change any more
until the end of the statement, hence `s'.table.size`.) (`/repo/sdd/mem/unique_table.hh`, lines 95-170.) -/
def execT (hash bytes : Key L → Nat) (s : State L) (st : TStats) (op : Op L) : Option (State L × TStats) :=
  (exec hash bytes s op).bind fun s' =>
    match op with
    | .create _ l ks fr =>
      (ks.mapM (target s)).bind fun kids =>
        (insertion hash bytes l kids fr s).map fun ins => (s', st.unify ins s'.table.size)
    | _ => some (s', st)

/-- What `stats()` returns, `/repo/sdd/mem/unique_table.hh:158-169`: size, peak, numerator and denominator of the load factor,
accesses, hits, misses, rehashes, collisions, alone, empty, buckets. -/
structure TReport where
  size : Nat
  peak : Nat
  loadNum : Nat
  loadDen : Nat
  access : Nat
  hits : Nat
  misses : Nat
  rehash : Nat
  collisions : Nat
  alone : Nat
  empty : Nat
  buckets : Nat

/-- `stats()`, `/repo/sdd/mem/unique_table.hh:158-169`. -/
def report (s : State L) (st : TStats) : TReport :=
  { size := s.table.size
    peak := st.peak
    loadNum := s.table.size
    loadDen := s.table.buckets.length
    access := st.access
    hits := st.hits
    misses := st.misses
    rehash := s.table.nbRehash
    collisions := s.table.collisions.1
    alone := s.table.collisions.2.1
    empty := s.table.collisions.2.2
    buckets := s.table.buckets.length }

/-- The executions with counters: the statements with the states before and after them, from the last one.
(Specification or proof device, not part of the code.) -/
inductive TRun (hash bytes : Key L → Nat) (size : BitVec 64) (n : Nat) :
    List (State L × Op L × State L) → State L → TStats → Prop where
  | init : TRun hash bytes size n [] (init size n) ⟨0, 0, 0, 0⟩
  | step {tr : List (State L × Op L × State L)} {s s' : State L} {st st' : TStats} {op : Op L} :
      TRun hash bytes size n tr s st → Valid s op → execT hash bytes s st op = some (s', st') →
      TRun hash bytes size n ((s, op, s') :: tr) s' st'

/-- Specification: the statement unifies a datum which is already in memory. -/
def Known (s : State L) : Op L → Prop
  | .create _ l ks _ => ∃ ts a, List.Forall₂ (Holds s) ks ts ∧ Denotes s (.node l ts) a
  | _ => False

/-- The number of objects in memory is the size of the table. -/
theorem Inv.size {s : State L} (h : Inv hash [] s) : ∃ as : List Addr, as.Nodup ∧
    (∀ a, a ∈ as ↔ (s.cells a).isSome) ∧ s.table.size = as.length := by
  refine ⟨s.table.elems.map Prod.fst, ?_, fun a => ?_, by rw [h.ht.size, List.length_map]⟩
  · have hd := h.ht.distinct
    rw [List.Nodup, List.pairwise_map]
    refine hd.imp_of_mem fun {x y} hx hy hxy e => ?_
    obtain ⟨c, hc, h1, _⟩ := (h.table x.1 x.2).1 hx
    obtain ⟨d, hd, h2, _⟩ := (h.table y.1 y.2).1 hy
    rw [e, hd] at hc
    cases hc
    have : x.2 = y.2 := h1.symm.trans h2
    simp [eqE, this] at hxy
  · constructor
    · intro ha
      obtain ⟨⟨b, k⟩, he, rfl⟩ := List.mem_map.1 ha
      obtain ⟨c, hc, _⟩ := (h.table b k).1 he
      rw [hc]; rfl
    · intro ha
      obtain ⟨c, hc⟩ := Option.isSome_iff_exists.1 ha
      exact List.mem_map.2 ⟨(a, c.key), (h.table a c.key).2 ⟨c, hc, rfl, by simp⟩, rfl⟩

/-- Unification is a hit exactly when the datum is known. -/
theorem insertion_spec {s : State L} (h : Inv hash [] s) {v : Nat} {l : L} {ks : List Nat} {fr : Addr}
    (hv : Valid s (.create v l ks fr)) {kids : List Addr} (hk : ks.mapM (target s) = some kids) :
    ∃ ins, insertion hash bytes l kids fr s = some ins ∧ (ins = false ↔ Known s (.create v l ks fr)) := by
  obtain ⟨hv, hks, hfr⟩ := hv
  obtain ⟨kids', e, hf⟩ := mapM_target hks
  rw [hk] at e
  cases e
  have hcell : ∀ k ∈ kids, (s.cells k).isSome := by
    intro a ha
    have : ∀ {ks : List Nat} {as : List Addr},
        List.Forall₂ (fun k a => s.vars[k]? = some (Slot.live a)) ks as →
        a ∈ as → (s.cells a).isSome := by
      intro ks as hf
      induction hf with
      | nil => simp
      | cons h1 _ ih =>
        intro hm
        rcases List.mem_cons.1 hm with rfl | hm
        · obtain ⟨c, hc⟩ := h.cell_of_var h1
          rw [hc]; rfl
        · exact ih hm
    exact this hf ha
  have hal : (allocate (bytes (l, kids)) fr s).2.cells = s.cells := by
    unfold allocate
    split
    · split <;> rfl
    · rfl
  obtain ⟨t, et, hx⟩ := HT.insert_spec compatE h.ht ((allocate (bytes (l, kids)) fr s).1, (l, kids))
  refine ⟨(s.table.elems.find? (eqE ((allocate (bytes (l, kids)) fr s).1, (l, kids)))).isNone, ?_, ?_⟩
  · unfold insertion
    simp only
    rw [incs_eq kids _ (by rw [hal]; exact hcell)]
    simp only [Option.bind_some]
    rw [allocate_table, et]
    rfl
  · rw [← Bool.not_eq_true, Option.isNone_iff_eq_none, List.find?_eq_none]
    push Not
    constructor
    · rintro ⟨⟨a, k⟩, he, hq⟩
      obtain ⟨c, hc, rfl, _⟩ := (h.table a k).1 he
      have hkey : c.key = (l, kids) := by simpa [eqE, eq_comm] using hq
      obtain ⟨ts, h1, h2⟩ : ∃ ts, List.Forall₂ (Holds s) ks ts ∧ DenotesL s ts kids := by
        clear hk hq hkey hks hcell hal et hfr hx
        induction hf with
        | nil => exact ⟨[], .nil, trivial⟩
        | @cons k b ks as h1 _ ih =>
          obtain ⟨ts, h2, h3⟩ := ih
          obtain ⟨c, hc⟩ := h.cell_of_var h1
          obtain ⟨t, ht⟩ := h.denotes_total (a := b) (by rw [hc]; rfl)
          exact ⟨t :: ts, .cons ⟨b, h1, ht⟩ h2, ht, h3⟩
      exact ⟨ts, a, h1, kids, c.birth, by rw [hc, ← hkey], h2⟩
    · rintro ⟨ts, a, h1, kids', b, ha, h2⟩
      have h3 := denotesL_inj h ts h2 (holdsL h1 hf)
      subst h3
      exact ⟨(a, (l, kids')), (h.table a _).2 ⟨_, ha, rfl, by simp⟩, by simp [eqE]⟩

theorem incs_cells : ∀ (as : List Addr) {s s' : State L}, incs as s = some s' → s'.cells = s.cells
  | [], s, s', h => by simp only [incs, List.foldlM_nil] at h; cases h; rfl
  | a :: as, s, s', h => by
    simp only [incs, List.foldlM_cons] at h
    cases e : inc a s with
    | none => rw [e] at h; cases h
    | some s1 =>
      rw [e] at h
      rw [incs_cells as h, (inc_only e).1]

theorem recycle_cells {a n : Nat} {s s' : State L} (h : recycle a n s = some s') : s'.cells = s.cells := by
  unfold recycle at h
  split at h
  · split at h
    · unfold release at h
      split at h
      · cases h; rfl
      · cases h
    · unfold release at h
      split at h
      · cases h; rfl
      · cases h
  · cases h; rfl

theorem allocate_cells (n fr : Nat) (s : State L) : (allocate n fr s).2.cells = s.cells := by
  unfold allocate
  split
  · split <;> rfl
  · rfl

/-- When the datum is known no object is added. -/
theorem unify_hit {l : L} {kids : List Addr} {fr a : Addr} {s s' : State L}
    (h : unify hash bytes l kids fr s = some (a, s')) (hi : insertion hash bytes l kids fr s = some false) :
    ∀ b c, s'.cells b = some c → s.cells b = some c := by
  unfold unify at h
  unfold insertion at hi
  simp only at h hi
  split at h
  · split at h
    · cases h
    · rename_i s1 h1
      rw [h1] at hi
      simp only [Option.bind_some] at hi
      split at h
      · cases h
      · rename_i t h2
        rw [h2] at hi
        cases hi
      · rename_i e t h2
        split at h
        · cases h
        · rename_i s2 h3
          have := (destroy_only _ _ (b := 0) h3).1
          cases e4 : recycle (allocate (bytes (l, kids)) fr s).1 (bytes (l, kids)) s2 with
          | none => rw [e4] at h; cases h
          | some s3 =>
            rw [e4] at h
            cases h
            rw [recycle_cells e4]
            intro b c hc
            have := this b c hc
            simp only [incs_cells _ h1, allocate_cells] at this
            exact this
  · cases h

theorem size_le {s s' : State L} (h : Inv hash [] s) (h' : Inv hash [] s')
    (hs : ∀ b c, s'.cells b = some c → s.cells b = some c) : s'.table.size ≤ s.table.size := by
  obtain ⟨as, hn, hm, e⟩ := h.size
  obtain ⟨bs, hn', hm', e'⟩ := h'.size
  rw [e, e']
  refine List.Nodup.length_le_of_subset hn' fun a ha => (hm a).2 ?_
  obtain ⟨c, hc⟩ := Option.isSome_iff_exists.1 ((hm' a).1 ha)
  rw [hs a c hc]; rfl

open Classical in
/-- What the counters count. -/
theorem TRun.spec {size : BitVec 64} (h1 : 1 ≤ size.toNat) (h2 : size.toNat ≤ 2 ^ 63) {n : Nat}
    {tr : List (State L × Op L × State L)} {s : State L} {st : TStats} (hr : TRun hash bytes size n tr s st) :
    Reach hash bytes size n s ∧ HT.Load (nextPower64 size).toNat s.table ∧
    (∀ e ∈ tr, Reach hash bytes size n e.2.2) ∧ s.table.size ≤ st.peak ∧
    (∀ e ∈ tr, e.2.2.table.size ≤ st.peak) ∧ (st.peak = 0 ∨ ∃ e ∈ tr, e.2.2.table.size = st.peak) ∧
    st.access = tr.countP (fun e => e.2.1.isCreate) ∧
    st.hits = tr.countP (fun e => decide (Known e.1 e.2.1)) ∧ st.hits + st.misses = st.access := by
  induction hr with
  | init =>
    have := (HT.new_inv (hashE hash) (eqE (L := L)) h1 h2).2.2
    refine ⟨.init, ⟨this, by simp [Heap.init, HT.new]⟩, by simp, ?_, by simp, by simp, by simp, by simp, rfl⟩
    exact Nat.le_refl _
  | @step tr s s' st st' op hr hv he ih =>
    obtain ⟨r, hl, hrs, hpk, hall, hex, ha, hh, hsum⟩ := ih
    have i := reach_inv h1 h2 r
    obtain ⟨s1, e1, i1, _⟩ := exec_inv (bytes := bytes) i hv
    have r' : Reach hash bytes size n s1 := .step r hv e1
    have ho := exec_only (b := (nextPower64 size).toNat) i hv e1
    unfold execT at he
    rw [e1] at he
    simp only [Option.bind_some] at he
    have hrs' : ∀ e ∈ (s, op, s1) :: tr, Reach hash bytes size n e.2.2 := by
      intro e he
      rcases List.mem_cons.1 he with rfl | he
      · exact r'
      · exact hrs e he
    cases op with
    | create v l ks fr =>
      simp only at he
      obtain ⟨kids, ek, hf⟩ := mapM_target hv.2.1
      obtain ⟨ins, ei, hi⟩ := insertion_spec (bytes := bytes) i hv ek
      rw [ek] at he
      simp only [Option.bind_some] at he
      rw [ei] at he
      simp only [Option.map_some, Option.some.injEq, Prod.mk.injEq] at he
      obtain ⟨rfl, rfl⟩ := he
      refine ⟨r', ho.2 hl, hrs', ?_⟩
      cases ins with
      | true =>
        have hnk : ¬ Known s (.create v l ks fr) := fun hk => by cases hi.2 hk
        simp only [TStats.unify, if_true]
        refine ⟨Nat.le_max_right _ _, ?_, ?_, by simp [Op.isCreate, ha], by simp [hnk, hh], by omega⟩
        · intro e he
          rcases List.mem_cons.1 he with rfl | he
          · exact Nat.le_max_right _ _
          · exact Nat.le_trans (hall e he) (Nat.le_max_left _ _)
        · rcases Nat.le_total st.peak s1.table.size with hle | hle
          · exact .inr ⟨_, List.mem_cons_self, by simp only; omega⟩
          · rw [Nat.max_eq_left hle]
            rcases hex with h0 | ⟨e, he, h0⟩
            · exact .inl h0
            · exact .inr ⟨e, List.mem_cons_of_mem _ he, h0⟩
      | false =>
        have hk : Known s (.create v l ks fr) := hi.1 rfl
        simp only [TStats.unify, Bool.false_eq_true, if_false]
        have hle : s1.table.size ≤ s.table.size := by
          refine size_le i i1 ?_
          simp only [exec, hv.1, ek] at e1
          split at e1
          · cases e1
          · rename_i a s2 h3
            cases e5 : inc a s2 with
            | none => rw [e5] at e1; cases e1
            | some s3 =>
              rw [e5] at e1
              cases e1
              simp only [(inc_only e5).1]
              exact unify_hit h3 ei
        refine ⟨by omega, ?_, ?_, by simp [Op.isCreate, ha], by simp [hk, hh], by omega⟩
        · intro e he
          rcases List.mem_cons.1 he with rfl | he
          · simp only; omega
          · exact hall e he
        · rcases hex with h0 | ⟨e, he, h0⟩
          · exact .inl h0
          · exact .inr ⟨e, List.mem_cons_of_mem _ he, h0⟩
    | _ =>
      simp only [Option.some.injEq, Prod.mk.injEq] at he
      obtain ⟨rfl, rfl⟩ := he
      have hle : s1.table.size ≤ s.table.size := by
        rcases ho.1 with hs | ⟨h0, _⟩
        · exact size_le i i1 hs
        · cases h0
      refine ⟨r', ho.2 hl, hrs', by omega, ?_, ?_, by simp [Op.isCreate, ha], by simp [Known, hh], hsum⟩
      · intro e he
        rcases List.mem_cons.1 he with rfl | he
        · simp only; omega
        · exact hall e he
      · rcases hex with h0 | ⟨e, he, h0⟩
        · exact .inl h0
        · exact .inr ⟨e, List.mem_cons_of_mem _ he, h0⟩

end Heap
end Verif
