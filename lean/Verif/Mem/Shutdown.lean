import Verif.Mem.HeapSem
/-!
# The end of the library

The destruction of the last copy of a manager: `manager_impl` (`/repo/sdd/manager.hh:167-187`), then `internal_manager`
(`/repo/sdd/internal_manager.hh:50-90`) and the values manager (`/repo/sdd/values/flat_set.hh:341-357`). Members are destroyed in
the reverse order of their declarations. Handles held by members are destroyed with them, which may delete data, hence use the
deletion handlers and the unique tables: these must still exist.
-/

set_option autoImplicit false
set_option linter.unusedSectionVars false

namespace Verif
namespace Heap

/-- The types of unified data: sets of values, SDDs, homomorphisms.
(`/repo/sdd/internal_manager.hh`, lines 50-105; `/repo/sdd/values/flat_set.hh`, lines 328-390.) -/
inductive Kind : Type where
  | values
  | sdd
  | hom
  deriving DecidableEq

/-- Data hold pointers to data of the same type or of a lower one: SDDs to values and SDDs (`/repo/sdd/dd/alpha.hh`), homomorphisms to
homomorphisms, SDDs and values (`/repo/sdd/hom/cons.hh:25-34`, `/repo/sdd/hom/constant.hh`). -/
def Kind.rank : Kind → Nat
  | .values => 0
  | .sdd => 1
  | .hom => 2

section
variable {L : Type} [DecidableEq L] (hash : Key L → Nat) (bytes : Key L → Nat) (lk : L → Kind)

/-- `destroy` (see `Verif.Mem.Heap`), when the unique table and the deletion handler of the type `k` exist only if `up k`; `none` when
one which does not exist is used (`/repo/sdd/mem/ptr.hh:38-44`, `/repo/sdd/internal_manager.hh:56-57`). -/
def destroyU (up : Kind → Bool) : Nat → List Item → State L → Option (State L)
  | _, [], s => some s
  | 0, _ :: _, _ => none
  | n + 1, .free a :: is, s => (free a s).bind (destroyU up n is)
  | n + 1, .dec a :: is, s =>
    match s.cells a with
    | none => none
    | some c =>
      if s.refs a = 0 then none
      else
        let s' := { s with refs := Function.update s.refs a (s.refs a - 1) }
        if s.refs a = 1 then
          if up (lk c.key.1) then
            match HT.erase (hashE hash) eqE (a, c.key) s'.table with
            | none => none
            | some t => destroyU up n (c.key.2.map Item.dec ++ Item.free a :: is) { s' with table := t }
          else none
        else destroyU up n is s'

/-- The library being destroyed: its memory, the unique tables which still exist, the deletion handlers still set.  (The model has one
table and one spare block for all types of data; here only their existence is distinguished.) (`/repo/sdd/manager.hh`, lines 168-187.) -/
structure Man (L : Type) where
  heap : State L
  table : Kind → Bool
  handler : Kind → Bool

/-- What the destruction of a member does. (`/repo/sdd/manager.hh`, lines 168-187; `/repo/sdd/internal_manager.hh`; `/repo/sdd/values_manager.hh`.) -/
inductive MStep : Type where
  /-- the destruction of a handle -/
  | handle (v : Nat)
  /-- the destruction of a unique table -/
  | table (k : Kind)
  /-- `reset_deletion_handler`, `/repo/sdd/mem/ptr.hh:38-44` -/
  | handler (k : Kind)

/-- The release of the block kept by the unique tables (`cache_`, `/repo/sdd/mem/unique_table.hh:75`). -/
def freeSpare (s : State L) : Option (State L) :=
  match s.spare with
  | none => some s
  | some (a, _) => (release a s).map fun s' => { s' with spare := none }

/-- One step. The spare block is released with the last table. A table or a handler is destroyed once.
(`/repo/sdd/manager.hh`, lines 168-187; `/repo/sdd/internal_manager.hh`; `/repo/sdd/values_manager.hh`.) -/
def mstep (m : Man L) : MStep → Option (Man L)
  | .handle v =>
    match m.heap.vars[v]? with
    | some .moved => some { m with heap := { m.heap with vars := m.heap.vars.set v .dead } }
    | some (.live a) =>
      (destroyU hash lk (fun k => m.table k && m.handler k) (steps m.heap) [.dec a] m.heap).map fun s =>
        { m with heap := { s with vars := s.vars.set v .dead } }
    | _ => none
  | .table k =>
    if m.table k then
      (if k = .values then freeSpare m.heap else some m.heap).map fun s =>
        { m with heap := s, table := Function.update m.table k false }
    else none
  | .handler k => if m.handler k then some { m with handler := Function.update m.handler k false } else none

/-- Several steps. (`/repo/sdd/manager.hh`, lines 168-187.) -/
def msteps (m : Man L) (l : List MStep) : Option (Man L) := l.foldlM (mstep hash lk) m

/-- The handles held by the members of the managers. The caches of SDD operations are shared by `sdd_context` and `hom_context`
(`/repo/sdd/dd/context.hh:43-52`, `/repo/sdd/hom/context.hh:43-49`): they are destroyed with the last of them, `sdd_context`. -/
structure Members where
  /-- `saturation_fixpoint_data`, `/repo/sdd/internal_manager.hh:89` -/
  saturationData : List Nat
  /-- `id`, line 86 -/
  id : Nat
  /-- `one`, line 83 -/
  one : Nat
  /-- `zero`, line 80 -/
  zero : Nat
  /-- the operations and results in the cache of `hom_context`, line 77 -/
  homCache : List Nat
  /-- the operations and results in the caches of `sdd_context`, line 71 -/
  sddCaches : List Nat
  /-- `empty`, `/repo/sdd/values/flat_set.hh:357` -/
  empty : Nat

/-- `~manager_impl`: `m_` then `values_` (`/repo/sdd/manager.hh:172-175`); `~internal_manager`,
`/repo/sdd/internal_manager.hh:51-89`; `~flat_set_manager`, `/repo/sdd/values/flat_set.hh:340-357`. -/
def shutdown (o : Members) : List MStep :=
  o.saturationData.map .handle ++ ([.handle o.id, .handle o.one, .handle o.zero] ++ (o.homCache.map .handle ++ ([.table .hom] ++
    (o.sddCaches.map .handle ++ ([.table .sdd, .handler .sdd, .handler .hom] ++
      [.handle o.empty, .table .values, .handler .values])))))

/-- The handles of the members, in the order of their destructions. (Proof device, not part of the code.) -/
def Members.all (o : Members) : List Nat :=
  o.saturationData ++ ([o.id, o.one, o.zero] ++ (o.homCache ++ (o.sddCaches ++ [o.empty])))

/-! ## Types -/

variable (vk : Nat → Kind)

/-- The root of a term. (Specification, not part of the code.) -/
def Tree.root : Tree L → L
  | .node l _ => l

/-- The statements accepted by the compiler: handles have a type. `V` gives the values of the variables, hence the types of their parts
(known by the code which reads a part, called by a visit). (Specification, not part of the code.) -/
def OpTy (V : List (VSlot L)) : Op L → Prop
  | .create v l ks _ => vk v = lk l ∧ ∀ k ∈ ks, (vk k).rank ≤ (lk l).rank
  | .copy v w | .move v w | .copyAssign v w | .moveAssign v w | .swap v w => vk v = vk w
  | .destroy _ => True
  | .read v w i | .readAssign v w i => (vpart V w i).all (fun t => decide (lk t.root = vk v)) = true

/-- The programs accepted by the compiler. (Specification, not part of the code.) -/
def ProgTy : List (VSlot L) → List (Op L) → Prop
  | _, [] => True
  | V, op :: ops => OpTy lk vk V op ∧ match vexec V op with
    | some V' => ProgTy V' ops
    | none => True

instance (V : List (VSlot L)) (op : Op L) : Decidable (OpTy lk vk V op) := by
  cases op <;> unfold OpTy <;> infer_instance

/-- `ProgTy` can be computed. -/
instance decProgTy : (V : List (VSlot L)) → (ops : List (Op L)) → Decidable (ProgTy lk vk V ops)
  | _, [] => .isTrue trivial
  | V, op :: ops =>
    have : Decidable (match vexec V op with
        | some V' => ProgTy lk vk V' ops
        | none => True) := match vexec V op with
      | some V' => decProgTy V' ops
      | none => .isTrue trivial
    inferInstanceAs (Decidable (_ ∧ _))

/-- The types of the members. (Specification, not part of the code.) -/
structure Members.Ty (o : Members) : Prop where
  sdd : ∀ v ∈ o.sddCaches, vk v = .sdd
  empty : vk o.empty = .values

/-- Terms where types are respected. (Specification, not part of the code.) -/
inductive TreeTy : Tree L → Prop where
  | node {l : L} {ts : List (Tree L)} : (∀ t ∈ ts, (lk t.root).rank ≤ (lk l).rank) → (∀ t ∈ ts, TreeTy t) →
      TreeTy (.node l ts)

/-- The values of variables respect their types. (Specification, not part of the code.) -/
def VTy (V : List (VSlot L)) : Prop := ∀ v t, V[v]? = some (.val t) → lk t.root = vk v ∧ TreeTy lk t

/-- The data in memory respect types. (Proof device, not part of the code.) -/
structure Typed (s : State L) : Prop where
  vars : ∀ v a, s.vars[v]? = some (.live a) → ∃ c, s.cells a = some c ∧ lk c.key.1 = vk v
  kids : ∀ a c, s.cells a = some c → ∀ k ∈ c.key.2, ∃ c', s.cells k = some c' ∧ (lk c'.key.1).rank ≤ (lk c.key.1).rank

variable {hash bytes lk vk}

theorem vtarget_eq {V : List (VSlot L)} {v : Nat} {t : Tree L} (h : vtarget V v = some t) : V[v]? = some (.val t) := by
  unfold vtarget at h
  split at h
  · rename_i h'; cases h; exact h'
  · cases h

theorem mapM_vtarget {V : List (VSlot L)} : ∀ {ks : List Nat} {ts : List (Tree L)}, ks.mapM (vtarget V) = some ts →
    ∀ t ∈ ts, ∃ k ∈ ks, V[k]? = some (.val t)
  | [], ts, h => by simp at h; subst h; simp
  | k :: ks, ts, h => by
    rw [List.mapM_cons] at h
    cases hk : vtarget V k with
    | none => simp [hk] at h
    | some t0 =>
      cases hks : ks.mapM (vtarget V) with
      | none => simp [hk, hks] at h
      | some ts0 =>
        simp [hk, hks] at h
        subst h
        intro t ht
        rcases List.mem_cons.1 ht with rfl | ht
        · exact ⟨k, by simp, vtarget_eq hk⟩
        · obtain ⟨k', h1, h2⟩ := mapM_vtarget hks t ht
          exact ⟨k', by simp [h1], h2⟩

theorem VTy.set {V : List (VSlot L)} (h : VTy lk vk V) {v : Nat} {x : VSlot L}
    (hx : ∀ t, x = .val t → lk t.root = vk v ∧ TreeTy lk t) : VTy lk vk (V.set v x) := by
  intro u t hu
  by_cases hv : u = v
  · subst hv
    rw [List.getElem?_set_self'] at hu
    cases hV : V[u]? with
    | none => rw [hV] at hu; simp at hu
    | some y => rw [hV] at hu; simp at hu; exact hx t hu
  · rw [List.getElem?_set_ne (fun e => hv e.symm)] at hu
    exact h u t hu

theorem VTy.part {V : List (VSlot L)} (h : VTy lk vk V) {w i : Nat} {t : Tree L} (ht : vpart V w i = some t) : TreeTy lk t := by
  unfold vpart at ht
  split at ht
  · rename_i l ts e
    obtain ⟨_, h2⟩ := h w _ (vtarget_eq e)
    cases h2 with
    | node _ h3 => exact h3 t (List.mem_of_getElem? ht)
  · cases ht

theorem vexec_ty {V V' : List (VSlot L)} (h : VTy lk vk V) {op : Op L} (ho : OpTy lk vk V op) (he : vexec V op = some V') :
    VTy lk vk V' := by
  cases op with
  | create v l ks fr =>
    simp only [vexec, Option.map_eq_some_iff] at he
    obtain ⟨ts, hts, rfl⟩ := he
    refine h.set fun t ht => ?_
    cases ht
    refine ⟨ho.1.symm, .node (fun t ht => ?_) fun t ht => ?_⟩
    · obtain ⟨k, hk, hV⟩ := mapM_vtarget hts t ht
      rw [(h k t hV).1]; exact ho.2 k hk
    · obtain ⟨k, hk, hV⟩ := mapM_vtarget hts t ht
      exact (h k t hV).2
  | copy v w =>
    simp only [vexec, Option.map_eq_some_iff] at he
    obtain ⟨x, hx, rfl⟩ := he
    refine h.set fun t ht => ?_
    subst ht
    have e : vk v = vk w := ho
    rw [e]; exact h w t hx
  | copyAssign v w =>
    simp only [vexec, Option.map_eq_some_iff] at he
    obtain ⟨x, hx, rfl⟩ := he
    refine h.set fun t ht => ?_
    subst ht
    have e : vk v = vk w := ho
    rw [e]; exact h w t hx
  | move v w =>
    simp only [vexec, Option.map_eq_some_iff] at he
    obtain ⟨x, hx, rfl⟩ := he
    refine (h.set fun t ht => ?_).set fun t ht => by cases ht
    subst ht
    have e : vk v = vk w := ho
    rw [e]; exact h w t hx
  | moveAssign v w =>
    simp only [vexec, Option.map_eq_some_iff] at he
    obtain ⟨x, hx, rfl⟩ := he
    refine (h.set fun t ht => ?_).set fun t ht => by cases ht
    subst ht
    have e : vk v = vk w := ho
    rw [e]; exact h w t hx
  | destroy v =>
    simp only [vexec, Option.some.injEq] at he
    subst he
    exact h.set fun t ht => by cases ht
  | swap v w =>
    simp only [vexec] at he
    split at he
    · rename_i x y hx hy
      cases he
      have e : vk v = vk w := ho
      refine (h.set fun t ht => ?_).set fun t ht => ?_
      · subst ht; rw [e]; exact h w t hy
      · subst ht; rw [← e]; exact h v t hx
    · cases he
  | read v w i =>
    simp only [vexec, Option.map_eq_some_iff] at he
    obtain ⟨t, ht, rfl⟩ := he
    refine h.set fun t' ht' => ?_
    cases ht'
    simp only [OpTy, ht, Option.all_some, decide_eq_true_eq] at ho
    exact ⟨ho, h.part ht⟩
  | readAssign v w i =>
    simp only [vexec, Option.map_eq_some_iff] at he
    obtain ⟨t, ht, rfl⟩ := he
    refine h.set fun t' ht' => ?_
    cases ht'
    simp only [OpTy, ht, Option.all_some, decide_eq_true_eq] at ho
    exact ⟨ho, h.part ht⟩

theorem vexecs_ty : ∀ {ops : List (Op L)} {V V' : List (VSlot L)}, VTy lk vk V → ProgTy lk vk V ops →
    vexecs V ops = some V' → VTy lk vk V'
  | [], V, V', h, _, he => by simp only [vexecs, Option.some.injEq] at he; subst he; exact h
  | op :: ops, V, V', h, ho, he => by
    simp only [vexecs] at he
    cases h1 : vexec V op with
    | none => rw [h1] at he; cases he
    | some V1 =>
      rw [h1, Option.bind_some] at he
      simp only [ProgTy, h1] at ho
      exact vexecs_ty (vexec_ty h ho.1 h1) ho.2 he

theorem Denotes.root {s : State L} {t : Tree L} {a : Addr} (h : Denotes s t a) : ∃ c, s.cells a = some c ∧ c.key.1 = t.root := by
  cases t with
  | node l ts =>
    simp only [Denotes] at h
    obtain ⟨kids, b, e, _⟩ := h
    exact ⟨_, e, rfl⟩

theorem DenotesL.mem {s : State L} : ∀ {ts : List (Tree L)} {as : List Addr}, DenotesL s ts as → ∀ a ∈ as, ∃ t ∈ ts, Denotes s t a
  | [], [], _, a, h => by simp at h
  | t :: ts, b :: as, h, a, ha => by
    simp only [DenotesL] at h
    rcases List.mem_cons.1 ha with rfl | ha
    · exact ⟨t, by simp, h.1⟩
    · obtain ⟨t', h1, h2⟩ := DenotesL.mem h.2 a ha
      exact ⟨t', by simp [h1], h2⟩
  | [], _ :: _, h, _, _ => by simp [DenotesL] at h
  | _ :: _, [], h, _, _ => by simp [DenotesL] at h

/-- A program accepted by the compiler only builds well-typed data. -/
theorem Runs.typed {size : BitVec 64} {n : Nat} {ops : List (Op L)} {s : State L} (h1 : 1 ≤ size.toNat) (h2 : size.toNat ≤ 2 ^ 63)
    (hr : Runs hash bytes (init size n) ops s) (ho : ProgTy lk vk (List.replicate n .dead) ops) : Inv hash [] s ∧ Typed lk vk s := by
  obtain ⟨i, V, hV, ha⟩ := runs_abs hr (init_inv h1 h2 n) (init_abs size n)
  have hty : VTy lk vk V := vexecs_ty (by
    intro v t hv
    rw [List.getElem?_replicate] at hv
    split at hv <;> cases hv) ho hV
  have hslot : ∀ (v : Nat) (a : Addr), s.vars[v]? = some (Slot.live a) → ∃ t : Tree L, V[v]? = some (VSlot.val t) ∧ Denotes s t a := by
    intro v a hv
    obtain ⟨y, hy, hr⟩ := forall₂_get ha hv
    cases y with
    | dead => exact hr.elim
    | moved => exact hr.elim
    | val t => exact ⟨t, hy, hr⟩
  have hden : ∀ a, Reaches s a → ∃ t, Denotes s t a ∧ TreeTy lk t := by
    intro a hra
    induction hra with
    | handle h =>
      obtain ⟨v, hv⟩ := List.mem_iff_getElem?.1 h
      obtain ⟨t, ht, hd⟩ := hslot v _ hv
      exact ⟨t, hd, (hty v t ht).2⟩
    | kid _ hc hk ih =>
      obtain ⟨t, hd, ht⟩ := ih
      cases ht with
      | node hts hts' =>
        simp only [Denotes] at hd
        obtain ⟨kids, b, e, hdl⟩ := hd
        rw [e] at hc
        cases hc
        obtain ⟨t', ht', hd'⟩ := hdl.mem _ hk
        exact ⟨t', hd', hts' t' ht'⟩
  refine ⟨i, ⟨fun v a hv => ?_, fun a c hc k hk => ?_⟩⟩
  · obtain ⟨t, ht, hd⟩ := hslot v a hv
    obtain ⟨c, hc, e⟩ := hd.root
    exact ⟨c, hc, by rw [e]; exact (hty v t ht).1⟩
  · obtain ⟨t, hd, ht⟩ := hden a ((i.live_iff a).1 (by rw [hc]; rfl))
    cases ht with
    | node hts hts' =>
      simp only [Denotes] at hd
      obtain ⟨kids, b, e, hdl⟩ := hd
      rw [e] at hc
      cases hc
      obtain ⟨t', ht', hd'⟩ := hdl.mem _ hk
      obtain ⟨c', hc', e'⟩ := hd'.root
      exact ⟨c', hc', by rw [e']; exact hts t' ht'⟩

/-- What remains has a type not higher than the handles which remain. -/
theorem Typed.rank {s : State L} (h : Typed lk vk s) (i : Inv hash [] s) {r : Nat}
    (hv : ∀ v a, s.vars[v]? = some (.live a) → (vk v).rank ≤ r) : ∀ a c, s.cells a = some c → (lk c.key.1).rank ≤ r := by
  intro a c hc
  have key : ∀ a, Reaches s a → ∀ c, s.cells a = some c → (lk c.key.1).rank ≤ r := by
    intro a hra
    induction hra with
    | handle hl =>
      intro c hc
      obtain ⟨v, hv'⟩ := List.mem_iff_getElem?.1 hl
      obtain ⟨c', e, hk⟩ := h.vars v _ hv'
      rw [hc] at e
      cases e
      rw [hk]; exact hv v _ hv'
    | kid _ hc' hk ih =>
      intro c hc
      obtain ⟨c'', e, hle⟩ := h.kids _ _ hc' _ hk
      rw [hc] at e
      cases e
      exact hle.trans (ih _ hc')
  exact key a ((i.live_iff a).1 (by rw [hc]; rfl)) c hc

/-! ## The steps -/

theorem destroyU_eq {up : Kind → Bool} : ∀ (n : Nat) (P : List Item) (s : State L),
    (∀ a c, s.cells a = some c → up (lk c.key.1) = true) → destroyU hash lk up n P s = destroy hash n P s := by
  intro n
  induction n with
  | zero => intro P s _; cases P <;> rfl
  | succ n ih =>
    intro P s h
    cases P with
    | nil => rfl
    | cons i P =>
      cases i with
      | free a =>
        simp only [destroyU, destroy, free]
        split
        · simp only [Option.bind_some]
          refine ih _ _ fun b c hb => ?_
          simp only [Function.update_apply] at hb
          split at hb
          · cases hb
          · exact h b c hb
        · rfl
      | dec a =>
        simp only [destroyU, destroy]
        cases hc : s.cells a with
        | none => rfl
        | some c =>
          simp only [h a c hc, if_true]
          split
          · rfl
          · split
            · cases HT.erase (hashE hash) eqE (a, c.key) s.table with
              | none => rfl
              | some t => exact ih _ _ h
            · exact ih _ _ h

/-- The state of the destruction, `rest` being the handles still to be destroyed. (Proof device, not part of the code.) -/
structure Ok (hash : Key L → Nat) (lk : L → Kind) (vk : Nat → Kind) (m : Man L) (rest : List Nat) : Prop where
  inv : Inv hash [] m.heap
  typed : Typed lk vk m.heap
  up : ∀ a c, m.heap.cells a = some c → m.table (lk c.key.1) = true ∧ m.handler (lk c.key.1) = true
  nodup : rest.Nodup
  notDead : ∀ v ∈ rest, ∃ x, m.heap.vars[v]? = some x ∧ x ≠ .dead
  live : ∀ v a, m.heap.vars[v]? = some (.live a) → v ∈ rest

theorem get_set_live {V : List Slot} {v u : Nat} {a : Addr} (h : (V.set v .dead)[u]? = some (.live a)) : u ≠ v ∧ V[u]? = some (.live a) := by
  by_cases hv : u = v
  · subst hv
    rw [List.getElem?_set_self'] at h
    cases hV : V[u]? with
    | none => rw [hV] at h; simp at h
    | some y => rw [hV] at h; simp at h
  · rw [List.getElem?_set_ne (fun e => hv e.symm)] at h
    exact ⟨hv, h⟩

/-- The destruction of a handle of a member. -/
theorem Ok.handle {m : Man L} {v : Nat} {rest : List Nat} (h : Ok hash lk vk m (v :: rest)) :
    ∃ m', mstep hash lk m (.handle v) = some m' ∧ Ok hash lk vk m' rest ∧ m'.table = m.table ∧ m'.handler = m.handler := by
  obtain ⟨x, hx, hd⟩ := h.notDead v (by simp)
  have hn := List.nodup_cons.1 h.nodup
  have hnd : ∀ V : List Slot, V = m.heap.vars → ∀ u ∈ rest, ∃ x, (V.set v .dead)[u]? = some x ∧ x ≠ .dead := by
    rintro V rfl u hu
    obtain ⟨y, hy, hy'⟩ := h.notDead u (by simp [hu])
    refine ⟨y, ?_, hy'⟩
    rw [List.getElem?_set_ne (fun e => hn.1 (by rw [e]; exact hu))]
    exact hy
  have hlv : ∀ V : List Slot, V = m.heap.vars → ∀ u a, (V.set v .dead)[u]? = some (.live a) → u ∈ rest := by
    rintro V rfl u a hu
    obtain ⟨h1, h2⟩ := get_set_live hu
    exact (List.mem_cons.1 (h.live u a h2)).resolve_left h1
  cases x with
  | dead => exact absurd rfl hd
  | moved =>
    refine ⟨{ m with heap := { m.heap with vars := m.heap.vars.set v .dead } }, by simp only [mstep, hx], ⟨?_, ⟨?_, h.typed.kids⟩, h.up, hn.2, hnd _ rfl, hlv _ rfl⟩, rfl, rfl⟩
    · obtain ⟨s', e, i, _⟩ := exec_inv (bytes := fun _ => 0) h.inv (op := .destroy v) ⟨_, hx, by simp⟩
      simp only [exec, hx, Option.some.injEq] at e
      subst e
      exact i
    · intro u a hu
      exact h.typed.vars u a (get_set_live hu).2
  | live a =>
    obtain ⟨s', e, i, hv, hc⟩ := h.inv.detach hx (x := .dead) (by simp)
    have e' : destroyU hash lk (fun k => m.table k && m.handler k) (steps m.heap) [.dec a] m.heap = some s' := by
      rw [destroyU_eq _ _ _ fun b c hb => by simp [h.up b c hb]]
      exact e
    refine ⟨{ m with heap := { s' with vars := s'.vars.set v .dead } }, by simp only [mstep, hx, e', Option.map_some], ⟨?_, ⟨?_, ?_⟩, ?_, hn.2, hnd _ hv, hlv _ hv⟩, rfl, rfl⟩
    · rw [hv]; exact i
    · intro u b hu
      obtain ⟨c, hcb, _⟩ := i.handles b (List.mem_iff_getElem?.2 ⟨u, by rw [← hv]; exact hu⟩)
      have hu' := (get_set_live hu).2
      rw [hv] at hu'
      obtain ⟨c', e1, e2⟩ := h.typed.vars u b hu'
      have := hc b c hcb
      rw [e1] at this
      cases this
      exact ⟨_, hcb, e2⟩
    · intro b c hb k hk
      obtain ⟨c', hck, _⟩ := i.kids b c hb (by simp) k hk
      obtain ⟨c'', e1, e2⟩ := h.typed.kids b c (hc b c hb) k hk
      have := hc k c' hck
      rw [e1] at this
      cases this
      exact ⟨_, hck, e2⟩
    · intro b c hb
      exact h.up b c (hc b c hb)

theorem Ok.handles {vs : List Nat} : ∀ {m : Man L} {rest : List Nat}, Ok hash lk vk m (vs ++ rest) →
    ∃ m', msteps hash lk m (vs.map .handle) = some m' ∧ Ok hash lk vk m' rest ∧ m'.table = m.table ∧ m'.handler = m.handler := by
  induction vs with
  | nil => intro m rest h; exact ⟨m, rfl, h, rfl, rfl⟩
  | cons v vs ih =>
    intro m rest h
    obtain ⟨m1, e1, o1, t1, h1⟩ := h.handle
    obtain ⟨m2, e2, o2, t2, h2⟩ := ih o1
    refine ⟨m2, ?_, o2, t2.trans t1, h2.trans h1⟩
    simp only [msteps, List.map_cons, List.foldlM_cons, e1, Option.bind_eq_bind, Option.bind_some]
    exact e2

/-- The destruction of a table when handles of this type or of higher ones are gone. -/
theorem Ok.table {m : Man L} {rest : List Nat} (h : Ok hash lk vk m rest) {k : Kind} (hk : k ≠ .values) (ht : m.table k = true)
    (hr : ∀ v ∈ rest, (vk v).rank < k.rank) :
    ∃ m', mstep hash lk m (.table k) = some m' ∧ Ok hash lk vk m' rest ∧ m'.table = Function.update m.table k false ∧
      m'.handler = m.handler ∧ m'.heap = m.heap := by
  refine ⟨{ m with table := Function.update m.table k false }, by simp only [mstep, ht, if_true, if_neg hk, Option.map_some], ⟨h.inv, h.typed, ?_, h.nodup, h.notDead, h.live⟩, rfl,
    rfl, rfl⟩
  intro a c hc
  have := h.typed.rank h.inv (r := k.rank - 1) (fun v a hv => by have := hr v (h.live v a hv); omega) a c hc
  have hne : lk c.key.1 ≠ k := by
    intro e
    rw [e] at this
    cases k <;> simp_all [Kind.rank]
  simp only [Function.update_of_ne hne]
  exact h.up a c hc

/-- The reset of a handler when data of this type are gone. -/
theorem Ok.handler {m : Man L} {rest : List Nat} (h : Ok hash lk vk m rest) {k : Kind} (ht : m.table k = false)
    (hh : m.handler k = true) :
    ∃ m', mstep hash lk m (.handler k) = some m' ∧ Ok hash lk vk m' rest ∧ m'.table = m.table ∧
      m'.handler = Function.update m.handler k false ∧ m'.heap = m.heap := by
  refine ⟨{ m with handler := Function.update m.handler k false }, by simp only [mstep, hh, if_true], ⟨h.inv, h.typed, ?_, h.nodup, h.notDead, h.live⟩, rfl, rfl, rfl⟩
  intro a c hc
  have hne : lk c.key.1 ≠ k := by
    intro e
    have := (h.up a c hc).1
    rw [e, ht] at this
    cases this
  simp only [Function.update_of_ne hne]
  exact h.up a c hc

/-- The destruction of the last table. -/
theorem Ok.last {m : Man L} (h : Ok hash lk vk m []) (ht : m.table .values = true) :
    ∃ m', mstep hash lk m (.table .values) = some m' ∧ m'.heap.blocks = [] ∧ (∀ a, m'.heap.cells a = none) ∧
      m'.heap.spare = none ∧ m'.table = Function.update m.table .values false ∧ m'.handler = m.handler := by
  have hno : ∀ a, m.heap.cells a = none := by
    intro a
    cases hc : m.heap.cells a with
    | none => rfl
    | some c =>
      exfalso
      have hra := (h.inv.live_iff a).1 (by rw [hc]; rfl)
      clear hc
      induction hra with
      | handle hl =>
        obtain ⟨v, hv⟩ := List.mem_iff_getElem?.1 hl
        simpa using h.live v _ hv
      | kid _ _ _ ih => exact ih
  have hal : ∀ a, a ∈ m.heap.blocks.map Prod.fst ↔ ∃ n, m.heap.spare = some (a, n) := by
    intro a
    rw [h.inv.alloc a, hno a]
    simp
  cases hs : m.heap.spare with
  | none =>
    refine ⟨{ m with table := Function.update m.table .values false },
      by simp only [mstep, ht, if_true, freeSpare, hs, Option.map_some], ?_, hno, hs, rfl, rfl⟩
    cases hb : m.heap.blocks with
    | nil => rfl
    | cons b bs =>
      have := (hal b.1).1 (by rw [hb]; simp)
      rw [hs] at this
      simp at this
  | some sp =>
    obtain ⟨a, n⟩ := sp
    have hb : ∃ k, m.heap.blocks = [(a, k)] := by
      have hm := (hal a).2 ⟨n, hs⟩
      have hall : ∀ b ∈ m.heap.blocks, b.1 = a := by
        intro b hb
        obtain ⟨n', e⟩ := (hal b.1).1 (List.mem_map_of_mem hb)
        rw [hs] at e
        simp only [Option.some.injEq, Prod.mk.injEq] at e
        exact e.1.symm
      have hnd := h.inv.nodup
      cases hbl : m.heap.blocks with
      | nil => rw [hbl] at hm; simp at hm
      | cons b bs =>
        rw [hbl] at hall hnd
        have hb1 := hall b (by simp)
        cases bs with
        | nil => exact ⟨b.2, by rw [← hb1]⟩
        | cons b' bs =>
          have hb2 := hall b' (by simp)
          simp [hb1, hb2] at hnd
    obtain ⟨k, hb⟩ := hb
    refine ⟨{ m with
      heap := { m.heap with blocks := [], spare := none }, table := Function.update m.table .values false }, ?_, rfl, hno, rfl, rfl,
      rfl⟩
    simp [mstep, ht, freeSpare, hs, release, hb]

theorem msteps_append {m m1 : Man L} {a b : List MStep} (h : msteps hash lk m a = some m1) :
    msteps hash lk m (a ++ b) = msteps hash lk m1 b := by
  unfold msteps at *
  rw [List.foldlM_append, h]
  rfl

theorem msteps_one {m m1 : Man L} {x : MStep} (h : mstep hash lk m x = some m1) : msteps hash lk m [x] = some m1 := by
  simp [msteps, h]

theorem msteps_cons {m m1 : Man L} {x : MStep} {b : List MStep} (h : mstep hash lk m x = some m1) :
    msteps hash lk m (x :: b) = msteps hash lk m1 b := by
  simp [msteps, h]

/-- The destruction of the managers. -/
theorem shutdown_ok {s : State L} (hi : Inv hash [] s) (ht : Typed lk vk s) {o : Members} (ho : o.Ty vk) (hn : o.all.Nodup)
    (hd : ∀ v ∈ o.all, ∃ x, s.vars[v]? = some x ∧ x ≠ .dead) (hu : ∀ v a, s.vars[v]? = some (.live a) → v ∈ o.all) :
    ∃ m, msteps hash lk ⟨s, fun _ => true, fun _ => true⟩ (shutdown o) = some m ∧ m.heap.blocks = [] ∧
      (∀ a, m.heap.cells a = none) ∧ ∀ k, m.table k = false ∧ m.handler k = false := by
  have h0 : Ok hash lk vk (⟨s, fun _ => true, fun _ => true⟩ : Man L) o.all := ⟨hi, ht, fun _ _ _ => ⟨rfl, rfl⟩, hn, hd, hu⟩
  unfold Members.all at h0
  obtain ⟨m1, e1, o1, t1, g1⟩ := h0.handles
  obtain ⟨m2, e2, o2, t2, g2⟩ := o1.handles
  obtain ⟨m3, e3, o3, t3, g3⟩ := o2.handles
  obtain ⟨m4, e4, o4, t4, g4, _⟩ := o3.table (k := .hom) (by simp) (by rw [t3, t2, t1]) (by
    intro v hv
    rcases List.mem_append.1 hv with hv | hv
    · rw [ho.sdd v hv]; decide
    · rw [List.mem_singleton.1 hv, ho.empty]; decide)
  obtain ⟨m5, e5, o5, t5, g5⟩ := o4.handles
  obtain ⟨m6, e6, o6, t6, g6, _⟩ := o5.table (k := .sdd) (by simp) (by rw [t5, t4, t3, t2, t1]; rfl) (by
    intro v hv
    rw [List.mem_singleton.1 hv, ho.empty]; decide)
  obtain ⟨m7, e7, o7, t7, g7, _⟩ := o6.handler (k := .sdd) (by rw [t6]; rfl) (by rw [g6, g5, g4, g3, g2, g1])
  obtain ⟨m8, e8, o8, t8, g8, _⟩ := o7.handler (k := .hom) (by rw [t7, t6, t5, t4]; rfl)
    (by rw [g7, g6, g5, g4, g3, g2, g1]; rfl)
  obtain ⟨m9, e9, o9, t9, g9⟩ := o8.handle
  obtain ⟨m10, e10, b10, c10, _, t10, g10⟩ := o9.last (by rw [t9, t8, t7, t6, t5, t4, t3, t2, t1]; rfl)
  have hh : m10.handler .values = true := by rw [g10, g9, g8, g7, g6, g5, g4, g3, g2, g1]; rfl
  refine ⟨{ m10 with handler := Function.update m10.handler .values false }, ?_, b10, c10, ?_⟩
  · unfold shutdown
    rw [msteps_append e1]
    have e2' : msteps hash lk m1 [.handle o.id, .handle o.one, .handle o.zero] = some m2 := e2
    rw [msteps_append e2', msteps_append e3, msteps_append (msteps_one e4), msteps_append e5]
    simp only [List.cons_append, List.nil_append]
    rw [msteps_cons e6, msteps_cons e7, msteps_cons e8, msteps_cons e9, msteps_cons e10]
    refine msteps_one ?_
    simp [mstep, hh]
  · intro k
    simp only
    rw [t10, g10, t9, g9, t8, g8, t7, g7, t6, g6, t5, g5, t4, g4]
    cases k <;> simp [Function.update]

/-- The states of programs are the final states of lists of statements. -/
theorem Runs.reach {size : BitVec 64} {n : Nat} {s s' : State L} {ops : List (Op L)} (h : Runs hash bytes s ops s') :
    Reach hash bytes size n s → Reach hash bytes size n s' := by
  induction h with
  | nil => exact id
  | cons hv he _ ih => exact fun hr => ih (.step hr hv he)

/-! ## Checking that a list of statements is a program -/

/-- `Valid`, computed. (Proof device, not part of the code.) -/
def validB (s : State L) : Op L → Bool
  | .create v _ ks fr => s.vars[v]? == some .dead && ks.all (fun k => (target s k).isSome) && !(s.blocks.map Prod.fst).contains fr
  | .copy v w => s.vars[v]? == some .dead && (target s w).isSome
  | .move v w => s.vars[v]? == some .dead && (s.vars[w]?).any (· != .dead)
  | .copyAssign v w => v != w && (s.vars[v]?).any (· != .dead) && (target s w).isSome
  | .moveAssign v w => v != w && (s.vars[v]?).any (· != .dead) && (s.vars[w]?).any (· != .dead)
  | .destroy v => (s.vars[v]?).any (· != .dead)
  | .swap v w => (s.vars[v]?).any (· != .dead) && (s.vars[w]?).any (· != .dead)
  | .read v w i => s.vars[v]? == some .dead && (part s w i).isSome
  | .readAssign v w i => v != w && (s.vars[v]?).any (· != .dead) && (part s w i).isSome

theorem target_isSome {s : State L} {v : Nat} (h : (target s v).isSome = true) : ∃ a, s.vars[v]? = some (.live a) := by
  unfold target at h
  split at h
  · rename_i a e; exact ⟨a, e⟩
  · cases h

theorem any_notDead {o : Option Slot} (h : o.any (· != .dead) = true) : ∃ x, o = some x ∧ x ≠ .dead := by
  cases o with
  | none => simp at h
  | some x => exact ⟨x, rfl, by simpa using h⟩

theorem validB_valid {s : State L} {op : Op L} (h : validB s op = true) : Valid s op := by
  cases op <;> simp only [validB, Bool.and_eq_true, beq_iff_eq, bne_iff_ne, List.all_eq_true, Bool.not_eq_true',
    ← Bool.not_eq_true, List.contains_iff_mem] at h <;> simp only [Valid]
  · exact ⟨h.1.1, fun k hk => target_isSome (h.1.2 k hk), h.2⟩
  · exact ⟨h.1, target_isSome h.2⟩
  · exact ⟨h.1, any_notDead h.2⟩
  · exact ⟨h.1.1, any_notDead h.1.2, target_isSome h.2⟩
  · exact ⟨h.1.1, any_notDead h.1.2, any_notDead h.2⟩
  · exact any_notDead h
  · exact ⟨any_notDead h.1, any_notDead h.2⟩
  · exact ⟨h.1, Option.isSome_iff_exists.1 h.2⟩
  · exact ⟨h.1.1, any_notDead h.1.2, Option.isSome_iff_exists.1 h.2⟩

/-- The execution of a list of statements, all valid. (Proof device, not part of the code.) -/
def runB (hash : Key L → Nat) (bytes : Key L → Nat) : State L → List (Op L) → Option (State L)
  | s, [] => some s
  | s, op :: ops => if validB s op then (exec hash bytes s op).bind fun s' => runB hash bytes s' ops else none

theorem runB_runs : ∀ {ops : List (Op L)} {s s' : State L}, runB hash bytes s ops = some s' → Runs hash bytes s ops s'
  | [], s, s', h => by cases h; exact .nil s
  | op :: ops, s, s', h => by
    simp only [runB] at h
    split at h
    · rename_i hv
      cases he : exec hash bytes s op with
      | none => rw [he] at h; cases h
      | some s1 => rw [he] at h; exact .cons (validB_valid hv) he (runB_runs h)
    · cases h

end
end Heap
end Verif
