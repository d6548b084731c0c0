import Verif.Mem.HeapSem
import Verif.Mem.Exhaust
/-!
# Memory exhaustion while unified data are created

The creation of a unified datum asks the system for memory twice: for the block of the datum (`allocate`,
`/repo/sdd/mem/unique_table.hh:126-142`) and, when the table is too loaded, for its new buckets (`rehash`,
`/repo/sdd/mem/hash_table.hh:249-257`).  Each may throw `std::bad_alloc`.  Nothing catches the exception in
`/repo/sdd/mem/unique_table.hh:94-123` nor in `/repo/sdd/dd/definition.hh:473-487`: when `rehash` throws, the new datum has been
constructed, it may be in the table, and no handle points to it.

The rest of the model is that of `Mem/Heap.lean`.
-/

set_option autoImplicit false
set_option linter.unusedSectionVars false

namespace Verif
namespace Heap

/-- Which request of memory fails during a statement. (Model of the environment: what the user or the system does.) -/
inductive Lack : Type where
  | nothing
  | block
  | buckets
  deriving DecidableEq

section
variable {L : Type} [DecidableEq L] (hash : Key L → Nat) (bytes : Key L → Nat)

/-- Whether `allocate` asks the system for a block, `/repo/sdd/mem/unique_table.hh:129-141`. -/
def needsBlock (n : Nat) (s : State L) : Bool :=
  match s.spare with
  | some (_, m) => decide (m < n)
  | none => true

/-- `unify` when requests of memory may fail, `/repo/sdd/dd/definition.hh:473-487` and `/repo/sdd/mem/unique_table.hh:94-142`: the
address of the unified datum, or `none` when `std::bad_alloc` is thrown.  When `insert` throws (`/repo/sdd/mem/unique_table.hh:100`) the
new datum remains as it has been constructed. -/
def unifyF (f : Lack) (l : L) (kids : List Addr) (fr : Addr) (s : State L) : Option (Option Addr × State L) :=
  let k : Key L := (l, kids)
  if f = .block ∧ needsBlock (bytes k) s then some (none, s)
  else
    let r := allocate (bytes k) fr s
    -- the construction
    if r.2.blocks.any (fun b => b.1 == r.1 && decide (bytes k ≤ b.2)) then
      match incs kids r.2 with
      | none => none
      | some s1 =>
        match HT.insertF (hashE hash) eqE (decide (f = .buckets)) (r.1, k) s1.table with
        | none => none
        | some (none, t) =>
          some (none, { s1 with
            table := t
            cells := Function.update s1.cells r.1 (some ⟨k, s1.clock⟩)
            refs := Function.update s1.refs r.1 0
            clock := s1.clock + 1 })
        | some (some (_, true), t) =>
          some (some r.1, { s1 with
            table := t
            cells := Function.update s1.cells r.1 (some ⟨k, s1.clock⟩)
            refs := Function.update s1.refs r.1 0
            clock := s1.clock + 1 })
        | some (some (e, false), t) =>
          -- the destructor of the new datum
          match destroy hash (kids.length + steps s1) (kids.map Item.dec) { s1 with table := t } with
          | none => none
          | some s2 => (recycle r.1 (bytes k) s2).map fun s3 => (some e.1, s3)
    else none

/-- The execution of a statement when requests of memory may fail: whether `std::bad_alloc` is thrown, and the state.  Only the
creation of a datum asks for memory (`/repo/sdd/mem/ptr.hh`, lines 76-193, for the other statements, all `noexcept`). -/
def execF (f : Lack) (s : State L) : Op L → Option (Bool × State L)
  | .create v l ks fr =>
    match s.vars[v]?, ks.mapM (target s) with
    | some .dead, some kids =>
      match unifyF hash bytes f l kids fr s with
      | none => none
      | some (none, s') => some (true, s')
      | some (some a, s') => (inc a s').map fun s'' => (false, { s'' with vars := s''.vars.set v (.live a) })
    | _, _ => none
  | op => (exec hash bytes s op).map fun s' => (false, s')

/-- A program during which requests of memory may fail, the statements which did not throw and the state: a program
which catches `std::bad_alloc` goes on with its next statement. (Model of the environment: what the user or the system does.) -/
inductive RunsF : State L → List (Op L) → State L → Prop where
  | nil (s : State L) : RunsF s [] s
  | done {s s' s'' : State L} {op : Op L} {ops : List (Op L)} (f : Lack) : Valid s op →
      execF hash bytes f s op = some (false, s') → RunsF s' ops s'' → RunsF s (op :: ops) s''
  | thrown {s s' s'' : State L} {op : Op L} {ops : List (Op L)} (f : Lack) : Valid s op →
      execF hash bytes f s op = some (true, s') → RunsF s' ops s'' → RunsF s ops s''

end

section
variable {L : Type} [DecidableEq L] {hash : Key L → Nat} {bytes : Key L → Nat}

/-! ## What is lost

`O` are the data of the table without any handle, `K` the operands held by lost data, `B` the blocks of the lost data: a
state where requests of memory have failed is compared with the state where each datum of `O` and `K` has one more handle and
where the lost data do not exist. -/

/-- The state where what is lost is held by handles, or does not exist. (Proof device, not part of the code.) -/
def ideal (O K B : List Addr) (s : State L) : State L where
  blocks := s.blocks.filter fun b => decide (b.1 ∉ B)
  cells := fun a => if a ∈ B then none else s.cells a
  refs := fun a => s.refs a + O.count a
  table := s.table
  spare := s.spare
  vars := s.vars ++ (O ++ K).map .live
  clock := s.clock

/-- The invariant of states where requests of memory have failed. (Proof device, not part of the code.) -/
structure OInv (hash : Key L → Nat) (O K B : List Addr) (s : State L) : Prop where
  inv : Inv hash [] (ideal O K B s)
  zero : ∀ a ∈ O, s.refs a = 0
  lost : ∀ a ∈ B, a ∈ s.blocks.map Prod.fst
  nodup : (s.blocks.map Prod.fst).Nodup
  once : O.Nodup

theorem count_live (a : Addr) (l : List Addr) : (l.map Slot.live).count (.live a) = l.count a := by
  induction l with
  | nil => rfl
  | cons b l ih => simp [List.count_cons, ih]

theorem OInv.orphan {O K B : List Addr} {s : State L} (h : OInv hash O K B s) {a : Addr} (ha : a ∈ O) :
    s.vars.count (.live a) = 0 ∧ K.count a = 0 ∧ inTable a s.table.elems = 0 := by
  have hm : Slot.live a ∈ (ideal O K B s).vars := by
    simp only [ideal, List.mem_append, List.map_append, List.mem_map]
    exact .inr (.inl ⟨a, ha, rfl⟩)
  obtain ⟨c, hc, -⟩ := h.inv.handles a hm
  have := (h.inv.refs' hc).1
  simp only [ideal, List.map_append, List.count_append, count_live, h.zero a ha] at this
  omega

theorem OInv.not_orphan_var {O K B : List Addr} {s : State L} (h : OInv hash O K B s) {a : Addr}
    (ha : Slot.live a ∈ s.vars) : a ∉ O := by
  intro ho
  have := (h.orphan ho).1
  rw [List.count_eq_zero] at this
  exact this ha

theorem OInv.not_orphan_kid {O K B : List Addr} {s : State L} (h : OInv hash O K B s) {b k : Addr} {c : Cell L}
    (hc : (ideal O K B s).cells b = some c) (hk : k ∈ c.key.2) : k ∉ O := by
  intro ho
  have h1 := (h.orphan ho).2.2
  have h2 : (b, c.key) ∈ s.table.elems := (h.inv.table b c.key).2 ⟨c, hc, rfl, by simp⟩
  have := inTable_pos h2 hk
  omega

theorem ideal_cell {O K B : List Addr} {s : State L} {a : Addr} {c : Cell L} (h : (ideal O K B s).cells a = some c) :
    a ∉ B ∧ s.cells a = some c := by
  simp only [ideal] at h
  by_cases hb : a ∈ B
  · rw [if_pos hb] at h; cases h
  · rw [if_neg hb] at h; exact ⟨hb, h⟩

theorem OInv.var_cell {O K B : List Addr} {s : State L} (h : OInv hash O K B s) {a : Addr} (ha : Slot.live a ∈ s.vars) :
    ∃ c, (ideal O K B s).cells a = some c := by
  obtain ⟨c, hc, -⟩ := h.inv.handles a (List.mem_append_left _ ha)
  exact ⟨c, hc⟩

theorem OInv.cell_block {O K B : List Addr} {s : State L} (h : OInv hash O K B s) {a : Addr} (hc : (s.cells a).isSome) :
    a ∈ s.blocks.map Prod.fst := by
  by_cases hb : a ∈ B
  · exact h.lost a hb
  · have := (h.inv.alloc a).2 (.inl (by simp only [ideal, if_neg hb]; exact hc))
    obtain ⟨x, hx, rfl⟩ := List.mem_map.1 this
    exact List.mem_map_of_mem (List.mem_filter.1 hx).1

/-! ## Cascades of deletions -/

theorem destroy_none : ∀ (n : Nat) (P : List Item) (s s' : State L) (a : Addr), destroy hash n P s = some s' →
    s.cells a = none → s'.cells a = none := by
  intro n
  induction n with
  | zero =>
    intro P s s' a h hn
    cases P with
    | nil => simp only [destroy, Option.some.injEq] at h; rw [← h]; exact hn
    | cons => simp [destroy] at h
  | succ n ih =>
    intro P s s' a h hn
    cases P with
    | nil => simp only [destroy, Option.some.injEq] at h; rw [← h]; exact hn
    | cons i P =>
      cases i with
      | free b =>
        simp only [destroy, free] at h
        split at h
        · simp only [Option.bind_some] at h
          refine ih _ _ _ a h ?_
          simp only
          by_cases e : a = b
          · subst e; exact Function.update_self ..
          · rw [Function.update_of_ne e]; exact hn
        · cases h
      | dec b =>
        simp only [destroy] at h
        cases hc : s.cells b with
        | none => rw [hc] at h; cases h
        | some c =>
          rw [hc] at h
          simp only at h
          split at h
          · cases h
          · split at h
            · cases ht : HT.erase (hashE hash) eqE (b, c.key) s.table with
              | none => rw [ht] at h; cases h
              | some t =>
                rw [ht] at h
                exact ih _ _ _ a h hn
            · exact ih _ _ _ a h hn

theorem destroy_free : ∀ (n : Nat) (P : List Item) (s s' : State L) (a : Addr), destroy hash n P s = some s' →
    Item.free a ∈ P → s'.cells a = none := by
  intro n
  induction n with
  | zero =>
    intro P s s' a h hn
    cases P with
    | nil => simp at hn
    | cons => simp [destroy] at h
  | succ n ih =>
    intro P s s' a h hn
    cases P with
    | nil => simp at hn
    | cons i P =>
      cases i with
      | free b =>
        simp only [destroy, free] at h
        split at h
        · simp only [Option.bind_some] at h
          rcases List.mem_cons.1 hn with e | hn
          · cases e
            exact destroy_none n _ _ _ a h (Function.update_self ..)
          · exact ih _ _ _ a h hn
        · cases h
      | dec b =>
        have hn : Item.free a ∈ P := by
          rcases List.mem_cons.1 hn with e | hn
          · cases e
          · exact hn
        simp only [destroy] at h
        cases hc : s.cells b with
        | none => rw [hc] at h; cases h
        | some c =>
          rw [hc] at h
          simp only at h
          split at h
          · cases h
          · split at h
            · cases ht : HT.erase (hashE hash) eqE (b, c.key) s.table with
              | none => rw [ht] at h; cases h
              | some t =>
                rw [ht] at h
                exact ih _ _ _ a h (by simp [hn])
            · exact ih _ _ _ a h hn

theorem steps_dec {s : State L} {a : Addr} (h : a ∈ s.blocks.map Prod.fst) (hr : s.refs a ≠ 0) :
    steps { s with refs := Function.update s.refs a (s.refs a - 1) } + 1 ≤ steps s := by
  unfold steps
  simp only
  generalize s.blocks = bs at h
  have hle : ∀ bs : List (Addr × Nat), (bs.map fun b => Function.update s.refs a (s.refs a - 1) b.1 + 1).sum ≤
      (bs.map fun b => s.refs b.1 + 1).sum := by
    intro bs
    induction bs with
    | nil => simp
    | cons b bs ih =>
      simp only [List.map_cons, List.sum_cons]
      have : Function.update s.refs a (s.refs a - 1) b.1 ≤ s.refs b.1 := by
        by_cases e : b.1 = a
        · rw [e, Function.update_self]; omega
        · rw [Function.update_of_ne e]
      omega
  induction bs with
  | nil => simp at h
  | cons b bs ih =>
    simp only [List.map_cons, List.sum_cons, List.mem_cons] at h ⊢
    have h1 := hle bs
    by_cases e : b.1 = a
    · rw [e, Function.update_self]; omega
    · rw [Function.update_of_ne e]
      have := ih (h.resolve_left (Ne.symm e))
      omega

/-- A cascade which ends does so within the bound. -/
theorem destroy_fuel : ∀ (n m : Nat) (P : List Item) (s s' : State L),
    (∀ a, (s.cells a).isSome → a ∈ s.blocks.map Prod.fst) → destroy hash n P s = some s' → steps s ≤ m →
    destroy hash m P s = some s' := by
  intro n
  induction n with
  | zero =>
    intro m P s s' hb h hm
    cases P with
    | nil => cases m <;> simpa [destroy] using h
    | cons => simp [destroy] at h
  | succ n ih =>
    intro m P s s' hb h hm
    cases P with
    | nil => cases m <;> simpa [destroy] using h
    | cons i P =>
      cases i with
      | free b =>
        simp only [destroy, free] at h
        split at h
        · rename_i hany
          simp only [Option.bind_some] at h
          obtain ⟨x, hx, hsum⟩ := sum_eraseP (fun b => s.refs b.1 + 1) hany
          have hst : steps s = s.refs x.1 + 1 + ((s.blocks.eraseP fun c => c.1 == b).map fun b => s.refs b.1 + 1).sum := hsum
          cases m with
          | zero => omega
          | succ m =>
            simp only [destroy, free]
            rw [if_pos hany]
            simp only [Option.bind_some]
            refine ih m _ _ _ ?_ h ?_
            · intro a ha
              simp only at ha ⊢
              by_cases e : a = b
              · subst e
                rw [Function.update_self] at ha
                cases ha
              · rw [Function.update_of_ne e] at ha
                obtain ⟨y, hy, rfl⟩ := List.mem_map.1 (hb a ha)
                exact List.mem_map_of_mem ((List.mem_eraseP_of_neg (by simpa using e)).2 hy)
            · show ((s.blocks.eraseP fun c => c.1 == b).map fun b => s.refs b.1 + 1).sum ≤ m
              omega
        · cases h
      | dec b =>
        simp only [destroy] at h
        cases hc : s.cells b with
        | none => rw [hc] at h; cases h
        | some c =>
          rw [hc] at h
          simp only at h
          split at h
          · cases h
          · rename_i hr
            have hst := steps_dec (hb b (by rw [hc]; rfl)) hr
            cases m with
            | zero => omega
            | succ m =>
              simp only [destroy, hc]
              rw [if_neg hr]
              split at h
              · rename_i h1
                rw [if_pos h1]
                cases ht : HT.erase (hashE hash) eqE (b, c.key) s.table with
                | none => rw [ht] at h; cases h
                | some t =>
                  rw [ht] at h
                  exact ih m _ _ _ hb h (by
                    show steps { s with refs := Function.update s.refs b (s.refs b - 1) } ≤ m
                    omega)
              · rename_i h1
                rw [if_neg h1]
                exact ih m _ _ _ hb h (by omega)

theorem filter_eraseP {B : List Addr} {a : Addr} (ha : a ∉ B) (bs : List (Addr × Nat)) :
    (bs.filter fun b => decide (b.1 ∉ B)).eraseP (fun b => b.1 == a) =
      (bs.eraseP fun b => b.1 == a).filter fun b => decide (b.1 ∉ B) := by
  induction bs with
  | nil => rfl
  | cons b bs ih =>
    by_cases e : b.1 = a
    · have hb : b.1 ∉ B := by rw [e]; exact ha
      rw [List.filter_cons, if_pos (by simpa using hb), List.eraseP_cons, List.eraseP_cons]
      simp [e]
    · rw [List.eraseP_cons, beq_eq_false_iff_ne.2 e, cond_false, List.filter_cons, List.filter_cons]
      split
      · rw [List.eraseP_cons, beq_eq_false_iff_ne.2 e, cond_false, ih]
      · exact ih

theorem any_filter {B : List Addr} {bs : List (Addr × Nat)} {p : Addr × Nat → Bool}
    (h : (bs.filter fun b => decide (b.1 ∉ B)).any p = true) : bs.any p = true := by
  rw [List.any_eq_true] at h ⊢
  obtain ⟨x, hx, hp⟩ := h
  exact ⟨x, (List.mem_filter.1 hx).1, hp⟩

/-- What an operation keeps when it does not touch what is lost. (Proof device, not part of the code.) -/
structure Kept (O B : List Addr) (s s' : State L) : Prop where
  zero : (∀ a ∈ O, s.refs a = 0) → ∀ a ∈ O, s'.refs a = 0
  nodup : (s.blocks.map Prod.fst).Nodup → (s'.blocks.map Prod.fst).Nodup
  lost : (∀ a ∈ B, a ∈ s.blocks.map Prod.fst) → ∀ a ∈ B, a ∈ s'.blocks.map Prod.fst

theorem Kept.refl (O B : List Addr) (s : State L) : Kept O B s s := ⟨fun h => h, fun h => h, fun h => h⟩

theorem Kept.trans {O B : List Addr} {s s' s'' : State L} (h : Kept O B s s') (h' : Kept O B s' s'') : Kept O B s s'' :=
  ⟨fun k => h'.zero (h.zero k), fun k => h'.nodup (h.nodup k), fun k => h'.lost (h.lost k)⟩

theorem mem_eraseP_fst {bs : List (Addr × Nat)} {a b : Addr} (h : a ∈ bs.map Prod.fst) (hne : a ≠ b) :
    a ∈ (bs.eraseP fun c => c.1 == b).map Prod.fst := by
  obtain ⟨y, hy, rfl⟩ := List.mem_map.1 h
  exact List.mem_map_of_mem ((List.mem_eraseP_of_neg (by simpa using hne)).2 hy)

/-- Cascades which do not reach what is lost are the same. -/
theorem destroy_ideal {O K B : List Addr} (hnd : O.Nodup) : ∀ (n : Nat) (P : List Item) (s t : State L),
    destroy hash n P (ideal O K B s) = some t → (∀ a ∈ O, s.refs a = 0) → (∀ a ∈ O, (t.cells a).isSome) →
    (∀ a, Item.free a ∈ P → a ∉ B) →
    ∃ s', destroy hash n P s = some s' ∧ t = ideal O K B s' ∧ Kept O B s s' ∧ s'.vars = s.vars := by
  intro n
  induction n with
  | zero =>
    intro P s t h hz ho hP
    cases P with
    | nil =>
      simp only [destroy, Option.some.injEq] at h
      exact ⟨s, rfl, h.symm, .refl .., rfl⟩
    | cons => simp [destroy] at h
  | succ n ih =>
    intro P s t h hz ho hP
    cases P with
    | nil =>
      simp only [destroy, Option.some.injEq] at h
      exact ⟨s, rfl, h.symm, .refl .., rfl⟩
    | cons i P =>
      cases i with
      | free b =>
        have hb : b ∉ B := hP b List.mem_cons_self
        simp only [destroy, free] at h
        split at h
        · rename_i hany
          simp only [Option.bind_some] at h
          have heq : ({ ideal O K B s with
              blocks := (ideal O K B s).blocks.eraseP (fun c => c.1 == b)
              cells := Function.update (ideal O K B s).cells b none } : State L) =
              ideal O K B { s with
                blocks := s.blocks.eraseP (fun c => c.1 == b)
                cells := Function.update s.cells b none } := by
            simp only [ideal, filter_eraseP hb, State.mk.injEq, true_and, and_true]
            funext x
            by_cases e : x = b
            · subst e; simp [hb]
            · simp [Function.update_of_ne e]
          rw [heq] at h
          obtain ⟨s', e1, e2, e3, e4⟩ := ih P _ t h hz ho fun a ha => hP a (List.mem_cons_of_mem _ ha)
          have hk : Kept O B s { s with
              blocks := s.blocks.eraseP (fun c => c.1 == b)
              cells := Function.update s.cells b none } :=
            ⟨fun k => k, fun k => nodup_eraseP_blocks k _, fun k a ha => mem_eraseP_fst (k a ha) (by
              rintro rfl; exact hb ha)⟩
          refine ⟨s', ?_, e2, hk.trans e3, e4⟩
          simp only [destroy, free]
          rw [if_pos (any_filter hany)]
          exact e1
        · cases h
      | dec b =>
        have hP' : ∀ a, Item.free a ∈ P → a ∉ B := fun a ha => hP a (List.mem_cons_of_mem _ ha)
        simp only [destroy] at h
        cases hc : (ideal O K B s).cells b with
        | none => rw [hc] at h; cases h
        | some c =>
          obtain ⟨hb, hc'⟩ := ideal_cell hc
          rw [hc] at h
          simp only at h
          split at h
          · cases h
          · rename_i hr
            have hno : b ∉ O := by
              intro hbo
              have h1 : (ideal O K B s).refs b = 1 := by
                simp only [ideal, hz b hbo, List.count_eq_one_of_mem hnd hbo]
              rw [if_pos h1] at h
              cases ht : HT.erase (hashE hash) eqE (b, c.key) (ideal O K B s).table with
              | none => rw [ht] at h; cases h
              | some T =>
                rw [ht] at h
                have h2 := destroy_free n _ _ _ b h (by simp)
                have h3 := ho b hbo
                rw [h2] at h3
                cases h3
            have hcnt : O.count b = 0 := List.count_eq_zero.2 hno
            have href : (ideal O K B s).refs b = s.refs b := by simp [ideal, hcnt]
            rw [href] at h hr
            have heq : ∀ T : HT (Addr × Key L), ({ ideal O K B s with
                refs := Function.update (ideal O K B s).refs b (s.refs b - 1)
                table := T } : State L) =
                ideal O K B { s with refs := Function.update s.refs b (s.refs b - 1), table := T } := by
              intro T
              simp only [ideal, State.mk.injEq, true_and, and_true]
              funext x
              by_cases e : x = b
              · subst e; simp [hcnt]
              · simp [Function.update_of_ne e]
            have hz' : ∀ a ∈ O, Function.update s.refs b (s.refs b - 1) a = 0 := by
              intro a ha
              rw [Function.update_of_ne]
              · exact hz a ha
              · rintro rfl; exact hno ha
            have : ∀ {x : Option (State L)} (T : HT (Addr × Key L)),
                (∃ s', x = some s' ∧ t = ideal O K B s' ∧
                  Kept O B { s with refs := Function.update s.refs b (s.refs b - 1), table := T } s' ∧ s'.vars = s.vars) →
                ∃ s', x = some s' ∧ t = ideal O K B s' ∧ Kept O B s s' ∧ s'.vars = s.vars := by
              rintro x T ⟨s', e1, e2, e3, e4⟩
              have hk : Kept O B s { s with refs := Function.update s.refs b (s.refs b - 1), table := T } :=
                ⟨fun _ => hz', fun k => k, fun k => k⟩
              exact ⟨s', e1, e2, hk.trans e3, e4⟩
            simp only [destroy, hc']
            rw [if_neg hr]
            split at h
            · rename_i h1
              rw [if_pos h1]
              have htab : (ideal O K B s).table = s.table := rfl
              rw [htab] at h
              cases ht : HT.erase (hashE hash) eqE (b, c.key) s.table with
              | none => rw [ht] at h; cases h
              | some T =>
                rw [ht] at h
                simp only at h ⊢
                rw [heq T] at h
                refine this _ (ih _ _ t h hz' ho ?_)
                intro a ha
                simp only [List.mem_append, List.mem_map, reduceCtorEq, and_false, exists_false, false_or,
                  List.mem_cons, Item.free.injEq] at ha
                rcases ha with rfl | ha
                · exact hb
                · exact hP' a ha
            · rename_i h1
              rw [if_neg h1]
              have heq' := heq s.table
              exact this _ (ih _ { s with refs := Function.update s.refs b (s.refs b - 1) } t
                (by rw [← h]; congr 1; exact heq'.symm) hz' ho hP')

/-! ## Statements which do not ask for memory -/

theorem inc_ideal {O K B : List Addr} {s t : State L} {a : Addr} (h : inc a (ideal O K B s) = some t) (ha : a ∉ O) :
    ∃ s', inc a s = some s' ∧ t = ideal O K B s' ∧ Kept O B s s' ∧ s'.vars = s.vars := by
  unfold inc at h
  cases hc : (ideal O K B s).cells a with
  | none => rw [hc] at h; cases h
  | some c =>
    rw [hc, Option.some.injEq] at h
    refine ⟨{ s with refs := Function.update s.refs a (s.refs a + 1) }, by simp only [inc, (ideal_cell hc).2], ?_, ⟨?_, fun k => k, fun k => k⟩, rfl⟩
    · rw [← h]
      simp only [ideal, State.mk.injEq, true_and, and_true]
      funext x
      by_cases e : x = a
      · subst e; simp [List.count_eq_zero.2 ha]
      · simp [Function.update_of_ne e]
    · intro k b hb
      simp only
      rw [Function.update_of_ne]
      · exact k b hb
      · rintro rfl; exact ha hb

theorem ideal_set {O K B : List Addr} {s : State L} {v : Nat} {x : Slot} (h : v < s.vars.length) :
    { ideal O K B s with vars := (ideal O K B s).vars.set v x } = ideal O K B { s with vars := s.vars.set v x } := by
  simp only [ideal, List.set_append_left _ _ h]

theorem ideal_var {O K B : List Addr} {s : State L} {v : Nat} {x : Slot} (h : s.vars[v]? = some x) :
    (ideal O K B s).vars[v]? = some x := by
  have hl := (List.getElem?_eq_some_iff.1 h).1
  simp only [ideal]
  rw [List.getElem?_append_left hl]
  exact h

theorem ideal_target {O K B : List Addr} {s : State L} {v : Nat} {a : Addr} (h : s.vars[v]? = some (.live a)) :
    target (ideal O K B s) v = some a := by
  unfold target
  rw [ideal_var h]

theorem target_live {s : State L} {v : Nat} {a : Addr} (h : s.vars[v]? = some (.live a)) : target s v = some a := by
  unfold target
  rw [h]

theorem OInv.cell {O K B : List Addr} {s : State L} (h : OInv hash O K B s) {v : Nat} {a : Addr}
    (hv : s.vars[v]? = some (.live a)) : ∃ c, (ideal O K B s).cells a = some c ∧ s.cells a = some c := by
  obtain ⟨c, hc⟩ := h.var_cell (List.mem_of_getElem? hv)
  exact ⟨c, hc, (ideal_cell hc).2⟩

theorem OInv.part {O K B : List Addr} {s : State L} (h : OInv hash O K B s) {w i : Nat} {k : Addr}
    (hk : Heap.part s w i = some k) : Heap.part (ideal O K B s) w i = some k ∧ k ∉ O := by
  obtain ⟨b, c, hw, hc, hi⟩ := part_some hk
  obtain ⟨c', hc1, hc2⟩ := h.cell hw
  rw [hc] at hc2
  cases hc2
  refine ⟨?_, h.not_orphan_kid hc1 (List.mem_of_getElem? hi)⟩
  unfold Heap.part
  rw [ideal_target hw, Option.bind_some, load, hc1, Option.bind_some, hi]

theorem OInv.drop {O K B : List Addr} {s : State L} (h : OInv hash O K B s) {v : Nat} {a : Addr}
    (hv : s.vars[v]? = some (.live a)) : ∃ s', Heap.drop hash a s = some s' ∧
      Heap.drop hash a (ideal O K B s) = some (ideal O K B s') ∧ Kept O B s s' ∧ s'.vars = s.vars ∧
      ∀ b c, (ideal O K B s').cells b = some c → (ideal O K B s).cells b = some c := by
  obtain ⟨t, e, i, hvars, hsub⟩ := h.inv.detach (ideal_var hv) (x := .moved) (by simp)
  have hl := (List.getElem?_eq_some_iff.1 hv).1
  have ho : ∀ b ∈ O, (t.cells b).isSome := by
    intro b hb
    obtain ⟨c, hc, -⟩ := i.handles b (by
      simp only [ideal, List.set_append_left _ _ hl, List.mem_append, List.map_append, List.mem_map]
      exact .inr (.inl ⟨b, hb, rfl⟩))
    simp only at hc
    rw [hc]; rfl
  unfold Heap.drop at e ⊢
  obtain ⟨s', e1, e2, e3, e4⟩ := destroy_ideal h.once _ _ _ _ e h.zero ho (by simp)
  refine ⟨s', destroy_fuel _ _ _ _ _ (fun b hb => h.cell_block hb) e1 (le_refl _), by rw [e, e2], e3, e4, ?_⟩
  rw [← e2]
  exact hsub

/-- Statements which do not ask for memory do the same in the two states. -/
theorem exec_ideal {O K B : List Addr} {s : State L} (h : OInv hash O K B s) {op : Op L} (hv : Valid s op)
    (hop : ∀ v l ks fr, op ≠ .create v l ks fr) :
    ∃ s', exec hash bytes s op = some s' ∧ Valid (ideal O K B s) op ∧
      exec hash bytes (ideal O K B s) op = some (ideal O K B s') ∧ OInv hash O K B s' := by
  have hfin : Valid (ideal O K B s) op → (∀ t, exec hash bytes (ideal O K B s) op = some t →
      ∃ s', exec hash bytes s op = some s' ∧ t = ideal O K B s' ∧ Kept O B s s') →
      ∃ s', exec hash bytes s op = some s' ∧ Valid (ideal O K B s) op ∧
      exec hash bytes (ideal O K B s) op = some (ideal O K B s') ∧ OInv hash O K B s' := by
    intro hvi hh
    obtain ⟨t, e, i, -⟩ := exec_inv (bytes := bytes) h.inv hvi
    obtain ⟨s', e1, e2, e3⟩ := hh t e
    subst e2
    exact ⟨s', e1, hvi, e, i, e3.zero h.zero, e3.lost h.lost, e3.nodup h.nodup, h.once⟩
  cases op with
  | create v l ks fr => exact absurd rfl (hop v l ks fr)
  | copy v w =>
    obtain ⟨hd, a, hw⟩ := hv
    have hl := (List.getElem?_eq_some_iff.1 hd).1
    refine hfin ⟨ideal_var hd, a, ideal_var hw⟩ fun t e => ?_
    simp only [exec, ideal_var hd, ideal_target hw, Option.map_eq_some_iff] at e
    obtain ⟨t1, e1, rfl⟩ := e
    obtain ⟨s1, e2, rfl, k, hvars⟩ := inc_ideal e1 (h.not_orphan_var (List.mem_of_getElem? hw))
    refine ⟨_, by simp only [exec, hd, target_live hw, e2, Option.map_some]; rfl, ?_, ?_⟩
    rotate_left
    · exact ⟨k.zero, k.nodup, k.lost⟩
    exact ideal_set (by rw [hvars]; exact hl)
  | move v w =>
    obtain ⟨hd, x, hw, hx⟩ := hv
    have hl := (List.getElem?_eq_some_iff.1 hd).1
    have hlw := (List.getElem?_eq_some_iff.1 hw).1
    refine hfin ⟨ideal_var hd, x, ideal_var hw, hx⟩ fun t e => ?_
    cases x with
    | dead => exact absurd rfl hx
    | moved =>
      simp only [exec, ideal_var hd, ideal_var hw, Option.some.injEq] at e
      refine ⟨_, by simp only [exec, hd, hw]; rfl, by rw [← e]; exact ideal_set hl, ?_⟩
      exact ⟨fun k => k, fun k => k, fun k => k⟩
    | live a =>
      simp only [exec, ideal_var hd, ideal_var hw, Option.some.injEq] at e
      refine ⟨_, by simp only [exec, hd, hw]; rfl, ?_, ?_⟩
      rotate_left
      · exact ⟨fun k => k, fun k => k, fun k => k⟩
      rw [← e]
      simp only [ideal]
      rw [List.set_append_left _ _ hl, List.set_append_left _ _ (by simpa using hlw)]
  | copyAssign v w =>
    obtain ⟨hne, ⟨x, hd, hx⟩, b, hw⟩ := hv
    have hl := (List.getElem?_eq_some_iff.1 hd).1
    refine hfin ⟨hne, ⟨x, ideal_var hd, hx⟩, b, ideal_var hw⟩ fun t e => ?_
    have hb := h.not_orphan_var (List.mem_of_getElem? hw)
    cases x with
    | dead => exact absurd rfl hx
    | moved =>
      simp only [exec, ideal_var hd, ideal_target hw, Option.map_eq_some_iff] at e
      obtain ⟨t1, e1, rfl⟩ := e
      obtain ⟨s1, e2, rfl, k, hvars⟩ := inc_ideal e1 hb
      refine ⟨_, by simp only [exec, hd, target_live hw, e2, Option.map_some]; rfl, ?_, ?_⟩
      rotate_left
      · exact ⟨k.zero, k.nodup, k.lost⟩
      exact ideal_set (by rw [hvars]; exact hl)
    | live a =>
      obtain ⟨s0, d1, d2, k0, hv0, -⟩ := h.drop hd
      simp only [exec, ideal_var hd, ideal_target hw, d2, Option.map_eq_some_iff] at e
      obtain ⟨t1, e1, rfl⟩ := e
      obtain ⟨s1, e2, rfl, k, hvars⟩ := inc_ideal e1 hb
      have k' := k0.trans k
      refine ⟨_, by simp only [exec, hd, target_live hw, d1, e2, Option.map_some]; rfl, ?_, ?_⟩
      rotate_left
      · exact ⟨k'.zero, k'.nodup, k'.lost⟩
      exact ideal_set (by rw [hvars, hv0]; exact hl)
  | moveAssign v w =>
    obtain ⟨hne, ⟨x, hd, hx⟩, y, hw, hy⟩ := hv
    have hl := (List.getElem?_eq_some_iff.1 hd).1
    have hlw := (List.getElem?_eq_some_iff.1 hw).1
    refine hfin ⟨hne, ⟨x, ideal_var hd, hx⟩, y, ideal_var hw, hy⟩ fun t e => ?_
    cases x with
    | dead => exact absurd rfl hx
    | moved =>
      simp only [exec, ideal_var hd, ideal_var hw, if_neg hy, Option.some.injEq] at e
      refine ⟨_, by simp only [exec, hd, hw, if_neg hy]; rfl, ?_, ?_⟩
      rotate_left
      · exact ⟨fun k => k, fun k => k, fun k => k⟩
      rw [← e]
      simp only [ideal]
      rw [List.set_append_left _ _ hl, List.set_append_left _ _ (by simpa using hlw)]
    | live a =>
      obtain ⟨s0, d1, d2, k0, hv0, -⟩ := h.drop hd
      simp only [exec, ideal_var hd, ideal_var hw, if_neg hy, d2, Option.map_some, Option.some.injEq] at e
      refine ⟨_, by simp only [exec, hd, hw, if_neg hy, d1, Option.map_some]; rfl, ?_, ?_⟩
      rotate_left
      · exact ⟨k0.zero, k0.nodup, k0.lost⟩
      rw [← e]
      simp only [ideal]
      rw [List.set_append_left _ _ (by rw [hv0]; exact hl), List.set_append_left _ _ (by rw [List.length_set, hv0]; exact hlw)]
  | destroy v =>
    obtain ⟨x, hd, hx⟩ := hv
    have hl := (List.getElem?_eq_some_iff.1 hd).1
    refine hfin ⟨x, ideal_var hd, hx⟩ fun t e => ?_
    cases x with
    | dead => exact absurd rfl hx
    | moved =>
      simp only [exec, ideal_var hd, Option.some.injEq] at e
      refine ⟨_, by simp only [exec, hd]; rfl, by rw [← e]; exact ideal_set hl, ?_⟩
      exact ⟨fun k => k, fun k => k, fun k => k⟩
    | live a =>
      obtain ⟨s0, d1, d2, k0, hv0, -⟩ := h.drop hd
      simp only [exec, ideal_var hd, d2, Option.map_some, Option.some.injEq] at e
      refine ⟨_, by simp only [exec, hd, d1, Option.map_some]; rfl, ?_, ?_⟩
      rotate_left
      · exact ⟨k0.zero, k0.nodup, k0.lost⟩
      rw [← e]
      exact ideal_set (by rw [hv0]; exact hl)
  | swap v w =>
    obtain ⟨⟨x, hd, hx⟩, y, hw, hy⟩ := hv
    have hl := (List.getElem?_eq_some_iff.1 hd).1
    have hlw := (List.getElem?_eq_some_iff.1 hw).1
    refine hfin ⟨⟨x, ideal_var hd, hx⟩, y, ideal_var hw, hy⟩ fun t e => ?_
    have hno : ¬ (x = .dead ∨ y = .dead) := fun h => h.elim hx hy
    simp only [exec, ideal_var hd, ideal_var hw, if_neg hno, Option.some.injEq] at e
    refine ⟨_, by simp only [exec, hd, hw, if_neg hno]; rfl, ?_, ?_⟩
    rotate_left
    · exact ⟨fun k => k, fun k => k, fun k => k⟩
    rw [← e]
    simp only [ideal]
    rw [List.set_append_left _ _ hl, List.set_append_left _ _ (by simpa using hlw)]
  | read v w i =>
    obtain ⟨hd, k, hk⟩ := hv
    obtain ⟨hk', hko⟩ := h.part hk
    have hl := (List.getElem?_eq_some_iff.1 hd).1
    refine hfin ⟨ideal_var hd, k, hk'⟩ fun t e => ?_
    simp only [exec, ideal_var hd, hk', Option.map_eq_some_iff] at e
    obtain ⟨t1, e1, rfl⟩ := e
    obtain ⟨s1, e2, rfl, k, hvars⟩ := inc_ideal e1 hko
    refine ⟨_, by simp only [exec, hd, hk, e2, Option.map_some]; rfl, ?_, ?_⟩
    rotate_left
    · exact ⟨k.zero, k.nodup, k.lost⟩
    exact ideal_set (by rw [hvars]; exact hl)
  | readAssign v w i =>
    obtain ⟨hne, ⟨x, hd, hx⟩, k, hk⟩ := hv
    obtain ⟨hk', hko⟩ := h.part hk
    obtain ⟨b, c, hw, hc, hi⟩ := part_some hk
    obtain ⟨c', hc1, hc2⟩ := h.cell hw
    rw [hc] at hc2
    cases hc2
    have hl := (List.getElem?_eq_some_iff.1 hd).1
    have hld : load s b i = some k := by simp only [load, hc, Option.bind_some, hi]
    have hld' : load (ideal O K B s) b i = some k := by simp only [load, hc1, Option.bind_some, hi]
    refine hfin ⟨hne, ⟨x, ideal_var hd, hx⟩, k, hk'⟩ fun t e => ?_
    cases x with
    | dead => exact absurd rfl hx
    | moved =>
      simp only [exec, ideal_var hd, ideal_target hw, hld', Option.bind_some, Option.map_eq_some_iff] at e
      obtain ⟨t1, e1, rfl⟩ := e
      obtain ⟨s1, e2, rfl, k, hvars⟩ := inc_ideal e1 hko
      refine ⟨_, by simp only [exec, hd, target_live hw, hld, Option.bind_some, e2, Option.map_some]; rfl, ?_, ?_⟩
      rotate_left
      · exact ⟨k.zero, k.nodup, k.lost⟩
      exact ideal_set (by rw [hvars]; exact hl)
    | live a =>
      obtain ⟨s0, d1, d2, k0, hv0, hsub⟩ := h.drop hd
      simp only [exec, ideal_var hd, ideal_target hw, hld', Option.isNone_some, Bool.false_eq_true, if_false, d2,
        Option.bind_eq_some_iff, Option.map_eq_some_iff] at e
      obtain ⟨k', e0, t1, e1, rfl⟩ := e
      unfold load at e0
      cases hc0 : (ideal O K B s0).cells b with
      | none => rw [hc0] at e0; cases e0
      | some c0 =>
        have := hsub b c0 hc0
        rw [hc1] at this
        cases this
        rw [hc0, Option.bind_some, hi] at e0
        cases e0
        have hld0 : load s0 b i = some k := by simp only [load, (ideal_cell hc0).2, Option.bind_some, hi]
        obtain ⟨s1, e2, rfl, k1, hvars⟩ := inc_ideal e1 hko
        have k' := k0.trans k1
        refine ⟨_, by simp only [exec, hd, target_live hw, hld, Option.isNone_some, Bool.false_eq_true, if_false, d1, hld0,
          Option.bind_some, e2, Option.map_some]; rfl, ?_, ?_⟩
        rotate_left
        · exact ⟨k'.zero, k'.nodup, k'.lost⟩
        exact ideal_set (by rw [hvars, hv0]; exact hl)

/-! ## The creation of a datum -/

theorem insertF_insert {α : Type} {h : α → Nat} {eq : α → α → Bool} {f : Bool} {x : α} {t t' : HT α} {r : α × Bool}
    (e : HT.insertF h eq f x t = some (some r, t')) : HT.insert h eq x t = some (r, t') := by
  unfold HT.insertF at e
  unfold HT.insert
  cases hi : HT.insertImpl h eq x t.buckets with
  | none => rw [hi] at e; cases e
  | some rb =>
    obtain ⟨q, bs⟩ := rb
    rw [hi] at e
    simp only at e ⊢
    by_cases hl : f = true ∧ ¬ 4 * (if q.2 then t.size + 1 else t.size) < 3 * bs.length
    · rw [if_pos hl] at e; cases e
    · rw [if_neg hl] at e
      cases hr : HT.rehash h eq ⟨bs, if q.2 then t.size + 1 else t.size, t.nbRehash⟩ with
      | none => rw [hr] at e; cases e
      | some t1 =>
        rw [hr] at e
        simp only [Option.map_some, Option.some.injEq, Prod.mk.injEq] at e
        rw [e.1, e.2]

theorem allocate_ideal {O K B : List Addr} {s : State L} {n : Nat} {fr : Addr} (h : fr ∉ B) :
    allocate n fr (ideal O K B s) = ((allocate n fr s).1, ideal O K B (allocate n fr s).2) := by
  have hadd : ({ ideal O K B s with blocks := (fr, n) :: (ideal O K B s).blocks } : State L) =
      ideal O K B { s with blocks := (fr, n) :: s.blocks } := by
    simp [ideal, h]
  have hsp : (ideal O K B s).spare = s.spare := rfl
  cases hs : s.spare with
  | none =>
    simp only [allocate, hsp, hs]
    exact congrArg (Prod.mk fr) (Eq.trans (by simp only [hsp, hs]) (hadd.trans (by simp only [hs])))
  | some am =>
    obtain ⟨a, m⟩ := am
    simp only [allocate, hsp, hs]
    split
    · rfl
    · exact congrArg (Prod.mk fr) (Eq.trans (by simp only [hsp, hs]) (hadd.trans (by simp only [hs])))

theorem allocate_eq (s : State L) (n : Nat) (fr : Addr) :
    (allocate n fr s).2 = { s with blocks := (allocate n fr s).2.blocks, spare := (allocate n fr s).2.spare } := by
  unfold allocate
  split
  · split <;> rfl
  · rfl

theorem allocate_kept (O B : List Addr) {s : State L} {n : Nat} {fr : Addr} (h : fr ∉ s.blocks.map Prod.fst) :
    Kept O B s (allocate n fr s).2 := by
  have hadd : Kept O B s { s with blocks := (fr, n) :: s.blocks } :=
    ⟨fun k => k, fun k => by simpa only [List.map_cons, List.nodup_cons] using ⟨h, k⟩,
      fun k a ha => List.mem_cons_of_mem _ (k a ha)⟩
  unfold allocate
  split
  · split
    · exact ⟨fun k => k, fun k => k, fun k => k⟩
    · exact hadd
  · exact hadd

theorem forall₂_mem {α β : Type} {R : α → β → Prop} : ∀ {l : List α} {l' : List β} (_ : List.Forall₂ R l l') {b : β}
    (_ : b ∈ l'), ∃ a ∈ l, R a b
  | _, _, .nil, _, h => by simp at h
  | _, _, .cons h0 h, _, hb => by
    rcases List.mem_cons.1 hb with rfl | hb
    · exact ⟨_, List.mem_cons_self, h0⟩
    · obtain ⟨a, ha, hr⟩ := forall₂_mem h hb
      exact ⟨a, List.mem_cons_of_mem _ ha, hr⟩

theorem recycle_ideal {O K B : List Addr} {s t : State L} {a : Addr} {n : Nat} (ha : a ∉ B)
    (hs : ∀ b m, s.spare = some (b, m) → b ∉ B) (h : recycle a n (ideal O K B s) = some t) :
    ∃ s', recycle a n s = some s' ∧ t = ideal O K B s' ∧ Kept O B s s' ∧ s'.vars = s.vars ∧ s'.refs = s.refs := by
  have hrel : ∀ {c : Addr} {t : State L}, c ∉ B → release c (ideal O K B s) = some t →
      ∃ s', release c s = some s' ∧ t = ideal O K B s' ∧ Kept O B s s' ∧ s'.vars = s.vars ∧ s'.refs = s.refs := by
    intro c t hc h
    unfold release at h
    split at h
    · rename_i hany
      simp only [Option.some.injEq] at h
      refine ⟨{ s with blocks := s.blocks.eraseP fun b => b.1 == c }, ?_, ?_, ?_, rfl, rfl⟩
      · unfold release
        rw [if_pos (any_filter hany)]
      · rw [← h]
        simp only [ideal, filter_eraseP hc]
      · exact ⟨fun k => k, fun k => nodup_eraseP_blocks k _, fun k b hb => mem_eraseP_fst (k b hb) (by
          rintro rfl; exact hc hb)⟩
    · cases h
  unfold recycle at h ⊢
  have hsp : (ideal O K B s).spare = s.spare := rfl
  rw [hsp] at h
  cases hs' : s.spare with
  | none =>
    rw [hs'] at h
    simp only [Option.some.injEq] at h
    refine ⟨_, rfl, by rw [← h]; rfl, ?_, rfl, rfl⟩
    exact ⟨fun k => k, fun k => k, fun k => k⟩
  | some bm =>
    obtain ⟨b, m⟩ := bm
    rw [hs'] at h
    simp only at h ⊢
    split at h
    · rename_i hlt
      rw [if_pos hlt]
      simp only [Option.map_eq_some_iff] at h
      obtain ⟨t1, e1, rfl⟩ := h
      obtain ⟨s1, e2, rfl, k, hv, hr⟩ := hrel (hs b m hs') e1
      refine ⟨{ s1 with spare := some (a, n) }, by rw [e2]; rfl, rfl, ⟨k.zero, k.nodup, k.lost⟩, hv, hr⟩
    · rename_i hlt
      rw [if_neg hlt]
      exact hrel ha h

theorem ideal_targets {O K B : List Addr} {s : State L} {ks : List Nat} {as : List Addr}
    (h : List.Forall₂ (fun k a => s.vars[k]? = some (Slot.live a)) ks as) : ks.mapM (target (ideal O K B s)) = some as := by
  induction h with
  | nil => rfl
  | cons h1 _ ih => simp [List.mapM_cons, ideal_target h1, ih]

/-- The creation of a datum, whichever request of memory fails. -/
theorem create_ideal {O K B : List Addr} {s : State L} (h : OInv hash O K B s) (f : Lack) {v : Nat} {l : L} {ks : List Nat} {fr : Addr}
    (hv : Valid s (.create v l ks fr)) :
    Valid (ideal O K B s) (.create v l ks fr) ∧
    ∃ t, exec hash bytes (ideal O K B s) (.create v l ks fr) = some t ∧
      ((∃ a s', execF hash bytes f s (.create v l ks fr) = some (false, s') ∧ OInv hash (O.erase a) K B s' ∧
          s'.vars = s.vars.set v (.live a) ∧ t.vars = (s.vars ++ (O ++ K).map Slot.live).set v (.live a) ∧
          t.cells = (ideal (O.erase a) K B s').cells) ∨
        (f ≠ .nothing ∧ ∃ O' K' B' s', execF hash bytes f s (.create v l ks fr) = some (true, s') ∧ OInv hash O' K' B' s' ∧
          s'.vars = s.vars ∧ B ⊆ B' ∧ ∀ a c, (ideal O K B s).cells a = some c → (ideal O' K' B' s').cells a = some c)) := by
  obtain ⟨hd, hks, hfr⟩ := hv
  have hl := (List.getElem?_eq_some_iff.1 hd).1
  have hfrB : fr ∉ B := fun hb => hfr (h.lost fr hb)
  have hvi : Valid (ideal O K B s) (.create v l ks fr) := by
    refine ⟨ideal_var hd, fun k hk => ?_, fun hm => hfr ?_⟩
    · obtain ⟨a, ha⟩ := hks k hk
      exact ⟨a, ideal_var ha⟩
    · obtain ⟨x, hx, rfl⟩ := List.mem_map.1 hm
      exact List.mem_map_of_mem (List.mem_filter.1 hx).1
  refine ⟨hvi, ?_⟩
  obtain ⟨t, et, it, -⟩ := exec_inv (bytes := bytes) h.inv hvi
  refine ⟨t, et, ?_⟩
  obtain ⟨kids, e, hf⟩ := mapM_target hks
  have hkids : ∀ k ∈ kids, k ∉ O ∧ ∃ c, (ideal O K B s).cells k = some c := by
    intro k hk
    obtain ⟨i, -, hi⟩ := forall₂_mem hf hk
    have hm : Slot.live k ∈ s.vars := List.mem_of_getElem? hi
    exact ⟨h.not_orphan_var hm, h.var_cell hm⟩
  by_cases hb : f = .block ∧ needsBlock (bytes (l, kids)) s = true
  · refine .inr ⟨by rw [hb.1]; simp, O, K, B, s, ?_, h, rfl, fun _ h => h, fun _ _ h => h⟩
    simp only [execF, hd, e, unifyF]
    rw [if_pos hb]
  -- the block
  obtain ⟨hr, ⟨m, hm, hmem⟩, hnone, hnd, halloc, hspare⟩ := allocate_spec h.inv (n := bytes (l, kids)) hvi.2.2
  rw [allocate_ideal hfrB] at hr hmem hnone hnd halloc hspare
  have req := allocate_eq s (bytes (l, kids)) fr
  have rk := allocate_kept O B (n := bytes (l, kids)) hfr
  have ra := allocate_ideal (O := O) (K := K) (B := B) (s := s) (n := bytes (l, kids)) hfrB
  generalize hr0 : allocate (bytes (l, kids)) fr s = r at *
  simp only at hmem hnone halloc hspare hnd
  have hany : (ideal O K B r.2).blocks.any (fun b => b.1 == r.1 && decide (bytes (l, kids) ≤ b.2)) = true := by
    rw [List.any_eq_true]
    exact ⟨_, hmem, by simp [hm]⟩
  have hany' := any_filter hany
  have hrB : r.1 ∉ B := by simpa using (List.mem_filter.1 hmem).2
  have horph : ∀ a ∈ O, ∃ c, (ideal O K B s).cells a = some c := by
    intro a ha
    obtain ⟨c, hc, -⟩ := h.inv.handles a (by
      simp only [ideal, List.mem_append, List.map_append, List.mem_map]
      exact .inr (.inl ⟨a, ha, rfl⟩))
    exact ⟨c, hc⟩
  have hrO : r.1 ∉ O := by
    intro ho
    obtain ⟨c, hc⟩ := horph _ ho
    rw [hnone] at hc
    cases hc
  have hcells : r.2.cells = s.cells := by rw [req]
  have htab : r.2.table = s.table := by rw [req]
  have hrefs : r.2.refs = s.refs := by rw [req]
  have hvars : r.2.vars = s.vars := by rw [req]
  have hclock : r.2.clock = s.clock := by rw [req]
  have hkc : ∀ k ∈ kids, (r.2.cells k).isSome := by
    intro k hk
    obtain ⟨-, c, hc⟩ := hkids k hk
    rw [hcells, (ideal_cell hc).2]; rfl
  have hkc' : ∀ k ∈ kids, ((ideal O K B r.2).cells k).isSome := by
    intro k hk
    obtain ⟨-, c, hc⟩ := hkids k hk
    have : (ideal O K B r.2).cells = (ideal O K B s).cells := by simp only [ideal, hcells]
    rw [this, hc]; rfl
  have hic : ({ ideal O K B r.2 with refs := fun a => (ideal O K B r.2).refs a + kids.count a } : State L) =
      ideal O K B { r.2 with refs := fun a => r.2.refs a + kids.count a } := by
    simp only [ideal, State.mk.injEq, true_and, and_true]
    funext x
    omega
  obtain ⟨o, T, eT, iT, pT, hN, hS⟩ := HT.insertF_spec compatE h.inv.ht (decide (f = .buckets)) (r.1, (l, kids))
  have htab' : (ideal O K B s).table = s.table := rfl
  rw [htab'] at eT pT hS
  -- the two computations
  have hF : ∀ y, (match HT.insertF (hashE hash) eqE (decide (f = .buckets)) (r.1, (l, kids)) s.table with
        | none => none
        | some (none, t) =>
          some (none, { r.2 with
            refs := Function.update (fun a => r.2.refs a + kids.count a) r.1 0
            table := t
            cells := Function.update r.2.cells r.1 (some ⟨(l, kids), r.2.clock⟩)
            clock := r.2.clock + 1 })
        | some (some (_, true), t) =>
          some (some r.1, { r.2 with
            refs := Function.update (fun a => r.2.refs a + kids.count a) r.1 0
            table := t
            cells := Function.update r.2.cells r.1 (some ⟨(l, kids), r.2.clock⟩)
            clock := r.2.clock + 1 })
        | some (some (e, false), t) =>
          match destroy hash (kids.length + steps { r.2 with refs := fun a => r.2.refs a + kids.count a }) (kids.map Item.dec)
            { r.2 with refs := fun a => r.2.refs a + kids.count a, table := t } with
          | none => none
          | some s2 => (recycle r.1 (bytes (l, kids)) s2).map fun s3 => (some e.1, s3)) = y →
      unifyF hash bytes f l kids fr s = y := by
    intro y hy
    rw [← hy]
    simp only [unifyF]
    rw [if_neg hb]
    simp only [hr0]
    rw [if_pos hany', incs_eq kids r.2 hkc]
    simp only [htab]
  obtain ⟨T', eT', iT', mT', -⟩ := HT.insert_spec compatE h.inv.ht (r.1, (l, kids))
  rw [htab'] at eT' mT'
  have hU : ∀ y, (match HT.insert (hashE hash) eqE (r.1, (l, kids)) s.table with
        | none => none
        | some ((_, true), t) =>
          some (r.1, { ideal O K B { r.2 with refs := fun a => r.2.refs a + kids.count a } with
            refs := Function.update (ideal O K B { r.2 with refs := fun a => r.2.refs a + kids.count a }).refs r.1 0
            table := t
            cells := Function.update (ideal O K B r.2).cells r.1 (some ⟨(l, kids), r.2.clock⟩)
            clock := r.2.clock + 1 })
        | some ((e, false), t) =>
          match destroy hash (kids.length + steps (ideal O K B { r.2 with refs := fun a => r.2.refs a + kids.count a }))
            (kids.map Item.dec) { ideal O K B { r.2 with refs := fun a => r.2.refs a + kids.count a } with table := t } with
          | none => none
          | some s2 => (recycle r.1 (bytes (l, kids)) s2).map fun s3 => (e.1, s3)) = y →
      unify hash bytes l kids fr (ideal O K B s) = y := by
    intro y hy
    rw [← hy]
    simp only [unify, ra]
    rw [if_pos hany, incs_eq kids _ hkc', hic]
    have : (ideal O K B { r.2 with refs := fun a => r.2.refs a + kids.count a }).table = s.table := htab
    simp only [this]
    rfl
  rw [eT'] at hU
  rw [eT] at hF
  cases hfind : s.table.elems.find? (eqE (r.1, (l, kids))) with
  | none =>
    rw [hfind] at mT' pT hS hU eT'
    simp only [Option.isNone_none, if_true, Option.isSome_none, Bool.false_eq_true, if_false, Option.getD_none] at mT' pT hS hU eT'
    -- the state before the first handle
    let S : HT (Addr × Key L) → State L := fun T => { r.2 with
      refs := Function.update (fun a => r.2.refs a + kids.count a) r.1 0
      table := T
      cells := Function.update r.2.cells r.1 (some ⟨(l, kids), r.2.clock⟩)
      clock := r.2.clock + 1 }
    have hSi : unify hash bytes l kids fr (ideal O K B s) = some (r.1, ideal O K B (S T')) := by
      refine hU _ ?_
      simp only [Option.some.injEq, Prod.mk.injEq, true_and, S, ideal, State.mk.injEq, and_true]
      constructor
      · funext x
        by_cases ex : x = r.1
        · subst ex; simp [hrB]
        · simp [Function.update_of_ne ex]
      · funext x
        by_cases ex : x = r.1
        · subst ex; simp [List.count_eq_zero.2 hrO]
        · simp [Function.update_of_ne ex]
    have hcell : (ideal O K B (S T')).cells r.1 = some ⟨(l, kids), r.2.clock⟩ := by
      simp only [ideal, S, if_neg hrB, Function.update_self]
    have hinc : inc r.1 (ideal O K B (S T')) = some { ideal O K B (S T') with
        refs := Function.update (ideal O K B (S T')).refs r.1 1 } := by
      simp only [inc, hcell, Option.some.injEq]
      have : (ideal O K B (S T')).refs r.1 = 0 := by
        simp only [ideal, S, Function.update_self, List.count_eq_zero.2 hrO]
      rw [this]
    have ht : t = { ideal O K B (S T') with
        refs := Function.update (ideal O K B (S T')).refs r.1 1
        vars := (ideal O K B (S T')).vars.set v (.live r.1) } := by
      simp only [exec, ideal_var hd, ideal_targets hf, hSi, hinc, Option.map_some, Option.some.injEq] at et
      exact et.symm
    have hSk : ∀ T, Kept O B s (S T) := by
      intro T
      refine rk.trans ⟨fun k a ha => ?_, fun k => k, fun k => k⟩
      simp only [S]
      have hne : a ≠ r.1 := by rintro rfl; exact hrO ha
      rw [Function.update_of_ne hne, k a ha, List.count_eq_zero.2]
      intro hk
      exact (hkids a hk).1 ha
    cases o with
    | some q =>
      have := hS q rfl
      subst this
      have hTT : T = T' := by
        have := insertF_insert eT
        rw [eT'] at this
        cases this
        rfl
      subst hTT
      have hU' : unifyF hash bytes f l kids fr s = some (some r.1, S T) := hF _ rfl
      obtain ⟨s1, e1, e2, k, hv1⟩ := inc_ideal hinc hrO
      refine .inl ⟨r.1, { s1 with vars := s1.vars.set v (.live r.1) }, ?_, ?_, ?_, ?_, ?_⟩
      · simp only [execF, hd, e, hU', e1, Option.map_some]
      · rw [List.erase_of_not_mem hrO]
        have k' := (hSk T).trans k
        refine ⟨?_, k'.zero h.zero, k'.lost h.lost, k'.nodup h.nodup, h.once⟩
        rw [← ideal_set (by rw [hv1]; show v < r.2.vars.length; rw [hvars]; exact hl), ← e2]
        rw [ht] at it
        exact it
      · rw [hv1]; show r.2.vars.set v _ = _; rw [hvars]
      · rw [ht]
        simp only [ideal, S, hvars]
      · rw [ht, List.erase_of_not_mem hrO]
        have hh := congrArg State.cells e2
        exact hh
    | none =>
      have hU' : unifyF hash bytes f l kids fr s = some (none, S T) := hF _ rfl
      refine .inr ⟨?_, r.1 :: O, K, B, S T, ?_, ⟨?_, ?_, (hSk T).lost h.lost, (hSk T).nodup h.nodup, ?_⟩, hvars, fun _ h => h, ?_⟩
      · have := (hN rfl).1
        simp only [decide_eq_true_eq] at this
        rw [this]; simp
      · simp only [execF, hd, e, hU']
      · have hcount : ∀ a, ((S T).vars ++ ((r.1 :: O) ++ K).map Slot.live).count (.live a) = t.vars.count (.live a) := by
          intro a
          have := count_set (ideal_var (O := O) (K := K) (B := B) hd) (.live r.1) (.live a)
          rw [ht]
          simp only [ideal, S, hvars, reduceCtorEq, if_false, Slot.live.injEq] at this ⊢
          rw [Nat.add_zero] at this
          rw [this]
          simp only [List.count_append, count_live, List.count_cons, beq_iff_eq]
          omega
        have hup := it.upd (V := (S T).vars ++ ((r.1 :: O) ++ K).map Slot.live) (R := (ideal (r.1 :: O) K B (S T)).refs)
          (T := T) (ds := []) iT (by rw [ht]; exact pT.trans mT'.symm) ?_ (by simp) ?_
        · rw [ht] at hup
          exact hup
        · intro a ha
          rw [← List.count_pos_iff, hcount a, List.count_pos_iff] at ha
          obtain ⟨c, hc, -⟩ := it.handles a ha
          rw [hc]; rfl
        · intro a c hc
          obtain ⟨h1, h2⟩ := it.refs' hc
          have hR : (ideal (r.1 :: O) K B (S T)).refs a = t.refs a := by
            rw [ht]
            simp only [ideal, S]
            by_cases ex : a = r.1
            · subst ex
              simp [List.count_eq_zero.2 hrO]
            · simp [Function.update_of_ne ex, Ne.symm ex]
          rw [hR, hcount a, List.count_nil]
          omega
      · intro a ha
        rcases List.mem_cons.1 ha with rfl | ha
        · simp only [S, Function.update_self]
        · exact (hSk T).zero h.zero a ha
      · exact List.nodup_cons.2 ⟨hrO, h.once⟩
      · intro a c hc
        have hne : a ≠ r.1 := by rintro rfl; rw [hnone] at hc; cases hc
        obtain ⟨h1, h2⟩ := ideal_cell hc
        simp only [ideal, S, if_neg h1, Function.update_of_ne hne, hcells, h2]
  | some bk =>
    rw [hfind] at mT' pT hS hU eT'
    simp only [Option.isNone_some, if_true, Option.isSome_some, Bool.false_eq_true, if_false, Option.getD_some] at mT' pT hS hU eT'
    obtain ⟨b, k⟩ := bk
    have hkb : k = (l, kids) := by
      have := List.find?_some hfind
      simp [eqE] at this
      exact this.symm
    subst hkb
    obtain ⟨c, hc, hck, -⟩ := (h.inv.table b _).1 (List.mem_of_find?_eq_some hfind)
    -- the state once the new datum is destroyed
    let A : HT (Addr × Key L) → State L := fun T => { r.2 with refs := s.refs, table := T }
    have hpos : ∀ k ∈ kids, 0 < s.refs k := by
      intro k hk
      obtain ⟨h1, d, h2⟩ := hkids k hk
      have := (h.inv.refs' h2).2
      simpa only [ideal, List.count_eq_zero.2 h1, Nat.add_zero] using this
    have hdes : ∀ T n, destroy hash (kids.length + n) (kids.map Item.dec)
        { r.2 with refs := fun a => r.2.refs a + kids.count a, table := T } = some (A T) := by
      intro T n
      rw [destroy_noop kids _ _ (by omega) ?_]
      · simp only [A, hrefs, Nat.add_sub_cancel]
      · intro k hk
        refine ⟨hkc k hk, ?_⟩
        have := hpos k hk
        simp only [hrefs]
        omega
    have hdes' : ∀ T n, destroy hash (kids.length + n) (kids.map Item.dec)
        { ideal O K B { r.2 with refs := fun a => r.2.refs a + kids.count a } with table := T } = some (ideal O K B (A T)) := by
      intro T n
      rw [destroy_noop kids _ _ (by omega) ?_]
      · simp only [A, hrefs, ideal, Option.some.injEq, State.mk.injEq, true_and, and_true]
        funext x
        omega
      · intro k hk
        refine ⟨hkc' k hk, ?_⟩
        have := hpos k hk
        simp only [ideal, hrefs]
        omega
    rw [hdes'] at hU
    simp only at hU
    cases hrc : recycle r.1 (bytes (l, kids)) (ideal O K B (A T')) with
    | none =>
      rw [hrc] at hU
      have hU' := hU none rfl
      simp only [exec, ideal_var hd, ideal_targets hf, hU', reduceCtorEq] at et
    | some t1 =>
      rw [hrc] at hU
      have hU' := hU (some (b, t1)) rfl
      have hAs : ∀ T x n, (A T).spare = some (x, n) → x ∉ B := by
        intro T x n hx
        obtain ⟨-, -, -, m', -, hm'⟩ := hspare x n hx
        simpa using (List.mem_filter.1 hm').2
      obtain ⟨s3, er, rfl, k3, hv3, hr3⟩ := recycle_ideal hrB (hAs T') hrc
      have hA : Kept O B s (A T') := by
        refine rk.trans ⟨fun k a ha => h.zero a ha, fun k => k, fun k => k⟩
      have hA3 := hA.trans k3
      cases o with
      | some q =>
        have := hS q rfl
        subst this
        have hTT : T = T' := by
          have := insertF_insert eT
          rw [eT'] at this
          cases this
          rfl
        subst hTT
        have hUF : unifyF hash bytes f l kids fr s = some (some b, s3) := by
          refine hF _ ?_
          simp only [hdes, er, Option.map_some]
        have hv3' : s3.vars = s.vars := by rw [hv3]; exact hvars
        simp only [exec, ideal_var hd, ideal_targets hf, hU', Option.map_eq_some_iff] at et
        obtain ⟨t2, ei, rfl⟩ := et
        by_cases hbO : b ∈ O
        · -- an orphan is found
          have hb3 : s3.refs b = 0 := hA3.zero h.zero b hbO
          have hcnt : O.count b = 1 := List.count_eq_one_of_mem h.once hbO
          unfold inc at ei
          cases hcb : (ideal O K B s3).cells b with
          | none => rw [hcb] at ei; cases ei
          | some cb =>
            rw [hcb, Option.some.injEq] at ei
            subst ei
            have hE : inc b s3 = some { s3 with refs := Function.update s3.refs b 1 } := by
              simp only [inc, (ideal_cell hcb).2, hb3]
            refine .inl ⟨b, { s3 with refs := Function.update s3.refs b 1, vars := s3.vars.set v (.live b) }, ?_, ⟨?_, ?_, ?_, ?_, ?_⟩,
              ?_, ?_, ?_⟩
            · simp only [execF, hd, e, hUF, hE, Option.map_some]
            · have hcount : ∀ a, (s3.vars.set v (.live b) ++ (O.erase b ++ K).map Slot.live).count (.live a) +
                  (if b = a then 1 else 0) = ((ideal O K B s3).vars.set v (.live b)).count (.live a) := by
                intro a
                have h1 : v < s3.vars.length := by rw [hv3']; exact hl
                simp only [ideal, List.set_append_left _ _ h1, List.count_append, count_live, List.map_append, List.count_erase, beq_iff_eq]
                split
                · rename_i hba
                  subst hba
                  rw [hcnt]
                  omega
                · omega
              have hup := it.upd (V := s3.vars.set v (.live b) ++ (O.erase b ++ K).map Slot.live)
                (R := fun a => Function.update s3.refs b 1 a + (O.erase b).count a)
                (T := s3.table) (ds := []) it.ht (List.Perm.refl _) ?_ (by simp) ?_
              · exact hup
              · intro a ha
                have hm : Slot.live a ∈ (ideal O K B s3).vars.set v (.live b) := by
                  rw [← List.count_pos_iff, ← hcount a]
                  have := List.count_pos_iff.2 ha
                  omega
                obtain ⟨d, hd', -⟩ := it.handles a hm
                rw [hd']; rfl
              · intro a d hd'
                obtain ⟨h1, h2⟩ := it.refs' hd'
                have h3 := hcount a
                simp only at h1 h2
                simp only [List.count_nil]
                by_cases ex : a = b
                · subst ex
                  simp only [Function.update_self, if_true, ideal, hb3, hcnt, List.count_erase_self] at h1 h3 ⊢
                  omega
                · have hn : ¬ b = a := fun e => ex e.symm
                  simp only [Function.update_of_ne ex, if_neg hn, ideal, List.count_erase_of_ne ex] at h1 h2 h3 ⊢
                  omega
            · intro a ha
              have hne : a ≠ b := by
                rintro rfl
                exact (h.once.mem_erase_iff.1 ha).1 rfl
              simp only
              rw [Function.update_of_ne hne]
              exact hA3.zero h.zero a (List.mem_of_mem_erase ha)
            · exact hA3.lost h.lost
            · exact hA3.nodup h.nodup
            · exact h.once.erase b
            · simp only [hv3']
            · simp only [ideal, hv3']
            · rfl
        · obtain ⟨s4, e4, rfl, k4, hv4⟩ := inc_ideal ei hbO
          refine .inl ⟨b, { s4 with vars := s4.vars.set v (.live b) }, ?_, ?_, ?_, ?_, ?_⟩
          · simp only [execF, hd, e, hUF, e4, Option.map_some]
          · rw [List.erase_of_not_mem hbO]
            have k' := hA3.trans k4
            refine ⟨?_, k'.zero h.zero, k'.lost h.lost, k'.nodup h.nodup, h.once⟩
            rw [← ideal_set (by rw [hv4, hv3']; exact hl)]
            exact it
          · simp only [hv4, hv3']
          · simp only [ideal, hv4, hv3']
          · rw [List.erase_of_not_mem hbO]
            rfl
      | none =>
        -- the new datum is lost
        let S : State L := { r.2 with
          refs := Function.update (fun a => r.2.refs a + kids.count a) r.1 0
          table := T
          cells := Function.update r.2.cells r.1 (some ⟨(l, kids), r.2.clock⟩)
          clock := r.2.clock + 1 }
        have hUF : unifyF hash bytes f l kids fr s = some (none, S) := hF _ rfl
        have hcl : (ideal O (kids ++ K) (r.1 :: B) S).cells = (ideal O K B s).cells := by
          funext a
          show (if a ∈ r.1 :: B then none else Function.update r.2.cells r.1 (some ⟨(l, kids), r.2.clock⟩) a) = _
          by_cases ea : a = r.1
          · rw [if_pos (by rw [ea]; exact List.mem_cons_self), ea, hnone]
          · simp only [List.mem_cons, ea, false_or, Function.update_of_ne ea, hcells, ideal]
        have hne : ∀ {a : Addr} {d : Cell L}, (ideal O K B s).cells a = some d → a ≠ r.1 := by
          rintro a d hd' rfl
          rw [hnone] at hd'
          cases hd'
        have hfilt : ∀ x : Addr × Nat, x ∈ (r.2.blocks.filter fun b => decide (b.1 ∉ r.1 :: B)) ↔
            x ∈ (ideal O K B r.2).blocks ∧ x.1 ≠ r.1 := by
          intro x
          simp only [ideal, List.mem_filter, decide_eq_true_eq, List.mem_cons, not_or]
          tauto
        refine .inr ⟨?_, O, kids ++ K, r.1 :: B, S, by simp only [execF, hd, e, hUF], ⟨?_, ?_, ?_, ?_, h.once⟩, hvars, fun _ h => List.mem_cons_of_mem _ h, ?_⟩
        · have := (hN rfl).1
          simp only [decide_eq_true_eq] at this
          rw [this]; simp
        · have h0 := h.inv.upd (V := r.2.vars ++ (O ++ (kids ++ K)).map Slot.live)
            (R := fun a => Function.update (fun a => r.2.refs a + kids.count a) r.1 0 a + O.count a)
            (T := T) (ds := []) iT pT ?_ (by simp) ?_
          · refine ⟨?_, ?_, ?_, ?_, iT, ?_, ?_, ?_, ?_, by simp, ?_, by simp⟩
            · exact rk.nodup h.nodup |>.sublist (List.filter_sublist.map _)
            · intro a
              rw [hcl]
              have h1 : a ∈ (r.2.blocks.filter fun b => decide (b.1 ∉ r.1 :: B)).map Prod.fst ↔
                  a ∈ (ideal O K B r.2).blocks.map Prod.fst ∧ a ≠ r.1 := by
                simp only [List.mem_map, hfilt]
                constructor
                · rintro ⟨x, ⟨hx, hxa⟩, rfl⟩
                  exact ⟨⟨x, hx, rfl⟩, hxa⟩
                · rintro ⟨⟨x, hx, rfl⟩, hxa⟩
                  exact ⟨x, ⟨hx, hxa⟩, rfl⟩
              refine h1.trans ?_
              rw [halloc a]
              constructor
              · rintro ⟨h1 | h1, h2⟩
                · exact h1
                · exact absurd h1 h2
              · rintro (h1 | ⟨n, h1⟩)
                · obtain ⟨d, hd'⟩ := Option.isSome_iff_exists.1 h1
                  exact ⟨.inl (.inl h1), hne hd'⟩
                · exact ⟨.inl (.inr ⟨n, h1⟩), (hspare a n h1).1⟩
            · intro a n ha
              rw [hcl]
              exact (hspare a n ha).2.2.1
            · intro a n ha
              obtain ⟨h1, -, -, m', h2, h3⟩ := hspare a n ha
              exact ⟨m', h2, (hfilt _).2 ⟨h3, h1⟩⟩
            · intro a k
              rw [hcl]
              exact h0.table a k
            · intro a d hd'
              rw [hcl] at hd'
              have := h.inv.birth a d hd'
              show d.birth < r.2.clock + 1
              rw [hclock]
              have : d.birth < s.clock := this
              omega
            · intro a d hd' hn k hk
              rw [hcl] at hd' ⊢
              exact h0.kids a d hd' hn k hk
            · intro a ha
              rw [hcl]
              exact h0.handles a ha
            · intro a d hd' hn
              rw [hcl] at hd'
              exact h0.refs a d hd' hn
          · intro a ha
            simp only [hvars, List.mem_append, List.mem_map, List.map_append] at ha
            have hK : ∀ x ∈ K, ((ideal O K B s).cells x).isSome := by
              intro x hx
              obtain ⟨d, hd', -⟩ := h.inv.handles x (by
                simp only [ideal, List.mem_append, List.map_append, List.mem_map]
                exact .inr (.inr ⟨x, hx, rfl⟩))
              rw [hd']; rfl
            rcases ha with ha | ⟨x, hx, ex⟩ | ⟨x, hx, ex⟩ | ⟨x, hx, ex⟩
            · obtain ⟨d, hd'⟩ := h.var_cell ha
              rw [hd']; rfl
            · cases ex
              obtain ⟨d, hd'⟩ := horph _ hx
              rw [hd']; rfl
            · cases ex
              obtain ⟨-, d, hd'⟩ := hkids _ hx
              rw [hd']; rfl
            · cases ex
              exact hK _ hx
          · intro a d hd'
            obtain ⟨h1, h2⟩ := h.inv.refs' hd'
            simp only [ideal, List.map_append, List.count_append, count_live] at h1 h2
            simp only [Function.update_of_ne (hne hd'), List.map_append, List.count_append, count_live, hvars, hrefs, List.count_nil]
            simp only [ideal]
            omega
        · intro a ha
          have hna : a ≠ r.1 := by rintro rfl; exact hrO ha
          simp only [S]
          rw [Function.update_of_ne hna, hrefs, h.zero a ha, List.count_eq_zero.2]
          intro hk
          exact (hkids a hk).1 ha
        · intro a ha
          rcases List.mem_cons.1 ha with rfl | ha
          · exact List.mem_map_of_mem (f := Prod.fst) (List.mem_filter.1 hmem).1
          · exact rk.lost h.lost a ha
        · exact rk.nodup h.nodup
        · intro a d hd'
          rw [hcl]
          exact hd'

/-! ## Programs -/

mutual
theorem denotes_mono {s s' : State L} (h : ∀ a c, s.cells a = some c → s'.cells a = some c) :
    ∀ (t : Tree L) {a : Addr}, Denotes s t a → Denotes s' t a
  | .node _ ts, _, ⟨kids, b, ha, hk⟩ => ⟨kids, b, h _ _ ha, denotesL_mono h ts hk⟩
theorem denotesL_mono {s s' : State L} (h : ∀ a c, s.cells a = some c → s'.cells a = some c) :
    ∀ (ts : List (Tree L)) {as : List Addr}, DenotesL s ts as → DenotesL s' ts as
  | [], [], _ => trivial
  | t :: ts, _ :: _, ⟨h1, h2⟩ => ⟨denotes_mono h t h1, denotesL_mono h ts h2⟩
  | [], _ :: _, h => by simp [DenotesL] at h
  | _ :: _, [], h => by simp [DenotesL] at h
end

theorem slotRel_mono {s s' : State L} (h : ∀ a c, s.cells a = some c → s'.cells a = some c) {x : Slot} {y : VSlot L}
    (hr : SlotRel s x y) : SlotRel s' x y := by
  cases x <;> cases y <;> first | exact hr | exact denotes_mono h _ hr

theorem forall₂_left {α β : Type} {R : α → β → Prop} : ∀ {a b : List α} {c d : List β}, List.Forall₂ R (a ++ b) (c ++ d) →
    a.length = c.length → List.Forall₂ R a c
  | [], _, [], _, _, _ => .nil
  | _ :: _, _, _ :: _, _, .cons h0 h, hl => .cons h0 (forall₂_left h (by simpa using hl))
  | [], _, _ :: _, _, _, hl => by simp at hl
  | _ :: _, _, [], _, _, hl => by simp at hl

theorem forall₂_append {α β : Type} {R : α → β → Prop} : ∀ {a b : List α} {c d : List β}, List.Forall₂ R a c →
    List.Forall₂ R b d → List.Forall₂ R (a ++ b) (c ++ d)
  | _, _, _, _, .nil, h => h
  | _, _, _, _, .cons h0 h, h' => .cons h0 (forall₂_append h h')

theorem vtarget_append {V W : List (VSlot L)} {k : Nat} (h : k < V.length) : vtarget (V ++ W) k = vtarget V k := by
  unfold vtarget
  rw [List.getElem?_append_left h]

theorem vpart_append {V W : List (VSlot L)} {k i : Nat} (h : k < V.length) : vpart (V ++ W) k i = vpart V k i := by
  unfold vpart
  rw [vtarget_append h]

theorem vtargets_append {V W : List (VSlot L)} : ∀ {ks : List Nat}, (∀ k ∈ ks, k < V.length) →
    ks.mapM (vtarget (V ++ W)) = ks.mapM (vtarget V)
  | [], _ => rfl
  | k :: ks, h => by
    simp only [List.mapM_cons, vtarget_append (h k List.mem_cons_self),
      vtargets_append fun k hk => h k (List.mem_cons_of_mem _ hk)]

/-- The values of the variables of a program do not depend on what is lost. -/
theorem vexec_append {s : State L} {op : Op L} (hv : Valid s op) {V W : List (VSlot L)} (hl : s.vars.length = V.length) :
    vexec (V ++ W) op = (vexec V op).map (· ++ W) := by
  have hlt : ∀ {v : Nat} {x : Slot}, s.vars[v]? = some x → v < V.length := fun h => by
    rw [← hl]; exact (List.getElem?_eq_some_iff.1 h).1
  cases op with
  | create v l ks fr =>
    obtain ⟨hd, hks, -⟩ := hv
    simp only [vexec]
    rw [vtargets_append fun k hk => by obtain ⟨a, ha⟩ := hks k hk; exact hlt ha, Option.map_map]
    congr 1
    funext ts
    exact List.set_append_left _ _ (hlt hd)
  | copy v w =>
    obtain ⟨hd, a, hw⟩ := hv
    simp only [vexec, List.getElem?_append_left (hlt hw), Option.map_map]
    congr 1
    funext x
    exact List.set_append_left _ _ (hlt hd)
  | copyAssign v w =>
    obtain ⟨-, ⟨x, hd, -⟩, a, hw⟩ := hv
    simp only [vexec, List.getElem?_append_left (hlt hw), Option.map_map]
    congr 1
    funext x
    exact List.set_append_left _ _ (hlt hd)
  | move v w =>
    obtain ⟨hd, x, hw, -⟩ := hv
    simp only [vexec, List.getElem?_append_left (hlt hw), Option.map_map]
    congr 1
    funext x
    simp only [Function.comp]
    rw [List.set_append_left _ _ (hlt hd), List.set_append_left _ _ (by simpa using hlt hw)]
  | moveAssign v w =>
    obtain ⟨-, ⟨x, hd, -⟩, y, hw, -⟩ := hv
    simp only [vexec, List.getElem?_append_left (hlt hw), Option.map_map]
    congr 1
    funext x
    simp only [Function.comp]
    rw [List.set_append_left _ _ (hlt hd), List.set_append_left _ _ (by simpa using hlt hw)]
  | destroy v =>
    obtain ⟨x, hd, -⟩ := hv
    simp only [vexec, Option.map_some, List.set_append_left _ _ (hlt hd)]
  | swap v w =>
    obtain ⟨⟨x, hd, -⟩, y, hw, -⟩ := hv
    simp only [vexec, List.getElem?_append_left (hlt hw), List.getElem?_append_left (hlt hd)]
    rw [List.getElem?_eq_getElem (hlt hd), List.getElem?_eq_getElem (hlt hw)]
    simp only [Option.map_some, Option.some.injEq]
    rw [List.set_append_left _ _ (hlt hd), List.set_append_left _ _ (by simpa using hlt hw)]
  | read v w i =>
    obtain ⟨hd, k, hk⟩ := hv
    obtain ⟨b, c, hw, -⟩ := part_some hk
    simp only [vexec, vpart_append (hlt hw), Option.map_map]
    congr 1
    funext x
    exact List.set_append_left _ _ (hlt hd)
  | readAssign v w i =>
    obtain ⟨-, ⟨x, hd, -⟩, k, hk⟩ := hv
    obtain ⟨b, c, hw, -⟩ := part_some hk
    simp only [vexec, vpart_append (hlt hw), Option.map_map]
    congr 1
    funext x
    exact List.set_append_left _ _ (hlt hd)

theorem vexec_length {V V' : List (VSlot L)} {op : Op L} (h : vexec V op = some V') : V'.length = V.length := by
  cases op <;> simp only [vexec, Option.map_eq_some_iff] at h
  case destroy => cases h; simp
  case swap =>
    split at h
    · cases h; simp
    · cases h
  all_goals
    obtain ⟨x, -, rfl⟩ := h
    simp

/-- The values of the variables, and what is lost. (Proof device, not part of the code.) -/
def Good (hash : Key L → Nat) (s : State L) (V : List (VSlot L)) (B : List Addr) : Prop :=
  ∃ O K, OInv hash O K B s ∧ List.Forall₂ (SlotRel (ideal O K B s)) s.vars V

/-- One statement. -/
theorem execF_good {s : State L} {V : List (VSlot L)} {B : List Addr} (h : Good hash s V B) (f : Lack) {op : Op L} (hv : Valid s op) :
    (∃ s' V', execF hash bytes f s op = some (false, s') ∧ vexec V op = some V' ∧ Good hash s' V' B) ∨
    (f ≠ .nothing ∧ ∃ s' B', execF hash bytes f s op = some (true, s') ∧ s'.vars = s.vars ∧ B ⊆ B' ∧ Good hash s' V B') := by
  obtain ⟨O, K, hi, ha⟩ := h
  -- the values of what is lost
  have hW : ∃ W, List.Forall₂ (SlotRel (ideal O K B s)) ((O ++ K).map Slot.live) W := by
    have : ∀ l : List Addr, (∀ a ∈ l, ((ideal O K B s).cells a).isSome) →
        ∃ W, List.Forall₂ (SlotRel (ideal O K B s)) (l.map Slot.live) W := by
      intro l
      induction l with
      | nil => exact fun _ => ⟨[], .nil⟩
      | cons a l ih =>
        intro hl
        obtain ⟨W, hW⟩ := ih fun b hb => hl b (List.mem_cons_of_mem _ hb)
        obtain ⟨t, ht⟩ := hi.inv.denotes_total (hl a List.mem_cons_self)
        exact ⟨.val t :: W, .cons ht hW⟩
    refine this _ fun a ha => ?_
    obtain ⟨c, hc, -⟩ := hi.inv.handles a (List.mem_append_right _ (List.mem_map_of_mem ha))
    rw [hc]; rfl
  obtain ⟨W, hW⟩ := hW
  have hab : Abs (ideal O K B s) (V ++ W) := forall₂_append ha hW
  have hlen := ha.length_eq
  have hval : ∀ {t : State L}, Valid (ideal O K B s) op → exec hash bytes (ideal O K B s) op = some t →
      ∃ V', vexec V op = some V' ∧ V'.length = s.vars.length ∧ List.Forall₂ (SlotRel t) t.vars (V' ++ W) := by
    intro t hvi et
    obtain ⟨V2, e2, a2⟩ := exec_abs hi.inv hvi et hab
    rw [vexec_append hv hlen] at e2
    obtain ⟨V', e3, rfl⟩ := Option.map_eq_some_iff.1 e2
    exact ⟨V', e3, by rw [vexec_length e3, hlen], a2⟩
  by_cases hop : ∀ v l ks fr, op ≠ .create v l ks fr
  · obtain ⟨s', e1, hvi, e2, hi'⟩ := exec_ideal (bytes := bytes) hi hv hop
    obtain ⟨V', e3, hl, a3⟩ := hval hvi e2
    refine .inl ⟨s', V', ?_, e3, O, K, hi', forall₂_left a3 ?_⟩
    · cases op with
      | create v l ks fr => exact absurd rfl (hop v l ks fr)
      | _ => simp only [execF, e1, Option.map_some]
    · have := a3.length_eq
      have h2 := hW.length_eq
      simp only [ideal, List.length_append] at this
      omega
  · push Not at hop
    obtain ⟨v, l, ks, fr, rfl⟩ := hop
    obtain ⟨hvi, t, et, hcase⟩ := create_ideal (bytes := bytes) hi f hv
    rcases hcase with ⟨a, s', e1, hi', hv1, hv2, hc⟩ | ⟨hf, O', K', B', s', e1, hi', hv1, hB, hc⟩
    · obtain ⟨V', e3, hl, a3⟩ := hval hvi et
      refine .inl ⟨s', V', e1, e3, _, _, hi', ?_⟩
      have hlv := (List.getElem?_eq_some_iff.1 hv.1).1
      rw [hv2, List.set_append_left _ _ hlv, ← hv1] at a3
      have a4 := forall₂_left a3 (by rw [hv1, List.length_set, hl])
      exact forall₂_imp a4 fun x y _ hr => slotRel_mono (fun b c hb => by rw [← hc]; exact hb) hr
    · refine .inr ⟨hf, s', B', e1, hv1, hB, O', K', hi', ?_⟩
      rw [hv1]
      exact forall₂_imp ha fun x y _ hr => slotRel_mono hc hr

theorem runsF_good {s s' : State L} {ops : List (Op L)} (hr : RunsF hash bytes s ops s') :
    ∀ {V : List (VSlot L)} {B : List Addr}, Good hash s V B → ∃ V' B', vexecs V ops = some V' ∧ B ⊆ B' ∧ Good hash s' V' B' := by
  induction hr with
  | nil s => exact fun {V B} h => ⟨V, B, rfl, fun _ h => h, h⟩
  | done f hv he _ ih =>
    intro V B h
    rcases execF_good h f hv with ⟨s1, V1, e1, e2, h1⟩ | ⟨-, s1, -, e1, -⟩
    · rw [he] at e1
      cases e1
      obtain ⟨V', B', e3, hB, h3⟩ := ih h1
      exact ⟨V', B', by simp only [vexecs, e2, Option.bind_some, e3], hB, h3⟩
    · rw [he] at e1
      cases e1
  | thrown f hv he _ ih =>
    intro V B h
    rcases execF_good h f hv with ⟨s1, V1, e1, -⟩ | ⟨-, s1, B1, e1, -, hB1, h1⟩
    · rw [he] at e1
      cases e1
    · rw [he] at e1
      cases e1
      obtain ⟨V', B', e3, hB, h3⟩ := ih h1
      exact ⟨V', B', e3, fun _ h => hB (hB1 h), h3⟩

theorem init_good {size : BitVec 64} (h1 : 1 ≤ size.toNat) (h2 : size.toNat ≤ 2 ^ 63) (n : Nat) :
    Good hash (init size n : State L) (List.replicate n VSlot.dead) [] := by
  have he : ideal [] [] [] (init size n : State L) = init size n := by
    simp [ideal, init]
  refine ⟨[], [], ⟨?_, by simp, by simp, by simp [init], by simp⟩, ?_⟩
  · rw [he]
    exact init_inv h1 h2 n
  · rw [he]
    exact init_abs size n

/-- A block which is neither the spare one nor that of a datum of the table is never released. -/
theorem runsF_lost {s s' : State L} {ops : List (Op L)} (hr : RunsF hash bytes s ops s') {V : List (VSlot L)} {B : List Addr}
    (h : Good hash s V B) {a : Addr} (ha : a ∈ s.blocks.map Prod.fst) (hs : ∀ n, s.spare ≠ some (a, n))
    (ht : ∀ k, (a, k) ∉ s.table.elems) : a ∈ s'.blocks.map Prod.fst := by
  have haB : a ∈ B := by
    by_contra hb
    obtain ⟨O, K, hi, -⟩ := h
    have hm : a ∈ (ideal O K B s).blocks.map Prod.fst := by
      obtain ⟨x, hx, rfl⟩ := List.mem_map.1 ha
      exact List.mem_map_of_mem (List.mem_filter.2 ⟨hx, by simpa using hb⟩)
    rcases (hi.inv.alloc a).1 hm with hc | ⟨n, hn⟩
    · obtain ⟨c, hc⟩ := Option.isSome_iff_exists.1 hc
      exact ht c.key ((hi.inv.table a c.key).2 ⟨c, hc, rfl, by simp⟩)
    · exact hs n hn
  obtain ⟨V', B', -, hB, O, K, hi, -⟩ := runsF_good hr h
  exact hi.lost a (hB haB)

theorem OInv.reaches {O K B : List Addr} {s : State L} (h : OInv hash O K B s) {a : Addr} (ha : Reaches s a) :
    ∃ c, (ideal O K B s).cells a = some c := by
  induction ha with
  | handle hm => exact h.var_cell hm
  | kid _ hc hk ih =>
    obtain ⟨c', hc'⟩ := ih
    have := (ideal_cell hc').2
    rw [hc] at this
    cases this
    obtain ⟨d, hd, -⟩ := h.inv.kids _ _ hc' (by simp) _ hk
    exact ⟨d, hd⟩

/-- A creation whose block is refused does nothing. -/
theorem execF_block {s s' : State L} {op : Op L} (h : execF hash bytes .block s op = some (true, s')) : s' = s := by
  cases op with
  | create v l ks fr =>
    simp only [execF] at h
    split at h
    · rename_i kids _ _
      split at h
      · cases h
      · rename_i s1 hu
        simp only [Option.some.injEq, Prod.mk.injEq, true_and] at h
        subst h
        simp only [unifyF] at hu
        split at hu
        · cases hu; rfl
        · split at hu
          · split at hu
            · cases hu
            · rename_i s2 _
              have hno : ∀ T, HT.insertF (hashE hash) eqE (decide (Lack.block = Lack.buckets))
                  ((allocate (bytes (l, kids)) fr s).1, (l, kids)) s2.table ≠ some (none, T) := by
                intro T hT
                unfold HT.insertF at hT
                split at hT
                · cases hT
                · rw [if_neg (by simp)] at hT
                  simp at hT
              split at hu
              · cases hu
              · rename_i T hT
                exact absurd hT (hno T)
              · cases hu
              · split at hu
                · cases hu
                · simp at hu
          · cases hu
      · simp at h
    · cases h
  | _ =>
    simp [execF] at h

end
end Heap
end Verif
