import Verif.Mem.HeapSem
/-!
# Reference counters on 32 bits

`Mem/Heap` has unbounded reference counters. Here they wrap, as in the code compiled without assertions, and the two memories
are compared.
-/

set_option autoImplicit false
set_option linter.unusedSectionVars false

namespace Verif
namespace Heap

section
variable {L : Type} [DecidableEq L] (hash : Key L → Nat) (bytes : Key L → Nat) (M : Nat)

/-- `increment_reference_counter`, `/repo/sdd/mem/unique.hh:94-101`, with a counter modulo `M` (the assertion of line 99 is not
compiled). -/
def incW (a : Addr) (s : State L) : Option (State L) :=
  match s.cells a with
  | none => none
  | some _ => some { s with refs := Function.update s.refs a ((s.refs a + 1) % M) }

/-- `incs` with a counter modulo `M`. (`/repo/sdd/mem/ptr.hh`, lines 86-92, for each pointer of a new datum.) -/
def incsW (as : List Addr) (s : State L) : Option (State L) := as.foldlM (fun s a => incW M a s) s

/-- `destroy` with a counter modulo `M` (the assertion of `/repo/sdd/mem/unique.hh:108` is not compiled).
`/repo/sdd/mem/ptr.hh:140-150`, `/repo/sdd/mem/unique.hh:103-110`, `/repo/sdd/mem/unique_table.hh:147-155`. -/
def destroyW : Nat → List Item → State L → Option (State L)
  | _, [], s => some s
  | 0, _ :: _, _ => none
  | n + 1, .free a :: is, s => (free a s).bind (destroyW n is)
  | n + 1, .dec a :: is, s =>
    match s.cells a with
    | none => none
    | some c =>
      let r := (s.refs a + (M - 1)) % M
      let s' := { s with refs := Function.update s.refs a r }
      if r = 0 then
        match HT.erase (hashE hash) eqE (a, c.key) s'.table with
        | none => none
        | some t => destroyW n (c.key.2.map Item.dec ++ Item.free a :: is) { s' with table := t }
      else destroyW n is s'

/-- `drop` with a counter modulo `M`. (`/repo/sdd/mem/ptr.hh`, lines 140-150.) -/
def dropW (a : Addr) (s : State L) : Option (State L) := destroyW hash M (steps s) [.dec a] s

/-- `unify` with a counter modulo `M`. (`/repo/sdd/mem/unique_table.hh`, lines 94-123.) -/
def unifyW (l : L) (kids : List Addr) (fr : Addr) (s : State L) : Option (Addr × State L) :=
  let k : Key L := (l, kids)
  let r := allocate (bytes k) fr s
  if r.2.blocks.any (fun b => b.1 == r.1 && decide (bytes k ≤ b.2)) then
    match incsW M kids r.2 with
    | none => none
    | some s1 =>
      match HT.insert (hashE hash) eqE (r.1, k) s1.table with
      | none => none
      | some ((_, true), t) =>
        some (r.1, { s1 with
          table := t
          cells := Function.update s1.cells r.1 (some ⟨k, s1.clock⟩)
          refs := Function.update s1.refs r.1 0
          clock := s1.clock + 1 })
      | some ((e, false), t) =>
        match destroyW hash M (kids.length + steps s1) (kids.map Item.dec) { s1 with table := t } with
        | none => none
        | some s2 => (recycle r.1 (bytes k) s2).map fun s3 => (e.1, s3)
  else none

/-- The execution of a statement (`exec`) with counters modulo `M`; `M = 2 ^ 32` in `/repo/sdd/mem/unique.hh:53`.
(`/repo/sdd/mem/ptr.hh`, lines 76-150.) -/
def execW (s : State L) : Op L → Option (State L)
  | .create v l ks fr =>
    match s.vars[v]?, ks.mapM (target s) with
    | some .dead, some kids =>
      match unifyW hash bytes M l kids fr s with
      | none => none
      | some (a, s') => (incW M a s').map fun s'' => { s'' with vars := s''.vars.set v (.live a) }
    | _, _ => none
  | .copy v w =>
    match s.vars[v]?, target s w with
    | some .dead, some a => (incW M a s).map fun s' => { s' with vars := s'.vars.set v (.live a) }
    | _, _ => none
  | .move v w =>
    match s.vars[v]?, s.vars[w]? with
    | some .dead, some .moved => some { s with vars := s.vars.set v .moved }
    | some .dead, some (.live a) => some { s with vars := (s.vars.set v (.live a)).set w .moved }
    | _, _ => none
  | .copyAssign v w =>
    match s.vars[v]?, target s w with
    | some .moved, some b => (incW M b s).map fun s' => { s' with vars := s'.vars.set v (.live b) }
    | some (.live a), some b =>
      match dropW hash M a s with
      | none => none
      | some s1 => (incW M b s1).map fun s' => { s' with vars := s'.vars.set v (.live b) }
    | _, _ => none
  | .moveAssign v w =>
    match s.vars[v]?, s.vars[w]? with
    | some .moved, some x =>
      if x = .dead then none else some { s with vars := (s.vars.set v x).set w .moved }
    | some (.live a), some x =>
      if x = .dead then none
      else (dropW hash M a s).map fun s1 => { s1 with vars := (s1.vars.set v x).set w .moved }
    | _, _ => none
  | .destroy v =>
    match s.vars[v]? with
    | some .moved => some { s with vars := s.vars.set v .dead }
    | some (.live a) => (dropW hash M a s).map fun s1 => { s1 with vars := s1.vars.set v .dead }
    | _ => none
  | .swap v w =>
    match s.vars[v]?, s.vars[w]? with
    | some x, some y =>
      if x = .dead ∨ y = .dead then none else some { s with vars := (s.vars.set v y).set w x }
    | _, _ => none
  | .read v w i =>
    match s.vars[v]?, part s w i with
    | some .dead, some k => (incW M k s).map fun s' => { s' with vars := s'.vars.set v (.live k) }
    | _, _ => none
  | .readAssign v w i =>
    match s.vars[v]?, target s w with
    | some .moved, some b =>
      (load s b i).bind fun k => (incW M k s).map fun s' => { s' with vars := s'.vars.set v (.live k) }
    | some (.live a), some b =>
      if (load s b i).isNone then none
      else
        match dropW hash M a s with
        | none => none
        | some s1 => (load s1 b i).bind fun k => (incW M k s1).map fun s' => { s' with vars := s'.vars.set v (.live k) }
    | _, _ => none

/-- The number of pointers made by a statement. (Specification or proof device, not part of the code.) -/
def Op.made : Op L → Nat
  | .create _ _ ks _ => ks.length + 1
  | _ => 1

/-- The number of handles and of pointers in data in memory which designate an address. (Specification or proof device, not part
of the code.) -/
def holders (s : State L) (a : Addr) : Nat := s.vars.count (.live a) + inTable a s.table.elems

/-- The states of a program with counters modulo `M`, where fewer than `M` pointers designate each datum. (Model of the environment: what the user or
the system does.) -/
inductive ReachB (size : BitVec 64) (n : Nat) : State L → Prop where
  | init : ReachB size n (init size n)
  | step {s s' : State L} {op : Op L} : ReachB size n s → Valid s op → (∀ a, holders s a + op.made < M) →
      execW hash bytes M s op = some s' → ReachB size n s'

/-- The states of any program with counters modulo `M`. (Model of the environment: what the user or the system does.) -/
inductive ReachW (size : BitVec 64) (n : Nat) : State L → Prop where
  | init : ReachW size n (init size n)
  | step {s s' : State L} {op : Op L} : ReachW size n s → Valid s op → execW hash bytes M s op = some s' → ReachW size n s'

end

section
variable {L : Type} [DecidableEq L] {hash : Key L → Nat} {bytes : Key L → Nat} {M : Nat}

theorem incW_eq {a : Addr} {s : State L} (h : (s.cells a).isSome → s.refs a + 1 < M) : incW M a s = inc a s := by
  unfold incW inc
  cases hc : s.cells a with
  | none => rfl
  | some c => rw [Nat.mod_eq_of_lt (h (by simp [hc]))]

theorem inc_refs {a : Addr} {s s' : State L} (h : inc a s = some s') :
    s'.cells = s.cells ∧ ∀ b, s'.refs b = s.refs b + if b = a then 1 else 0 := by
  unfold inc at h
  split at h
  · cases h
  · cases h
    refine ⟨rfl, fun b => ?_⟩
    by_cases hb : b = a
    · subst hb; simp
    · simp [hb]

theorem incsW_eq : ∀ (as : List Addr) {s : State L}, (∀ a, (s.cells a).isSome → s.refs a + as.length < M) → incsW M as s = incs as s ∧
    ∀ s', incs as s = some s' → s'.cells = s.cells ∧ ∀ b, s'.refs b ≤ s.refs b + as.length
  | [], s, _ => ⟨rfl, fun s' h => by cases h; exact ⟨rfl, fun b => Nat.le_refl _⟩⟩
  | a :: as, s, h => by
    have e1 : incW M a s = inc a s := incW_eq fun ha => by have := h a ha; simp at this; omega
    simp only [incsW, incs, List.foldlM_cons] at *
    rw [e1]
    cases hi : inc a s with
    | none => exact ⟨rfl, fun s' h => by cases h⟩
    | some s1 =>
      obtain ⟨hc, hr⟩ := inc_refs hi
      obtain ⟨h1, h2⟩ := incsW_eq as (s := s1) fun b hb => by
        rw [hc] at hb
        have := h b hb
        have := hr b
        simp at *
        split at this <;> omega
      refine ⟨h1, fun s' hs => ?_⟩
      obtain ⟨h3, h4⟩ := h2 s' hs
      refine ⟨h3.trans hc, fun b => ?_⟩
      have := h4 b
      have := hr b
      simp
      split at this <;> omega

theorem free_cells {a : Addr} {s s' : State L} (h : free a s = some s') :
    (∀ b, (s'.cells b).isSome → (s.cells b).isSome) ∧ s'.refs = s.refs := by
  unfold free at h
  split at h
  · cases h
    refine ⟨fun b => ?_, rfl⟩
    by_cases hb : b = a
    · subst hb; simp
    · simp [hb]
  · cases h

theorem destroyW_eq (hM : 0 < M) : ∀ (n : Nat) (P : List Item) (s s' : State L), destroy hash n P s = some s' →
    (∀ a, (s.cells a).isSome → s.refs a < M) → destroyW hash M n P s = some s' ∧
    (∀ a, (s'.cells a).isSome → (s.cells a).isSome) ∧ ∀ a, s'.refs a ≤ s.refs a
  | n, [], s, s', h, _ => by
    rw [destroy] at h
    cases h
    exact ⟨by rw [destroyW], fun _ h => h, fun _ => Nat.le_refl _⟩
  | 0, _ :: _, s, s', h, _ => by rw [destroy] at h; cases h
  | n + 1, .free a :: is, s, s', h, hb => by
    rw [destroy] at h
    rw [destroyW]
    cases hf : free a s with
    | none => rw [hf] at h; cases h
    | some s1 =>
      rw [hf] at h
      obtain ⟨h1, h2⟩ := free_cells hf
      obtain ⟨h3, h4, h5⟩ := destroyW_eq hM n is s1 s' h fun b hb' => by rw [h2]; exact hb b (h1 b hb')
      exact ⟨h3, fun b hb => h1 b (h4 b hb), fun b => by rw [← h2]; exact h5 b⟩
  | n + 1, .dec a :: is, s, s', h, hb => by
    rw [destroy] at h
    rw [destroyW]
    cases hc : s.cells a with
    | none => rw [hc] at h; cases h
    | some c =>
      rw [hc] at h
      dsimp only at h ⊢
      have hlt := hb a (by simp [hc])
      by_cases h0 : s.refs a = 0
      · rw [if_pos h0] at h; cases h
      · rw [if_neg h0] at h
        have hr : (s.refs a + (M - 1)) % M = s.refs a - 1 := by
          have : s.refs a + (M - 1) = (s.refs a - 1) + M := by omega
          rw [this, Nat.add_mod_right, Nat.mod_eq_of_lt (by omega)]
        rw [hr]
        have hle : ∀ b, Function.update s.refs a (s.refs a - 1) b ≤ s.refs b := fun b => by
          by_cases hb : b = a
          · subst hb; simp
          · simp [hb]
        by_cases h1 : s.refs a = 1
        · rw [if_pos h1] at h
          rw [if_pos (by omega)]
          cases ht : HT.erase (hashE hash) eqE (a, c.key) s.table with
          | none => rw [ht] at h; cases h
          | some t =>
            rw [ht] at h
            dsimp only at h ⊢
            obtain ⟨h3, h4, h5⟩ := destroyW_eq hM n _ _ s' h fun b hb' => Nat.lt_of_le_of_lt (hle b) (hb b hb')
            exact ⟨h3, h4, fun b => (h5 b).trans (hle b)⟩
        · rw [if_neg h1] at h
          rw [if_neg (by omega)]
          obtain ⟨h3, h4, h5⟩ := destroyW_eq hM n _ _ s' h fun b hb' => Nat.lt_of_le_of_lt (hle b) (hb b hb')
          exact ⟨h3, h4, fun b => (h5 b).trans (hle b)⟩

theorem allocate_refs (n : Nat) (fr : Addr) (s : State L) :
    (allocate n fr s).2.cells = s.cells ∧ (allocate n fr s).2.refs = s.refs := by
  unfold allocate
  split
  · split <;> exact ⟨rfl, rfl⟩
  · exact ⟨rfl, rfl⟩

theorem recycle_refs {a : Addr} {n : Nat} {s s' : State L} (h : recycle a n s = some s') : s'.cells = s.cells ∧ s'.refs = s.refs := by
  unfold recycle release at h
  split at h
  · split at h
    · split at h
      · cases h; exact ⟨rfl, rfl⟩
      · cases h
    · split at h
      · cases h; exact ⟨rfl, rfl⟩
      · cases h
  · cases h; exact ⟨rfl, rfl⟩

theorem unifyW_eq (hM : 0 < M) {l : L} {kids : List Addr} {fr : Addr} {s s' : State L} {a : Addr}
    (h : unify hash bytes l kids fr s = some (a, s')) (hb : ∀ a, (s.cells a).isSome → s.refs a + kids.length + 1 < M)
    (h1 : 1 < M) : unifyW hash bytes M l kids fr s = some (a, s') ∧ ((s'.cells a).isSome → s'.refs a + 1 < M) := by
  unfold unify at h
  unfold unifyW
  dsimp only at h ⊢
  obtain ⟨ac, ar⟩ := allocate_refs (bytes (l, kids)) fr s
  generalize allocate (bytes (l, kids)) fr s = r at *
  split at h
  · rename_i hblk
    rw [if_pos hblk]
    obtain ⟨e1, e2⟩ := incsW_eq (M := M) kids (s := r.2) fun b hb' => by
      rw [ac] at hb'; rw [ar]; have := hb b hb'; omega
    rw [e1]
    cases hi : incs kids r.2 with
    | none => rw [hi] at h; cases h
    | some s1 =>
      rw [hi] at h
      obtain ⟨e3, e4⟩ := e2 s1 hi
      dsimp only at h ⊢
      match hins : HT.insert (hashE hash) eqE (r.1, (l, kids)) s1.table with
      | none => rw [hins] at h; cases h
      | some ((e, true), t) =>
        rw [hins] at h
        dsimp only at h ⊢
        cases h
        exact ⟨rfl, fun _ => by simpa using h1⟩
      | some ((e, false), t) =>
        rw [hins] at h
        dsimp only at h ⊢
        have hs1 : ∀ b, (s1.cells b).isSome → s1.refs b + 1 < M := fun b hb' => by
          rw [e3, ac] at hb'
          have := hb b hb'
          have := e4 b
          rw [ar] at this
          omega
        cases hd : destroy hash (kids.length + steps s1) (kids.map Item.dec) { s1 with table := t } with
        | none => rw [hd] at h; cases h
        | some s2 =>
          rw [hd] at h
          obtain ⟨d1, d2, d3⟩ := destroyW_eq hM _ _ _ _ hd fun b hb' => by have := hs1 b hb'; show s1.refs b < M; omega
          rw [d1]
          dsimp only at h ⊢
          cases hr : recycle r.1 (bytes (l, kids)) s2 with
          | none => rw [hr] at h; cases h
          | some s3 =>
            rw [hr] at h
            cases h
            refine ⟨rfl, fun hc => ?_⟩
            obtain ⟨c1, c2⟩ := recycle_refs hr
            rw [c1] at hc
            rw [c2]
            have h1 := hs1 _ (d2 _ hc)
            have h2 := d3 e.1
            have h3 : ({ s1 with table := t } : State L).refs e.1 = s1.refs e.1 := rfl
            omega
  · cases h

theorem mapM_length {α β : Type} {f : α → Option β} : ∀ {l : List α} {l' : List β}, l.mapM f = some l' → l'.length = l.length
  | [], l', h => by cases h; rfl
  | a :: l, l', h => by
    rw [List.mapM_cons] at h
    cases ha : f a with
    | none => rw [ha] at h; cases h
    | some b =>
      cases hl : l.mapM f with
      | none => rw [ha, hl] at h; cases h
      | some l1 =>
        rw [ha, hl] at h
        cases h
        simp [mapM_length hl]

/-- With fewer than `M` pointers to each datum, counters modulo `M` make no difference. -/
theorem execW_eq {s s' : State L} (hi : Inv hash [] s) {op : Op L} (hb : ∀ a, holders s a + op.made < M)
    (he : exec hash bytes s op = some s') : execW hash bytes M s op = some s' := by
  have hr : ∀ a, (s.cells a).isSome → s.refs a + op.made < M := fun a ha => by
    obtain ⟨c, hc⟩ := Option.isSome_iff_exists.1 ha
    rw [hi.refs' hc |>.1]
    exact hb a
  have hM : 1 < M := by
    have := hb 0
    have h2 : 1 ≤ op.made := by cases op <;> simp [Op.made]
    omega
  have hM0 : 0 < M := by omega
  have hdrop : ∀ {a : Addr} {s1 : State L}, op.made = 1 → drop hash a s = some s1 → dropW hash M a s = some s1 ∧
      ∀ b, incW M b s1 = inc b s1 := fun {a s1} hm hd => by
    obtain ⟨h1, h2, h3⟩ := destroyW_eq hM0 _ _ _ _ hd fun b hb' => by have := hr b hb'; omega
    refine ⟨h1, fun b => incW_eq fun hc => ?_⟩
    have := hr b (h2 b hc)
    have := h3 b
    omega
  have hinc : ∀ b, op.made = 1 → incW M b s = inc b s := fun b hm => incW_eq fun hc => by have := hr b hc; omega
  cases op with
  | create v l ks fr =>
    simp only [exec] at he
    simp only [execW]
    split at he
    · rename_i kids hv hk
      rw [hv, hk]
      dsimp only
      have hlen : kids.length = ks.length := mapM_length hk
      cases hu : unify hash bytes l kids fr s with
      | none => rw [hu] at he; cases he
      | some r =>
        obtain ⟨a, s1⟩ := r
        rw [hu] at he
        obtain ⟨h1, h2⟩ := unifyW_eq (M := M) hM0 hu (fun b hb' => by
          have := hr b hb'
          simp only [Op.made] at this
          omega) hM
        rw [h1]
        dsimp only at he ⊢
        rw [incW_eq h2]
        exact he
    · cases he
  | copy v w =>
    simp only [exec] at he
    simp only [execW, hinc _ rfl]
    exact he
  | move v w => exact he
  | copyAssign v w =>
    simp only [exec] at he
    simp only [execW, hinc _ rfl]
    split at he
    · rename_i b hv hw
      rw [hv, hw]
      exact he
    · rename_i a b hv hw
      rw [hv, hw]
      dsimp only
      cases hd : drop hash a s with
      | none => rw [hd] at he; cases he
      | some s1 =>
        rw [hd] at he
        obtain ⟨h1, h2⟩ := hdrop rfl hd
        rw [h1]
        dsimp only at he ⊢
        rw [h2]
        exact he
    · cases he
  | moveAssign v w =>
    simp only [exec] at he
    simp only [execW]
    split at he
    · rename_i x hv hw
      rw [hv, hw]
      exact he
    · rename_i a x hv hw
      rw [hv, hw]
      dsimp only
      split at he
      · cases he
      · rename_i hx
        rw [if_neg hx]
        cases hd : drop hash a s with
        | none => rw [hd] at he; cases he
        | some s1 =>
          rw [hd] at he
          rw [(hdrop rfl hd).1]
          exact he
    · cases he
  | destroy v =>
    simp only [exec] at he
    simp only [execW]
    split at he
    · rename_i hv
      rw [hv]
      exact he
    · rename_i a hv
      rw [hv]
      dsimp only
      cases hd : drop hash a s with
      | none => rw [hd] at he; cases he
      | some s1 =>
        rw [hd] at he
        rw [(hdrop rfl hd).1]
        exact he
    · cases he
  | swap v w => exact he
  | read v w i =>
    simp only [exec] at he
    simp only [execW, hinc _ rfl]
    exact he
  | readAssign v w i =>
    simp only [exec] at he
    simp only [execW, hinc _ rfl]
    split at he
    · rename_i b hv hw
      rw [hv, hw]
      exact he
    · rename_i a b hv hw
      rw [hv, hw]
      dsimp only
      split at he
      · cases he
      · rename_i hl
        rw [if_neg hl]
        cases hd : drop hash a s with
        | none => rw [hd] at he; cases he
        | some s1 =>
          rw [hd] at he
          obtain ⟨h1, h2⟩ := hdrop rfl hd
          rw [h1]
          dsimp only at he ⊢
          simp only [h2]
          exact he
    · cases he

/-- A bound which does not depend on the address. -/
theorem holders_le (s : State L) (a : Addr) : holders s a ≤ s.vars.length + (s.table.elems.map fun e => e.2.2.length).sum := by
  unfold holders inTable
  refine Nat.add_le_add List.count_le_length ?_
  induction s.table.elems with
  | nil => simp
  | cons e l ih =>
    simp only [List.map_cons, List.sum_cons]
    exact Nat.add_le_add List.count_le_length ih

theorem ReachB.reach {size : BitVec 64} (h1 : 1 ≤ size.toNat) (h2 : size.toNat ≤ 2 ^ 63) {n : Nat} {s : State L}
    (h : ReachB hash bytes M size n s) : Reach hash bytes size n s := by
  induction h with
  | init => exact .init
  | step _ hv hb he ih =>
    have hi := reach_inv h1 h2 ih
    obtain ⟨s2, e, _⟩ := exec_inv (bytes := bytes) hi hv
    have := execW_eq hi hb e
    rw [this] at he
    cases he
    exact .step ih hv e

end

/-! ## When there are more pointers than the counter can count -/

/-- One datum in memory. (Specification or proof device, not part of the code.) -/
def oneCell : Addr → Option (Cell Nat) := Function.update (fun _ => none) 100 (some ⟨(7, []), 0⟩)

/-- The table with one datum. (Specification or proof device, not part of the code.) -/
def oneTable : HT (Addr × Key Nat) :=
  match HT.insert (hashE fun _ => 0) eqE (100, (7, [])) (HT.new 1#64) with
  | some (_, t) => t
  | none => HT.new 1#64

theorem oneTable_erase : (HT.erase (hashE fun _ => 0) eqE (100, (7, [])) oneTable).isSome = true := by decide +kernel

theorem oneTable_insert : HT.insert (hashE fun _ => 0) eqE (100, (7, [])) (HT.new 1#64) = some (((100, (7, [])), true), oneTable) := by
  have h : (HT.insert (hashE fun _ => 0) eqE (100, ((7 : Nat), [])) (HT.new 1#64)).map Prod.fst = some ((100, (7, [])), true) := by
    decide +kernel
  unfold oneTable
  cases hi : HT.insert (hashE fun _ => 0) eqE (100, ((7 : Nat), [])) (HT.new 1#64) with
  | none => rw [hi] at h; cases h
  | some r =>
    rw [hi] at h
    obtain ⟨a, b⟩ := r
    simp only [Option.map_some, Option.some.injEq] at h
    rw [h]

/-- A datum with `i + 1` handles, counted modulo `M`. -/
theorem copies {M : Nat} (hM : 1 < M) : ∀ i, i ≤ M → ∃ s : State Nat, ReachW (fun _ => 0) (fun _ => 1) M 1#64 (M + 1) s ∧
    s.blocks = [(100, 1)] ∧ s.cells = oneCell ∧ s.table = oneTable ∧ s.refs 100 = (i + 1) % M ∧
    s.vars = List.replicate (i + 1) (.live 100) ++ List.replicate (M - i) .dead
  | 0, _ => by
    have he : execW (fun _ => 0) (fun _ => 1) M (init (L := Nat) 1#64 (M + 1)) (.create 0 7 [] 100) =
        some ⟨[(100, 1)], oneCell, Function.update (Function.update (fun _ => 0) 100 0) 100 (1 % M), oneTable, none,
          (List.replicate (M + 1) Slot.dead).set 0 (.live 100), 1⟩ := by
      simp only [execW, init, unifyW, allocate, incsW, List.mapM_nil, List.getElem?_replicate]
      rw [if_pos (by omega)]
      simp [oneTable_insert, incW, oneCell]
    refine ⟨_, .step (s := init 1#64 (M + 1)) (op := .create 0 7 [] 100) .init
      (by simp [Valid, init]) he, rfl, rfl, rfl, ?_, ?_⟩
    · simp
    · simp [List.replicate_succ]
  | i + 1, hi => by
    obtain ⟨s, h, hb, hc, ht, hr, hv⟩ := copies hM i (by omega)
    have hd : s.vars[i + 1]? = some .dead := by
      rw [hv, List.getElem?_append_right (by simp), List.getElem?_replicate, if_pos (by simp; omega)]
    have h0 : s.vars[0]? = some (.live 100) := by
      rw [hv, List.getElem?_append_left (by simp), List.getElem?_replicate, if_pos (by omega)]
    have he : execW (fun _ => 0) (fun _ => 1) M s (.copy (i + 1) 0) =
        some { s with refs := Function.update s.refs 100 ((s.refs 100 + 1) % M), vars := s.vars.set (i + 1) (.live 100) } := by
      simp [execW, hd, target, h0, incW, hc, oneCell]
    refine ⟨_, .step (op := .copy (i + 1) 0) h ⟨hd, 100, h0⟩ he, hb, hc, ht, ?_, ?_⟩
    · simp [hr]
    · have e : M - i = (M - (i + 1)) + 1 := by omega
      dsimp only
      rw [hv, e, List.set_append_right _ _ (by simp), List.replicate_succ (n := M - (i + 1))]
      simp [List.replicate_succ']

/-- With `M + 1` handles of a datum, the destruction of one of them destroys the datum. -/
theorem wraps {M : Nat} (hM : 1 < M) : ∃ s s' : State Nat, ReachW (fun _ => 0) (fun _ => 1) M 1#64 (M + 1) s ∧
    s.vars = List.replicate (M + 1) (.live 100) ∧ (s.cells 100).isSome ∧ Valid s (.destroy 0) ∧
    execW (fun _ => 0) (fun _ => 1) M s (.destroy 0) = some s' ∧ (∀ v, 1 ≤ v → v ≤ M → s'.vars[v]? = some (.live 100)) ∧
    s'.cells 100 = none ∧ s'.blocks = [] := by
  obtain ⟨s, h, hb, hc, ht, hr, hv⟩ := copies hM M (Nat.le_refl _)
  rw [Nat.sub_self, List.replicate_zero, List.append_nil] at hv
  rw [Nat.add_mod_left, Nat.mod_eq_of_lt hM] at hr
  have h0 : s.vars[0]? = some (.live 100) := by
    rw [hv, List.getElem?_replicate, if_pos (by omega)]
  obtain ⟨t, et⟩ := Option.isSome_iff_exists.1 oneTable_erase
  have hm : (1 + (M - 1)) % M = 0 := by
    have : 1 + (M - 1) = M := by omega
    rw [this, Nat.mod_self]
  have he : execW (fun _ => 0) (fun _ => 1) M s (.destroy 0) = some { s with
      blocks := [], cells := Function.update oneCell 100 none, refs := Function.update s.refs 100 0, table := t,
      vars := s.vars.set 0 .dead } := by
    have hc' : s.cells 100 = some ⟨(7, []), 0⟩ := by rw [hc]; simp [oneCell]
    simp only [execW, h0, dropW, steps, hb, List.map_cons, List.map_nil, List.sum_cons, List.sum_nil, hr]
    simp [destroyW, hc', hm, ht, et, free, hr, hb, hc]
  refine ⟨s, _, h, hv, by rw [hc]; simp [oneCell], ⟨_, h0, by simp⟩, he, fun v h1 h2 => ?_, by simp, rfl⟩
  dsimp only
  rw [List.getElem?_set_ne (by omega), hv, List.getElem?_replicate, if_pos (by omega)]

end Heap
end Verif
