import Mathlib.Data.List.Basic
import Mathlib.Tactic.Common
/-!
# The memory arena

`/repo/sdd/mem/linear_alloc.hh`.  Addresses are natural numbers; a block is the interval
`[addr, addr + size)`.  The system allocator gives the address it likes, as long as the block does not
overlap the buffer nor the blocks it gave and which were not returned.  The code does not handle alignment
(see `Mem/Align`).
-/

set_option autoImplicit false
set_option linter.unusedSectionVars false

namespace Verif
namespace Arena

/-- A block handed out: its interval, where it comes from, and when it was allocated.
(Ghost; `char*` results of `/repo/sdd/mem/linear_alloc.hh`, lines 74-97.) -/
structure Block where
  addr : Nat
  size : Nat
  sys : Bool
  stamp : Nat
  deriving DecidableEq

/-- An arena: the fields of `/repo/sdd/mem/linear_alloc.hh:33-47` (with the counters of debug mode,
`active` being the length of `stack`), the blocks in use, the blocks held from the system, the rewinders with the
position they saw. `clock` dates allocations. -/
structure State where
  base : Nat
  size : Nat
  pos : Nat
  unactive : Nat
  stack : List (Nat × Nat)
  live : List Block
  sysmem : List (Nat × Nat)
  clock : Nat

/-- The constructor, `/repo/sdd/mem/linear_alloc.hh:52-61`. -/
def init (base size : Nat) : State := ⟨base, size, base, 0, [], [], [], 0⟩

/-- `pointer_in_buffer`, `/repo/sdd/mem/linear_alloc.hh:164-169`. -/
def inBuffer (s : State) (p : Nat) : Bool := decide (s.base ≤ p) && decide (p ≤ s.base + s.size)

/-- `allocate`, `/repo/sdd/mem/linear_alloc.hh:74-97`; `a` is the address given by `::operator new`, if it is called. -/
def allocate (n a : Nat) (s : State) : Block × State :=
  if n ≤ s.base + s.size - s.pos then
    let b : Block := ⟨s.pos, n, false, s.clock⟩
    (b, { s with
      unactive := if s.stack.length = 0 then s.unactive + n else s.unactive
      pos := s.pos + n, live := b :: s.live, clock := s.clock + 1 })
  else
    let b : Block := ⟨a, n, true, s.clock⟩
    (b, { s with sysmem := (a, n) :: s.sysmem, live := b :: s.live, clock := s.clock + 1 })

/-- `deallocate`, `/repo/sdd/mem/linear_alloc.hh:99-122`: the address given to `::operator delete`, if it is
called. -/
def deallocate (b : Block) (s : State) : Option Nat × State :=
  let s := { s with live := s.live.erase b }
  if inBuffer s b.addr then
    if b.addr + b.size = s.pos then
      (none, { s with
        unactive := if s.stack.length = 0 then s.unactive - b.size else s.unactive
        pos := b.addr })
    else (none, s)
  else (some b.addr, { s with sysmem := s.sysmem.eraseP fun m => m.1 == b.addr })

/-- The construction of a rewinder, `/repo/sdd/mem/linear_alloc.hh:198-208`. -/
def enter (s : State) : State := { s with stack := (s.pos, s.clock) :: s.stack }

/-- The destruction of a rewinder, `/repo/sdd/mem/linear_alloc.hh:210-219,124-130`: the blocks of the buffer allocated
since its construction are not usable any more. -/
def leave (s : State) : Option State :=
  match s.stack with
  | [] => none
  | (p, t) :: stack => some { s with
      pos := p, stack := stack, live := s.live.filter fun b => b.sys || decide (b.stamp < t) }

/-- What clients of the arena do.
(`/repo/sdd/mem/linear_alloc.hh`: `allocate`, `deallocate`, construction and destruction of `rewinder`, lines 74-130 and 198-219.) -/
inductive Op where
  | allocate (n a : Nat)
  | deallocate (b : Block)
  | enter
  | leave

/-- What is observed. (Results of `/repo/sdd/mem/linear_alloc.hh`, lines 74-130.) -/
inductive Out where
  | block (b : Block)
  | deleted (a : Option Nat)
  | done
  deriving DecidableEq

/-- An operation. (`/repo/sdd/mem/linear_alloc.hh`, lines 74-130 and 198-219.) -/
def exec (s : State) : Op → Option (Out × State)
  | .allocate n a => let r := allocate n a s; some (.block r.1, r.2)
  | .deallocate b => let r := deallocate b s; some (.deleted r.1, r.2)
  | .enter => some (.done, enter s)
  | .leave => (leave s).map fun s => (.done, s)

/-- Two intervals without common address. (Specification, not part of the code.) -/
def Disjoint (a n b m : Nat) : Prop := a + n ≤ b ∨ b + m ≤ a ∨ n = 0 ∨ m = 0

/-- The assumptions on the system allocator (a block of at least one byte, away from the buffer and from the blocks
it gave) and on clients (only blocks in use are released; destroyed rewinders are alive).
(Model of the environment: what the user or the system does.) -/
def Valid (s : State) : Op → Prop
  | .allocate n a =>
    (a + n ≤ s.base ∨ s.base + s.size ≤ a) ∧ ∀ m ∈ s.sysmem, Disjoint a (max n 1) m.1 (max m.2 1)
  | .deallocate b => b ∈ s.live
  | .enter => True
  | .leave => s.stack ≠ []

/-- States reached by valid operations. (Model of the environment: what the user or the system does.) -/
inductive Reach (base size : Nat) : State → Prop where
  | init : Reach base size (init base size)
  | step {s s' : State} {op : Op} {o : Out} :
      Reach base size s → Valid s op → exec s op = some (o, s') → Reach base size s'

/-! ## The invariant -/

/-- The invariant. (Proof device, not part of the code.) -/
structure Inv (s : State) : Prop where
  lo : s.base ≤ s.pos
  hi : s.pos ≤ s.base + s.size
  stamps : ∀ b ∈ s.live, b.stamp < s.clock
  nodup : s.live.Pairwise fun b c => c.stamp < b.stamp
  inside : ∀ b ∈ s.live, b.sys = false → s.base ≤ b.addr ∧ b.addr + b.size ≤ s.base + s.size ∧
    (b.size ≠ 0 → b.addr + b.size ≤ s.pos)
  outside : ∀ b ∈ s.live, b.sys = true → (b.addr, b.size) ∈ s.sysmem ∧ 0 < b.size
  away : ∀ m ∈ s.sysmem, 0 < m.2 ∧ (m.1 + m.2 ≤ s.base ∨ s.base + s.size ≤ m.1)
  sysDisjoint : s.sysmem.Pairwise fun m k => Disjoint m.1 (max m.2 1) k.1 (max k.2 1)
  disjoint : s.live.Pairwise fun b c => Disjoint b.addr b.size c.addr c.size
  held : ∀ m ∈ s.sysmem, m.1 ≠ s.base + s.size → ∃ b ∈ s.live, b.sys = true ∧ b.addr = m.1
  saved : ∀ p ∈ s.stack, s.base ≤ p.1 ∧ p.1 ≤ s.base + s.size ∧ p.2 ≤ s.clock ∧
    ∀ b ∈ s.live, b.sys = false → b.stamp < p.2 → b.size ≠ 0 → b.addr + b.size ≤ p.1
  stack : s.stack.Pairwise fun p q => q.2 ≤ p.2
  counter : s.base + s.unactive = (match s.stack.getLast? with | none => s.pos | some p => p.1)

theorem Disjoint.symm {a n b m : Nat} (h : Disjoint a n b m) : Disjoint b m a n := by
  unfold Disjoint at *
  omega

theorem init_inv (base size : Nat) : Inv (init base size) := by
  refine ⟨?_, ?_, ?_, ?_, ?_, ?_, ?_, ?_, ?_, ?_, ?_, ?_, ?_⟩ <;> simp [init]

theorem allocate_inv {s : State} (h : Inv s) {n a : Nat} (hv : Valid s (.allocate n a)) :
    Inv (allocate n a s).2 := by
  unfold allocate
  split
  · rename_i hn
    have h1 := h.lo
    have h2 := h.hi
    refine ⟨?_, ?_, ?_, ?_, ?_, ?_, h.away, h.sysDisjoint, ?_, ?_, ?_, h.stack, ?_⟩
    · simp only; omega
    · simp only; omega
    · intro b hb
      simp only at hb ⊢
      rcases List.mem_cons.1 hb with rfl | hb
      · simp
      · have := h.stamps b hb; omega
    · exact List.pairwise_cons.2 ⟨fun b hb => h.stamps b hb, h.nodup⟩
    · intro b hb hs
      simp only at hb ⊢
      rcases List.mem_cons.1 hb with rfl | hb
      · simp only; omega
      · obtain ⟨i1, i2, i3⟩ := h.inside b hb hs
        exact ⟨i1, i2, fun h0 => by have := i3 h0; omega⟩
    · intro b hb hs
      simp only at hb ⊢
      rcases List.mem_cons.1 hb with rfl | hb
      · cases hs
      · exact h.outside b hb hs
    · refine List.pairwise_cons.2 ⟨?_, h.disjoint⟩
      intro b hb
      simp only
      cases hs : b.sys with
      | false =>
        obtain ⟨i1, i2, i3⟩ := h.inside b hb hs
        unfold Disjoint
        by_cases h0 : b.size = 0
        · omega
        · have := i3 h0; omega
      | true =>
        obtain ⟨_, o2⟩ := h.away _ (h.outside b hb hs).1
        unfold Disjoint
        simp only at o2
        omega
    · intro m hm hne
      obtain ⟨b, hb, h3⟩ := h.held m hm hne
      exact ⟨b, List.mem_cons_of_mem _ hb, h3⟩
    · intro p hp
      obtain ⟨p1, p2, p3, p4⟩ := h.saved p hp
      refine ⟨p1, p2, by simp only; omega, ?_⟩
      intro b hb hs ht h0
      simp only at hb
      rcases List.mem_cons.1 hb with rfl | hb
      · simp only at ht; omega
      · exact p4 b hb hs ht h0
    · have := h.counter
      simp only
      cases hst : s.stack with
      | nil => simp [hst] at this ⊢; omega
      | cons p st =>
        simp only [hst, List.length_cons] at this ⊢
        rw [if_neg (by omega)]
        rw [this]
        cases hl : (p :: st).getLast? with
        | none => simp at hl
        | some q => rfl
  · rename_i hn
    have h1 := h.lo
    have h2 := h.hi
    obtain ⟨v1, v2⟩ := hv
    have hpos : 0 < n := by omega
    have hdis : ∀ b ∈ s.live, Disjoint a n b.addr b.size := by
      intro b hb
      cases hs : b.sys with
      | false =>
        obtain ⟨i1, i2, i3⟩ := h.inside b hb hs
        unfold Disjoint
        omega
      | true =>
        have := v2 _ (h.outside b hb hs).1
        unfold Disjoint at *
        simp only at this
        omega
    refine ⟨h1, h2, ?_, ?_, ?_, ?_, ?_, ?_, ?_, ?_, ?_, h.stack, h.counter⟩
    · intro b hb
      simp only at hb ⊢
      rcases List.mem_cons.1 hb with rfl | hb
      · simp
      · have := h.stamps b hb; omega
    · exact List.pairwise_cons.2 ⟨fun b hb => h.stamps b hb, h.nodup⟩
    · intro b hb hs
      simp only at hb ⊢
      rcases List.mem_cons.1 hb with rfl | hb
      · cases hs
      · exact h.inside b hb hs
    · intro b hb hs
      simp only at hb ⊢
      rcases List.mem_cons.1 hb with rfl | hb
      · exact ⟨List.mem_cons_self, hpos⟩
      · exact ⟨List.mem_cons_of_mem _ (h.outside b hb hs).1, (h.outside b hb hs).2⟩
    · intro m hm
      simp only at hm ⊢
      rcases List.mem_cons.1 hm with rfl | hm
      · exact ⟨hpos, v1⟩
      · exact h.away m hm
    · exact List.pairwise_cons.2 ⟨v2, h.sysDisjoint⟩
    · exact List.pairwise_cons.2 ⟨hdis, h.disjoint⟩
    · intro m hm hne
      simp only at hm hne ⊢
      rcases List.mem_cons.1 hm with rfl | hm
      · exact ⟨_, List.mem_cons_self, rfl, rfl⟩
      · obtain ⟨b, hb, h3⟩ := h.held m hm hne
        exact ⟨b, List.mem_cons_of_mem _ hb, h3⟩
    · intro p hp
      obtain ⟨p1, p2, p3, p4⟩ := h.saved p hp
      refine ⟨p1, p2, by simp only; omega, ?_⟩
      intro b hb hs ht h0
      simp only at hb
      rcases List.mem_cons.1 hb with rfl | hb
      · cases hs
      · exact p4 b hb hs ht h0

theorem erase_stamp {l : List Block} (h : l.Pairwise fun b c => c.stamp < b.stamp) {b c : Block}
    (hb : b ∈ l) (hc : c ∈ l.erase b) : c ∈ l ∧ c ≠ b := by
  refine ⟨List.mem_of_mem_erase hc, ?_⟩
  have hn : l.Nodup := h.imp fun {x y} hxy e => by subst e; exact absurd hxy (Nat.lt_irrefl _)
  rintro rfl
  exact hn.not_mem_erase hc

theorem pairwise_mem {α : Type} {r : α → α → Prop} {l : List α} (h : l.Pairwise r)
    (hs : ∀ x y, r x y → r y x) {x y : α} (hx : x ∈ l) (hy : y ∈ l) (hne : x ≠ y) : r x y := by
  induction l with
  | nil => simp at hx
  | cons z l ih =>
    obtain ⟨h1, h2⟩ := List.pairwise_cons.1 h
    rcases List.mem_cons.1 hx with e1 | hx'
    · rcases List.mem_cons.1 hy with e2 | hy'
      · exact absurd (e1.trans e2.symm) hne
      · exact e1 ▸ h1 y hy'
    · rcases List.mem_cons.1 hy with e2 | hy'
      · exact e2 ▸ hs _ _ (h1 x hx')
      · exact ih h2 hx' hy'

theorem find_sysmem {l : List (Nat × Nat)}
    (h : l.Pairwise fun m k => Disjoint m.1 (max m.2 1) k.1 (max k.2 1)) {m : Nat × Nat} (hm : m ∈ l) :
    ∀ k, k ∈ l.eraseP (fun k => k.1 == m.1) ↔ k ∈ l ∧ k.1 ≠ m.1 := by
  induction l with
  | nil => simp at hm
  | cons z l ih =>
    obtain ⟨h1, h2⟩ := List.pairwise_cons.1 h
    intro k
    by_cases hz : z.1 = m.1
    · rw [List.eraseP_cons_of_pos (by simp [hz])]
      constructor
      · intro hk
        refine ⟨List.mem_cons_of_mem _ hk, ?_⟩
        intro e
        have := h1 k hk
        unfold Disjoint at this
        omega
      · rintro ⟨hk, hne⟩
        rcases List.mem_cons.1 hk with rfl | hk
        · exact absurd hz hne
        · exact hk
    · rw [List.eraseP_cons_of_neg (by simp [hz])]
      have hm : m ∈ l := by
        rcases List.mem_cons.1 hm with rfl | hm
        · exact absurd rfl hz
        · exact hm
      rw [List.mem_cons, ih h2 hm, List.mem_cons]
      constructor
      · rintro (rfl | ⟨h3, h4⟩)
        · exact ⟨.inl rfl, hz⟩
        · exact ⟨.inr h3, h4⟩
      · rintro ⟨rfl | h3, h4⟩
        · exact .inl rfl
        · exact .inr ⟨h3, h4⟩

/-- What a release does: an address given to `::operator delete` is that of a block held from the system. -/
theorem deallocate_spec {s : State} (h : Inv s) {b : Block} (hb : b ∈ s.live) :
    Inv (deallocate b s).2 ∧ (deallocate b s).2.live = s.live.erase b ∧
    (b.sys = false → (deallocate b s).1 = none ∧ (deallocate b s).2.sysmem = s.sysmem) ∧
    (b.sys = true → ((deallocate b s).1 = some b.addr ∧ (b.addr, b.size) ∈ s.sysmem ∧
        (∀ k, k ∈ (deallocate b s).2.sysmem ↔ k ∈ s.sysmem ∧ k.1 ≠ b.addr)) ∨
      ((deallocate b s).1 = none ∧ b.addr = s.base + s.size ∧ (deallocate b s).2.sysmem = s.sysmem)) := by
  have hmem : ∀ c ∈ s.live.erase b, c ∈ s.live ∧ c ≠ b := fun c hc => erase_stamp h.nodup hb hc
  have hsub : (s.live.erase b).Sublist s.live := List.erase_sublist
  have hdisj : ∀ c ∈ s.live.erase b, Disjoint c.addr c.size b.addr b.size := by
    intro c hc
    obtain ⟨hc1, hc2⟩ := hmem c hc
    exact pairwise_mem h.disjoint (fun _ _ => Disjoint.symm) hc1 hb hc2
  have h1 := h.lo
  have h2 := h.hi
  unfold deallocate
  simp only
  by_cases hin : inBuffer { s with live := s.live.erase b } b.addr = true
  · rw [if_pos hin]
    simp only [inBuffer, Bool.and_eq_true, decide_eq_true_eq] at hin
    have hsysaddr : b.sys = true → b.addr = s.base + s.size := by
      intro hs
      obtain ⟨o1, o2⟩ := h.outside b hb hs
      obtain ⟨_, o3⟩ := h.away _ o1
      simp only at o3
      omega
    have hheld : ∀ m ∈ s.sysmem, m.1 ≠ s.base + s.size → ∃ c ∈ s.live.erase b, c.sys = true ∧ c.addr = m.1 := by
      intro m hm hne
      obtain ⟨c, hc, hcs, hca⟩ := h.held m hm hne
      refine ⟨c, ?_, hcs, hca⟩
      rw [List.mem_erase_of_ne]
      · exact hc
      · rintro rfl
        exact hne (hca ▸ hsysaddr hcs)
    split
    · rename_i hlast
      refine ⟨⟨by simp only; omega, by simp only; omega, fun c hc => h.stamps c (hmem c hc).1, h.nodup.sublist hsub, ?_,
        fun c hc hs => h.outside c (hmem c hc).1 hs, h.away, h.sysDisjoint, h.disjoint.sublist hsub, hheld, ?_,
        h.stack, ?_⟩, rfl, ?_, ?_⟩
      · intro c hc hs
        obtain ⟨i1, i2, i3⟩ := h.inside c (hmem c hc).1 hs
        refine ⟨i1, i2, ?_⟩
        intro h0
        have h3 := i3 h0
        have h4 := hdisj c hc
        unfold Disjoint at h4
        simp only
        omega
      · intro p hp
        obtain ⟨p1, p2, p3, p4⟩ := h.saved p hp
        exact ⟨p1, p2, p3, fun c hc => p4 c (hmem c hc).1⟩
      · have := h.counter
        simp only
        cases hst : s.stack with
        | nil => simp [hst] at this ⊢; omega
        | cons p st =>
          simp only [hst, List.length_cons] at this ⊢
          rw [if_neg (by omega), this]
          cases hl : (p :: st).getLast? with
          | none => simp at hl
          | some q => rfl
      · intro _; exact ⟨rfl, rfl⟩
      · intro hs; exact .inr ⟨rfl, hsysaddr hs, rfl⟩
    · refine ⟨⟨h1, h2, fun c hc => h.stamps c (hmem c hc).1, h.nodup.sublist hsub,
        fun c hc hs => h.inside c (hmem c hc).1 hs,
        fun c hc hs => h.outside c (hmem c hc).1 hs, h.away, h.sysDisjoint, h.disjoint.sublist hsub, hheld, ?_,
        h.stack, h.counter⟩, rfl, fun _ => ⟨rfl, rfl⟩, fun hs => .inr ⟨rfl, hsysaddr hs, rfl⟩⟩
      intro p hp
      obtain ⟨p1, p2, p3, p4⟩ := h.saved p hp
      exact ⟨p1, p2, p3, fun c hc => p4 c (hmem c hc).1⟩
  · rw [if_neg hin]
    simp only [inBuffer, Bool.and_eq_true, decide_eq_true_eq] at hin
    have hs : b.sys = true := by
      cases hs : b.sys with
      | true => rfl
      | false =>
        obtain ⟨i1, i2, _⟩ := h.inside b hb hs
        omega
    have hbm := (h.outside b hb hs).1
    have hf := find_sysmem h.sysDisjoint hbm
    simp only at hf
    refine ⟨⟨h1, h2, fun c hc => h.stamps c (hmem c hc).1, h.nodup.sublist hsub,
        fun c hc hs => h.inside c (hmem c hc).1 hs, ?_, fun m hm => h.away m ((hf m).1 hm).1,
        h.sysDisjoint.sublist List.eraseP_sublist, h.disjoint.sublist hsub, ?_, ?_,
        h.stack, h.counter⟩, rfl, ?_, ?_⟩
    · intro c hc hcs
      obtain ⟨hc1, hc2⟩ := hmem c hc
      obtain ⟨o1, o2⟩ := h.outside c hc1 hcs
      refine ⟨(hf _).2 ⟨o1, ?_⟩, o2⟩
      simp only
      intro e
      have h3 := hdisj c hc
      have h4 := (h.outside b hb hs).2
      unfold Disjoint at h3
      omega
    · intro m hm hne
      obtain ⟨hm1, hm2⟩ := (hf m).1 hm
      obtain ⟨c, hc, hcs, hca⟩ := h.held m hm1 hne
      refine ⟨c, ?_, hcs, hca⟩
      simp only
      rw [List.mem_erase_of_ne]
      · exact hc
      · rintro rfl
        exact hm2 hca.symm
    · intro p hp
      obtain ⟨p1, p2, p3, p4⟩ := h.saved p hp
      exact ⟨p1, p2, p3, fun c hc => p4 c (hmem c hc).1⟩
    · intro e
      rw [hs] at e
      cases e
    · intro _
      exact .inl ⟨rfl, hbm, hf⟩

theorem enter_inv {s : State} (h : Inv s) : Inv (enter s) := by
  refine ⟨h.lo, h.hi, h.stamps, h.nodup, h.inside, h.outside, h.away, h.sysDisjoint, h.disjoint, h.held, ?_, ?_, ?_⟩
  · intro p hp
    simp only [enter] at hp
    rcases List.mem_cons.1 hp with rfl | hp
    · exact ⟨h.lo, h.hi, Nat.le_refl _, fun b hb hs _ h0 => (h.inside b hb hs).2.2 h0⟩
    · exact h.saved p hp
  · exact List.pairwise_cons.2 ⟨fun p hp => (h.saved p hp).2.2.1, h.stack⟩
  · have := h.counter
    simp only [enter]
    cases hst : s.stack with
    | nil => simp [hst] at this ⊢; omega
    | cons p st =>
      simp only [hst] at this
      rw [this, List.getLast?_cons_cons]

theorem leave_inv {s s' : State} (h : Inv s) (he : leave s = some s') : Inv s' := by
  unfold leave at he
  cases hst : s.stack with
  | nil => simp [hst] at he
  | cons p st =>
    simp only [hst, Option.some.injEq] at he
    subst he
    obtain ⟨p1, p2, p3, p4⟩ := h.saved p (by rw [hst]; exact List.mem_cons_self)
    have hso := h.stack
    rw [hst, List.pairwise_cons] at hso
    have hsub : (s.live.filter fun b => b.sys || decide (b.stamp < p.2)).Sublist s.live := List.filter_sublist
    have hmem : ∀ b ∈ s.live.filter (fun b => b.sys || decide (b.stamp < p.2)), b ∈ s.live :=
      fun b hb => hsub.subset hb
    refine ⟨p1, p2, fun b hb => h.stamps b (hmem b hb), h.nodup.sublist hsub, ?_,
      fun b hb => h.outside b (hmem b hb), h.away, h.sysDisjoint, h.disjoint.sublist hsub, ?_, ?_, hso.2, ?_⟩
    · intro b hb hs
      obtain ⟨i1, i2, _⟩ := h.inside b (hmem b hb) hs
      refine ⟨i1, i2, ?_⟩
      simp only [List.mem_filter, hs, Bool.false_or, decide_eq_true_eq] at hb
      exact p4 b hb.1 hs hb.2
    · intro m hm hne
      obtain ⟨b, hb, hbs, hba⟩ := h.held m hm hne
      exact ⟨b, List.mem_filter.2 ⟨hb, by simp [hbs]⟩, hbs, hba⟩
    · intro q hq
      obtain ⟨q1, q2, q3, q4⟩ := h.saved q (by rw [hst]; exact List.mem_cons_of_mem _ hq)
      exact ⟨q1, q2, q3, fun b hb => q4 b (hmem b hb)⟩
    · have := h.counter
      simp only [hst] at this
      rw [this]
      cases st with
      | nil => rfl
      | cons q st =>
        rw [List.getLast?_cons_cons]
        cases hl : (q :: st).getLast? with
        | none => simp at hl
        | some q => rfl

theorem exec_inv {s : State} (h : Inv s) {op : Op} (hv : Valid s op) :
    ∃ o s', exec s op = some (o, s') ∧ Inv s' ∧ s'.base = s.base ∧ s'.size = s.size := by
  cases op with
  | allocate n a =>
    refine ⟨_, _, rfl, allocate_inv h hv, ?_, ?_⟩ <;>
    · simp only [allocate]
      split <;> rfl
  | deallocate b =>
    refine ⟨_, _, rfl, (deallocate_spec h hv).1, ?_, ?_⟩ <;>
    · simp only [deallocate]
      split <;> try split
      all_goals rfl
  | enter => exact ⟨_, _, rfl, enter_inv h, rfl, rfl⟩
  | leave =>
    cases hst : s.stack with
    | nil => exact absurd hst hv
    | cons p st =>
      have e : leave s = some { s with
        pos := p.1, stack := st, live := s.live.filter fun b => b.sys || decide (b.stamp < p.2) } := by
        simp only [leave, hst]
      exact ⟨_, _, by simp only [exec, e, Option.map_some]; rfl, leave_inv h e, rfl, rfl⟩

theorem Reach.inv {base size : Nat} {s : State} (h : Reach base size s) :
    Inv s ∧ s.base = base ∧ s.size = size := by
  induction h with
  | init => exact ⟨init_inv _ _, rfl, rfl⟩
  | step _ hv he ih =>
    obtain ⟨o, s', e, i, hb, hs⟩ := exec_inv ih.1 hv
    rw [he] at e
    cases e
    exact ⟨i, hb.trans ih.2.1, hs.trans ih.2.2⟩

/-- Everything which can be done from a state. (Model of the environment: what the user or the system does.) -/
inductive After (s : State) : State → Prop where
  | refl : After s s
  | step {s' s'' : State} {op : Op} {o : Out} : After s s' → Valid s' op → exec s' op = some (o, s'') → After s s''

/-- A block of the system just past the end of the buffer is never returned. -/
theorem After.past {s s' : State} (h : After s s') {n : Nat} (hm : (s.base + s.size, n) ∈ s.sysmem) :
    s'.base = s.base ∧ s'.size = s.size ∧ (s.base + s.size, n) ∈ s'.sysmem := by
  induction h with
  | refl => exact ⟨rfl, rfl, hm⟩
  | @step s' s'' op o _ _ he ih =>
    obtain ⟨h1, h2, h3⟩ := ih
    cases op with
    | allocate n a =>
      simp only [exec, Option.some.injEq, Prod.mk.injEq] at he
      rw [← he.2, allocate]
      split
      · exact ⟨h1, h2, h3⟩
      · exact ⟨h1, h2, List.mem_cons_of_mem _ h3⟩
    | deallocate b =>
      simp only [exec, Option.some.injEq, Prod.mk.injEq] at he
      rw [← he.2, deallocate]
      simp only
      split
      · split <;> exact ⟨h1, h2, h3⟩
      · rename_i hb
        refine ⟨h1, h2, (List.mem_eraseP_of_neg ?_).2 h3⟩
        intro e
        apply hb
        have e : s.base + s.size = b.addr := by simpa using e
        simp only [inBuffer, Bool.and_eq_true, decide_eq_true_eq]
        omega
    | enter =>
      cases he
      exact ⟨h1, h2, h3⟩
    | leave =>
      simp only [exec, Option.map_eq_some_iff, leave] at he
      obtain ⟨s3, e, he⟩ := he
      cases he
      split at e <;> cases e
      exact ⟨h1, h2, h3⟩

/-- Executions in which rewinders are destroyed in the reverse order of their construction, as scopes do.
(Model of the environment: what the user or the system does.) -/
inductive Nested : State → State → Prop where
  | refl (s : State) : Nested s s
  | step {s s' s'' : State} {op : Op} {o : Out} : Nested s s' → Valid s' op →
      ¬ (op = .enter ∨ op = .leave) → exec s' op = some (o, s'') → Nested s s''
  | scope {s s1 s2 s3 : State} : Nested s s1 → Nested (enter s1) s2 → leave s2 = some s3 → Nested s s3

theorem Nested.stack {s s' : State} (h : Nested s s') : s'.stack = s.stack := by
  induction h with
  | refl => rfl
  | @step s s1 s2 op o _ hv hop he ih =>
    rw [← ih]
    cases op with
    | allocate n a =>
      simp only [exec, Option.some.injEq, Prod.mk.injEq] at he
      rw [← he.2]
      simp only [allocate]
      split <;> rfl
    | deallocate b =>
      simp only [exec, Option.some.injEq, Prod.mk.injEq] at he
      rw [← he.2]
      simp only [deallocate]
      split <;> try split
      all_goals rfl
    | enter => exact absurd (.inl rfl) hop
    | leave => exact absurd (.inr rfl) hop
  | scope _ _ hl ih1 ih2 =>
    rw [← ih1]
    unfold leave at hl
    rw [ih2] at hl
    simp only [enter, Option.some.injEq] at hl
    rw [← hl]

/-! ## Containers without a rewinder -/

/-- A container which moves to larger and larger blocks: the new block is allocated before the former one is released.
`l` gives the sizes and the addresses of the system.  (`boost::container::flat_set` with a `linear_alloc`, when `add` is called
without `reserve`: `/repo/sdd/dd/nary.hh:155-160,187-199`; growth is decided by Boost.) -/
def refill (b : Block) : List (Nat × Nat) → State → Block × State
  | [], s => (b, s)
  | (n, a) :: l, s => let r := allocate n a s; refill r.1 l (deallocate b r.2).2

/-- The life of the container of operands of a call of `sum` or `intersection` on a range,
`/repo/sdd/dd/sum.hh:399-412`: it is filled without `reserve` nor rewinder, then destroyed.
Simplification: nothing is said of the memory used by the operation itself, which is under a rewinder. -/
def temp (n a : Nat) (l : List (Nat × Nat)) (s : State) : State :=
  let r := allocate n a s
  let r' := refill r.1 l r.2
  (deallocate r'.1 r'.2).2

/-- The same call made `k` times. (Model of the environment: what the user or the system does.) -/
def temps (n a : Nat) (l : List (Nat × Nat)) : Nat → State → State
  | 0, s => s
  | k + 1, s => temps n a l k (temp n a l s)

theorem After.trans {s s' s'' : State} (h : After s s') (h' : After s' s'') : After s s'' := by
  induction h' with
  | refl => exact h
  | step _ hv he ih => exact .step ih hv he

theorem Reach.after {base size : Nat} {s s' : State} (h : Reach base size s) (h' : After s s') : Reach base size s' := by
  induction h' with
  | refl => exact h
  | step _ hv he ih => exact .step ih hv he

/-- Two operands, which fit in the buffer: the first block is lost. -/
theorem temp_grow {s : State} (h : s.live = []) (hs : s.stack = []) {n m a a' : Nat} (hn : 0 < n) (hm : 0 < m) (hlo : s.base ≤ s.pos)
    (hr : s.pos + n + m ≤ s.base + s.size) (hsm : s.sysmem = []) (ha : s.base + s.size ≤ a) (ha' : s.base + s.size ≤ a') :
    After s (temp n a [(m, a')] s) ∧ (temp n a [(m, a')] s).live = [] ∧ (temp n a [(m, a')] s).stack = [] ∧
      (temp n a [(m, a')] s).base = s.base ∧ (temp n a [(m, a')] s).size = s.size ∧ (temp n a [(m, a')] s).sysmem = [] ∧
      (temp n a [(m, a')] s).pos = s.pos + n := by
  obtain ⟨base, size, pos, un, stack, live, sysmem, clock⟩ := s
  simp only at h hs hlo hr hsm ha ha'
  subst h hs hsm
  let b : Block := ⟨pos, n, false, clock⟩
  let c : Block := ⟨pos + n, m, false, clock + 1⟩
  have hbc : c ≠ b := by
    intro e
    have := congrArg Block.stamp e
    simp [b, c] at this
  let s0 : State := ⟨base, size, pos, un, [], [], [], clock⟩
  let s1 : State := ⟨base, size, pos + n, un + n, [], [b], [], clock + 1⟩
  let s2 : State := ⟨base, size, pos + n + m, un + n + m, [], [c, b], [], clock + 2⟩
  let s3 : State := ⟨base, size, pos + n + m, un + n + m, [], [c], [], clock + 2⟩
  let s4 : State := ⟨base, size, pos + n, un + n + m - m, [], [], [], clock + 2⟩
  have e1 : allocate n a s0 = (b, s1) := by
    have : n ≤ base + size - pos := by omega
    simp only [allocate, s0, if_pos this, List.length_nil, if_true, s1, b]
  have e2 : allocate m a' s1 = (c, s2) := by
    have : m ≤ base + size - (pos + n) := by omega
    simp only [allocate, s1, if_pos this, List.length_nil, if_true, s2, c]
  have e3 : deallocate b s2 = (none, s3) := by
    have hb : inBuffer s2 pos = true := by simp only [inBuffer, s2, Bool.and_eq_true, decide_eq_true_eq]; omega
    have hne : ¬ pos + n = pos + n + m := by omega
    have he : [c, b].erase b = [c] := by
      rw [List.erase_cons_tail (by simpa using hbc), List.erase_cons_head]
    simp only [inBuffer, s2] at hb
    simp only [deallocate, s2, inBuffer, b, hb, if_true, if_neg hne]
    simp only [s3]
    rw [show [c, (⟨pos, n, false, clock⟩ : Block)].erase ⟨pos, n, false, clock⟩ = [c] from he]
  have e4 : deallocate c s3 = (none, s4) := by
    have hb : inBuffer s3 (pos + n) = true := by simp only [inBuffer, s3, Bool.and_eq_true, decide_eq_true_eq]; omega
    simp only [inBuffer, s3] at hb
    simp only [deallocate, s3, inBuffer, c, hb, if_true, List.length_nil, List.erase_cons_head, s4]
  have et : temp n a [(m, a')] s0 = s4 := by
    simp only [temp, refill, e1, e2, e3, e4]
  rw [show (⟨base, size, pos, un, [], [], [], clock⟩ : State) = s0 from rfl, et]
  refine ⟨?_, rfl, rfl, rfl, rfl, rfl, rfl⟩
  refine .step (op := .deallocate c) (o := .deleted none) (s' := s3) ?_ (List.mem_cons_self ..) (by simp only [exec, e4])
  refine .step (op := .deallocate b) (o := .deleted none) (s' := s2) ?_ (List.mem_cons_of_mem _ (List.mem_cons_self ..))
    (by simp only [exec, e3])
  refine .step (op := .allocate m a') (o := .block c) (s' := s1) ?_ ⟨.inr ha', fun _ h => nomatch h⟩ (by simp only [exec, e2])
  exact .step (op := .allocate n a) (o := .block b) (s' := s0) .refl ⟨.inr ha, fun _ h => nomatch h⟩ (by simp only [exec, e1])

theorem temps_grow {n m a a' : Nat} (hn : 0 < n) (hm : 0 < m) (k : Nat) : ∀ {s : State}, s.live = [] → s.stack = [] → s.base ≤ s.pos →
    (0 < k → s.pos + k * n + m ≤ s.base + s.size) → s.sysmem = [] → s.base + s.size ≤ a → s.base + s.size ≤ a' →
    After s (temps n a [(m, a')] k s) ∧ (temps n a [(m, a')] k s).live = [] ∧ (temps n a [(m, a')] k s).stack = [] ∧
      (temps n a [(m, a')] k s).pos = s.pos + k * n := by
  induction k with
  | zero => intro s hl hs _ _ _ _ _; exact ⟨.refl, hl, hs, by simp [temps]⟩
  | succ k ih =>
    intro s hl hs hlo hr hsm ha ha'
    have hr := hr (Nat.succ_pos k)
    have hk : (k + 1) * n = k * n + n := Nat.succ_mul ..
    obtain ⟨h1, h2, h3, h4, h5, h6, h7⟩ := temp_grow (n := n) (m := m) (a := a) (a' := a') hl hs hn hm hlo
      (by have : 0 ≤ k * n := Nat.zero_le _; omega) hsm ha ha'
    obtain ⟨i1, i2, i3, i4⟩ := ih (s := temp n a [(m, a')] s) h2 h3 (by omega) (fun _ => by omega) h6 (by omega) (by omega)
    refine ⟨h1.trans i1, i2, i3, ?_⟩
    show (temps n a [(m, a')] k (temp n a [(m, a')] s)).pos = _
    omega

/-- What is lost when nothing is in use stays lost. -/
theorem After.pos_le {s s' : State} (h : After s s') (hl : s.live = []) (hs : s.stack = []) (hhi : s.pos ≤ s.base + s.size) :
    s'.base = s.base ∧ s'.size = s.size ∧ s.pos ≤ s'.pos ∧ (∀ b ∈ s'.live, s.pos ≤ b.addr ∨ b.addr < s.base) ∧
      ∀ r ∈ s'.stack, s.pos ≤ r.1 := by
  induction h with
  | refl => exact ⟨rfl, rfl, Nat.le_refl _, by simp [hl], by simp [hs]⟩
  | @step s' s'' op o _ hv he ih =>
    obtain ⟨h1, h2, h3, h4, h5⟩ := ih
    cases op with
    | allocate n a =>
      simp only [exec, Option.some.injEq, Prod.mk.injEq] at he
      rw [← he.2, allocate]
      have hv := hv.1
      split
      · refine ⟨h1, h2, Nat.le_trans h3 (Nat.le_add_right ..), fun b hb => ?_, h5⟩
        rcases List.mem_cons.1 hb with rfl | hb
        · exact .inl h3
        · exact h4 b hb
      · refine ⟨h1, h2, h3, fun b hb => ?_, h5⟩
        rcases List.mem_cons.1 hb with rfl | hb
        · show s.pos ≤ a ∨ a < s.base
          omega
        · exact h4 b hb
    | deallocate b =>
      simp only [exec, Option.some.injEq, Prod.mk.injEq] at he
      rw [← he.2, deallocate]
      have h4' : ∀ c ∈ s'.live.erase b, s.pos ≤ c.addr ∨ c.addr < s.base := fun c hc => h4 c (List.mem_of_mem_erase hc)
      simp only
      split
      · rename_i hb
        split
        · refine ⟨h1, h2, ?_, h4', h5⟩
          show s.pos ≤ b.addr
          simp only [inBuffer, Bool.and_eq_true, decide_eq_true_eq] at hb
          rcases h4 b hv with h | h <;> omega
        · exact ⟨h1, h2, h3, h4', h5⟩
      · exact ⟨h1, h2, h3, h4', h5⟩
    | enter =>
      cases he
      refine ⟨h1, h2, h3, h4, fun r hr => ?_⟩
      rcases List.mem_cons.1 hr with rfl | hr
      · exact h3
      · exact h5 r hr
    | leave =>
      simp only [exec, Option.map_eq_some_iff, leave] at he
      obtain ⟨s3, e, he⟩ := he
      cases he
      split at e
      · cases e
      · rename_i p t stack hst
        cases e
        rw [hst] at h5
        exact ⟨h1, h2, h5 _ (List.mem_cons_self ..), fun b hb => h4 b (List.mem_of_mem_filter hb),
          fun r hr => h5 r (List.mem_cons_of_mem _ hr)⟩

/-- Executions where containers get their memory once, as `reserve` makes them do, and are destroyed in the reverse order of
their construction, and where anything may happen under a rewinder.
(Model of the environment: what the user or the system does.) -/
inductive Scoped : State → State → Prop where
  | refl (s : State) : Scoped s s
  | container {s s1 s2 s3 s4 : State} {n a : Nat} {b : Block} {o : Out} : Scoped s s1 → Valid s1 (.allocate n a) →
      exec s1 (.allocate n a) = some (.block b, s2) → Scoped s2 s3 → Valid s3 (.deallocate b) →
      exec s3 (.deallocate b) = some (o, s4) → Scoped s s4
  | rewinder {s s1 s2 s3 : State} : Scoped s s1 → Nested (enter s1) s2 → leave s2 = some s3 → Scoped s s3

theorem exec_const {s s' : State} {op : Op} {o : Out} (he : exec s op = some (o, s')) : s'.base = s.base ∧ s'.size = s.size := by
  cases op with
  | allocate n a =>
    simp only [exec, Option.some.injEq, Prod.mk.injEq] at he
    rw [← he.2, allocate]
    split <;> exact ⟨rfl, rfl⟩
  | deallocate b =>
    simp only [exec, Option.some.injEq, Prod.mk.injEq] at he
    rw [← he.2, deallocate]
    simp only
    split
    · split <;> exact ⟨rfl, rfl⟩
    · exact ⟨rfl, rfl⟩
  | enter => cases he; exact ⟨rfl, rfl⟩
  | leave =>
    simp only [exec, Option.map_eq_some_iff, leave] at he
    obtain ⟨s3, e, he⟩ := he
    cases he
    split at e <;> cases e
    exact ⟨rfl, rfl⟩

theorem Nested.const {s s' : State} (h : Nested s s') : s'.base = s.base ∧ s'.size = s.size := by
  induction h with
  | refl => exact ⟨rfl, rfl⟩
  | step _ _ _ he ih => exact ⟨(exec_const he).1.trans ih.1, (exec_const he).2.trans ih.2⟩
  | @scope s s1 s2 s3 _ _ hl ih1 ih2 =>
    have := exec_const (op := .leave) (o := .done) (s := s2) (s' := s3) (by simp only [exec, hl, Option.map_some])
    exact ⟨this.1.trans (ih2.1.trans ih1.1), this.2.trans (ih2.2.trans ih1.2)⟩

theorem Scoped.pos {s s' : State} (h : Scoped s s') (hlo : s.base ≤ s.pos) (hhi : s.pos ≤ s.base + s.size) :
    s'.base = s.base ∧ s'.size = s.size ∧ s'.stack = s.stack ∧ s'.pos = s.pos := by
  induction h with
  | refl => exact ⟨rfl, rfl, rfl, rfl⟩
  | @container s s1 s2 s3 s4 n a b o _ hv he1 _ _ he2 ih1 ih2 =>
    obtain ⟨b1, z1, k1, p1⟩ := ih1 hlo hhi
    obtain ⟨b2, z2⟩ := exec_const he1
    obtain ⟨b4, z4⟩ := exec_const he2
    simp only [exec, Option.some.injEq, Prod.mk.injEq, Out.block.injEq] at he1 he2
    obtain ⟨rfl, rfl⟩ := he1
    obtain ⟨rfl, rfl⟩ := he2
    have hv := hv.1
    have hrest : (allocate n a s1).2.base ≤ (allocate n a s1).2.pos ∧
        (allocate n a s1).2.pos ≤ (allocate n a s1).2.base + (allocate n a s1).2.size := by
      simp only [allocate]
      split <;> (simp only; omega)
    obtain ⟨b3, z3, k3, p3⟩ := ih2 hrest.1 hrest.2
    have hk : (allocate n a s1).2.stack = s1.stack := by
      simp only [allocate]
      split <;> rfl
    refine ⟨b4.trans (b3.trans (b2.trans b1)), z4.trans (z3.trans (z2.trans z1)), ?_, ?_⟩
    · rw [← k1, ← hk, ← k3]
      simp only [deallocate]
      split
      · split <;> rfl
      · rfl
    · simp only [deallocate]
      by_cases hfit : n ≤ s1.base + s1.size - s1.pos
      · have hb : (allocate n a s1).1.addr = s1.pos ∧ (allocate n a s1).1.size = n ∧ (allocate n a s1).2.pos = s1.pos + n := by
          simp only [allocate, if_pos hfit, and_self]
        rw [hb.1, hb.2.1]
        have hin : inBuffer { s3 with live := s3.live.erase (allocate n a s1).1 } s1.pos = true := by
          simp only [inBuffer, Bool.and_eq_true, decide_eq_true_eq]
          omega
        rw [if_pos hin, if_pos (by show s1.pos + n = s3.pos; omega)]
        exact p1
      · have hb : (allocate n a s1).1.addr = a ∧ (allocate n a s1).1.size = n ∧ (allocate n a s1).2.pos = s1.pos := by
          simp only [allocate, if_neg hfit, and_self]
        rw [hb.1, hb.2.1]
        split
        · rename_i hin
          simp only [inBuffer, Bool.and_eq_true, decide_eq_true_eq] at hin
          rw [if_neg (by show ¬ a + n = s3.pos; omega)]
          show s3.pos = s.pos
          omega
        · show s3.pos = s.pos
          omega
  | @rewinder s s1 s2 s3 _ hn hl ih =>
    obtain ⟨b1, z1, k1, p1⟩ := ih hlo hhi
    have hst := hn.stack
    have hc := hn.const
    unfold leave at hl
    rw [hst] at hl
    simp only [enter, Option.some.injEq] at hl
    subst hl
    exact ⟨hc.1.trans b1, hc.2.trans z1, k1, p1⟩

end Arena
end Verif
