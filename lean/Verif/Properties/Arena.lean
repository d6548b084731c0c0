import Verif.Mem.Arena
import Verif.Mem.Manager
/-!
# Properties of the arena and of the initialisation
-/

set_option autoImplicit false
set_option linter.unusedSectionVars false

namespace Verif

/-! ## C23, C93, C94: the arena -/

section
open Arena

/-- **C23.** After any history of allocations, releases and (properly nested or not) rewinders:
1. the blocks in use are pairwise disjoint, those of the buffer are inside of it and those of the system are held from it;
2. a new block overlaps no block in use;
3. `::operator delete` is called only on blocks held from the system, so never twice;
4. every block held from the system is in use, except at the address just past the end of the buffer (such a block is
   never returned);
5. the assertion of the destructor holds: without rewinder, the bytes used are those allocated without rewinder. -/
theorem C23_arena_blocks {base size : Nat} {s : State} (h : Reach base size s) :
    (s.live.Pairwise (fun b c => ∀ a, ¬ ((b.addr ≤ a ∧ a < b.addr + b.size) ∧ (c.addr ≤ a ∧ a < c.addr + c.size))) ∧
      ∀ b ∈ s.live, (b.sys = false → base ≤ b.addr ∧ b.addr + b.size ≤ base + size) ∧
        (b.sys = true → (b.addr, b.size) ∈ s.sysmem)) ∧
    (∀ n a b s', Valid s (.allocate n a) → exec s (.allocate n a) = some (.block b, s') →
      b.size = n ∧ ∀ c ∈ s.live, ∀ a, ¬ ((b.addr ≤ a ∧ a < b.addr + b.size) ∧ (c.addr ≤ a ∧ a < c.addr + c.size))) ∧
    (∀ b o s', b ∈ s.live → exec s (.deallocate b) = some (.deleted o, s') →
      ∀ a, o = some a → a = b.addr ∧ (a, b.size) ∈ s.sysmem ∧ ∀ m ∈ s'.sysmem, m.1 ≠ a) ∧
    (∀ m ∈ s.sysmem, m.1 ≠ base + size → ∃ b ∈ s.live, b.sys = true ∧ b.addr = m.1) ∧
    (s.stack = [] → s.pos = base + s.unactive) := by
  obtain ⟨hi, rfl, rfl⟩ := h.inv
  refine ⟨⟨?_, ?_⟩, ?_, ?_, hi.held, ?_⟩
  · refine hi.disjoint.imp ?_
    intro b c hd a ha
    unfold Arena.Disjoint at hd
    omega
  · intro b hb
    exact ⟨fun hs => ⟨(hi.inside b hb hs).1, (hi.inside b hb hs).2.1⟩, fun hs => (hi.outside b hb hs).1⟩
  · intro n a b s' hv he
    have h1 := (allocate_inv hi hv).disjoint
    simp only [exec, Option.some.injEq, Prod.mk.injEq, Out.block.injEq] at he
    obtain ⟨rfl, rfl⟩ := he
    have h2 : (allocate n a s).2.live = (allocate n a s).1 :: s.live ∧ (allocate n a s).1.size = n := by
      unfold allocate
      split <;> exact ⟨rfl, rfl⟩
    rw [h2.1, List.pairwise_cons] at h1
    refine ⟨h2.2, ?_⟩
    intro c hc x hx
    have := h1.1 c hc
    unfold Arena.Disjoint at this
    omega
  · intro b o s' hb he a ho
    obtain ⟨_, _, h3, h4⟩ := deallocate_spec hi hb
    simp only [exec, Option.some.injEq, Prod.mk.injEq, Out.deleted.injEq] at he
    obtain ⟨rfl, rfl⟩ := he
    cases hs : b.sys with
    | false =>
      rw [(h3 hs).1] at ho
      cases ho
    | true =>
      rcases h4 hs with ⟨e, hm, hk⟩ | ⟨e, _⟩
      · rw [e] at ho
        cases ho
        exact ⟨rfl, hm, fun m hm => ((hk m).1 hm).2⟩
      · rw [e] at ho
        cases ho
  · intro hst
    have := hi.counter
    rw [hst] at this
    exact this.symm

/-- **C23**, rewinders: whatever is done in the scope of a rewinder (allocations, releases, other scopes), its end
restores the position of its beginning, and the blocks in use before and not released are still in use. -/
theorem C23_rewinder_restores {s s1 s2 : State} (hn : Nested (enter s) s1) (he : leave s1 = some s2) :
    s2.pos = s.pos ∧ s2.stack = s.stack ∧ ∀ b ∈ s1.live, b.stamp < s.clock → b ∈ s2.live := by
  have hst := hn.stack
  unfold leave at he
  rw [hst] at he
  simp only [enter, Option.some.injEq] at he
  subst he
  refine ⟨rfl, rfl, ?_⟩
  intro b hb ht
  exact List.mem_filter.2 ⟨hb, by simp [ht]⟩

/-- A few operations on an arena of 16 bytes at address 100: two blocks in the buffer, a third one from the system, the release of the
second one (the last of the buffer), a scope. -/
def demoArena : List Op :=
  [.allocate 8 0, .allocate 6 0, .allocate 8 500, .deallocate ⟨108, 6, false, 1⟩, .enter, .allocate 8 0,
    .leave, .deallocate ⟨500, 8, true, 2⟩]

example : (demoArena.foldlM (fun s op => (exec s op).map Prod.snd) (init 100 16)).map
    (fun s => (s.pos, s.unactive, s.live, s.sysmem)) = some (108, 8, [⟨100, 8, false, 0⟩], []) := by decide +kernel

/-- **C93 does not hold.** Whatever the buffer: a block larger than it, which the system gives just past its end, is taken for a block of the buffer when it is
released. It is not returned to the system, and will never be: it is still held when nothing is in use, whatever is done next. -/
theorem C93_negation (base size n : Nat) (hn : size < n) : ∃ s, Reach base size s ∧ s.live = [] ∧ (base + size, n) ∈ s.sysmem ∧
    ∀ s', After s s' → (base + size, n) ∈ s'.sysmem := by
  let b : Block := ⟨base + size, n, true, 0⟩
  have h1 : exec (init base size) (.allocate n (base + size)) =
      some (.block b, { init base size with sysmem := [(base + size, n)], live := [b], clock := 1 }) := by
    have h0 : ¬ n ≤ (init base size).base + (init base size).size - (init base size).pos := by
      show ¬ n ≤ base + size - base
      omega
    simp only [exec, allocate]
    rw [if_neg h0]
    rfl
  have r1 : Reach base size _ := .step .init (op := .allocate n (base + size)) ⟨.inr (Nat.le_refl _), by simp [init]⟩ h1
  have h2 : exec { init base size with sysmem := [(base + size, n)], live := [b], clock := 1 } (.deallocate b) =
      some (.deleted none, { init base size with sysmem := [(base + size, n)], live := [], clock := 1 }) := by
    have h3 : ¬ base + size + n = base := by omega
    simp [exec, deallocate, init, inBuffer, b, h3]
  refine ⟨_, .step r1 (op := .deallocate b) (by simp [Valid]) h2, rfl, by simp, fun s' hs => (hs.past (n := n) (by simp [init])).2.2⟩

/-- **C93**, what holds. A block obtained from the system at any other address is returned to it as soon as it is released; when no block is in use, the system
has got back all its blocks, except those at the address just past the end of the buffer. -/
theorem C93_returned_partial {base size : Nat} {s : State} (h : Reach base size s) :
    (∀ b ∈ s.live, b.sys = true → b.addr ≠ base + size → ∃ s', exec s (.deallocate b) = some (.deleted (some b.addr), s') ∧
      ∀ m, m ∈ s'.sysmem ↔ m ∈ s.sysmem ∧ m.1 ≠ b.addr) ∧
    (s.live = [] → ∀ m ∈ s.sysmem, m.1 = base + size) := by
  obtain ⟨hi, rfl, rfl⟩ := h.inv
  refine ⟨fun b hb hsys hne => ?_, fun hl m hm => ?_⟩
  · obtain ⟨_, _, _, h4⟩ := deallocate_spec hi hb
    rcases h4 hsys with ⟨e, hm, hk⟩ | ⟨_, h5, _⟩
    · exact ⟨_, by simp only [exec, e], hk⟩
    · exact absurd h5 hne
  · by_contra hne
    obtain ⟨b, hb, _⟩ := hi.held m hm hne
    rw [hl] at hb
    cases hb

/-- In an arena of 16 bytes, a block of 8 bytes at another address is returned. -/
example : ∃ s, Reach 100 16 s ∧ (⟨500, 17, true, 0⟩ : Block) ∈ s.live ∧
    ∃ s', exec s (.deallocate ⟨500, 17, true, 0⟩) = some (.deleted (some 500), s') ∧ s'.sysmem = [] :=
  ⟨_, .step .init (op := .allocate 17 500) ⟨.inr (by simp [init]), by simp [init]⟩ rfl, by decide, _, rfl, by decide⟩

/-- The block just past the end of the buffer is taken for a block of the buffer, and is not returned to the system. -/
example : ((exec (init 100 16) (.allocate 17 116)).bind fun r => exec r.2 (.deallocate ⟨116, 17, true, 0⟩)).map
    (fun r => (r.1, r.2.live, r.2.sysmem)) = some (.deleted none, [], [(116, 17)]) := by decide +kernel

/-- **C94 does not hold.** The operands of a call of `sum` on a range of two SDDs, of 8 bytes each, are first in a block of 8 bytes, then in one of 16 bytes: the first block
is released while it is not the last one, and nobody rewinds the arena. Whatever the arena, after sufficiently many such calls nothing is in use, and
less than 24 bytes of the arena are available, now and whatever is done next. -/
theorem C94_negation (base size : Nat) : ∃ k s, s = temps 8 (base + size) [(16, base + size)] k (init base size) ∧ Reach base size s ∧
    s.live = [] ∧ s.stack = [] ∧ ∀ s', After s s' → s'.base = base ∧ s'.size = size ∧ base + size < s'.pos + 24 := by
  obtain ⟨h1, h2, h3, h4⟩ := temps_grow (n := 8) (m := 16) (a := base + size) (a' := base + size) (by omega) (by omega) ((size - 16) / 8)
    (s := init base size) rfl rfl (Nat.le_refl _)
    (fun hk => by show base + (size - 16) / 8 * 8 + 16 ≤ base + size; omega) rfl (Nat.le_refl _) (Nat.le_refl _)
  have hr := Reach.after .init h1
  refine ⟨_, _, rfl, hr, h2, h3, fun s' hs => ?_⟩
  obtain ⟨hi, hb, hz⟩ := hr.inv
  obtain ⟨i1, i2, i3, _⟩ := hs.pos_le h2 h3 hi.hi
  refine ⟨i1.trans hb, i2.trans hz, ?_⟩
  rw [h4] at i3
  have : (init base size).pos = base := rfl
  omega

/-- **C94**, what holds. When containers get their memory at once (their number of operands is given by `reserve`, as in `operator+`, in `sum` of a list, and in the evaluation
of homomorphisms) and are destroyed in the reverse order of their construction, the arena is at the end as it was at the beginning, wherever
the memory comes from; whatever happens under a rewinder. -/
theorem C94_reserved_partial {base size : Nat} {s s' : State} (h : Reach base size s) (hs : Scoped s s') :
    s'.pos = s.pos ∧ s'.stack = s.stack := by
  obtain ⟨hi, _, _⟩ := h.inv
  obtain ⟨_, _, h3, h4⟩ := hs.pos hi.lo hi.hi
  exact ⟨h4, h3⟩

/-- Two calls on ranges of two operands lose 16 bytes of an arena of 64 bytes; two nested containers, the second one from the system, lose nothing. -/
example : (temps 8 164 [(16, 164)] 2 (init 100 64)).pos = 116 := by decide +kernel

example : ∃ s, Scoped (init 100 16) s ∧ s.pos = 100 ∧ s.clock = 2 := by
  refine ⟨_, .container (n := 8) (a := 500) (.refl _) ⟨.inr (by simp [init]), by simp [init]⟩ rfl
    (.container (n := 16) (a := 500) (.refl _) ⟨.inr ?_, ?_⟩ rfl (.refl _) ?_ rfl) ?_ rfl, ?_, ?_⟩
  all_goals first | decide +kernel | skip
  · intro m hm
    exact nomatch hm
  · show _ ∈ (_ : List Block)
    decide +kernel
  · show _ ∈ (_ : List Block)
    decide +kernel

end

/-! ## C48: initialisation -/

section
open Manager
variable {T : Type} [DecidableEq T] {valuesOf : T → T} {P : T → Prop}

/-- **C48**, the part which holds: when the configurations in use do not share their types of values (for instance if there is
only one configuration), `init` throws exactly when a manager of this configuration is alive; otherwise it creates a manager; all along the life
of a manager, the globals point to it and to its values manager; the destruction of a manager allows a
new initialisation.

Missing: configurations sharing a type of values, for which the property is false (`C48_negation`). -/
theorem C48_one_manager_partial (hP : Separate valuesOf P) {s : State T} (h : Reach valuesOf P s) :
    (∀ c, P c → ∀ o s', exec valuesOf s (.init c) = some (o, s') →
      ((∃ m, (m, c) ∈ s.alive) → o = .error ∧ s' = s) ∧
      ((∀ m, (m, c) ∉ s.alive) → ∃ m, o = .created m ∧ s'.alive = (m, c) :: s.alive)) ∧
    (∀ m c, (m, c) ∈ s.alive → s.internal c = some m ∧ s.values (valuesOf c) = some m) ∧
    (∀ m c, (m, c) ∈ s.alive → ∃ s', exec valuesOf s (.destroy m) = some (.destroyed, s') ∧
      ∀ k, (k, c) ∉ s'.alive) := by
  have hi := h.inv hP
  refine ⟨?_, ?_, ?_⟩
  · intro c hc o s' he
    have hr := ready_iff hP hi hc
    simp only [exec] at he
    constructor
    · rintro ⟨m, hm⟩
      have : ready valuesOf s c = false := by
        cases hb : ready valuesOf s c with
        | false => rfl
        | true => exact absurd rfl (hr.1 hb _ hm)
      rw [this] at he
      simp only [Bool.false_eq_true, if_false, Option.some.injEq, Prod.mk.injEq] at he
      exact ⟨he.1.symm, he.2.symm⟩
    · intro hn
      have : ready valuesOf s c = true := hr.2 (by rintro ⟨m, d⟩ hp rfl; exact hn m hp)
      rw [this] at he
      simp only [if_true, Option.some.injEq, Prod.mk.injEq] at he
      exact ⟨s.next, he.1.symm, by rw [← he.2]⟩
  · intro m c hm
    exact ⟨(hi.internal c m).2 hm, hi.values _ hm⟩
  · intro m c hm
    have hf := find_alive hi.one hm
    have he : exec valuesOf s (.destroy m) = some (.destroyed, { s with
        internal := Function.update s.internal c none
        values := Function.update s.values (valuesOf c) none
        alive := s.alive.filter (fun q => q.1 != m) }) := by
      simp only [exec, hf]
    refine ⟨_, he, ?_⟩
    intro k hk
    have hi' := exec_inv hP hi (by rintro d (h | h) <;> cases h) he
    have := (hi'.internal c k).2 hk
    simp only at this
    rw [Function.update_self] at this
    cases this

/-- **C48** is false when two configurations share a type of values: `init` does not throw for the second one, and
the destruction of the second manager leaves the first one without values manager. (0 and 1 are configurations; their values are
of type 2.) -/
theorem C48_negation : ∃ (s1 s2 s3 : State Nat),
    exec (fun _ => 2) (start : State Nat) (.init 0) = some (.created 0, s1) ∧
    exec (fun _ => 2) s1 (.init 1) = some (.created 1, s2) ∧
    exec (fun _ => 2) s2 (.destroy 1) = some (.destroyed, s3) ∧
    (0, 0) ∈ s3.alive ∧ s3.values 2 = none := by
  refine ⟨_, _, _, rfl, rfl, rfl, ?_, ?_⟩
  · decide
  · decide

/-- A single configuration, whose values are of type 1: `init`, `init` again (which throws), destruction, `init`. -/
example : Separate (fun _ : Nat => 1) (fun c => c = 0) := by
  constructor
  · intro c d hc hd _
    rw [hc, hd]
  · intro c d _ hd
    rw [hd]
    exact Nat.one_ne_zero

example : (([Op.init 0, .init 0, .destroy 0, .initFails 0, .init 0] : List (Op Nat)).foldlM
    (fun (p : List Out × State Nat) op => (exec (fun _ => 1) p.2 op).map fun r => (r.1 :: p.1, r.2)) ([], start)).map
    (fun p => (p.1, p.2.alive)) =
    some ([.created 2, .failed, .destroyed, .error, .created 0], [(2, 0)]) := by decide +kernel

end

end Verif
