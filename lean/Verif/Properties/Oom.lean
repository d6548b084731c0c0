import Verif.Mem.Oom
/-!
# Properties: memory exhaustion while data are created

C102: a program which catches `std::bad_alloc` and goes on.
-/

set_option autoImplicit false
set_option linter.unusedSectionVars false

namespace Verif
open Heap

section
variable {L : Type} [DecidableEq L] {hash : Key L → Nat} {bytes : Key L → Nat}

/-- **C102** (partial). During any valid program on handles, each request of memory of each creation may fail, and the program goes on
after each `std::bad_alloc`. In every state: valid statements never meet an undefined behaviour; they throw only when a request fails, then
the variables are unchanged, and if the block of the datum was refused nothing has changed at all; the variables have the values computed by
the statements which did not throw; two variables hold the same pointer if and only if their terms are equal; what can be reached from a
variable is in memory.
What is missing: the memory of the data whose creation failed may be lost, see `C102_negation`. -/
theorem C102_memory_exhausted_partial {size : BitVec 64} (h1 : 1 ≤ size.toNat) (h2 : size.toNat ≤ 2 ^ 63) {n : Nat}
    {ops : List (Op L)} {s : State L} (hr : RunsF hash bytes (init size n) ops s) :
    (∀ f op, Valid s op → ∃ thrown s', execF hash bytes f s op = some (thrown, s') ∧
      (thrown = true → f ≠ .nothing ∧ s'.vars = s.vars ∧ (f = .block → s' = s))) ∧
    (∃ V, vexecs (List.replicate n VSlot.dead) ops = some V ∧ V.length = s.vars.length ∧
      (∀ (v : Nat) (a : Addr), s.vars[v]? = some (.live a) → ∃ t, V[v]? = some (.val t) ∧ Denotes s t a) ∧
      (∀ (v : Nat) (t : Tree L), V[v]? = some (.val t) → ∃ a, s.vars[v]? = some (.live a)) ∧
      ∀ (v w : Nat) (a b : Addr) (t u : Tree L), s.vars[v]? = some (.live a) → s.vars[w]? = some (.live b) →
        V[v]? = some (.val t) → V[w]? = some (.val u) → (a = b ↔ t = u)) ∧
    (∀ a, Reaches s a → (s.cells a).isSome ∧ a ∈ s.blocks.map Prod.fst) ∧
    (s.blocks.map Prod.fst).Nodup := by
  obtain ⟨V, B, eV, -, hg⟩ := runsF_good hr (init_good h1 h2 n)
  have hg' := hg
  obtain ⟨O, K, hi, ha⟩ := hg
  refine ⟨fun f op hv => ?_, ⟨V, eV, ha.length_eq.symm, ?_, ?_, ?_⟩, fun a hra => ?_, hi.nodup⟩
  · rcases execF_good (bytes := bytes) hg' f hv with ⟨s', V', e, -⟩ | ⟨hf, s', B', e, hv', -⟩
    · exact ⟨false, s', e, fun h => by cases h⟩
    · exact ⟨true, s', e, fun _ => ⟨hf, hv', fun hb => by rw [hb] at e; exact execF_block e⟩⟩
  · intro v a hv
    obtain ⟨y, hy, hr⟩ := forall₂_get ha hv
    cases y with
    | dead => exact hr.elim
    | moved => exact hr.elim
    | val t => exact ⟨t, hy, denotes_mono (fun b c hb => (ideal_cell hb).2) t hr⟩
  · intro v t hv
    have hlen : v < s.vars.length := by
      rw [ha.length_eq]
      exact (List.getElem?_eq_some_iff.1 hv).1
    obtain ⟨y, hy, hr⟩ := forall₂_get ha (List.getElem?_eq_getElem hlen)
    rw [hv] at hy
    cases hy
    rw [List.getElem?_eq_getElem hlen]
    cases hx : s.vars[v] with
    | dead => rw [hx] at hr; exact hr.elim
    | moved => rw [hx] at hr; exact hr.elim
    | live a => exact ⟨a, rfl⟩
  · intro v w a b t u hv hw ht hu
    obtain ⟨y, hy, hrv⟩ := forall₂_get ha hv
    obtain ⟨z, hz, hrw⟩ := forall₂_get ha hw
    rw [ht] at hy
    rw [hu] at hz
    cases hy
    cases hz
    constructor
    · rintro rfl
      exact denotes_fun _ _ hrv hrw
    · rintro rfl
      exact denotes_inj hi.inv _ hrv hrw
  · obtain ⟨c, hc⟩ := hi.reaches hra
    have hs : (s.cells a).isSome := by rw [(ideal_cell hc).2]; rfl
    exact ⟨hs, hi.cell_block hs⟩

end

/-! The negation: there is no bound on the memory which is lost. -/

namespace DemoOom

/-- A hash function. (An example.) -/
def h : Key Nat → Nat := fun k => k.1

/-- The size of a datum. (An example.) -/
def by1 : Key Nat → Nat := fun k => 16 + 8 * k.2.length

/-- The states of the loop: the table holds one datum without any handle, and is too loaded. (An example.) -/
def Loop (s : State Nat) : Prop :=
  s.vars = [.dead] ∧ s.spare = none ∧ s.table.buckets = [[(0, (7, []))]] ∧ s.table.size = 1 ∧
    (s.blocks.map Prod.fst).Nodup ∧ ∀ b ∈ s.blocks, b.1 < s.blocks.length

theorem loop_step {s : State Nat} (hl : Loop s) :
    ∃ s', Valid s (.create 0 7 [] s.blocks.length) ∧
      execF h by1 .buckets s (.create 0 7 [] s.blocks.length) = some (true, s') ∧ Loop s' ∧
      s'.blocks.length = s.blocks.length + 1 := by
  obtain ⟨hv, hs, ht, hz, hnd, hb⟩ := hl
  obtain ⟨B, C, R, ⟨bs, z, nb⟩, sp, V, c⟩ := s
  simp only at hv hs ht hz hnd hb
  subst hv hs ht hz
  have hfr : B.length ∉ B.map Prod.fst := by
    intro hm
    obtain ⟨x, hx, e⟩ := List.mem_map.1 hm
    have := hb x hx
    rw [e] at this
    exact Nat.lt_irrefl _ this
  refine ⟨⟨(B.length, 16) :: B, Function.update C B.length (some ⟨(7, []), c⟩), Function.update R B.length 0,
    ⟨[[(0, (7, []))]], 1, nb + 1⟩, none, [.dead], c + 1⟩, ⟨rfl, by simp, hfr⟩, ?_,
    ⟨rfl, rfl, rfl, rfl, List.nodup_cons.2 ⟨hfr, hnd⟩, ?_⟩, rfl⟩
  · simp [execF, unifyF, allocate, incs, HT.insertF, HT.insertImpl, HT.pos, eqE, by1]
  · intro b hm
    rcases List.mem_cons.1 hm with rfl | hm
    · simp
    · exact Nat.lt_succ_of_lt (hb b hm)

theorem loop : ∀ (n : Nat) {s : State Nat}, Loop s →
    ∃ s', RunsF h by1 s [] s' ∧ Loop s' ∧ s'.blocks.length = s.blocks.length + n
  | 0, s, hl => ⟨s, .nil s, hl, rfl⟩
  | n + 1, s, hl => by
    obtain ⟨s1, hv, he, hl1, hb1⟩ := loop_step hl
    obtain ⟨s2, hr, hl2, hb2⟩ := loop n hl1
    exact ⟨s2, .thrown .buckets hv he hr, hl2, by omega⟩

theorem first : ∃ s, Valid (init 1 1 : State Nat) (.create 0 7 [] 0) ∧
    execF h by1 .buckets (init 1 1) (.create 0 7 [] 0) = some (true, s) ∧ Loop s ∧ s.blocks.length = 1 := by
  refine ⟨⟨[(0, 16)], Function.update (fun _ => none) 0 (some ⟨(7, []), 0⟩), Function.update (fun _ => 0) 0 0,
    ⟨[[(0, (7, []))]], 1, 1⟩, none, [.dead], 1⟩, ⟨rfl, by simp, by simp [init]⟩, ?_, ⟨rfl, rfl, rfl, rfl, by simp, by simp⟩, rfl⟩
  have hn : (HT.new 1#64 : HT (Addr × Key Nat)) = ⟨[[]], 0, 0⟩ := by
    have : (nextPower64 1#64).toNat = 1 := by decide +kernel
    simp [HT.new, this]
  simp [execF, unifyF, allocate, incs, HT.insertF, HT.insertImpl, HT.pos, by1, init, hn]

end DemoOom

/-- **C102**, negation. For every `n` there is a program with one variable, which is never constructed because each creation throws
`std::bad_alloc`, after which no variable leads to any datum, and after which `n` blocks more than the one of the table are allocated for
ever: whatever the program does next, they are not released. -/
theorem C102_negation (n : Nat) : ∃ s, RunsF DemoOom.h DemoOom.by1 (init 1 1) [] s ∧ (∀ a, ¬ Reaches s a) ∧
    s.spare = none ∧ s.table.elems.length = 1 ∧ ∀ ops s', RunsF DemoOom.h DemoOom.by1 s ops s' → n ≤ s'.blocks.length := by
  obtain ⟨s0, hv, he, hl0, hb0⟩ := DemoOom.first
  obtain ⟨s, hr, hl, hb⟩ := DemoOom.loop n hl0
  have hrun : RunsF DemoOom.h DemoOom.by1 (init 1 1) [] s := .thrown .buckets hv he hr
  obtain ⟨h1, h2, h3, h4, h5, h6⟩ := hl
  have hel : s.table.elems = [(0, (7, []))] := by simp [HT.elems, h3]
  refine ⟨s, hrun, ?_, h2, by rw [hel]; rfl, fun ops s' hr' => ?_⟩
  · intro a ha
    induction ha with
    | handle hm => rw [h1] at hm; simp at hm
    | kid _ _ _ ih => exact ih
  · obtain ⟨V, B, -, -, hg⟩ := runsF_good hrun (init_good (by decide) (by decide) 1)
    have hsub : (s.blocks.map Prod.fst).filter (fun a => decide (a ≠ 0)) ⊆ s'.blocks.map Prod.fst := by
      intro a ha
      obtain ⟨hm, hne⟩ := List.mem_filter.1 ha
      refine runsF_lost hr' hg hm (by simp [h2]) fun k hk => ?_
      rw [hel] at hk
      simp at hk
      simp [hk.1] at hne
    have hnd : ((s.blocks.map Prod.fst).filter (fun a => decide (a ≠ 0))).Nodup := h5.filter _
    have hlen := (List.subperm_of_subset hnd hsub).length_le
    rw [List.length_map] at hlen
    have hcount : (s.blocks.map Prod.fst).length ≤ ((s.blocks.map Prod.fst).filter (fun a => decide (a ≠ 0))).length + 1 := by
      have h7 := List.length_eq_length_filter_add (l := s.blocks.map Prod.fst) (fun a => decide (a ≠ 0))
      have h8 : ((s.blocks.map Prod.fst).filter (fun a => ! decide (a ≠ 0))).length ≤ 1 := by
        have : ((s.blocks.map Prod.fst).filter (fun a => ! decide (a ≠ 0))).length = (s.blocks.map Prod.fst).count 0 := by
          rw [List.count_eq_length_filter]
          congr 1
          apply List.filter_congr
          intro x _
          by_cases hx : x = 0 <;> simp [hx]
        rw [this]
        exact List.nodup_iff_count_le_one.1 h5 0
      omega
    rw [List.length_map] at hcount
    omega

/-! The hypotheses of the theorem are met: a creation fails because of the buckets, the same creation then succeeds and finds the datum
which the failure left. -/

/-- The states of a program: the leaf 3 in the variable 0. (An example.) -/
def DemoOom.s1 : State Nat := ((execF DemoOom.h DemoOom.by1 .nothing (init 2 3) (.create 0 3 [] 100)).getD (true, init 2 3)).2

/-- Then a failed creation of the node 5 on it. (An example.) -/
def DemoOom.s2 : State Nat := ((execF DemoOom.h DemoOom.by1 .buckets DemoOom.s1 (.create 1 5 [0] 101)).getD (true, init 2 3)).2

/-- Then the same creation. (An example.) -/
def DemoOom.s3 : State Nat := ((execF DemoOom.h DemoOom.by1 .nothing DemoOom.s2 (.create 1 5 [0] 102)).getD (true, init 2 3)).2

theorem DemoOom.getD_eq {o : Option (Bool × State Nat)} {b : Bool} {d : Bool × State Nat} (h : o.map Prod.fst = some b) :
    o = some (b, (o.getD d).2) := by
  cases o with
  | none => cases h
  | some x =>
    cases h
    rfl

example : RunsF DemoOom.h DemoOom.by1 (init 2 3) [.create 0 3 [] 100, .create 1 5 [0] 102] DemoOom.s3 ∧
    (DemoOom.s2.vars, DemoOom.s2.refs 101, DemoOom.s2.refs 100) = ([.live 100, .dead, .dead], 0, 2) ∧
    (DemoOom.s3.vars, DemoOom.s3.refs 101, DemoOom.s3.refs 100) = ([.live 100, .live 101, .dead], 1, 2) ∧
    (DemoOom.s3.blocks.map Prod.fst, DemoOom.s3.spare) = ([102, 101, 100], some (102, 24)) := by
  refine ⟨?_, by decide +kernel, by decide +kernel, by decide +kernel⟩
  refine .done (s' := DemoOom.s1) .nothing ⟨rfl, by simp, by simp [init]⟩ (DemoOom.getD_eq (by decide +kernel)) ?_
  refine .thrown (s' := DemoOom.s2) (op := .create 1 5 [0] 101) .buckets ⟨by decide +kernel, ?_, by decide +kernel⟩
    (DemoOom.getD_eq (by decide +kernel)) ?_
  · intro k hk
    rw [List.mem_singleton.1 hk]
    exact ⟨100, by decide +kernel⟩
  refine .done (s' := DemoOom.s3) .nothing ⟨by decide +kernel, ?_, by decide +kernel⟩
    (DemoOom.getD_eq (by decide +kernel)) (.nil _)
  intro k hk
  rw [List.mem_singleton.1 hk]
  exact ⟨100, by decide +kernel⟩

end Verif
