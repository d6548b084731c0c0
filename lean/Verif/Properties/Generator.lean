import Verif.Mem.Generator
/-!
# Property C95: enumerating paths while the program goes on

Each theorem is named after the property of `properties.jsonl` it is about.
-/

set_option autoImplicit false
set_option linter.unusedSectionVars false

namespace Verif
open Heap PathGen

section
variable {V : Type} [DecidableEq V] {hash : Key (SLabel V) → Nat} {bytes : Key (SLabel V) → Nat}

/-- **C95.** `paths()` is called on a handle `w` which holds the SDD `x`, at any time of any program.  Then, the coroutine and the program go on in any way:
the program may create, move, swap, assign and destroy any handle but the one which is inside the coroutine, the handle `w` included.  The coroutine always
finds what it reads in memory; the paths already yielded are always the first ones of `paths x`; the coroutine ends after a number of steps which only depends
on `x`, and has then yielded all of them, once each, in this order. (`C11` says what `paths x` is.) -/
theorem C95_generator (x : SDD V) : ∃ N, ∀ {size : BitVec 64}, 1 ≤ size.toNat → size.toNat ≤ 2 ^ 63 → ∀ {m : Nat} {s : State (SLabel V)},
    Reach hash bytes size m s → ∀ {gv w : Nat}, Holds s w x.tree → Valid s (.copy gv w) →
    ∃ s0 g0, start hash bytes gv w s = some (s0, g0) ∧ ∀ {n : Nat} {s' : State (SLabel V)} {g : Gen V Addr},
      Run hash bytes gv s0 g0 n s' g →
      (∃ g', PathGen.step (lookM s') g = some g') ∧ g.out <+: paths x ∧ (g.done = true ↔ N ≤ n) ∧ (N ≤ n → g.out = paths x) := by
  obtain ⟨N, hN⟩ := start_steps x
  refine ⟨N, fun {size} h1 h2 {m s} hr {gv w} hw hval => ?_⟩
  obtain ⟨s0, e0, i0, hk⟩ := exec_inv (bytes := bytes) (reach_inv h1 h2 hr) hval
  obtain ⟨a, ea, da⟩ := hw
  have hv : s0.vars[gv]? = some (.live a) := by
    have e := e0
    have hd := hval.1
    have hlt : gv < s.vars.length := (List.getElem?_eq_some_iff.1 hd).1
    simp only [exec, hd, target, ea, inc] at e
    cases hc : s.cells a with
    | none => simp [hc] at e
    | some c =>
      simp only [hc, Option.map_some, Option.some.injEq] at e
      rw [← e]
      simp [hlt]
  have ht : target s0 gv = some a := by simp [target, hv]
  obtain ⟨c, hc⟩ := i0.cell_of_var hv
  have hat : At s0 a x a := ⟨denotes_keeps i0 hk _ da (by rw [hc]; rfl), .refl⟩
  refine ⟨s0, Gen.start a, by simp [start, e0, ht], fun {n s' g} hrun => ?_⟩
  obtain ⟨_, _, t', et, hsim⟩ := run_sim i0 hv (g := Gen.start a) (t := Gen.start x)
    ⟨.some ⟨hat, .nil⟩, .nil, rfl, rfl⟩ (fun n => (hN n).imp fun _ h => h.1) hrun
  obtain ⟨t1, et1, hpre, hdone, hall⟩ := hN n
  rw [et] at et1
  cases et1
  refine ⟨?_, hsim.out ▸ hpre, by rw [hsim.done]; exact hdone, fun h => hsim.out.trans (hall h)⟩
  obtain ⟨t2, et2, _⟩ := hN (n + 1)
  have hrel := sim_step hsim
  rw [stepsT, PathGen.steps, show PathGen.steps _ n _ = some t' from et, Option.bind_some] at et2
  rw [et2] at hrel
  cases hs : PathGen.step (lookM s') g with
  | none => rw [hs] at hrel; cases hrel
  | some g' => exact ⟨g', rfl⟩

/-- **C95**, the program. Whatever the coroutine does, the memory is as if there were only the handles: in particular, C18 and C19 hold, and the coroutine may
be destroyed at any time. -/
theorem C95_program {size : BitVec 64} (h1 : 1 ≤ size.toNat) (h2 : size.toNat ≤ 2 ^ 63) {m : Nat} {s : State (SLabel V)}
    (hr : Reach hash bytes size m s) {gv w : Nat} (hval : Valid s (.copy gv w)) {s0 : State (SLabel V)} {g0 : Gen V Addr}
    (hs : start hash bytes gv w s = some (s0, g0)) {n : Nat} {s' : State (SLabel V)} {g : Gen V Addr} (h : Run hash bytes gv s0 g0 n s' g) :
    Reach hash bytes size m s' ∧ Valid s' (.destroy gv) ∧ ∃ s'', exec hash bytes s' (.destroy gv) = some s'' := by
  obtain ⟨s1, e1, hs⟩ := Option.bind_eq_some_iff.1 hs
  obtain ⟨a, ha, e2⟩ := Option.map_eq_some_iff.1 hs
  cases e2
  have hv0 : s0.vars[gv]? = some (.live a) := by
    unfold target at ha
    split at ha
    · rename_i b hb
      cases ha
      exact hb
    · cases ha
  have key : Reach hash bytes size m s' ∧ s'.vars[gv]? = some (.live a) := by
    induction h with
    | refl => exact ⟨.step hr hval e1, hv0⟩
    | user _ hval he hkeep ih => exact ⟨.step ih.1 hval he, hkeep.trans ih.2⟩
    | gen _ _ ih => exact ih
  have hd : Valid s' (.destroy gv) := ⟨_, key.2, by simp⟩
  obtain ⟨s'', e, _⟩ := exec_inv (bytes := bytes) (reach_inv h1 h2 key.1) hd
  exact ⟨key.1, hd, s'', e⟩

end

/-! ## The hypotheses are met -/

namespace DemoGen

abbrev Lb := SLabel (BitVec 8)

def hash (k : Key Lb) : Nat := k.2.sum + k.2.length
def bytes (k : Key Lb) : Nat := 24 + 16 * k.2.length

/-- Is a statement valid? -/
def validB (s : State Lb) : Heap.Op Lb → Bool
  | .create v _ ks fr => s.vars[v]? == some .dead &&
      ks.all (fun k => match s.vars[k]? with | some (.live _) => true | _ => false) && !(s.blocks.map Prod.fst).contains fr
  | .destroy v => match s.vars[v]? with | some .dead => false | some _ => true | none => false
  | _ => false

theorem valid_of {s : State Lb} {op : Heap.Op Lb} (h : validB s op = true) : Valid s op := by
  cases op with
  | create v l ks fr =>
    simp only [validB, Bool.and_eq_true, beq_iff_eq, List.all_eq_true, Bool.not_eq_true', List.contains_eq_mem,
      decide_eq_false_iff_not] at h
    refine ⟨h.1.1, fun k hk => ?_, h.2⟩
    have := h.1.2 k hk
    split at this
    · rename_i a e; exact ⟨a, e⟩
    · cases this
  | destroy v =>
    simp only [validB] at h
    split at h
    · cases h
    · rename_i x hx e
      exact ⟨x, e, fun h' => hx (by rw [h'])⟩
    · cases h
  | _ => cases h

/-- The run of a list of statements. -/
def go : List (Heap.Op Lb) → State Lb → Option (State Lb)
  | [], s => some s
  | op :: ops, s => if validB s op then (exec hash bytes s op).bind (go ops) else none

theorem go_reach {size : BitVec 64} {n : Nat} : ∀ (ops : List (Heap.Op Lb)) {s s' : State Lb},
    Reach hash bytes size n s → go ops s = some s' → Reach hash bytes size n s'
  | [], s, s', hr, h => by
    simp only [go, Option.some.injEq] at h
    exact h ▸ hr
  | op :: ops, s, s', hr, h => by
    simp only [go] at h
    split at h
    · rename_i hv
      cases e : exec hash bytes s op with
      | none => rw [e] at h; cases h
      | some s1 =>
        rw [e] at h
        exact go_reach ops (.step hr (valid_of hv) e) h
    · cases h

/-- The SDD built by the program, with two paths. -/
def x : SDD (BitVec 8) := .flat 1 [(1#8, .flat 0 [(1#8, .one)]), (2#8, .flat 0 [(2#8, .one)])]

/-- A program which builds it, and only keeps the handle 5. -/
def ops : List (Heap.Op Lb) :=
  [.create 0 .one [] 100, .create 1 (.values 1#8) [] 200, .create 2 (.values 2#8) [] 300, .create 3 (.flat 0) [1, 0] 400,
   .create 4 (.flat 0) [2, 0] 500, .create 5 (.flat 1) [1, 3, 2, 4] 600, .destroy 0, .destroy 1, .destroy 2, .destroy 3, .destroy 4]

/-- The hypotheses of C95 are met: the handle 5 holds the SDD, the coroutine takes the variable 6. -/
theorem held : ∃ s, Reach hash bytes 1#64 7 s ∧ Holds s 5 x.tree ∧ Valid s (.copy 6 5) := by
  let cells : List (Addr × Key Lb) := [(600, (.flat 1, [200, 400, 300, 500])), (500, (.flat 0, [300, 100])), (400, (.flat 0, [200, 100])),
    (300, (.values 2#8, [])), (200, (.values 1#8, [])), (100, (.one, []))]
  have hk : ∀ a k, (a, k) ∈ cells → ((go ops (init 1#64 7)).bind fun s => (s.cells a).map fun c => c.key) = some k := by
    have : ∀ e ∈ cells, ((go ops (init 1#64 7)).bind fun s => (s.cells e.1).map fun c => c.key) = some e.2 := by
      decide +kernel
    exact fun a k hm => this (a, k) hm
  have hv : ((go ops (init 1#64 7)).map fun s => (s.vars[5]?, s.vars[6]?)) = some (some (.live 600), some .dead) := by decide +kernel
  cases e : go ops (init 1#64 7) with
  | none => rw [e] at hv; cases hv
  | some s =>
    rw [e] at hk hv
    simp only [Option.bind_some, Option.map_some, Option.map_eq_some_iff, Option.some.injEq, Prod.mk.injEq] at hk hv
    obtain ⟨v5, v6⟩ := hv
    obtain ⟨⟨_, b1⟩, h1, rfl⟩ := hk 600 (.flat 1, [200, 400, 300, 500]) (by simp [cells])
    obtain ⟨⟨_, b2⟩, h2, rfl⟩ := hk 500 (.flat 0, [300, 100]) (by simp [cells])
    obtain ⟨⟨_, b3⟩, h3, rfl⟩ := hk 400 (.flat 0, [200, 100]) (by simp [cells])
    obtain ⟨⟨_, b4⟩, h4, rfl⟩ := hk 300 (.values 2#8, []) (by simp [cells])
    obtain ⟨⟨_, b5⟩, h5, rfl⟩ := hk 200 (.values 1#8, []) (by simp [cells])
    obtain ⟨⟨_, b6⟩, h6, rfl⟩ := hk 100 (.one, []) (by simp [cells])
    have d1 : Denotes s (.node .one []) 100 := ⟨_, _, h6, trivial⟩
    have d2 : Denotes s (.node (.values 1#8) []) 200 := ⟨_, _, h5, trivial⟩
    have d3 : Denotes s (.node (.values 2#8) []) 300 := ⟨_, _, h4, trivial⟩
    have hd : Denotes s x.tree 600 :=
      ⟨_, _, h1, d2, ⟨_, _, h3, d2, d1, trivial⟩, d3, ⟨_, _, h2, d3, d1, trivial⟩, trivial⟩
    exact ⟨s, go_reach ops .init e, ⟨600, v5, hd⟩, v6, 600, v5⟩

/-- What the coroutine yields in `n` steps, `m` others after the handle 5 was destroyed. -/
def demo (n m : Nat) (more : List (Heap.Op Lb)) : Option (List (List (BitVec 8)) × Bool) :=
  (go ops (init 1#64 7)).bind fun s => (start hash bytes 6 5 s).bind fun p =>
    (PathGen.steps (lookM p.1) n p.2).bind fun g => (go (.destroy 5 :: more) p.1).bind fun s' =>
      (PathGen.steps (lookM s') m g).map fun g' => (g'.out, g'.done)

/-- The handle on which `paths()` was called is destroyed after six steps: both paths are yielded, in twelve steps. -/
example : demo 6 6 [] = some ([[1#8, 1#8], [2#8, 2#8]], true) ∧ demo 6 5 [] = some ([[1#8, 1#8], [2#8, 2#8]], false) ∧
    demo 6 0 [] = some ([[1#8, 1#8]], false) := by decide +kernel

/-- Without the handle of the coroutine, which is destroyed here, the nodes would not be in memory any more. -/
example : demo 6 1 [.destroy 6] = none := by decide +kernel

end DemoGen
end Verif
