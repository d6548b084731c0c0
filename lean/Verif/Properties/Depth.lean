import Verif.Hom.Depth
import Verif.Properties.HomCache
import Verif.Properties.Mem
import Verif.Properties.Generator
import Verif.Mem.Depth
/-!
# Properties of the depth of nested calls
-/

set_option autoImplicit false
set_option linter.unusedSectionVars false

namespace Verif

section
variable {V E : Type} [DecidableEq V] {C : Cfg V E} {orc : Nat → Nat → List Nat} {cap : OpKind → Nat}

/-- A call with at most `n` nested operations. -/
theorem Sess.Inv.outcomeAt (hC : C.Lawful) (hcap : ∀ k, 0 < cap k) {s : Sess V} (hs : s.Inv C) {n : Nat} :
    (∀ xs, (∀ x ∈ xs, WF (C.withLt s.lt) x) → maxHeight xs ≤ n →
      Outcome C (opSum (C.withLt s.lt) (runC (C.withLt s.lt) orc cap n) xs s.mach).1 (fun r => ∀ p, Mem C p r ↔ ∃ x ∈ xs, Mem C p x) ∧
      Outcome C (opInter (C.withLt s.lt) (runC (C.withLt s.lt) orc cap n) xs s.mach).1
        (fun r => ∀ p, Mem C p r ↔ xs ≠ [] ∧ ∀ x ∈ xs, Mem C p x)) ∧
    ∀ x y, WF (C.withLt s.lt) x → WF (C.withLt s.lt) y → maxHeight [x, y] ≤ n →
      Outcome C (ddDiff (runC (C.withLt s.lt) orc cap n) x y s.mach).1 (fun r => ∀ p, Mem C p r ↔ Mem C p x ∧ ¬ Mem C p y) := by
  have hov : (C.withLt s.lt).limit = none ∨ outAllow C (.overflow : Err V) := by
    by_cases h : C.limit = none
    · exact Or.inl h
    · exact Or.inr h
  have hL := hC.withLt hs.st
  have hrun : ∀ d, RunOK (C.withLt s.lt) (cachedLogic (C.withLt s.lt) orc (outAllow C)) fun k => runC (C.withLt s.lt) orc cap (k + d) :=
    fun d n t h1 h2 => runC_ok hL hcap hov (n + d) t (by omega) h2
  have htop : TopA (C.withLt s.lt) (cachedLogic (C.withLt s.lt) orc (outAllow C)).allow := .all fun _ _ => trivial
  have out : ∀ {f : CM orc V (SDD V)} {P : Path E → Prop}, (cachedLogic (C.withLt s.lt) orc (outAllow C)).Sat f
      (fun r => WF (C.withLt s.lt) r ∧ ∀ p, Mem (C.withLt s.lt) p r ↔ P p) → Outcome C (f s.mach).1 fun r => ∀ p, Mem C p r ↔ P p := by
    intro f P h
    have := (h s.mach hs.cache).2
    rw [outcome_iff]
    split
    · rename_i r hr
      rw [hr] at this
      intro p
      have := this.2 p
      rwa [mem_withLt] at this
    · rename_i e hr; rw [hr] at this; exact this
  refine ⟨fun xs h hn => ?_, fun x y hx hy hn => ?_⟩
  · obtain ⟨d, rfl⟩ := Nat.exists_eq_add_of_le hn
    have h1 := sum_wf hL (hrun d) htop h
    have h2 := inter_wf hL (hrun d) htop h
    simp only [mem_withLt] at h1 h2
    exact ⟨out (by simpa only [mem_withLt] using h1), out (by simpa only [mem_withLt] using h2)⟩
  · obtain ⟨d, rfl⟩ := Nat.exists_eq_add_of_le hn
    have h1 := diff_wf (hrun d) htop hx hy
    simp only [mem_withLt] at h1
    exact out (by simpa only [mem_withLt] using h1)

/-- **C97.** An operation on SDDs never makes more nested operations than the height of its operands, the number of nodes of
their longest branch, whatever their numbers of nodes, of arcs and of operands, and whatever the caches contain: with room for this number
on the stack, and no more, the result is right. -/
theorem C97_operations_depth (hC : C.Lawful) (hcap : ∀ k, 0 < cap k) {s : Sess V} (hs : Sess.Reach C orc cap s) {n : Nat} :
    (∀ xs, (∀ x ∈ xs, x ∈ s.handles) → (∀ x ∈ xs, x.height ≤ n) →
      Outcome C (opSum (C.withLt s.lt) (runC (C.withLt s.lt) orc cap n) xs s.mach).1 (fun r => ∀ p, Mem C p r ↔ ∃ x ∈ xs, Mem C p x) ∧
      Outcome C (opInter (C.withLt s.lt) (runC (C.withLt s.lt) orc cap n) xs s.mach).1
        (fun r => ∀ p, Mem C p r ↔ xs ≠ [] ∧ ∀ x ∈ xs, Mem C p x)) ∧
    ∀ x ∈ s.handles, ∀ y ∈ s.handles, x.height ≤ n → y.height ≤ n →
      Outcome C (ddDiff (runC (C.withLt s.lt) orc cap n) x y s.mach).1 (fun r => ∀ p, Mem C p r ↔ Mem C p x ∧ ¬ Mem C p y) := by
  have hi := hs.inv hC hcap
  have hm : ∀ {xs : List (SDD V)}, (∀ x ∈ xs, x.height ≤ n) → maxHeight xs ≤ n := by
    intro xs h
    induction xs with
    | nil => exact Nat.zero_le n
    | cons x l ih => exact Nat.max_le.2 ⟨h x (by simp), ih fun y hy => h y (by simp [hy])⟩
  refine ⟨fun xs hx h => (hi.outcomeAt hC hcap).1 xs (fun x h => hi.wf x (hx x h)) (hm h), fun x hx y hy h1 h2 => ?_⟩
  exact (hi.outcomeAt hC hcap).2 x y (hi.wf x hx) (hi.wf y hy) (hm (by simp [h1, h2]))

/- Operands of height 2: with room for two nested operations the difference is right, and two are needed. -/
example : Sess.Reach Demo.C Demo.orc Demo.cap Demo.s1 ∧ Demo.ha ∈ Demo.s1.handles ∧ Demo.hb ∈ Demo.s1.handles ∧
    Demo.ha.height = 2 ∧ Demo.hb.height = 2 ∧
    (ddDiff (runC (Demo.C.withLt Demo.s1.lt) Demo.orc Demo.cap 2) Demo.ha Demo.hb Demo.s1.mach).1 =
      .ok (.hier 1 [(.flat 0 [(ns [1], .one)], .one)]) ∧
    (ddDiff (runC (Demo.C.withLt Demo.s1.lt) Demo.orc Demo.cap 1) Demo.ha Demo.hb Demo.s1.mach).1 = .error .fuel :=
  ⟨Demo.reach, by decide +kernel, by decide +kernel, by decide +kernel, by decide +kernel, by decide +kernel, by decide +kernel⟩

end

section
variable {V E I U : Type} [DecidableEq V] [DecidableEq I] [DecidableEq U] {L : Lib V E I U} {sc : Scope I U}

/-- The number of levels of an order on its longest branch. (Specification, not part of the code.) -/
def OB.tall : OB I → Nat
  | .nil => 0
  | .node _ nst nxt => max nst.tall nxt.tall + 1

theorem OB.tall_eq (o : OB I) : o.ty.depth = o.tall := by
  induction o with
  | nil => rfl
  | node id nst nxt h1 h2 =>
    cases nst with
    | nil => simp only [OB.ty, Ty.depth, OB.tall, h2]; omega
    | node => rw [OB.ty, Ty.depth, OB.tall, h1, h2]; simp

/-- **C97.** The number of nested applications of homomorphisms is bounded by the depth of the order and the depths of the homomorphism and of those
returned by the inductive homomorphisms of the user: not by the operand, not by the numbers of nodes and arcs, nor by the iterations of
fixpoints. After any history, with room for this number of applications on the stack:
* whatever the bound on the iterations, what is returned is right, and the stack is never exhausted (`.ub`);
* if the meaning is defined, the application returns for all large enough bounds on the iterations, with this same room. -/
theorem C97_applications_depth (hL : L.OK sc) {c : Nat} (hc : L.env.NestLe sc c) {s : HMach V I U} (hs : L.Reach sc s) {h : Hom V I U} {o : OB I}
    {x : SDD V} (hu : L.Use sc h o x) :
    (∀ it n, o.tall * (c + 1) + h.nest < n → match (L.applyD it n h o x s).1 with
      | .ok r => L.Gives sc h o x r
      | .error e => e = .fuel ∨ e = .overflow ∧ L.C.limit ≠ none) ∧
    (L.C.limit = none → ∀ r, L.Returns sc h o x r → ∃ N, ∀ it, N ≤ it → ∀ n, o.tall * (c + 1) + h.nest < n →
      (L.applyD it n h o x s).1 = .ok r) := by
  have hok := hs.ok hL
  rw [← OB.tall_eq]
  refine ⟨fun it n hn => ?_, fun hlim r hr => ?_⟩
  · have := (hL.satD hc (it := it) hu hn s hok).2
    match hq : (L.applyD it n h o x s).1, this with
    | .ok r, h => exact hu.gives hL h
    | .error e, h => exact h
  · obtain ⟨N, hN⟩ := hL.totalD hc hlim hu (hr.ev hL hu)
    refine ⟨N, fun it hit n hn => ?_⟩
    have := (hN it hit n hn s hok).2
    match hq : (L.applyD it n h o x s).1, this with
    | .ok r', h => rw [h.det hL.lawful (hr.ev hL hu)]

end

/- A fixpoint, whose iterations are at least two, on an order of 3 levels, without inductives: the bound is 6; 3 nested applications are not enough. -/
example : DemoH.LB.OK DemoH.sc ∧ DemoH.LB.env.NestLe DemoH.sc 0 ∧ DemoH.LB.Use DemoH.sc DemoH.fixB DemoH.o DemoH.x ∧
    DemoH.o.tall * (0 + 1) + DemoH.fixB.nest = 6 ∧
    (DemoH.LB.applyD 4 7 DemoH.fixB DemoH.o DemoH.x DemoH.s0).1 = .ok (.hier 2 [(DemoH.f [1, 2, 3], .hier 1 [(DemoH.f [1], DemoH.f [3])])]) ∧
    (DemoH.LB.applyD 4 3 DemoH.fixB DemoH.o DemoH.x DemoH.s0).1 = .error .ub ∧
    (DemoH.LB.applyD 1 7 DemoH.fixB DemoH.o DemoH.x DemoH.s0).1 = .error .fuel := by
  refine ⟨DemoH.okB, fun u hu => hu.elim, DemoH.use_fixB, by decide +kernel, by decide +kernel, by decide +kernel, by decide +kernel⟩

/-! ## The bound is needed -/

namespace DemoD

/-- An order of flat levels. -/
def o : Nat → OB Nat
  | 0 => .node (OB.uid 0) .nil .nil
  | k + 1 => .node (OB.uid (k + 1)) .nil (o k)

/-- One path. -/
def x : Nat → SDD NSet
  | 0 => .flat 0 [(ns [1], .one)]
  | k + 1 => .flat (k + 1) [(ns [1], x k)]

theorem lvl (k : Nat) : (o k).lvl = k + 1 := by
  induction k with
  | zero => rfl
  | succ k ih =>
    have : (o (k + 1)).lvl = (o k).lvl + 1 := by simp [OB.lvl, OB.level, o]
    rw [this, ih]

theorem tall (k : Nat) : (o k).tall = k + 1 := by
  induction k with
  | zero => rfl
  | succ k ih => rw [o, OB.tall, ih]; simp [OB.tall]

theorem x_ne (k : Nat) : x k ≠ .zero := by cases k <;> simp [x]

theorem dom (k : Nat) : Dom DemoH.L.C (o k).ty (x k) := by
  induction k with
  | zero => exact DemoH.dom_f
  | succ k ih =>
    refine .flat _ (o k).ty _ _ ?_ ⟨by simp, ?_, by simp [x_ne], by simp, by simp⟩ (by simpa using ih)
    · have := lvl k
      simp only [OB.lvl] at this
      simp [o, OB.ty, Ty.flatNext, this]
    · simp only [List.mem_singleton, forall_eq]
      exact ⟨1, DemoH.vmem.2 (DemoH.mem_ns.2 (by simp))⟩

theorem use (k : Nat) : DemoH.L.Use DemoH.sc (.fn 0 .inc) (o k) (x k) := by
  refine ⟨trivial, ?_, dom k⟩
  induction k with
  | zero => exact ⟨_, .fn⟩
  | succ k ih =>
    obtain ⟨t, ht⟩ := ih
    exact ⟨_, .skip (by simp) (by simp [Hom.skip, lvl]) ht⟩

theorem deep (it n : Nat) : ∀ k s, n ≤ k → s.homs = [] →
    (DemoH.L.applyD it n (.fn 0 .inc) (o k) (x k) s).1 = .error .ub ∧ (DemoH.L.applyD it n (.fn 0 .inc) (o k) (x k) s).2.homs = [] := by
  induction n with
  | zero => intro k s _ hs; exact ⟨rfl, hs⟩
  | succ n ih =>
    intro k s hk hs
    obtain ⟨k, rfl⟩ : ∃ k', k = k' + 1 := ⟨k - 1, by omega⟩
    have h1 := ih k { s with dd := { s.dd with tick := s.dd.tick + 1 } } (by omega) hs
    have hp : ∀ code, permBy code [(ns [1], x k)] = [(ns [1], x k)] := fun code => List.perm_singleton.1 (permBy_perm _ code)
    have hf : homEval (m := HM DemoH.L.orc NSet Nat DemoH.DU) DemoH.L.env DemoH.L.C (fun op => HM.lift (autoRun (runC DemoH.L.C DemoH.L.orc DemoH.L.cap) op)) it
        (runD DemoH.L.env DemoH.L.C (fun op => HM.lift (autoRun (runC DemoH.L.C DemoH.L.orc DemoH.L.cap) op)) (homCache DemoH.L.hcap) it n)
        (.fn 0 .inc) (o (k + 1)) (x (k + 1)) s =
        (.error .ub, (DemoH.L.applyD it n (.fn 0 .inc) (o k) (x k) { s with dd := { s.dd with tick := s.dd.tick + 1 } }).2) := by
      rw [o, x, homEval, if_neg (by simp [lvl]), if_pos (by simp [Hom.skip, lvl])]
      have hq := Prod.ext (x := DemoH.L.applyD it n (.fn 0 .inc) (o k) (x k) { s with dd := { s.dd with tick := s.dd.tick + 1 } })
        (y := (.error .ub, _)) h1.1 rfl
      unfold Lib.applyD at hq
      simp only [skipNode, bind, DDMonad.ord, hp, skipArcs]
      rw [hq]
      rfl
    have : DemoH.L.applyD it (n + 1) (.fn 0 .inc) (o (k + 1)) (x (k + 1)) s =
        (.error .ub, (DemoH.L.applyD it n (.fn 0 .inc) (o k) (x k) { s with dd := { s.dd with tick := s.dd.tick + 1 } }).2) := by
      rw [Lib.applyD, runD, if_neg (by simp [Hom.isId, x, SDD.isZero])]
      simp only [homCache, Hom.shouldCache, if_true, hs, lruFind, hf, List.find?_nil, Option.map_none]
    rw [this]
    exact ⟨rfl, h1.2⟩

end DemoD

/-- The number of nested applications does grow with the number of levels: on a stack with room for `n`, the application of a function to one
level exhausts the stack when the order has `n` more levels, whatever `n`. -/
theorem C97_depth_grows (n : Nat) : ∃ (o : OB Nat) (x : SDD NSet), DemoH.L.Use DemoH.sc (.fn 0 .inc) o x ∧ o.tall = n + 1 ∧
    ∀ it, (DemoH.L.applyD it n (.fn 0 .inc) o x DemoH.s0).1 = .error .ub :=
  ⟨DemoD.o n, DemoD.x n, DemoD.use n, DemoD.tall n, fun it => (DemoD.deep it n n _ (Nat.le_refl n) rfl).1⟩

/-! ## Destructions -/

namespace Heap

section
variable {L : Type} [DecidableEq L] {hash : Key L → Nat} {bytes : Key L → Nat}

/-- **C97.** The destruction of a handle nests at most as many destructions of objects as the height of the object it points to (the length
of the longest chain of objects from it), whatever the number of objects destroyed. -/
theorem C97_destructions_depth {size : BitVec 64} (h1 : 1 ≤ size.toNat) (h2 : size.toNat ≤ 2 ^ 63) {n : Nat} {s : State L}
    (hr : Reach hash bytes size n s) : (∀ a, Reaches s a → ∃ d, Tall s a d) ∧
    ∀ v a d, s.vars[v]? = some (.live a) → Tall s a d →
      ∃ s', dropD hash d a s = some s' ∧ exec hash bytes s (.destroy v) = some { s' with vars := s'.vars.set v .dead } := by
  have i := reach_inv h1 h2 hr
  refine ⟨fun a ha => ?_, fun v a d hv ht => ?_⟩
  · obtain ⟨c, hc⟩ := Option.isSome_iff_exists.1 ((i.live_iff a).2 ha)
    exact ⟨_, i.tall _ a c hc (Nat.lt_succ_self _)⟩
  · obtain ⟨s', hs', _⟩ := i.detach hv (x := .dead) (by simp)
    refine ⟨s', by rw [dropD_eq ht, hs'], ?_⟩
    simp only [exec, hv, hs', Option.map_some]

/-- **C97.** The destruction of a handle to an SDD, whatever its number of nodes, nests no more destructions than its height and one: the sets of
values, or the terminal, at its bottom. -/
theorem C97_sdd_destructions_depth {V : Type} [DecidableEq V] {hash : Key (SLabel V) → Nat} {bytes : Key (SLabel V) → Nat} {size : BitVec 64}
    (h1 : 1 ≤ size.toNat) (h2 : size.toNat ≤ 2 ^ 63) {n : Nat} {s : State (SLabel V)} (hr : Reach hash bytes size n s) {v : Nat} {a : Addr}
    {x : SDD V} (hv : s.vars[v]? = some (.live a)) (hd : Denotes s x.tree a) {d : Nat} (hx : x.height < d) :
    ∃ s', dropD hash d a s = some s' ∧ exec hash bytes s (.destroy v) = some { s' with vars := s'.vars.set v .dead } :=
  (C97_destructions_depth h1 h2 hr).2 v a d hv ((denotes_tall _ a hd).mono (x.tree_height.trans hx))

end

/- An SDD of height 2, in memory. -/
example : (∃ s a, Reach DemoGen.hash DemoGen.bytes 1#64 7 s ∧ s.vars[5]? = some (.live a) ∧ Denotes s DemoGen.x.tree a) ∧
    DemoGen.x.height = 2 := by
  obtain ⟨s, h1, ⟨a, h2, h3⟩, _⟩ := DemoGen.held
  exact ⟨⟨s, a, h1, h2, h3⟩, by decide +kernel⟩

/-- A chain of three objects, and the last handle to the first one. -/
def demoChain : List (Op Nat) :=
  [.create 0 7 [] 100, .create 1 8 [0, 0] 200, .destroy 0, .create 0 9 [1] 300, .destroy 1]

/- The destruction of this handle nests three destructions: it is right with room for three, and not with room for two. -/
example : ∃ s, Reach (fun k => k.1 % 3) (fun k => 16 + 8 * k.2.length) 1#64 3 s ∧ s.vars[0]? = some (.live 300) ∧ Tall s 300 3 ∧
    (dropD (fun k => k.1 % 3) 3 300 s).isSome = true ∧ (dropD (fun k => k.1 % 3) 2 300 s).isSome = false := by
  have he : (runB (fun k => k.1 % 3) (fun k => 16 + 8 * k.2.length) (init 1#64 3) demoChain).map (fun s => ((s.vars[0]?, [s.cells 300, s.cells 200, s.cells 100].map fun c => c.map fun c => c.key.2),
      (dropD (fun k => k.1 % 3) 3 300 s).isSome, (dropD (fun k => k.1 % 3) 2 300 s).isSome)) =
      some ((some (.live 300), [some [200], some [100, 100], some []]), true, false) := by decide +kernel
  obtain ⟨s, hs, e⟩ := Option.map_eq_some_iff.1 he
  simp only [Prod.mk.injEq, List.map_cons, List.map_nil, List.cons.injEq, and_true, Option.map_eq_some_iff] at e
  obtain ⟨⟨e1, ⟨c3, h3, k3⟩, ⟨c2, h2, k2⟩, ⟨c1, h1, k1⟩⟩, e5, e6⟩ := e
  have t1 : Tall s 100 1 := .mk h1 (by simp [k1])
  have t2 : Tall s 200 2 := .mk h2 (by simp [k2, t1])
  exact ⟨s, (runB_runs hs).reach .init, e1, .mk h3 (by simp [k3, t2]), e5, e6⟩

end Heap

end Verif
