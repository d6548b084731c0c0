import Verif.Hom.Finite
import Verif.Hom.RelRewrite
import Verif.Hom.History
import Verif.Values.Concrete
import Verif.Order.Init
import Verif.Hom.Built
import Mathlib.Data.Fintype.Pi
import Mathlib.Data.Fintype.BigOperators
import Mathlib.Data.Fintype.Card
/-!
# The towers of Hanoi

The program `/repo/examples/hanoi/hanoi.cc`.  Values are in `Fin N`, `unsigned int` when `N = 2 ^ 32` (`conf2`,
`/repo/sdd/conf/default_configurations.hh:102-107`).
-/

set_option autoImplicit false
set_option linter.unusedSectionVars false

namespace Verif
namespace Hanoi

open Relation (ReflTransGen)

/-! ## The program -/

/-- The order on `unsigned int`. (`/repo/examples/hanoi/hanoi.cc`.) -/
def lt {N : Nat} (a b : Fin N) : Bool := decide (a < b)

theorem lt_st (N : Nat) : StrictTotal (lt (N := N)) where
  irrefl a := by simp [lt]
  trans a b c := by simp only [lt, decide_eq_true_eq]; exact lt_trans
  total a b := by simp only [lt, decide_eq_true_eq]; exact lt_trichotomy a b

/-- `conf2::Values`. (`/repo/examples/hanoi/hanoi.cc`.) -/
abbrev Values (N : Nat) : Type := FSet (Fin N) (lt (N := N))

/-- The user's inductives: `no_ring_above` (`/repo/examples/hanoi/hanoi.cc:23-72`) and `swap_pole` (82-140). -/
inductive Ind (N : Nat) : Type where
  | above (i j : Fin N)
  | swap (ring : Nat) (source destination : Fin N)
  deriving DecidableEq

/-- The constructor of `no_ring_above`, `/repo/examples/hanoi/hanoi.cc:28-31`. -/
def noRingAbove {N : Nat} (i j : Fin N) : Ind N := .above (if i < j then i else j) (if i < j then j else i)

/-- The code of the inductives: `skip` (`/repo/examples/hanoi/hanoi.cc:33-38,95-100`), `operator()` on valuations (49-57,111-125), on
`|1|` (59-64,123-128). `operator()` on nested SDDs (41-47,100-106) is never called: the code asserts it. -/
def env (N : Nat) : User (Values N) Nat (Ind N) where
  fn _ v := v
  fnSel _ := false
  fnShift _ := false
  indOne _ := .one
  indF u o val := match u with
    | .above i j => .consF o ((val.erase i).1.erase j).1 (.ind u)
    | .swap _ s d => if (val.find s).isNone then .const .zero else .consF o (FSet.ofList (lt_st N) [d]) (.ind (noRingAbove s d))
  indH _ _ _ := .id
  indSkip u id := match u with
    | .above _ _ => false
    | .swap ring _ _ => decide (id.user ≠ ring)
  indSel _ := false

/-- The order, `/repo/examples/hanoi/hanoi.cc:199-205`: the rings are pushed one after the other, the last one is at the top. -/
def builder (n : Nat) : OB Nat := (List.range n).foldl (fun ob i => ob.push (OB.uid i) .nil) .nil

/-- The homomorphisms collected in the set, `/repo/examples/hanoi/hanoi.cc:210-226`, in the order of the loops. -/
def events {N : Nat} [NeZero N] (rings poles : Nat) : List (Hom (Values N) Nat (Ind N)) :=
  ((List.range rings).flatMap fun i => (List.range poles).flatMap fun s => (List.range poles).flatMap fun d =>
    if s ≠ d then [.ind (.swap i (Fin.ofNat N s) (Fin.ofNat N d))] else []) ++ [.id]

/-! ## The game -/

section
variable {N : Nat}

/-- A state gives the pole of each ring; the ring 0 is the smallest one. A move takes the ring `i` from its pole to another one; no smaller ring
may be on its pole (it would be above), nor on the destination. (Specification or proof device, not part of the code.) -/
def Move (rings poles : Nat) (s s' : Nat → Fin N) : Prop :=
  ∃ i < rings, ∃ d : Fin N, (s i).1 < poles ∧ d.1 < poles ∧ s i ≠ d ∧ (∀ j < i, s j ≠ s i ∧ s j ≠ d) ∧ s' = Function.update s i d

/-- The states of the game which starts with all the rings on the first pole. (Specification or proof device, not part of the code.) -/
def Game [NeZero N] (rings poles : Nat) (s : Nat → Fin N) : Prop := ReflTransGen (Move rings poles) (fun _ => 0) s

/-- The path of a state. (Specification, not part of the code.) -/
def path (s : Nat → Fin N) : Nat → Path (Fin N)
  | 0 => .nil
  | n + 1 => .flat n (s n) (path s n)

/-! ## What the homomorphisms do -/

theorem builder_succ (n : Nat) : builder (n + 1) = .node (OB.uid n) .nil (builder n) := by
  rw [builder, List.range_succ, List.foldl_append]
  rfl

theorem builder_lvl (n : Nat) : (builder n).lvl = n := by
  induction n with
  | zero => rfl
  | succ n ih =>
    rw [builder_succ]
    simp only [OB.lvl, OB.level, List.length_cons] at ih ⊢
    rw [ih]

theorem builder_ty (n : Nat) : (builder (n + 1)).ty = .flat n (builder n).ty := by
  have := builder_lvl n
  rw [OB.lvl] at this
  rw [builder_succ, OB.ty, this]

theorem pty_path (s : Nat → Fin N) (n : Nat) : PTy (builder n).ty (path s n) := by
  induction n with
  | zero => trivial
  | succ n ih =>
    rw [builder_ty]
    exact ⟨_, by simp [Ty.flatNext], ih⟩

theorem path_congr {s s' : Nat → Fin N} {n : Nat} (h : ∀ i < n, s i = s' i) : path s n = path s' n := by
  induction n with
  | zero => rfl
  | succ n ih => rw [path, path, h n (by omega), ih fun i hi => h i (by omega)]

theorem path_inj {s s' : Nat → Fin N} {n : Nat} (h : path s n = path s' n) : ∀ i < n, s i = s' i := by
  induction n with
  | zero => intro i hi; omega
  | succ n ih =>
    simp only [path, Path.flat.injEq, true_and] at h
    intro i hi
    rcases Nat.lt_or_ge i n with hi' | hi'
    · exact ih h.2 i hi'
    · cases (by omega : i = n); exact h.1

/-- The paths of the order are those of states. -/
theorem exists_path [NeZero N] (n : Nat) : ∀ {p : Path (Fin N)}, PTy (builder n).ty p → ∃ s : Nat → Fin N, p = path s n := by
  induction n with
  | zero =>
    intro p hp
    cases p with
    | nil => exact ⟨fun _ => 0, rfl⟩
    | flat => obtain ⟨_, h, _⟩ := hp; simp [builder, OB.ty, Ty.flatNext] at h
    | hier => obtain ⟨_, _, h, _⟩ := hp; simp [builder, OB.ty, Ty.hierNext] at h
  | succ n ih =>
    intro p hp
    rw [builder_ty] at hp
    cases p with
    | nil => exact hp.elim
    | flat y a q =>
      obtain ⟨t', h, hq⟩ := hp
      simp only [Ty.flatNext, Option.ite_none_right_eq_some, Option.some.injEq] at h
      obtain ⟨rfl, rfl⟩ := h
      obtain ⟨s, rfl⟩ := ih hq
      refine ⟨Function.update s n a, ?_⟩
      rw [path, Function.update_self, path_congr (s := Function.update s n a) (s' := s)]
      intro i hi
      rw [Function.update_of_ne (by omega)]
    | hier => obtain ⟨_, _, h, _⟩ := hp; simp [Ty.hierNext] at h

/-- All the orders of the program. (Specification or proof device, not part of the code.) -/
def scope (N : Nat) : Scope Nat (Ind N) := ⟨fun o => ∃ k, o = builder k, fun _ => True⟩

/-- The paths without the values `i` and `j`. (Specification or proof device, not part of the code.) -/
def Above (i j : Fin N) : Nat → PRel (Fin N)
  | 0 => fun _ p' => p' = .nil
  | k + 1 => fun p p' => ∃ a q, p = .flat k a q ∧ (a ≠ i ∧ a ≠ j ∧ ∃ q', p' = .flat k a q' ∧ Above i j k q q')

theorem above_path (i j : Fin N) (s : Nat → Fin N) (k : Nat) (p' : Path (Fin N)) :
    Above i j k (path s k) p' ↔ p' = path s k ∧ ∀ m < k, s m ≠ i ∧ s m ≠ j := by
  induction k generalizing p' with
  | zero => simp [Above, path]
  | succ k ih =>
    simp only [Above, path, Path.flat.injEq, true_and]
    constructor
    · rintro ⟨a, q, ⟨rfl, rfl⟩, h1, h2, q', rfl, h3⟩
      obtain ⟨rfl, h4⟩ := (ih q').1 h3
      refine ⟨rfl, fun m hm => ?_⟩
      rcases Nat.lt_or_ge m k with hm' | hm'
      · exact h4 m hm'
      · cases (by omega : m = k); exact ⟨h1, h2⟩
    · rintro ⟨rfl, h⟩
      exact ⟨_, _, ⟨rfl, rfl⟩, (h k (by omega)).1, (h k (by omega)).2, _, rfl, (ih _).2 ⟨rfl, fun m hm => h m (by omega)⟩⟩

/-- The image of a path by `swap_pole`. (Specification or proof device, not part of the code.) -/
def Swap (r : Nat) (s d i j : Fin N) : Nat → PRel (Fin N)
  | 0 => fun _ _ => False
  | k + 1 => if k = r then fun p p' => ∃ a q, p = .flat k a q ∧ (a = s ∧ ∃ q', p' = .flat k d q' ∧ Above i j k q q')
    else liftRel (Swap r s d i j k)

theorem swap_path (r : Nat) (s d i j : Fin N) (st : Nat → Fin N) (k : Nat) (hk : r < k) (p' : Path (Fin N)) :
    Swap r s d i j k (path st k) p' ↔ p' = path (Function.update st r d) k ∧ st r = s ∧ ∀ m < r, st m ≠ i ∧ st m ≠ j := by
  induction k generalizing p' with
  | zero => omega
  | succ k ih =>
    rw [Swap]
    split
    · rename_i h
      subst h
      have hp : path (Function.update st k d) k = path st k := path_congr fun i hi => Function.update_of_ne (by omega) _ _
      simp only [path, Path.flat.injEq, true_and, Function.update_self, hp]
      constructor
      · rintro ⟨a, q, ⟨rfl, rfl⟩, h1, q', rfl, h3⟩
        obtain ⟨rfl, h4⟩ := (above_path i j st k q').1 h3
        exact ⟨rfl, h1, h4⟩
      · rintro ⟨rfl, h1, h4⟩
        exact ⟨_, _, ⟨rfl, rfl⟩, h1, _, rfl, (above_path i j st k _).2 ⟨rfl, h4⟩⟩
    · rename_i h
      have ih := fun p' => ih (by omega) p'
      simp only [liftRel, path, Function.update_of_ne h]
      constructor
      · rintro ⟨hd, q, q', h1, rfl, h2⟩
        cases hd with
        | flat y a =>
          simp only [Head.cons, Path.flat.injEq] at h1
          obtain ⟨rfl, rfl, rfl⟩ := h1
          obtain ⟨rfl, h3⟩ := (ih q').1 h2
          exact ⟨rfl, h3⟩
        | hier => simp [Head.cons] at h1
      · rintro ⟨rfl, h⟩
        exact ⟨.flat k (st k), _, _, rfl, rfl, (ih _).2 ⟨rfl, h⟩⟩

variable {C : Cfg (Values N) (Fin N)} (hC : C.Lawful) (hm : ∀ a v, C.vmem a v ↔ FSet.Mem a v)

theorem hrel_eq {V E I U : Type} [DecidableEq I] {env : User V I U} {C : Cfg V E} {sc : Scope I U} {o : OB I} {h : Hom V I U} {t : Ty}
    {R R' : PRel E} (hr : HRel env C sc o h t R) (he : ∀ p p', R p p' ↔ R' p p') : HRel env C sc o h t R' := by
  have : R = R' := by funext p p'; exact propext (he p p')
  exact this ▸ hr

include hm in
/-- `no_ring_above` keeps the paths without the two poles. -/
theorem hrel_above (i j : Fin N) (k : Nat) :
    HRel (env N) C (scope N) (builder k) (.ind (.above i j)) (builder k).ty (Above i j k) := by
  induction k with
  | zero =>
    refine hrel_eq (HRel.indNil (env := env N) (C := C) (sc := scope N) (u := .above i j) (t := .nil) trivial trivial (.one _ trivial)) ?_
    intro p p'
    cases p' <;> simp [Above, env, Mem]
  | succ k ih =>
    have hl := builder_lvl k
    rw [builder_ty]
    conv in (builder (k + 1)) => rw [builder_succ]
    have := HRel.indF (env := env N) (C := C) (sc := scope N) (id := OB.uid k) (nxt := builder k) (u := .above i j)
      (t := .flat k (builder k).ty)
      (fun a q p' => a ≠ i ∧ a ≠ j ∧ ∃ q', p' = .flat k a q' ∧ Above i j k q q') trivial (OB.ty_shape (builder k)) rfl ?_ ?_
    · rw [hl] at this
      exact this
    · rintro a q p' hq ⟨_, _, q', rfl, h⟩
      exact ⟨_, by simp [Ty.flatNext], ih.rty q hq q' h⟩
    · intro v hv
      have hS : (scope N).S (builder k) := ⟨k, rfl⟩
      have h2 := HRel.consF (o := builder k) (id := OB.uid k) (nst := .nil) (v := ((v.erase i).1.erase j).1) hS rfl ih
      rw [hl] at h2
      refine hrel_eq h2 fun q p' => ?_
      have he : ∀ a, C.vmem a ((v.erase i).1.erase j).1 ↔ C.vmem a v ∧ a ≠ i ∧ a ≠ j := by
        intro a
        rw [hm, hm, (FSet.erase_spec (lt_st N) _ j).1, (FSet.erase_spec (lt_st N) _ i).1]
        tauto
      simp only [he]
      constructor
      · rintro ⟨a, q', rfl, ⟨ha, h1, h2⟩, h3⟩; exact ⟨a, ha, h1, h2, q', rfl, h3⟩
      · rintro ⟨a, ha, h1, h2, q', rfl, h3⟩; exact ⟨a, q', rfl, ⟨ha, h1, h2⟩, h3⟩

include hm in
/-- `swap_pole` moves a ring. -/
theorem hrel_swap (r : Nat) (s d : Fin N) (k : Nat) (hk : r < k) :
    HRel (env N) C (scope N) (builder k) (.ind (.swap r s d)) (builder k).ty
      (Swap r s d (if s < d then s else d) (if s < d then d else s) k) := by
  induction k with
  | zero => omega
  | succ k ih =>
    have hl := builder_lvl k
    rw [Swap]
    split
    · rename_i h
      subst h
      rw [builder_ty]
      conv in (builder (k + 1)) => rw [builder_succ]
      have hab := hrel_above hm (if s < d then s else d) (if s < d then d else s) k
      have := HRel.indF (env := env N) (C := C) (sc := scope N) (id := OB.uid k) (nxt := builder k) (u := .swap k s d)
        (t := .flat k (builder k).ty)
        (fun a q p' => a = s ∧ ∃ q', p' = .flat k d q' ∧ Above (if s < d then s else d) (if s < d then d else s) k q q') trivial
        (OB.ty_shape (builder k)) (by simp [Stop, Hom.skip, env, OB.uid]) ?_ ?_
      · rw [hl] at this
        exact this
      · rintro a q p' hq ⟨_, q', rfl, h⟩
        exact ⟨_, by simp [Ty.flatNext], hab.rty q hq q' h⟩
      · intro v hv
        by_cases hs : FSet.Mem s v
        · have he : (env N).indF (.swap k s d) (.node (OB.uid k) .nil (builder k)) v =
              .consF (.node (OB.uid k) .nil (builder k)) (FSet.ofList (lt_st N) [d]) (.ind (noRingAbove s d)) := by
            simp [env, (FSet.find_spec (lt_st N) v s).1 hs]
          rw [he]
          have hS : (scope N).S (builder k) := ⟨k, rfl⟩
          have h2 := HRel.consF (o := builder k) (id := OB.uid k) (nst := .nil) (v := FSet.ofList (lt_st N) [d]) hS rfl hab
          rw [hl] at h2
          refine hrel_eq h2 fun q p' => ?_
          simp only [hm, FSet.mem_ofList, List.mem_singleton]
          constructor
          · rintro ⟨a, q', rfl, rfl, h3⟩; exact ⟨s, hs, rfl, q', rfl, h3⟩
          · rintro ⟨a, ha, rfl, q', rfl, h3⟩; exact ⟨d, q', rfl, rfl, h3⟩
        · have he : (env N).indF (.swap k s d) (.node (OB.uid k) .nil (builder k)) v = .const .zero := by
            simp [env, (FSet.find_spec (lt_st N) v s).2 hs]
          rw [he]
          refine hrel_eq (HRel.const (OB.ty_shape (builder k)) (.zero _)) fun q p' => ?_
          simp only [hm]
          constructor
          · intro h; exact absurd h (not_mem_zero _)
          · rintro ⟨a, ha, rfl, _⟩; exact absurd ha hs
    · rename_i h
      have := ih (by omega)
      have h2 := HRel.skip (id := OB.uid k) (nst := .nil) (nxt := builder k) (h := .ind (Ind.swap r s d)) (by simp)
        (by simp [Hom.skip, env, OB.uid, h]) this
      rw [liftTy, hl, ← builder_ty, ← builder_succ] at h2
      exact h2

theorem sing (hm : ∀ a v, C.vmem a v ↔ FSet.Mem a v) [NeZero N] : Sing C :=
  ⟨⟨0⟩, fun a => ⟨FSet.ofList (lt_st N) [a], fun b => by rw [hm, FSet.mem_ofList]; simp⟩⟩

/-- The moves, on paths. (Specification or proof device, not part of the code.) -/
def MoveP (rings poles : Nat) : PRel (Fin N) := fun p p' =>
  ∃ s s' : Nat → Fin N, Move rings poles s s' ∧ p = path s rings ∧ p' = path s' rings

theorem Move.congr {rings poles : Nat} {s s' t : Nat → Fin N} (h : Move rings poles s s') (he : ∀ i < rings, s i = t i) :
    ∃ t', Move rings poles t t' ∧ path t' rings = path s' rings := by
  obtain ⟨i, hi, d, h1, h2, h3, h4, rfl⟩ := h
  refine ⟨_, ⟨i, hi, d, he i hi ▸ h1, h2, he i hi ▸ h3, fun j hj => ?_, rfl⟩, path_congr fun j hj => ?_⟩
  · rw [← he i hi, ← he j (by omega)]; exact h4 j hj
  · by_cases e : j = i
    · subst e; rw [Function.update_self, Function.update_self]
    · rw [Function.update_of_ne e, Function.update_of_ne e, he j hj]

/-- The moves of paths are those of states. -/
theorem moves_path {rings poles : Nat} {s : Nat → Fin N} {p' : Path (Fin N)} :
    ReflTransGen (MoveP rings poles) (path s rings) p' ↔ ∃ s', ReflTransGen (Move rings poles) s s' ∧ p' = path s' rings := by
  constructor
  · intro h
    induction h with
    | refl => exact ⟨s, .refl, rfl⟩
    | tail _ h ih =>
      obtain ⟨s1, h1, rfl⟩ := ih
      obtain ⟨s2, s3, h2, h3, rfl⟩ := h
      obtain ⟨t', h4, h5⟩ := h2.congr (fun i hi => (path_inj h3 i hi).symm)
      exact ⟨t', h1.tail h4, h5.symm⟩
  · rintro ⟨s', h, rfl⟩
    induction h with
    | refl => exact .refl
    | tail _ h ih => exact ih.tail ⟨_, _, h, rfl, rfl⟩

theorem mem_events [NeZero N] {rings poles : Nat} (hp : poles ≤ N) {h : Hom (Values N) Nat (Ind N)} :
    h ∈ events rings poles ↔ h = .id ∨ ∃ i < rings, ∃ s d : Fin N, s.1 < poles ∧ d.1 < poles ∧ s ≠ d ∧ h = .ind (.swap i s d) := by
  simp only [events, List.mem_append, List.mem_flatMap, List.mem_range, List.mem_singleton]
  constructor
  · rintro (⟨i, hi, s, hs, d, hd, h1⟩ | h)
    · split at h1
      · rename_i hne
        rw [List.mem_singleton] at h1
        have e1 : (Fin.ofNat N s).1 = s := by simp [Fin.ofNat, Nat.mod_eq_of_lt (Nat.lt_of_lt_of_le hs hp)]
        have e2 : (Fin.ofNat N d).1 = d := by simp [Fin.ofNat, Nat.mod_eq_of_lt (Nat.lt_of_lt_of_le hd hp)]
        exact Or.inr ⟨i, hi, Fin.ofNat N s, Fin.ofNat N d, by rw [e1]; exact hs, by rw [e2]; exact hd,
          fun e => hne (by rw [← e1, ← e2, e]), h1⟩
      · simp at h1
    · exact Or.inl h
  · rintro (h | ⟨i, hi, s, d, hs, hd, hne, h⟩)
    · exact Or.inr h
    · refine Or.inl ⟨i, hi, s.1, hs, d.1, hd, ?_⟩
      rw [if_pos fun e => hne (Fin.ext e), List.mem_singleton, h]
      congr 2 <;> exact Fin.ext (by simp [Fin.ofNat, Nat.mod_eq_of_lt (Fin.is_lt _)])

variable {hlt : Hom (Values N) Nat (Ind N) → Hom (Values N) Nat (Ind N) → Bool}
  {ord : List (Nat × List (Hom (Values N) Nat (Ind N))) → List (Nat × List (Hom (Values N) Nat (Ind N)))}

include hC hm in
/-- The program, without rewriting, relates the states of the game. -/
theorem rl_fix [NeZero N] (hst : StrictTotal hlt) (hord : Iterates ord) {rings poles : Nat} (hp : poles ≤ N)
    {hs : List (Hom (Values N) Nat (Ind N))} (hhs : ∀ h, h ∈ hs ↔ h ∈ events rings poles) :
    (hfix (hnary .sum hlt ord hs)).noEmpty = true ∧
      Rl (env N) C (scope N) (builder rings) (hfix (hnary .sum hlt ord hs)) (builder rings).ty (ReflTransGen (MoveP rings poles)) := by
  have hsg := sing (C := C) hm
  have hne : hs ≠ [] := by
    intro e
    have := (hhs .id).2 ((mem_events hp).2 (Or.inl rfl))
    rw [e] at this
    simp at this
  have hn : ∀ h ∈ hs, h.noEmpty = true := by
    intro h hh
    rcases (mem_events hp).1 ((hhs h).1 hh) with rfl | ⟨i, _, s, d, _, _, _, rfl⟩ <;> rfl
  have hr : ∀ i < rings, ∀ s d : Fin N, Rl (env N) C (scope N) (builder rings) (.ind (.swap i s d)) (builder rings).ty
      (Swap i s d (if s < d then s else d) (if s < d then d else s) rings) := fun i hi s d => (hrel_swap hm i s d rings hi).rl
  have had : ∀ h ∈ hs, Ad (env N) C (scope N) (builder rings) h (builder rings).ty := by
    intro h hh
    rcases (mem_events hp).1 ((hhs h).1 hh) with rfl | ⟨i, hi, s, d, _, _, _, rfl⟩
    · exact Rl.id.ad
    · exact ⟨_, hr i hi s d⟩
  have h1 := Rl.hnary hC hsg (K := .sum) hst hord hs hne hn (o := builder rings) (t := (builder rings).ty)
    fun h hh => ⟨had h hh, fun e => by simp at e⟩
  have h2 : Rl (env N) C (scope N) (builder rings) (hnary .sum hlt ord hs) (builder rings).ty
      (fun p p' => p' = p ∨ MoveP rings poles p p') := by
    refine h1.congr fun p hpt p' => ?_
    obtain ⟨st, rfl⟩ := exists_path rings hpt
    simp only [NRel]
    constructor
    · rintro ⟨h, hh, hrel⟩
      rcases (mem_events hp).1 ((hhs h).1 hh) with rfl | ⟨i, hi, s, d, h3, h4, h5, rfl⟩
      · exact Or.inl ((Rl.id.relEq hC hsg _ hpt p').2 hrel)
      · obtain ⟨rfl, rfl, h6⟩ := (swap_path i s d _ _ st rings hi p').1 (((hr i hi s d).relEq hC hsg _ hpt p').2 hrel)
        refine Or.inr ⟨st, _, ⟨i, hi, d, h3, h4, h5, fun j hj => ?_, rfl⟩, rfl, rfl⟩
        have := h6 j hj
        split at this
        · exact this
        · exact this.symm
    · rintro (rfl | ⟨s, s', ⟨i, hi, d, h3, h4, h5, h6, rfl⟩, h7, rfl⟩)
      · exact ⟨.id, (hhs _).2 ((mem_events hp).2 (Or.inl rfl)), (Rl.id.relEq hC hsg _ hpt _).1 rfl⟩
      · refine ⟨.ind (.swap i (s i) d), (hhs _).2 ((mem_events hp).2 (Or.inr ⟨i, hi, _, d, h3, h4, h5, rfl⟩)), ?_⟩
        refine ((hr i hi _ d).relEq hC hsg _ hpt _).1 ?_
        rw [h7]
        refine (swap_path i _ d _ _ s rings hi _).2 ⟨rfl, rfl, fun m hm => ?_⟩
        split
        · exact h6 m hm
        · exact (h6 m hm).symm
  have h3 := Rl.hfix hC hsg (Rl.fix hsg _ h2 fun p _ => Or.inl rfl)
  refine ⟨hfix_noEmpty (hnary_noEmpty hst hord hs hne hn), h3.congr fun p _ p' => ?_⟩
  constructor
  · intro h
    induction h with
    | refl => exact .refl
    | tail _ h ih =>
      rcases h with rfl | h
      · exact ih
      · exact ih.tail h
  · intro h
    induction h with
    | refl => exact .refl
    | tail _ h ih => exact ih.tail (Or.inr h)

include hC hm in
/-- The same, with rewriting. -/
theorem rl_program [NeZero N] (hst : StrictTotal hlt) (hord : Iterates ord) {rings poles : Nat} (hp : poles ≤ N)
    {hs : List (Hom (Values N) Nat (Ind N))} (hhs : ∀ h, h ∈ hs ↔ h ∈ events rings poles) :
    Rl (env N) C (scope N) (builder rings) (hrewrite (env N) hlt ord (builder rings) (hfix (hnary .sum hlt ord hs))) (builder rings).ty
      (ReflTransGen (MoveP rings poles)) := by
  obtain ⟨h1, h2⟩ := rl_fix hC hm hst hord hp hhs
  exact Rl.hrewrite hC (sing hm) hst hord (builder rings) h1 h2

/-! ## The initial state -/

theorem assigns_iff [NeZero N] (n : Nat) (p : Path (Fin N)) : Assigns (fun _ (a : Fin N) => a = 0) (builder n) p ↔ p = path (fun _ => 0) n := by
  induction n generalizing p with
  | zero => rfl
  | succ n ih =>
    have hl := builder_lvl n
    rw [OB.lvl] at hl
    rw [builder_succ]
    cases p with
    | nil => simp [Assigns, path]
    | flat x a q => simp [Assigns, path, hl, ih]
    | hier => simp [Assigns, path]

/-! ## The whole game, with three poles -/

/-- With three poles, the rings below `n` can be put anywhere. -/
theorem reach_all {rings poles : Nat} (h3 : 3 ≤ poles) (hp : poles ≤ N) (n : Nat) (hn : n ≤ rings) (s t : Nat → Fin N)
    (hs : ∀ i < n, (s i).1 < poles) (ht : ∀ i < n, (t i).1 < poles) :
    ReflTransGen (Move rings poles) s fun i => if i < n then t i else s i := by
  induction n generalizing s t with
  | zero => simp only [Nat.not_lt_zero, if_false]; exact .refl
  | succ n ih =>
    by_cases e : s n = t n
    · have := ih (by omega) s t (fun i hi => hs i (by omega)) fun i hi => ht i (by omega)
      have he : (fun i => if i < n + 1 then t i else s i) = fun i => if i < n then t i else s i := by
        funext i
        by_cases h1 : i < n
        · simp [h1, Nat.lt_succ_of_lt h1]
        · by_cases h2 : i = n
          · subst h2; simp [e]
          · rw [if_neg (by omega), if_neg h1]
      rw [he]; exact this
    · obtain ⟨c, hc, hcs, hct⟩ : ∃ c : Fin N, c.1 < poles ∧ c ≠ s n ∧ c ≠ t n := by
        by_contra hne
        have h : ∀ c : Nat, c < 3 → c = (s n).1 ∨ c = (t n).1 := by
          intro c hc
          by_contra h
          exact hne ⟨⟨c, by omega⟩, by simp only; omega, fun e => h (Or.inl (by rw [← e])), fun e => h (Or.inr (by rw [← e]))⟩
        have h0 := h 0 (by omega)
        have h1 := h 1 (by omega)
        have h2 := h 2 (by omega)
        omega
      have m1 := ih (by omega) s (fun _ => c) (fun i hi => hs i (by omega)) fun i hi => hc
      let s1 : Nat → Fin N := fun i => if i < n then c else s i
      let s2 := Function.update s1 n (t n)
      have m2 : Move rings poles s1 s2 := by
        refine ⟨n, by omega, t n, ?_, ht n (by omega), ?_, fun j hj => ?_, rfl⟩
        · simp only [s1, Nat.lt_irrefl, if_false]; exact hs n (by omega)
        · simp only [s1, Nat.lt_irrefl, if_false]; exact e
        · simp only [s1, hj, if_true, Nat.lt_irrefl, if_false]; exact ⟨hcs, hct⟩
      have m3 := ih (by omega) s2 t (fun i hi => by
        rw [show s2 i = s1 i from Function.update_of_ne (by omega) _ _]; simp only [s1, hi, if_true]; exact hc) fun i hi => ht i (by omega)
      have he : (fun i => if i < n + 1 then t i else s i) = fun i => if i < n then t i else s2 i := by
        funext i
        by_cases h1 : i < n
        · simp [h1, Nat.lt_succ_of_lt h1]
        · by_cases h2 : i = n
          · subst h2; simp [s2]
          · rw [if_neg (by omega), if_neg h1, show s2 i = s1 i from Function.update_of_ne h2 _ _]
            simp [s1, h1]
      rw [he]
      exact (m1.tail m2).trans m3

/-- With three poles, all the arrangements of the rings are states of the game. -/
theorem game_iff [NeZero N] {rings poles : Nat} (h3 : 3 ≤ poles) (hp : poles ≤ N) (p : Path (Fin N)) :
    (∃ s, Game rings poles s ∧ p = path s rings) ↔ ∃ s : Nat → Fin N, (∀ i < rings, (s i).1 < poles) ∧ p = path s rings := by
  constructor
  · rintro ⟨s, hg, rfl⟩
    refine ⟨s, ?_, rfl⟩
    induction hg with
    | refl => intro i _; simp; omega
    | tail _ h ih =>
      obtain ⟨i, hi, d, h1, h2, h3, h4, rfl⟩ := h
      intro j hj
      by_cases e : j = i
      · subst e; rw [Function.update_self]; exact h2
      · rw [Function.update_of_ne e]; exact ih j hj
  · rintro ⟨s, hs, rfl⟩
    refine ⟨_, reach_all h3 hp rings (Nat.le_refl _) _ s (fun i _ => by simp; omega) hs, path_congr fun i hi => by rw [if_pos hi]⟩

/-- Number of arrangements. -/
theorem count_states [NeZero N] {rings poles : Nat} (hp : poles ≤ N) {l : List (Path (Fin N))} (hl : l.Nodup)
    (hm : ∀ p, p ∈ l ↔ ∃ s : Nat → Fin N, (∀ i < rings, (s i).1 < poles) ∧ p = path s rings) : l.length = poles ^ rings := by
  classical
  let f : (Fin rings → Fin poles) → Path (Fin N) := fun g => path (fun i => if h : i < rings then ⟨(g ⟨i, h⟩).1, by omega⟩ else 0) rings
  have hinj : Function.Injective f := by
    intro g g' h
    funext i
    have := path_inj h i.1 i.2
    simp only [i.2, dif_pos, Fin.mk.injEq] at this
    exact Fin.ext this
  have : l.toFinset = Finset.univ.image f := by
    ext p
    rw [List.mem_toFinset, hm, Finset.mem_image]
    constructor
    · rintro ⟨s, hs, rfl⟩
      refine ⟨fun i => ⟨(s i.1).1, hs i.1 i.2⟩, Finset.mem_univ _, path_congr fun i hi => ?_⟩
      simp [hi]
    · rintro ⟨g, _, rfl⟩
      refine ⟨_, fun i hi => ?_, rfl⟩
      simp [hi]
  rw [← List.toFinset_card_of_nodup hl, this, Finset.card_image_of_injective _ hinj, Finset.card_univ, Fintype.card_fun, Fintype.card_fin,
    Fintype.card_fin]

/-! ## The library -/

theorem builder_inj {k k' : Nat} (h : (builder k).ty = (builder k').ty) : k = k' := by
  cases k with
  | zero =>
    cases k' with
    | zero => rfl
    | succ k' => rw [builder_ty] at h; simp [builder, OB.ty] at h
  | succ k =>
    cases k' with
    | zero => rw [builder_ty] at h; simp [builder, OB.ty] at h
    | succ k' => rw [builder_ty, builder_ty] at h; rw [(Ty.flat.inj h).1]

theorem ok {L : Lib (Values N) (Fin N) Nat (Ind N)} (he : L.env = env N) (hC : L.C.Lawful) (hcap : ∀ k, 0 < L.cap k) (hh : 0 < L.hcap) :
    L.OK (scope N) where
  lawful := hC
  cap := hcap
  hcap := hh
  honest := by
    rw [he]
    exact ⟨fun u h => by simp [env] at h, fun u h => by simp [env] at h, fun u h => by simp [env] at h⟩
  closed := by
    rintro id nst nxt ⟨k, hk⟩
    cases k with
    | zero => simp [builder] at hk
    | succ k =>
      rw [builder_succ] at hk
      cases hk
      exact ⟨⟨0, rfl⟩, ⟨k, rfl⟩⟩
  transfer := by
    refine Transfer.of_inj ?_
    rintro _ _ ⟨k, rfl⟩ ⟨k', rfl⟩ h
    rw [builder_inj h]

end
end Hanoi
end Verif
