import Verif.DD.Step
import Verif.Mem.Lru
/-!
# Executions: with and without caches

Two instances of `DDMonad`:

* `Plain c`: no cache; a hash table of `n` elements is iterated in the order given by `c n`;
* `CM orc`: with the three operation caches (`/repo/sdd/dd/context.hh:45-52`), which survive
  exceptions; the order of iteration of hash tables is given by an oracle which may answer
  differently each time.
-/

set_option autoImplicit false
set_option linter.unusedSectionVars false

namespace Verif

/-- The permutation of a list described by a list of positions: each element is inserted at a
position (modulo the length) in the permutation of the following elements.
(Model of the iteration order of `std::unordered_map` in `/repo/sdd/dd/sum.hh`, lines 69-76.) -/
def permBy {β : Type} : List Nat → List β → List β
  | _, [] => []
  | code, x :: l => (permBy code.tail l).insertIdx (code.headD 0 % ((permBy code.tail l).length + 1)) x

theorem permBy_perm {β : Type} (l : List β) : ∀ code, (permBy code l).Perm l := by
  induction l with
  | nil => intro code; simp [permBy]
  | cons x l ih =>
    intro code
    rw [permBy]
    refine (List.perm_insertIdx _ _ ?_).trans ((ih _).cons x)
    exact Nat.le_of_lt_succ (Nat.mod_lt _ (Nat.succ_pos _))

/-- Every permutation is obtained. -/
theorem permBy_surj {β : Type} (l : List β) : ∀ l', l'.Perm l → ∃ code, permBy code l = l' := by
  induction l with
  | nil => intro l' h; exact ⟨[], by simp [h.eq_nil, permBy]⟩
  | cons x l ih =>
    intro l' h
    have hx : x ∈ l' := h.mem_iff.2 (by simp)
    obtain ⟨a, b, rfl⟩ := List.append_of_mem hx
    have h' : (a ++ b).Perm l := by
      have : (x :: (a ++ b)).Perm (x :: l) := (List.perm_middle.symm).trans h
      exact this.cons_inv
    obtain ⟨code, hc⟩ := ih _ h'
    refine ⟨a.length :: code, ?_⟩
    rw [permBy, List.tail_cons, hc, List.headD_cons, Nat.mod_eq_of_lt (by simp; omega)]
    clear h hx h' hc ih
    induction a with
    | nil => simp
    | cons y a iha => simp [iha]

/-! ## Without cache -/

/-- Evaluation without cache. (Proof device, not part of the code.) -/
def Plain (_c : Nat → List Nat) (V : Type) (α : Type) : Type := Except (Err V) α

instance (c : Nat → List Nat) (V : Type) : DDMonad V (Plain c V) where
  pure a := (.ok a : Except _ _)
  bind x f := match (x : Except _ _) with
    | .ok a => f a
    | .error e => (.error e : Except _ _)
  raise e := (.error e : Except _ _)
  ord l := (.ok (permBy (c l.length) l) : Except _ _)

/-- Postconditions of evaluations without cache. (Proof device, not part of the code.) -/
def plainLogic (c : Nat → List Nat) (V : Type) (allow : Err V → Prop) : Logic V (Plain c V) where
  Sat x P := match (x : Except _ _) with
    | .ok a => P a
    | .error e => allow e
  allow := allow
  pure' h := h
  bind' := by
    intro α β x f P Q h1 h2
    cases x with
    | ok a => exact h2 a h1
    | error e => exact h1
  raise' h := h
  ord' l := permBy_perm l _
  mono' := by
    intro α x P Q h1 h2
    cases x with
    | ok a => exact h2 a h1
    | error e => exact h1

/-! ## With caches -/

/-- The three caches of `/repo/sdd/dd/context.hh:45-52`. -/
inductive OpKind : Type where
  | sum | inter | diff
  deriving DecidableEq

/-- The cache in which an operation is stored. (`/repo/sdd/dd/context.hh`, lines 45-52.) -/
def Op.kind {V : Type} : Op V → OpKind
  | .sum _ => .sum
  | .inter _ => .inter
  | .diff _ _ => .diff

/-- The state of the machine: the contents of the caches, and the number of choices (order of iteration
of a hash table, discarded entry) made so far. (`/repo/sdd/dd/context.hh`, lines 45-52.) -/
structure Mach (V : Type) where
  cache : OpKind → Lru (Op V) (SDD V)
  tick : Nat

/-- Replacement of the contents of a cache. (Assignment of a member of `/repo/sdd/dd/context.hh`, lines 45-52.) -/
def Mach.set {V : Type} (s : Mach V) (k : OpKind) (c : Lru (Op V) (SDD V)) : Mach V :=
  { cache := fun k' => if k' = k then c else s.cache k', tick := s.tick + 1 }

/-- Evaluation with caches; `orc` gives the order of iteration of hash tables, from the number of
choices made before and the number of elements. The state survives exceptions. (Effects of `/repo/sdd/mem/cache.hh`, lines 211-261.) -/
def CM (_orc : Nat → Nat → List Nat) (V : Type) (α : Type) : Type :=
  Mach V → Except (Err V) α × Mach V

instance (orc : Nat → Nat → List Nat) (V : Type) : DDMonad V (CM orc V) where
  pure a := fun s => (.ok a, s)
  bind x f := fun s => match x s with
    | (.ok a, s') => f a s'
    | (.error e, s') => (.error e, s')
  raise e := fun s => (.error e, s)
  ord l := fun s => (.ok (permBy (orc s.tick l.length) l), { s with tick := s.tick + 1 })

section
variable {V E : Type} [DecidableEq V]

/-- Evaluation without cache, with a bound on the number of nested calls. (`/repo/sdd/mem/cache.hh`, lines 215-219: the path without look-up.) -/
def runP (C : Cfg V E) (c : Nat → List Nat) : Nat → Op V → Plain c V (SDD V)
  | 0, _ => DDMonad.raise .fuel
  | n + 1, op => step C (runP C c n) op

/-- `cache::operator()`, `/repo/sdd/mem/cache.hh:211-261` (no filter for the operations on SDDs,
`/repo/sdd/dd/context.hh`). `cap` gives the maximal sizes.  The discarded entry is chosen by `orc`. -/
def cacheCall {orc : Nat → Nat → List Nat} (cap : OpKind → Nat) (f : Op V → CM orc V (SDD V))
    (op : Op V) : CM orc V (SDD V) := fun s =>
  match lruFind (s.cache op.kind) op with
  | some r => (.ok r, s.set op.kind (lruTouch (s.cache op.kind) op))
  | none =>
    match f op s with
    | (.error e, s') => (.error e, s')
    | (.ok r, s') =>
      match lruInsert (cap op.kind) ((orc s'.tick 0).headD 0) (s'.cache op.kind) op r with
      | none => (.error .ub, s')
      | some c => (.ok r, s'.set op.kind c)

/-- Evaluation with caches, with a bound on the number of nested calls. (`/repo/sdd/mem/cache.hh`, lines 211-261.) -/
def runC (C : Cfg V E) (orc : Nat → Nat → List Nat) (cap : OpKind → Nat) :
    Nat → Op V → CM orc V (SDD V)
  | 0, _ => DDMonad.raise .fuel
  | n + 1, op => cacheCall cap (step C (runC C orc cap n)) op

/-- A point where code of the user (the operations on values called at `/repo/sdd/dd/sum.hh:180-230` and `/repo/sdd/dd/difference.hh:110-150`; the functions and the inductive
homomorphisms) may throw: `stop` decides, from the number of choices made before, whether it does. -/
def guardX {orc : Nat → Nat → List Nat} {α : Type} (stop : Nat → Option (Err V)) (x : CM orc V α) : CM orc V α := fun s =>
  match stop s.tick with
  | some e => (.error e, { s with tick := s.tick + 1 })
  | none => x { s with tick := s.tick + 1 }

/-- `runC` when the code of the user may throw: at the beginning and at the end of each operation, and before each nested operation
(between these points the caches do not change). Nothing catches exceptions in the operations, and the cache stores a result only after
the operation has returned (`/repo/sdd/mem/cache.hh:236-258`). -/
def runX (C : Cfg V E) (orc : Nat → Nat → List Nat) (cap : OpKind → Nat) (stop : Nat → Option (Err V)) :
    Nat → Op V → CM orc V (SDD V)
  | 0, _ => DDMonad.raise .fuel
  | n + 1, op => guardX stop (cacheCall cap
      (fun op => guardX stop (step C (runX C orc cap stop n) op) >>= fun r => guardX stop (pure r)) op)

/-- The entries of the caches are right. (Specification, not part of the code.) -/
def CacheOK (C : Cfg V E) (s : Mach V) : Prop :=
  ∀ k, ∀ e ∈ s.cache k, ∀ n, OpOK C (.any n) e.1 → WF C e.2 ∧ OpSpec C e.1 e.2

/-- Postconditions of evaluations with caches: from a state whose caches are right, the final state
(even after an exception) has right caches, the result satisfies `P` and only exceptions of `allow`
are raised. (Proof device, not part of the code.) -/
def cachedLogic (C : Cfg V E) (orc : Nat → Nat → List Nat) (allow : Err V → Prop) :
    Logic V (CM orc V) where
  Sat x P := ∀ s, CacheOK C s → CacheOK C (x s).2 ∧
    match (x s).1 with
    | .ok a => P a
    | .error e => allow e
  allow := allow
  pure' h s hs := ⟨hs, h⟩
  bind' := by
    intro α β x f P Q h1 h2 s hs
    have h1 := h1 s hs
    change CacheOK C (match x s with
      | (.ok a, s') => f a s'
      | (.error e, s') => (.error e, s')).2 ∧ match (match x s with
      | (.ok a, s') => f a s'
      | (.error e, s') => (.error e, s')).1 with
      | .ok a => Q a
      | .error e => allow e
    match hx : x s, h1 with
    | (.ok a, s'), h1 => exact h2 a h1.2 s' h1.1
    | (.error e, s'), h1 => exact h1
  raise' h s hs := ⟨hs, h⟩
  ord' l s hs := ⟨hs, permBy_perm l _⟩
  mono' := by
    intro α x P Q h1 h2 s hs
    have h1 := h1 s hs
    match hx : (x s).1, h1 with
    | .ok a, h1 => exact ⟨h1.1, h2 a h1.2⟩
    | .error e, h1 => exact h1

variable {C : Cfg V E} {orc : Nat → Nat → List Nat} {c : Nat → List Nat} {allow : Err V → Prop}

theorem CacheOK.set {s : Mach V} (h : CacheOK C s) {k : OpKind} {l : Lru (Op V) (SDD V)}
    (hl : ∀ e ∈ l, ∀ n, OpOK C (.any n) e.1 → WF C e.2 ∧ OpSpec C e.1 e.2) :
    CacheOK C (s.set k l) := by
  intro k' e he
  unfold Mach.set at he
  simp only at he
  split at he
  · exact hl e he
  · exact h k' e he

theorem cacheCall_sat {cap : OpKind → Nat} (hcap : ∀ k, 0 < cap k) {t : Ty}
    {f : Op V → CM orc V (SDD V)}
    {op : Op V} (hop : OpOK C t op)
    (h : (cachedLogic C orc allow).Sat (f op) fun r => Dom C t r ∧ OpSpec C op r) :
    (cachedLogic C orc allow).Sat (cacheCall cap f op) fun r => Dom C t r ∧ OpSpec C op r := by
  intro s hs
  unfold cacheCall
  split
  · rename_i r hr
    refine ⟨hs.set fun e he => hs _ e (mem_lruTouch.1 he), ?_⟩
    have := hs _ _ (lruFind_mem hr) _ (hop.to_any le_rfl)
    exact ⟨OpSpec.dom hop this.1 this.2, this.2⟩
  · have h := h s hs
    split
    · rename_i e s' he
      rw [he] at h
      exact h
    · rename_i r s' he
      rw [he] at h
      obtain ⟨c', hc'⟩ := lruInsert_isSome (pick := (orc s'.tick 0).headD 0) (c := s'.cache op.kind) (k := op) (r := r)
        (hcap op.kind)
      rw [hc']
      refine ⟨h.1.set fun e he n hn => ?_, h.2⟩
      rcases mem_lruInsert hc' he with he | rfl
      · exact h.1 _ e he n hn
      · exact ⟨h.2.1.wf, h.2.2⟩

/-- No operation is ever evaluated on terminals only. -/
theorem OpOK.depth_pos {t : Ty} {op : Op V} (hC : C.Lawful) (h : OpOK C t op) : 0 < t.depth := by
  have key : ∀ {x y : SDD V}, Dom C t x → Dom C t y → x ≠ .zero → y ≠ .zero → x ≠ y →
      0 < t.depth := by
    intro x y hx hy hx0 hy0 hxy
    rcases Nat.eq_zero_or_pos t.depth with h0 | h0
    · exfalso
      have hx := hx.to_any 0 (by omega)
      have hy := hy.to_any 0 (by omega)
      have : ∀ {z : SDD V}, Dom C (.any 0) z → z ≠ .zero → z = .one := by
        intro z hz hz0
        cases hz with
        | zero => exact absurd rfl hz0
        | one => rfl
        | flat _ _ _ _ h1 => simp [Ty.flatNext] at h1
        | hier _ _ _ _ _ h1 => simp [Ty.hierNext] at h1
      exact hxy ((this hx hx0).trans (this hy hy0).symm)
    · exact h0
  have key2 : ∀ {xs : List (SDD V)}, BGood SDD.isZero C.lt (Dom C t) xs → 2 ≤ xs.length →
      0 < t.depth := by
    intro xs hb hl
    match xs, hb, hl with
    | x :: y :: l, hb, _ =>
      have hlt := hb.sorted
      rw [List.pairwise_cons] at hlt
      exact key (hb.dom x (by simp)) (hb.dom y (by simp)) (ne_of_BGood hb (by simp))
        (ne_of_BGood hb (by simp)) (hC.lt_st.ne_of (hlt.1 y (by simp)))
  cases op with
  | sum xs => exact key2 h.1 h.2
  | inter xs => exact key2 h.1 h.2
  | diff l r => exact key h.1 h.2.1 h.2.2.1 h.2.2.2.1 h.2.2.2.2

theorem Ty.flatNext_depth {t t' : Ty} {x : Nat} (h : t.flatNext x = some t') :
    t'.depth < t.depth ∧ (t.IsShape → t'.IsShape) := by
  cases t with
  | any n =>
    cases n with
    | zero => simp [Ty.flatNext] at h
    | succ n => simp [Ty.flatNext] at h; subst h; simp [Ty.depth, Ty.IsShape]
  | nil => simp [Ty.flatNext] at h
  | flat y t => simp [Ty.flatNext] at h; obtain ⟨_, rfl⟩ := h; simp [Ty.depth, Ty.IsShape]
  | hier y n t => simp [Ty.flatNext] at h

theorem Ty.hierNext_depth {t tn t' : Ty} {x : Nat} (h : t.hierNext x = some (tn, t')) :
    (tn.depth < t.depth ∧ t'.depth < t.depth) ∧ (t.IsShape → tn.IsShape ∧ t'.IsShape) := by
  cases t with
  | any n =>
    cases n with
    | zero => simp [Ty.hierNext] at h
    | succ n =>
      simp [Ty.hierNext] at h
      obtain ⟨rfl, rfl⟩ := h
      simp [Ty.depth, Ty.IsShape]
  | nil => simp [Ty.hierNext] at h
  | flat y t => simp [Ty.hierNext] at h
  | hier y n t =>
    simp [Ty.hierNext] at h
    obtain ⟨_, rfl, rfl⟩ := h
    simp [Ty.depth, Ty.IsShape]
    omega

/-- The exceptions `Top` which may be raised: the operands carried by the exception are in canonical form, different from `|0|`, and
incompatible. (Specification, not part of the code.) -/
def TopA (C : Cfg V E) (allow : Err V → Prop) : Prop :=
  ∀ l r, WF C l → WF C r → l ≠ .zero → r ≠ .zero → compatible l r ≠ true → allow (.top l r)

theorem TopA.all (h : ∀ l r, allow (.top l r)) : TopA C allow := fun l r _ _ _ _ _ => h l r

theorem TopA.topOK {t : Ty} (h : TopA C allow ∨ t.IsShape) : TopOK C allow (fun _ _ => True) (fun _ => True) t := by
  rcases h with h | h
  · exact fun l r hl hr _ _ hl0 hr0 hc => h l r hl.wf hr.wf hl0 hr0 hc
  · exact .of_shape h

/-- Correctness of the evaluation without cache. -/
theorem runP_ok (hC : C.Lawful) (hov : C.limit = none ∨ allow .overflow) (n : Nat) :
    ∀ t : Ty, t.depth ≤ n → (TopA C allow ∨ t.IsShape) →
    RecOK C (plainLogic c V allow) t (runP C c n) := by
  induction n with
  | zero =>
    intro t ht _ op hop
    exact absurd (hop.depth_pos hC) (by omega)
  | succ n ih =>
    intro t ht htop op hop
    rw [runP]
    refine step_sat (L := plainLogic c V allow) hC (TopA.topOK htop) hov ?_ ?_ hop
    · intro x t' h
      obtain ⟨h1, h2⟩ := Ty.flatNext_depth h
      exact ih t' (by omega) (htop.imp id h2)
    · intro x tn t' h
      obtain ⟨⟨h1, h2⟩, h3⟩ := Ty.hierNext_depth h
      exact ⟨ih tn (by omega) (htop.imp id fun h => (h3 h).1),
        ih t' (by omega) (htop.imp id fun h => (h3 h).2)⟩

theorem guardX_sat {α : Type} {stop : Nat → Option (Err V)} (hstop : ∀ k e, stop k = some e → allow e) {x : CM orc V α} {P : α → Prop}
    (h : (cachedLogic C orc allow).Sat x P) : (cachedLogic C orc allow).Sat (guardX stop x) P := by
  intro s hs
  unfold guardX
  split
  · rename_i e he
    exact ⟨hs, hstop _ _ he⟩
  · exact h _ hs

/-- Correctness of the evaluation with caches. -/
theorem runC_ok (hC : C.Lawful) {cap : OpKind → Nat} (hcap : ∀ k, 0 < cap k)
    (hov : C.limit = none ∨ allow .overflow) (n : Nat) :
    ∀ t : Ty, t.depth ≤ n → (TopA C allow ∨ t.IsShape) →
    RecOK C (cachedLogic C orc allow) t (runC C orc cap n) := by
  induction n with
  | zero =>
    intro t ht _ op hop
    exact absurd (hop.depth_pos hC) (by omega)
  | succ n ih =>
    intro t ht htop op hop
    rw [runC]
    refine cacheCall_sat hcap hop ?_
    refine step_sat (L := cachedLogic C orc allow) hC (TopA.topOK htop) hov ?_ ?_ hop
    · intro x t' h
      obtain ⟨h1, h2⟩ := Ty.flatNext_depth h
      exact ih t' (by omega) (htop.imp id h2)
    · intro x tn t' h
      obtain ⟨⟨h1, h2⟩, h3⟩ := Ty.hierNext_depth h
      exact ⟨ih tn (by omega) (htop.imp id fun h => (h3 h).1),
        ih t' (by omega) (htop.imp id fun h => (h3 h).2)⟩

/-- Correctness of the evaluation when the code of the user may throw. -/
theorem runX_ok (hC : C.Lawful) {cap : OpKind → Nat} (hcap : ∀ k, 0 < cap k)
    (hov : C.limit = none ∨ allow .overflow) {stop : Nat → Option (Err V)} (hstop : ∀ k e, stop k = some e → allow e) (n : Nat) :
    ∀ t : Ty, t.depth ≤ n → (TopA C allow ∨ t.IsShape) →
    RecOK C (cachedLogic C orc allow) t (runX C orc cap stop n) := by
  induction n with
  | zero =>
    intro t ht _ op hop
    exact absurd (hop.depth_pos hC) (by omega)
  | succ n ih =>
    intro t ht htop op hop
    rw [runX]
    refine guardX_sat hstop (cacheCall_sat hcap hop ((cachedLogic C orc allow).bind' (guardX_sat hstop ?_)
      fun r hr => guardX_sat hstop ((cachedLogic C orc allow).pure' hr)))
    refine step_sat (L := cachedLogic C orc allow) hC (TopA.topOK htop) hov ?_ ?_ hop
    · intro x t' h
      obtain ⟨h1, h2⟩ := Ty.flatNext_depth h
      exact ih t' (by omega) (htop.imp id h2)
    · intro x tn t' h
      obtain ⟨⟨h1, h2⟩, h3⟩ := Ty.hierNext_depth h
      exact ⟨ih tn (by omega) (htop.imp id fun h => (h3 h).1),
        ih t' (by omega) (htop.imp id fun h => (h3 h).2)⟩

end

/-! ## The interface -/

namespace SDD
variable {V : Type}

mutual
/-- The number of levels of an SDD. Only used to bound the recursion of the model. (Proof device, not part of the code.) -/
def height : SDD V → Nat
  | zero => 0
  | one => 0
  | flat _ arcs => heightF arcs + 1
  | hier _ arcs => heightH arcs + 1
/-- Greatest height below the arcs of a flat node. (Proof device, not part of the code.) -/
def heightF : List (V × SDD V) → Nat
  | [] => 0
  | (_, s) :: l => max (height s) (heightF l)
/-- Greatest height inside and below the arcs of a hierarchical node. (Proof device, not part of the code.) -/
def heightH : List (SDD V × SDD V) → Nat
  | [] => 0
  | (v, s) :: l => max (max (height v) (height s)) (heightH l)
end

theorem le_heightF {arcs : List (V × SDD V)} : ∀ arc ∈ arcs, arc.2.height ≤ heightF arcs := by
  induction arcs with
  | nil => simp
  | cons b l ih =>
    obtain ⟨v, s⟩ := b
    intro arc ha
    rw [heightF]
    rw [List.mem_cons] at ha
    rcases ha with rfl | ha
    · exact le_max_left _ _
    · exact (ih arc ha).trans (le_max_right _ _)

theorem le_heightH {arcs : List (SDD V × SDD V)} :
    ∀ arc ∈ arcs, arc.1.height ≤ heightH arcs ∧ arc.2.height ≤ heightH arcs := by
  induction arcs with
  | nil => simp
  | cons b l ih =>
    obtain ⟨v, s⟩ := b
    intro arc ha
    rw [heightH]
    rw [List.mem_cons] at ha
    rcases ha with rfl | ha
    · exact ⟨(le_max_left _ _).trans (le_max_left _ _), (le_max_right _ _).trans (le_max_left _ _)⟩
    · exact ⟨(ih arc ha).1.trans (le_max_right _ _), (ih arc ha).2.trans (le_max_right _ _)⟩

end SDD

section
variable {V E : Type}

/-- The greatest height of a list of SDDs. (Proof device, not part of the code.) -/
def maxHeight : List (SDD V) → Nat
  | [] => 0
  | x :: xs => max x.height (maxHeight xs)

theorem le_maxHeight {xs : List (SDD V)} : ∀ x ∈ xs, x.height ≤ maxHeight xs := by
  induction xs with
  | nil => simp
  | cons y l ih =>
    intro x hx
    rw [maxHeight]
    rw [List.mem_cons] at hx
    rcases hx with rfl | hx
    · exact le_max_left _ _
    · exact (ih x hx).trans (le_max_right _ _)

variable {C : Cfg V E}

/-- A canonical SDD has the type `any` of its height. -/
theorem WF.dom_height {s : SDD V} (h : WF C s) : ∀ n, s.height ≤ n → Dom C (.any n) s := by
  obtain ⟨k, h⟩ := h
  generalize ht : Ty.any k = t at h
  induction h generalizing k with
  | zero t => intro n _; exact .zero _
  | one t _ => intro n _; exact .one _ trivial
  | flat t t' x arcs h1 h2 h3 ih =>
    intro n hn
    subst ht
    cases k with
    | zero => simp [Ty.flatNext] at h1
    | succ k =>
      simp [Ty.flatNext] at h1
      rw [SDD.height] at hn
      obtain ⟨n, rfl⟩ : ∃ n', n = n' + 1 := ⟨n - 1, by omega⟩
      refine .flat _ (.any n) x arcs rfl h2 fun arc ha => ih arc ha k h1 n ?_
      have := SDD.le_heightF arc ha
      omega
  | hier t tn t' x arcs h1 h2 h3 h4 ih1 ih2 =>
    intro n hn
    subst ht
    cases k with
    | zero => simp [Ty.hierNext] at h1
    | succ k =>
      simp [Ty.hierNext] at h1
      rw [SDD.height] at hn
      obtain ⟨n, rfl⟩ : ∃ n', n = n' + 1 := ⟨n - 1, by omega⟩
      refine .hier _ (.any n) (.any n) x arcs rfl h2 (fun arc ha => ih1 arc ha k h1.1 n ?_)
        fun arc ha => ih2 arc ha k h1.2 n ?_
      · have := SDD.le_heightH arc ha
        omega
      · have := SDD.le_heightH arc ha
        omega

/-- The height of an SDD of a given type. -/
theorem Dom.height_le {t : Ty} {s : SDD V} (h : Dom C t s) : s.height ≤ t.depth := by
  induction h with
  | zero t => simp [SDD.height]
  | one t _ => simp [SDD.height]
  | flat t t' x arcs h1 h2 h3 ih =>
    have hd := (Ty.flatNext_depth h1).1
    rw [SDD.height]
    have : SDD.heightF arcs ≤ t'.depth := by
      clear h2 h3
      induction arcs with
      | nil => simp [SDD.heightF]
      | cons b l ihl =>
        obtain ⟨v, s⟩ := b
        rw [SDD.heightF]
        exact max_le (ih (v, s) (by simp)) (ihl fun a ha => ih a (by simp [ha]))
    omega
  | hier t tn t' x arcs h1 h2 h3 h4 ih1 ih2 =>
    have hd := (Ty.hierNext_depth h1).1
    rw [SDD.height]
    have : SDD.heightH arcs ≤ max tn.depth t'.depth := by
      clear h2 h3 h4
      induction arcs with
      | nil => simp [SDD.heightH]
      | cons b l ihl =>
        obtain ⟨v, s⟩ := b
        rw [SDD.heightH]
        have e1 := ih1 (v, s) (by simp)
        have e2 := ih2 (v, s) (by simp)
        have e3 := ihl (fun a ha => ih1 a (by simp [ha])) fun a ha => ih2 a (by simp [ha])
        simp only at e1 e2
        omega
    omega

variable [DecidableEq V]

/-- `sum` (and `operator+`) with caches. (`/repo/sdd/dd/sum.hh`, lines 321-335 and 374-422.) -/
def sumC (C : Cfg V E) (orc : Nat → Nat → List Nat) (cap : OpKind → Nat) (xs : List (SDD V)) :
    CM orc V (SDD V) := opSum C (runC C orc cap (maxHeight xs)) xs

/-- `intersection` (and `operator&`) with caches. (`/repo/sdd/dd/intersection.hh`, lines 137-151 and 189-239.) -/
def interC (C : Cfg V E) (orc : Nat → Nat → List Nat) (cap : OpKind → Nat) (xs : List (SDD V)) :
    CM orc V (SDD V) := opInter C (runC C orc cap (maxHeight xs)) xs

/-- `operator-`, `/repo/sdd/dd/difference.hh:212-231`, with caches. -/
def diffC (C : Cfg V E) (orc : Nat → Nat → List Nat) (cap : OpKind → Nat) (x y : SDD V) :
    CM orc V (SDD V) := ddDiff (runC C orc cap (maxHeight [x, y])) x y

/-- `sum` (and `operator+`) without cache. (`/repo/sdd/dd/sum.hh`, lines 321-335 and 374-422.) -/
def sumP (C : Cfg V E) (c : Nat → List Nat) (xs : List (SDD V)) : Plain c V (SDD V) :=
  opSum C (runP C c (maxHeight xs)) xs

/-- `intersection` (and `operator&`) without cache. (`/repo/sdd/dd/intersection.hh`, lines 137-151 and 189-239.) -/
def interP (C : Cfg V E) (c : Nat → List Nat) (xs : List (SDD V)) : Plain c V (SDD V) :=
  opInter C (runP C c (maxHeight xs)) xs

/-- `operator-` without cache. (`/repo/sdd/dd/difference.hh`, lines 179-193 and 210-231.) -/
def diffP (C : Cfg V E) (c : Nat → List Nat) (x y : SDD V) : Plain c V (SDD V) :=
  ddDiff (runP C c (maxHeight [x, y])) x y

end
end Verif
