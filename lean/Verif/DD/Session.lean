import Verif.DD.Machine
/-!
# Sessions

A session is the use of one manager: handles are created by constructors and operations, dropped, the
caches evolve, and the memory allocator may give different addresses to nodes which are recreated
after having been freed.
-/

set_option autoImplicit false
set_option linter.unusedSectionVars false

namespace Verif

section
variable {V E : Type}

/-- `Sub a s`: `a` is reachable from `s` by following arcs and valuations. (Specification, not part of the code.) -/
inductive Sub (a : SDD V) : SDD V → Prop where
  | refl : Sub a a
  | flat (x : Nat) (arcs : List (V × SDD V)) (arc : V × SDD V) : arc ∈ arcs → Sub a arc.2 →
      Sub a (.flat x arcs)
  | hierVal (x : Nat) (arcs : List (SDD V × SDD V)) (arc : SDD V × SDD V) : arc ∈ arcs →
      Sub a arc.1 → Sub a (.hier x arcs)
  | hierSucc (x : Nat) (arcs : List (SDD V × SDD V)) (arc : SDD V × SDD V) : arc ∈ arcs →
      Sub a arc.2 → Sub a (.hier x arcs)

/-- The same configuration with other addresses. (Addresses of unified nodes, `/repo/sdd/mem/ptr.hh`, lines 203-209.) -/
def Cfg.withLt (C : Cfg V E) (lt : SDD V → SDD V → Bool) : Cfg V E := { C with lt := lt }

theorem Cfg.Lawful.withLt {C : Cfg V E} (h : C.Lawful) {lt : SDD V → SDD V → Bool}
    (hlt : StrictTotal lt) : (C.withLt lt).Lawful where
  ext := h.ext
  mem_empty := h.mem_empty
  isEmpty_iff := h.isEmpty_iff
  mem_sum := h.mem_sum
  mem_inter := h.mem_inter
  mem_diff := h.mem_diff
  mem_elems := h.mem_elems
  nodup_elems := h.nodup_elems
  size_eq := h.size_eq
  mem_build := h.mem_build
  vlt_st := h.vlt_st
  elt_st := h.elt_st
  lt_st := hlt

/-- The set denoted by an SDD does not depend on addresses. -/
theorem mem_withLt {C : Cfg V E} {lt : SDD V → SDD V → Bool} (p : Path E) :
    ∀ s, Mem (C.withLt lt) p s ↔ Mem C p s := by
  induction p with
  | nil => intro s; exact Iff.rfl
  | flat x a p ih =>
    intro s
    cases s <;> simp only [Mem]
    constructor
    · rintro ⟨h, arc, h1, h2, h3⟩; exact ⟨h, arc, h1, h2, (ih _).1 h3⟩
    · rintro ⟨h, arc, h1, h2, h3⟩; exact ⟨h, arc, h1, h2, (ih _).2 h3⟩
  | hier x n p ihn ih =>
    intro s
    cases s <;> simp only [Mem]
    constructor
    · rintro ⟨h, arc, h1, h2, h3⟩; exact ⟨h, arc, h1, (ihn _).1 h2, (ih _).1 h3⟩
    · rintro ⟨h, arc, h1, h2, h3⟩; exact ⟨h, arc, h1, (ihn _).2 h2, (ih _).2 h3⟩

theorem GoodArcs.congr {C C' : Cfg V E} {A α : Type} {memV memV' : A → α → Prop}
    {arcs : List (α × SDD V)}
    (h : GoodArcs C memV arcs) (hm : ∀ a v, memV a v ↔ memV' a v)
    (hlt : ∀ b ∈ arcs, ∀ c ∈ arcs, C.lt b.2 c.2 = true → C'.lt b.2 c.2 = true) :
    GoodArcs C' memV' arcs where
  ne := h.ne
  valNe b hb := by obtain ⟨a, ha⟩ := h.valNe b hb; exact ⟨a, (hm _ _).1 ha⟩
  succNe := h.succNe
  disj := h.disj.imp fun {b c} h a ha => h a ⟨(hm _ _).2 ha.1, (hm _ _).2 ha.2⟩
  sorted := h.sorted.imp_of_mem fun {b c} hb hc h => hlt b hb c hc h

/-- Canonical form only depends on the relative addresses of the nodes reachable from the SDD. -/
theorem Dom.withLt {C : Cfg V E} {t : Ty} {s : SDD V} (h : Dom C t s)
    {lt : SDD V → SDD V → Bool} (hlt : ∀ a b, Sub a s → Sub b s → C.lt a b = lt a b) :
    Dom (C.withLt lt) t s := by
  induction h with
  | zero t => exact .zero t
  | one t h => exact .one t h
  | flat t t' x arcs h1 h2 h3 ih =>
    refine .flat t t' x arcs h1 (h2.congr (fun _ _ => Iff.rfl) ?_) fun arc ha => ih arc ha ?_
    · intro b hb c hc h
      change lt b.2 c.2 = true
      rw [← hlt _ _ (.flat x arcs b hb .refl) (.flat x arcs c hc .refl)]
      exact h
    · intro a b h1 h2
      exact hlt a b (.flat x arcs arc ha h1) (.flat x arcs arc ha h2)
  | hier t tn t' x arcs h1 h2 h3 h4 ih1 ih2 =>
    refine .hier t tn t' x arcs h1 (h2.congr (fun a v => (mem_withLt a v).symm) ?_)
      (fun arc ha => ih1 arc ha ?_) fun arc ha => ih2 arc ha ?_
    · intro b hb c hc h
      change lt b.2 c.2 = true
      rw [← hlt _ _ (.hierSucc x arcs b hb .refl) (.hierSucc x arcs c hc .refl)]
      exact h
    · intro a b h1 h2
      exact hlt a b (.hierVal x arcs arc ha h1) (.hierVal x arcs arc ha h2)
    · intro a b h1 h2
      exact hlt a b (.hierSucc x arcs arc ha h1) (.hierSucc x arcs arc ha h2)

theorem WF.withLt {C : Cfg V E} {s : SDD V} (h : WF C s) {lt : SDD V → SDD V → Bool}
    (hlt : ∀ a b, Sub a s → Sub b s → C.lt a b = lt a b) : WF (C.withLt lt) s := by
  obtain ⟨n, h⟩ := h
  exact ⟨n, h.withLt hlt⟩

theorem OpSpec.withLt {C : Cfg V E} {lt : SDD V → SDD V → Bool} {op : Op V} {r : SDD V} :
    OpSpec (C.withLt lt) op r ↔ OpSpec C op r := by
  cases op <;> simp [OpSpec, mem_withLt]

theorem OpOK.withLt {C : Cfg V E} {t : Ty} {op : Op V} (h : OpOK C t op)
    {lt : SDD V → SDD V → Bool}
    (hlt : ∀ x ∈ op.operands, ∀ y ∈ op.operands, ∀ a b, Sub a x → Sub b y → C.lt a b = lt a b) :
    OpOK (C.withLt lt) t op := by
  have key : ∀ xs : List (SDD V), BGood SDD.isZero C.lt (Dom C t) xs →
      (∀ x ∈ xs, ∀ y ∈ xs, ∀ a b, Sub a x → Sub b y → C.lt a b = lt a b) →
      BGood SDD.isZero (C.withLt lt).lt (Dom (C.withLt lt) t) xs := by
    intro xs hb h
    refine ⟨hb.sorted.imp_of_mem fun {a b} ha hb' hab => ?_, fun x hx => ?_, hb.ne⟩
    · change lt a b = true
      rw [← h a ha b hb' a b .refl .refl]
      exact hab
    · exact (hb.dom x hx).withLt fun a b => h x hx x hx a b
  cases op with
  | sum xs => exact ⟨key xs h.1 hlt, h.2⟩
  | inter xs => exact ⟨key xs h.1 hlt, h.2⟩
  | diff l r =>
    exact ⟨h.1.withLt fun a b => hlt l (by simp [Op.operands]) l (by simp [Op.operands]) a b,
      h.2.1.withLt fun a b => hlt r (by simp [Op.operands]) r (by simp [Op.operands]) a b, h.2.2⟩

variable [DecidableEq V]

/-- A session: the relative addresses of nodes, the caches, the handles held by the user.
(`/repo/sdd/internal_manager.hh`, lines 67-89, seen through handles.) -/
structure Sess (V : Type) where
  lt : SDD V → SDD V → Bool
  mach : Mach V
  handles : List (SDD V)

/-- The SDDs which are in memory: reachable from a handle, or from an operand or a result stored in a
cache (`/repo/sdd/mem/cache_entry.hh`). -/
def Sess.Live (s : Sess V) (a : SDD V) : Prop :=
  (∃ h ∈ s.handles, Sub a h) ∨
    ∃ k, ∃ e ∈ s.mach.cache k, (∃ x ∈ e.1.operands, Sub a x) ∨ Sub a e.2

/-- The handles after an operation: its result, or the two SDDs carried by the exception `Top` (`lhs()` and `rhs()`,
`/repo/sdd/dd/top.hh:27-72`). -/
def addHandle (r : Except (Err V) (SDD V)) (hs : List (SDD V)) : List (SDD V) :=
  match r with
  | .ok x => x :: hs
  | .error (.top l r) => l :: r :: hs
  | .error _ => hs

theorem mem_addHandle {r : Except (Err V) (SDD V)} {hs : List (SDD V)} {x : SDD V} (h : x ∈ addHandle r hs) :
    x ∈ hs ∨ r = .ok x ∨ ∃ a b, r = .error (.top a b) ∧ (x = a ∨ x = b) := by
  unfold addHandle at h
  split at h
  · rw [List.mem_cons] at h
    rcases h with rfl | h
    · exact Or.inr (Or.inl rfl)
    · exact Or.inl h
  · rename_i a b
    rw [List.mem_cons, List.mem_cons] at h
    rcases h with rfl | rfl | h
    · exact Or.inr (Or.inr ⟨_, _, rfl, Or.inl rfl⟩)
    · exact Or.inr (Or.inr ⟨_, _, rfl, Or.inr rfl⟩)
    · exact Or.inl h
  · exact Or.inl h

theorem mem_addHandle_of {r : Except (Err V) (SDD V)} {hs : List (SDD V)} {x : SDD V} (h : x ∈ hs) : x ∈ addHandle r hs := by
  unfold addHandle
  split <;> simp [h]

/-- The calls of the interface.
(`/repo/sdd/dd/definition.hh`, lines 111-178 and 496-516; `/repo/sdd/dd/sum.hh`, lines 374-422; `/repo/sdd/dd/intersection.hh`, lines 189-239; `/repo/sdd/dd/difference.hh`, lines 210-231.) -/
inductive Call (V : Type) : Type where
  | zero
  | one
  | flat (x : Nat) (v : V) (succ : SDD V)
  | hier (x : Nat) (v succ : SDD V)
  | sum (xs : List (SDD V))
  | inter (xs : List (SDD V))
  | diff (x y : SDD V)

/-- The handles used by a call. (Proof device, not part of the code.) -/
def Call.args : Call V → List (SDD V)
  | .zero => []
  | .one => []
  | .flat _ _ s => [s]
  | .hier _ v s => [v, s]
  | .sum xs => xs
  | .inter xs => xs
  | .diff x y => [x, y]

/-- The effect of a call: `sdd::zero`, `sdd::one` (`/repo/sdd/dd/definition.hh:496-516`), the
constructors `SDD(var, val, succ)` (`definition.hh:120-180`), `sum`, `intersection` and `-`. -/
def Call.run (C : Cfg V E) (orc : Nat → Nat → List Nat) (cap : OpKind → Nat) :
    Call V → CM orc V (SDD V)
  | .zero => pure .zero
  | .one => pure .one
  | .flat x v s => pure (mkNode1 (m := CM orc V) (flatKind C) x v s)
  | .hier x v s => pure (mkNode1 (m := CM orc V) (hierKind C fun _ => pure .zero) x v s)
  | .sum xs => sumC C orc cap xs
  | .inter xs => interC C orc cap xs
  | .diff x y => diffC C orc cap x y

/-- The effect of a call during which the code of the user (the operations on values) may throw.
(Same code as `Call.run`, the user's code throwing at a chosen point.) -/
def Call.runX (C : Cfg V E) (orc : Nat → Nat → List Nat) (cap : OpKind → Nat) (stop : Nat → Option (Err V)) :
    Call V → CM orc V (SDD V)
  | .sum xs => guardX stop (opSum C (Verif.runX C orc cap stop (maxHeight xs)) xs)
  | .inter xs => guardX stop (opInter C (Verif.runX C orc cap stop (maxHeight xs)) xs)
  | .diff x y => guardX stop (ddDiff (Verif.runX C orc cap stop (maxHeight [x, y])) x y)
  | c => guardX stop (c.run C orc cap)

/-- One step of a session. (Model of the environment: what the user or the system does.) -/
inductive Sess.Step (C : Cfg V E) (orc : Nat → Nat → List Nat) (cap : OpKind → Nat) :
    Sess V → Sess V → Prop where
  /-- a call on handles, which returns or raises -/
  | call (s : Sess V) (c : Call V) : (∀ x ∈ c.args, x ∈ s.handles) →
      Step C orc cap s
        { s with
          mach := (c.run (C.withLt s.lt) orc cap s.mach).2
          handles := addHandle (c.run (C.withLt s.lt) orc cap s.mach).1 s.handles }
  /-- a call during which the code of the user may throw; if it throws an exception of type `top`, it carries SDDs of the user -/
  | thrown (s : Sess V) (c : Call V) (stop : Nat → Option (Err V)) : (∀ x ∈ c.args, x ∈ s.handles) →
      (∀ k l r, stop k = some (.top l r) → l ∈ s.handles ∧ r ∈ s.handles) →
      Step C orc cap s
        { s with
          mach := (c.runX (C.withLt s.lt) orc cap stop s.mach).2
          handles := addHandle (c.runX (C.withLt s.lt) orc cap stop s.mach).1 s.handles }
  /-- copies and destructions of handles -/
  | drop (s : Sess V) (hs : List (SDD V)) : (∀ x ∈ hs, x ∈ s.handles) →
      Step C orc cap s { s with handles := hs }
  /-- `context::clear`, `/repo/sdd/dd/context.hh:103-111` -/
  | clear (s : Sess V) : Step C orc cap s { s with mach := ⟨fun _ => [], s.mach.tick⟩ }
  /-- nodes which are not in memory get other addresses -/
  | realloc (s : Sess V) (lt : SDD V → SDD V → Bool) : StrictTotal lt →
      (∀ a b, s.Live a → s.Live b → s.lt a b = lt a b) → Step C orc cap s { s with lt := lt }

/-- The sessions reachable from a new manager (`init`). (Model of the environment: what the user or the system does.) -/
inductive Sess.Reach (C : Cfg V E) (orc : Nat → Nat → List Nat) (cap : OpKind → Nat) :
    Sess V → Prop where
  | init (lt : SDD V → SDD V → Bool) : StrictTotal lt → Reach C orc cap ⟨lt, ⟨fun _ => [], 0⟩, []⟩
  | step (s s' : Sess V) : Reach C orc cap s → Step C orc cap s s' → Reach C orc cap s'

/-- The invariant of sessions. (Proof device, not part of the code.) -/
structure Sess.Inv (C : Cfg V E) (s : Sess V) : Prop where
  st : StrictTotal s.lt
  cache : CacheOK (C.withLt s.lt) s.mach
  wf : ∀ h ∈ s.handles, WF (C.withLt s.lt) h

variable {C : Cfg V E} {orc : Nat → Nat → List Nat} {cap : OpKind → Nat} {allow : Err V → Prop}

/-- An SDD following an order and different from `|0|` has as many levels as the order. -/
theorem Dom.height_eq {t : Ty} {s : SDD V} (h : Dom C t s) (ht : t.IsShape) (hs : s ≠ .zero) :
    t.depth ≤ s.height := by
  induction h with
  | zero => exact absurd rfl hs
  | one t h =>
    cases t with
    | any n => exact absurd ht (by simp [Ty.IsShape])
    | nil => simp [Ty.depth]
    | flat => exact absurd h (by simp [Ty.hasOne])
    | hier => exact absurd h (by simp [Ty.hasOne])
  | flat t t' x arcs h1 h2 h3 ih =>
    cases t with
    | any n => exact absurd ht (by simp [Ty.IsShape])
    | nil => simp [Ty.flatNext] at h1
    | hier => simp [Ty.flatNext] at h1
    | flat y t =>
      simp [Ty.flatNext] at h1
      obtain ⟨_, rfl⟩ := h1
      obtain ⟨arc, ha⟩ := List.exists_mem_of_ne_nil _ h2.ne
      have e1 := ih arc ha ht (h2.succNe arc ha)
      have e2 := SDD.le_heightF arc ha
      simp only [Ty.depth, SDD.height]
      omega
  | hier t tn t' x arcs h1 h2 h3 h4 ih1 ih2 =>
    cases t with
    | any n => exact absurd ht (by simp [Ty.IsShape])
    | nil => simp [Ty.hierNext] at h1
    | flat => simp [Ty.hierNext] at h1
    | hier y n t =>
      simp [Ty.hierNext] at h1
      obtain ⟨_, rfl, rfl⟩ := h1
      obtain ⟨arc, ha⟩ := List.exists_mem_of_ne_nil _ h2.ne
      have hz : arc.1 ≠ .zero := by
        intro h0
        obtain ⟨a, hm⟩ := h2.valNe arc ha
        rw [h0] at hm
        exact not_mem_zero a hm
      have e1 := ih2 arc ha ht.2 (h2.succNe arc ha)
      have e1' := ih1 arc ha ht.1 hz
      have e2 := SDD.le_heightH arc ha
      simp only [Ty.depth, SDD.height]
      omega

theorem foldl_sumAdd_zero {lt : SDD V → SDD V → Bool} : ∀ {xs : List (SDD V)},
    (∀ x ∈ xs, x = .zero) → ∀ acc, xs.foldl (sumAdd SDD.isZero lt) acc = acc := by
  intro xs
  induction xs with
  | nil => intro _ acc; rfl
  | cons x xs ih =>
    intro h acc
    rw [List.foldl_cons, h x (by simp)]
    exact ih (fun y hy => h y (by simp [hy])) _

theorem foldl_interAdd_zero {lt : SDD V → SDD V → Bool} : ∀ {xs : List (SDD V)} (b : InterB (SDD V)),
    b.hasZero = true → b.set = [] → (xs.foldl (interAdd SDD.isZero lt) b).set = [] := by
  intro xs
  induction xs with
  | nil => intro b _ h; exact h
  | cons x xs ih =>
    intro b h1 h2
    rw [List.foldl_cons]
    have : interAdd SDD.isZero lt b x = b := by simp [interAdd, h1]
    rw [this]
    exact ih b h1 h2

theorem foldl_interAdd_zero' {lt : SDD V → SDD V → Bool} : ∀ {xs : List (SDD V)} (b : InterB (SDD V)),
    SDD.zero ∈ xs → (b.hasZero = true → b.set = []) →
      (xs.foldl (interAdd SDD.isZero lt) b).set = [] := by
  intro xs
  induction xs with
  | nil => intro b h; simp at h
  | cons x xs ih =>
    intro b h hb
    rw [List.foldl_cons]
    by_cases hz : b.hasZero = true
    · have : interAdd SDD.isZero lt b x = b := by simp [interAdd, hz]
      rw [this]
      exact foldl_interAdd_zero b hz (hb hz)
    · by_cases hx : x = .zero
      · subst hx
        have : interAdd SDD.isZero lt b .zero = { hasZero := true, set := [] } := by
          simp [interAdd, hz, SDD.isZero]
        rw [this]
        exact foldl_interAdd_zero _ rfl rfl
      · rw [List.mem_cons] at h
        refine ih _ (h.resolve_left fun h => hx h.symm) ?_
        have : SDD.isZero x = false := by
          cases hxz : SDD.isZero x
          · rfl
          · exact absurd (isZero_iff.1 hxz) hx
        simp [interAdd, hz, this]

/-- All operands in canonical form have a common type. -/
theorem dom_maxHeight {xs : List (SDD V)} (h : ∀ x ∈ xs, WF C x) :
    ∀ x ∈ xs, Dom C (.any (maxHeight xs)) x := fun x hx =>
  (h x hx).dom_height _ (le_maxHeight x hx)

section generic
variable {m : Type → Type} [DDMonad V m] {L : Logic V m} {run : Nat → Op V → m (SDD V)}

/-- The hypotheses on the evaluation used below. (Proof device, not part of the code.) -/
def RunOK (C : Cfg V E) (L : Logic V m) (run : Nat → Op V → m (SDD V)) : Prop :=
  ∀ n, ∀ t : Ty, t.depth ≤ n → (TopA C L.allow ∨ t.IsShape) → RecOK C L t (run n)

theorem sum_wf (hC : C.Lawful) (hrun : RunOK C L run) (htop : TopA C L.allow)
    {xs : List (SDD V)} (h : ∀ x ∈ xs, WF C x) :
    L.Sat (opSum C (run (maxHeight xs)) xs) fun r =>
      WF C r ∧ ∀ p, Mem C p r ↔ ∃ x ∈ xs, Mem C p x :=
  L.mono' (opSum_sat hC (hrun _ (.any (maxHeight xs)) le_rfl (Or.inl htop)) (dom_maxHeight h))
    fun _ h => ⟨h.1.wf, h.2⟩

theorem inter_wf (hC : C.Lawful) (hrun : RunOK C L run) (htop : TopA C L.allow)
    {xs : List (SDD V)} (h : ∀ x ∈ xs, WF C x) :
    L.Sat (opInter C (run (maxHeight xs)) xs) fun r =>
      WF C r ∧ ∀ p, Mem C p r ↔ xs ≠ [] ∧ ∀ x ∈ xs, Mem C p x :=
  L.mono' (opInter_sat hC (hrun _ (.any (maxHeight xs)) le_rfl (Or.inl htop)) (dom_maxHeight h))
    fun _ h => ⟨h.1.wf, h.2⟩

theorem diff_wf (hrun : RunOK C L run) (htop : TopA C L.allow)
    {x y : SDD V} (hx : WF C x) (hy : WF C y) :
    L.Sat (ddDiff (run (maxHeight [x, y])) x y) fun r =>
      WF C r ∧ ∀ p, Mem C p r ↔ Mem C p x ∧ ¬ Mem C p y :=
  L.mono' (ddDiff_sat (hrun _ (.any (maxHeight [x, y])) le_rfl (Or.inl htop))
    (dom_maxHeight (xs := [x, y]) (by simp [hx, hy]) x (by simp))
    (dom_maxHeight (xs := [x, y]) (by simp [hx, hy]) y (by simp)))
    fun _ h => ⟨h.1.wf, h.2⟩

theorem sum_shape (hC : C.Lawful) (hrun : RunOK C L run) {t : Ty} (ht : t.IsShape)
    {xs : List (SDD V)} (h : ∀ x ∈ xs, Dom C t x) :
    L.Sat (opSum C (run (maxHeight xs)) xs) fun r =>
      Dom C t r ∧ ∀ p, Mem C p r ↔ ∃ x ∈ xs, Mem C p x := by
  by_cases hz : ∀ x ∈ xs, x = .zero
  · unfold opSum
    rw [foldl_sumAdd_zero hz]
    refine L.pure' ⟨.zero _, fun p => ⟨fun hp => absurd hp (not_mem_zero p), ?_⟩⟩
    rintro ⟨x, hx, hp⟩
    rw [hz x hx] at hp
    exact hp
  · push Not at hz
    obtain ⟨x, hx, hxz⟩ := hz
    exact opSum_sat hC (hrun _ t (((h x hx).height_eq ht hxz).trans (le_maxHeight x hx))
      (Or.inr ht)) h

theorem inter_shape (hC : C.Lawful) (hrun : RunOK C L run) {t : Ty} (ht : t.IsShape)
    {xs : List (SDD V)} (h : ∀ x ∈ xs, Dom C t x) :
    L.Sat (opInter C (run (maxHeight xs)) xs) fun r =>
      Dom C t r ∧ ∀ p, Mem C p r ↔ xs ≠ [] ∧ ∀ x ∈ xs, Mem C p x := by
  by_cases hz : SDD.zero ∈ xs
  · unfold opInter ddInter
    rw [foldl_interAdd_zero' {} hz (by simp)]
    refine L.pure' ⟨.zero _, fun p => ⟨fun hp => absurd hp (not_mem_zero p), ?_⟩⟩
    rintro ⟨_, hp⟩
    exact hp _ hz
  · cases xs with
    | nil => exact L.pure' ⟨.zero _, fun p => by simp [not_mem_zero]⟩
    | cons x xs =>
      have hxz : x ≠ .zero := by rintro rfl; simp at hz
      exact opInter_sat hC (hrun _ t (((h x (by simp)).height_eq ht hxz).trans
        (le_maxHeight x (by simp))) (Or.inr ht)) h

theorem diff_shape (hrun : RunOK C L run) {t : Ty} (ht : t.IsShape)
    {x y : SDD V} (hx : Dom C t x) (hy : Dom C t y) :
    L.Sat (ddDiff (run (maxHeight [x, y])) x y) fun r =>
      Dom C t r ∧ ∀ p, Mem C p r ↔ Mem C p x ∧ ¬ Mem C p y := by
  by_cases hz : x = .zero
  · subst hz
    unfold ddDiff
    rw [if_pos (Or.inr rfl)]
    exact L.pure' ⟨.zero _, fun p => by simp [not_mem_zero]⟩
  · exact ddDiff_sat (hrun _ t ((hx.height_eq ht hz).trans (le_maxHeight x (by simp)))
      (Or.inr ht)) hx hy

end generic

/-- Canonicity of the basic constructors. -/
theorem mkNode1_flat (hC : C.Lawful) {m : Type → Type} [DDMonad V m] {x : Nat} {v : V} {s : SDD V}
    (hs : WF C s) :
    WF C (mkNode1 (m := m) (flatKind C) x v s) ∧
      ∀ p, Mem C p (mkNode1 (m := m) (flatKind C) x v s) ↔
        ∃ a q, p = .flat x a q ∧ C.vmem a v ∧ Mem C q s := by
  unfold mkNode1
  split
  · rename_i h
    refine ⟨⟨0, .zero _⟩, fun p => ⟨fun h => absurd h (not_mem_zero p), ?_⟩⟩
    rintro ⟨a, q, rfl, ha, hq⟩
    simp only [Bool.or_eq_true] at h
    rcases h with h | h
    · rw [isZero_iff.1 h] at hq
      exact absurd hq (not_mem_zero q)
    · exact absurd ha ((hC.isEmpty_iff v).1 h a)
  · rename_i h
    simp only [Bool.or_eq_true, not_or] at h
    obtain ⟨n, hn⟩ := hs
    refine ⟨⟨n + 1, .flat _ (.any n) x _ rfl ⟨by simp, ?_, ?_, by simp, by simp⟩ ?_⟩, ?_⟩
    · have := h.2
      simp only [flatKind] at this
      rw [hC.isEmpty_iff] at this
      push Not at this
      simpa using this
    · simp only [List.mem_singleton, forall_eq]
      intro h0
      exact h.1 (isZero_iff.2 h0)
    · simpa using hn
    · intro p
      cases p with
      | nil => simp [Mem, flatKind]
      | flat y a q => simp [Mem, flatKind]
      | hier y m q => simp [Mem, flatKind]

theorem mkNode1_hier {m : Type → Type} [DDMonad V m] {rec : Op V → m (SDD V)}
    {x : Nat} {v s : SDD V} (hv : WF C v) (hs : WF C s) :
    WF C (mkNode1 (m := m) (hierKind C rec) x v s) ∧
      ∀ p, Mem C p (mkNode1 (m := m) (hierKind C rec) x v s) ↔
        ∃ a q, p = .hier x a q ∧ Mem C a v ∧ Mem C q s := by
  unfold mkNode1
  split
  · rename_i h
    refine ⟨⟨0, .zero _⟩, fun p => ⟨fun h => absurd h (not_mem_zero p), ?_⟩⟩
    rintro ⟨a, q, rfl, ha, hq⟩
    simp only [Bool.or_eq_true] at h
    rcases h with h | h
    · rw [isZero_iff.1 h] at hq
      exact absurd hq (not_mem_zero q)
    · rw [isZero_iff.1 h] at ha
      exact absurd ha (not_mem_zero a)
  · rename_i h
    simp only [Bool.or_eq_true, not_or] at h
    obtain ⟨n, hn⟩ := hs
    obtain ⟨k, hk⟩ := hv
    refine ⟨⟨max k n + 1, .hier _ (.any (max k n)) (.any (max k n)) x _ rfl
      ⟨by simp, ?_, ?_, by simp, by simp⟩ ?_ ?_⟩, ?_⟩
    · simp only [List.mem_singleton, forall_eq]
      refine hk.exists_mem fun h0 => h.2 (isZero_iff.2 h0)
    · simp only [List.mem_singleton, forall_eq]
      intro h0
      exact h.1 (isZero_iff.2 h0)
    · simpa using hk.mono (le_max_left _ _)
    · simpa using hn.mono (le_max_right _ _)
    · intro p
      cases p with
      | nil => simp [Mem, hierKind]
      | flat y a q => simp [Mem, hierKind]
      | hier y m q => simp [Mem, hierKind]

/-- The set denoted by the result of a call. (Specification, not part of the code.) -/
def Call.Spec (C : Cfg V E) : Call V → Path E → Prop
  | .zero, _ => False
  | .one, p => p = .nil
  | .flat x v s, p => ∃ a q, p = .flat x a q ∧ C.vmem a v ∧ Mem C q s
  | .hier x v s, p => ∃ a q, p = .hier x a q ∧ Mem C a v ∧ Mem C q s
  | .sum xs, p => ∃ x ∈ xs, Mem C p x
  | .inter xs, p => xs ≠ [] ∧ ∀ x ∈ xs, Mem C p x
  | .diff x y, p => Mem C p x ∧ ¬ Mem C p y

theorem mem_one (p : Path E) : Mem C p .one ↔ p = .nil := by cases p <;> simp [Mem]

theorem Call.run_sat (hC : C.Lawful) (hcap : ∀ k, 0 < cap k) (hov : C.limit = none ∨ allow .overflow)
    (htop : TopA C allow) {c : Call V} (h : ∀ x ∈ c.args, WF C x) :
    (cachedLogic C orc allow).Sat (c.run C orc cap) fun r =>
      WF C r ∧ ∀ p, Mem C p r ↔ c.Spec C p := by
  have hrun : RunOK C (cachedLogic C orc allow) (runC C orc cap) := fun n t h1 h2 =>
    runC_ok hC hcap hov n t h1 h2
  cases c with
  | zero => exact (cachedLogic C orc allow).pure' ⟨⟨0, .zero _⟩, fun p => by
      simp [Call.Spec, not_mem_zero]⟩
  | one => exact (cachedLogic C orc allow).pure' ⟨⟨0, .one _ trivial⟩, fun p => mem_one p⟩
  | flat x v s => exact (cachedLogic C orc allow).pure' (mkNode1_flat hC (h s (by simp [Call.args])))
  | hier x v s => exact (cachedLogic C orc allow).pure' (mkNode1_hier (h v (by simp [Call.args]))
      (h s (by simp [Call.args])))
  | sum xs => exact sum_wf hC hrun htop h
  | inter xs => exact inter_wf hC hrun htop h
  | diff x y => exact diff_wf hrun htop (h x (by simp [Call.args])) (h y (by simp [Call.args]))

theorem Call.runX_sat (hC : C.Lawful) (hcap : ∀ k, 0 < cap k) (hov : C.limit = none ∨ allow .overflow)
    (htop : TopA C allow) {stop : Nat → Option (Err V)} (hstop : ∀ k e, stop k = some e → allow e) {c : Call V}
    (h : ∀ x ∈ c.args, WF C x) :
    (cachedLogic C orc allow).Sat (c.runX C orc cap stop) fun r =>
      WF C r ∧ ∀ p, Mem C p r ↔ c.Spec C p := by
  have hrun : RunOK C (cachedLogic C orc allow) (Verif.runX C orc cap stop) := fun n t h1 h2 =>
    runX_ok hC hcap hov hstop n t h1 h2
  cases c with
  | zero => exact guardX_sat hstop (Call.run_sat hC hcap hov htop h)
  | one => exact guardX_sat hstop (Call.run_sat hC hcap hov htop h)
  | flat x v s => exact guardX_sat hstop (Call.run_sat hC hcap hov htop h)
  | hier x v s => exact guardX_sat hstop (Call.run_sat hC hcap hov htop h)
  | sum xs => exact guardX_sat hstop (sum_wf hC hrun htop h)
  | inter xs => exact guardX_sat hstop (inter_wf hC hrun htop h)
  | diff x y => exact guardX_sat hstop (diff_wf hrun htop (h x (by simp [Call.args])) (h y (by simp [Call.args])))

/-- The exceptions `Top` carry SDDs in canonical form. (Specification, not part of the code.) -/
def TopWF (C : Cfg V E) (e : Err V) : Prop := ∀ l r, e = .top l r → WF C l ∧ WF C r

theorem TopA.wf : TopA C (TopWF C) := by
  rintro l r hl hr - - - _ _ h
  cases h
  exact ⟨hl, hr⟩

theorem TopWF.overflow : TopWF C (.overflow : Err V) := by rintro l r h; cases h

theorem Sess.Step.inv (hC : C.Lawful) (hcap : ∀ k, 0 < cap k) {s s' : Sess V}
    (h : Sess.Step C orc cap s s') (hs : s.Inv C) : s'.Inv C := by
  cases h with
  | call c hc =>
    have := Call.run_sat (orc := orc) (allow := TopWF (C.withLt s.lt)) (hC.withLt hs.st) hcap (Or.inr .overflow)
      .wf (c := c) (fun x hx => hs.wf x (hc x hx)) s.mach hs.cache
    refine ⟨hs.st, this.1, fun h hh => ?_⟩
    have h2 := this.2
    rcases mem_addHandle hh with hh | hr | ⟨a, b, hr, hh⟩
    · exact hs.wf h hh
    · rw [hr] at h2
      exact h2.1
    · rw [hr] at h2
      rcases hh with rfl | rfl
      · exact (h2 _ _ rfl).1
      · exact (h2 _ _ rfl).2
  | thrown c stop hc hst =>
    have := Call.runX_sat (orc := orc) (allow := TopWF (C.withLt s.lt)) (hC.withLt hs.st) hcap (Or.inr .overflow)
      .wf (stop := stop) (fun k e hk l r he => by
        subst he
        exact ⟨hs.wf l (hst k l r hk).1, hs.wf r (hst k l r hk).2⟩) (c := c) (fun x hx => hs.wf x (hc x hx)) s.mach hs.cache
    refine ⟨hs.st, this.1, fun h hh => ?_⟩
    have h2 := this.2
    rcases mem_addHandle hh with hh | hr | ⟨a, b, hr, hh⟩
    · exact hs.wf h hh
    · rw [hr] at h2
      exact h2.1
    · rw [hr] at h2
      rcases hh with rfl | rfl
      · exact (h2 _ _ rfl).1
      · exact (h2 _ _ rfl).2
  | drop hs' h => exact ⟨hs.st, hs.cache, fun x hx => hs.wf x (h x hx)⟩
  | clear => exact ⟨hs.st, fun k e he => by simp at he, hs.wf⟩
  | realloc lt hlt h =>
    have hwf : ∀ {x}, (∀ a, Sub a x → s.Live a) → WF (C.withLt s.lt) x → WF (C.withLt lt) x := by
      intro x hx hw
      exact hw.withLt (lt := lt) fun a b ha hb => h a b (hx a ha) (hx b hb)
    refine ⟨hlt, fun k e he n hn => ?_, fun x hx => hwf (fun a ha => Or.inl ⟨x, hx, ha⟩) (hs.wf x hx)⟩
    have h0 : OpOK (C.withLt s.lt) (.any n) e.1 := by
      refine OpOK.withLt (lt := s.lt) hn fun x hx y hy a b ha hb => ?_
      exact (h a b (Or.inr ⟨k, e, he, Or.inl ⟨x, hx, ha⟩⟩) (Or.inr ⟨k, e, he, Or.inl ⟨y, hy, hb⟩⟩)).symm
    have := hs.cache k e he n h0
    exact ⟨hwf (fun a ha => Or.inr ⟨k, e, he, Or.inr ha⟩) this.1, OpSpec.withLt.2 (OpSpec.withLt.1 this.2)⟩

theorem Sess.Reach.inv (hC : C.Lawful) (hcap : ∀ k, 0 < cap k) {s : Sess V}
    (h : Sess.Reach C orc cap s) : s.Inv C := by
  induction h with
  | init lt hlt => exact ⟨hlt, fun k e he => by simp at he, by simp⟩
  | step s s' _ h2 ih => exact h2.inv hC hcap ih

end
end Verif
