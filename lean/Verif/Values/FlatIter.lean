import Verif.Values.FlatSet
/-!
# Iterators of `flat_set`

`/repo/sdd/values/flat_set.hh:56-223,280-320`.

Here, the elements of a `flat_set` are in a buffer with an address, which is destroyed with the last handle to the unified set; an iterator is a
position in a buffer. The modification of a `flat_set` makes a copy, modifies it and unifies it.
-/

set_option autoImplicit false
set_option linter.unusedSectionVars false

namespace Verif
namespace FlatIter

variable {E : Type} {lt : E → E → Bool} [DecidableEq E]

/-- An iterator: the address of a buffer and a position. (`const_iterator`, `/repo/sdd/values/flat_set.hh:48`: a pointer to an element.) -/
abbrev It := Nat × Nat

/-- The memory: the buffers of the unified sets (`unique_table`, `/repo/sdd/values/flat_set.hh:353-357`; the buffer 0 is the one of `empty`), the
buffer of the set of each handle (`ptr_`, line 56; `none` when the handle does not exist), and the next address: addresses are not reused, which is a simplification (an
iterator to a destroyed buffer is never valid again). -/
structure FMem (E : Type) (lt : E → E → Bool) where
  bufs : List (Nat × FSet E lt)
  vars : List (Option Nat)
  next : Nat

/-- At the beginning, only the empty set is in memory, `/repo/sdd/values/flat_set.hh:360-366,377-384`. -/
def init (n : Nat) : FMem E lt := ⟨[(0, FSet.empty)], List.replicate n none, 1⟩

/-- The set at an address. (Specification or proof device, not part of the code.) -/
def FMem.at (s : FMem E lt) (b : Nat) : Option (FSet E lt) := (s.bufs.find? fun e => e.1 = b).map Prod.snd

/-- The set of a handle: `ptr_->data()`. (`/repo/sdd/values/flat_set.hh`, lines 93, 107-188.) -/
def FMem.set (s : FMem E lt) (v : Nat) : Option (FSet E lt) := (s.vars[v]?.join).bind s.at

/-- The dereference of an iterator; `none`: undefined behaviour (the buffer does not exist any more, or the iterator is at its end).
(Model of the environment: what the user or the system does.) -/
def deref (s : FMem E lt) (it : It) : Option E := (s.at it.1).bind fun d => d.data[it.2]?

/-- `create` and `unify` of a set in the buffer `b`, `/repo/sdd/values/flat_set.hh:297-320`: when an equal set exists, or when the set is empty, `b` is destroyed. -/
def unify (b : Nat) (d : FSet E lt) (s : FMem E lt) : Nat × FMem E lt :=
  match s.bufs.find? fun e => e.2 = d with
  | some e => (e.1, s)
  | none => (b, { s with bufs := (b, d) :: s.bufs })

/-- The destruction of a handle to the set at `b`, `/repo/sdd/mem/ptr.hh:143-150`: the last one destroys the set (but the empty set is kept by the
manager). -/
def release (b : Nat) (s : FMem E lt) : FMem E lt :=
  if b = 0 ∨ some b ∈ s.vars then s else { s with bufs := s.bufs.filter fun e => e.1 ≠ b }

/-- The assignment of the set at `b` to a handle, which gives up its old set. (`ptr_ = create(…)`, `/repo/sdd/values/flat_set.hh`, lines 97 and 205;
`/repo/sdd/mem/ptr.hh:94-140`.) -/
def assign (v b : Nat) (s : FMem E lt) : FMem E lt :=
  match s.vars[v]?.join with
  | none => { s with vars := s.vars.set v (some b) }
  | some b0 => release b0 { s with vars := s.vars.set v (some b) }

/-- The position where an element is, or would be inserted: the position returned by `lower_bound`. (`boost::container::flat_set`, used at
`/repo/sdd/values/flat_set.hh:89-100,183-188,209-215`.) -/
def position (d : FSet E lt) (x : E) : Nat := (d.data.takeWhile fun y => lt y x).length

/-- `begin() + i`, `/repo/sdd/values/flat_set.hh:102-131`. -/
def iter (s : FMem E lt) (v i : Nat) : Option It := s.vars[v]?.join.map fun b => (b, i)

/-- `find`, `/repo/sdd/values/flat_set.hh:183-188`: an iterator to the element, or to the end. -/
def find (s : FMem E lt) (v : Nat) (x : E) : Option It :=
  s.vars[v]?.join.bind fun b => (s.at b).map fun d => (b, if (d.find x).isSome then position d x else d.size)

/-- `lower_bound`, `/repo/sdd/values/flat_set.hh:209-215`. -/
def lower (s : FMem E lt) (v : Nat) (x : E) : Option It :=
  s.vars[v]?.join.bind fun b => (s.at b).map fun d => (b, position d x)

/-- What a program does with `flat_set`s. (Model of the environment: what the user or the system does.) -/
inductive FOp (E : Type) : Type where
  | make (v : Nat) (l : List E)
  | copy (v w : Nat)
  | destroy (v : Nat)
  | insert (v : Nat) (x : E)
  | erase (v : Nat) (x : E)

/-- What statements return. (`/repo/sdd/values/flat_set.hh`, lines 89 and 200.) -/
inductive FOut : Type where
  | unit
  | insertion (it : It) (b : Bool)
  | erased (n : Nat)

/-- `insert`, `/repo/sdd/values/flat_set.hh:88-100`. The copy is at the address `next`; `cap n` is the capacity of its buffer after an insertion which gives `n` elements.
When it is larger than `n`, `shrink_to_fit` moves the elements to another buffer. The iterator returned is the one given by the insertion in the copy. -/
def insert (h : StrictTotal lt) (cap : Nat → Nat) (v : Nat) (x : E) (s : FMem E lt) : Option (FOut × FMem E lt) :=
  (s.set v).map fun d =>
    let r := d.insert h x
    let it := (s.next, position d x)
    if r.2 then
      let b := if cap r.1.size = r.1.size then s.next else s.next + 1
      let u := unify b r.1 { s with next := s.next + 2 }
      (.insertion it true, assign v u.1 u.2)
    else (.insertion it false, { s with next := s.next + 1 })

/-- A statement; `none` when it is not a program: a handle is used which does not exist, or is made twice. Constructors, copies, destructions, `insert` and `erase`,
`/repo/sdd/values/flat_set.hh:60-100,199-207,280-320`. -/
def exec (h : StrictTotal lt) (cap : Nat → Nat) (s : FMem E lt) : FOp E → Option (FOut × FMem E lt)
  | .make v l =>
    if s.vars[v]? = some none then
      let u := unify s.next (FSet.ofList h l) { s with next := s.next + 1 }
      some (.unit, assign v u.1 u.2)
    else none
  | .copy v w =>
    if s.vars[v]? = some none then (s.vars[w]?.join).map fun b => (.unit, assign v b s) else none
  | .destroy v => (s.vars[v]?.join).map fun b => (.unit, release b { s with vars := s.vars.set v none })
  | .insert v x => insert h cap v x s
  | .erase v x => (s.set v).map fun d =>
    let r := d.erase x
    let u := unify s.next r.1 { s with next := s.next + 1 }
    (.erased r.2, assign v u.1 u.2)

/-- The states of programs. (Model of the environment: what the user or the system does.) -/
inductive Reach (h : StrictTotal lt) (cap : Nat → Nat) (n : Nat) : FMem E lt → Prop where
  | init : Reach h cap n (init n)
  | step {s s' : FMem E lt} {op : FOp E} {o : FOut} : Reach h cap n s → exec h cap s op = some (o, s') → Reach h cap n s'

/-- The invariant. (Specification or proof device, not part of the code.) -/
structure Inv (s : FMem E lt) : Prop where
  nodup : (s.bufs.map Prod.fst).Nodup
  distinct : (s.bufs.map Prod.snd).Nodup
  empty : (0, FSet.empty) ∈ s.bufs
  lt : ∀ e ∈ s.bufs, e.1 < s.next
  held : ∀ b, some b ∈ s.vars → b ∈ s.bufs.map Prod.fst
  used : ∀ e ∈ s.bufs, e.1 = 0 ∨ some e.1 ∈ s.vars

theorem FMem.at_eq {s : FMem E lt} (h : Inv s) {b : Nat} {d : FSet E lt} : s.at b = some d ↔ (b, d) ∈ s.bufs := by
  unfold FMem.at
  constructor
  · intro e
    rw [Option.map_eq_some_iff] at e
    obtain ⟨⟨b', d'⟩, h1, rfl⟩ := e
    have := List.find?_some h1
    simp only [decide_eq_true_eq] at this
    subst this
    exact List.mem_of_find?_eq_some h1
  · intro hm
    cases e : s.bufs.find? fun e => e.1 = b with
    | none =>
      have := List.find?_eq_none.1 e _ hm
      simp at this
    | some p =>
      have h1 := List.find?_some e
      have h2 := List.mem_of_find?_eq_some e
      simp only [decide_eq_true_eq] at h1
      have : p = (b, d) := List.inj_on_of_nodup_map h.nodup h2 hm h1
      rw [this]; rfl

/-- The invariant with a set which may be held by nobody, but for the handle to be made. (Specification or proof device, not part of the code.) -/
structure Pre (x : Option Nat) (s : FMem E lt) : Prop where
  nodup : (s.bufs.map Prod.fst).Nodup
  distinct : (s.bufs.map Prod.snd).Nodup
  empty : (0, FSet.empty) ∈ s.bufs
  lt : ∀ e ∈ s.bufs, e.1 < s.next
  held : ∀ b, some b ∈ s.vars → b ∈ s.bufs.map Prod.fst
  used : ∀ e ∈ s.bufs, e.1 = 0 ∨ some e.1 ∈ s.vars ∨ x = some e.1

theorem Inv.pre {s : FMem E lt} (h : Inv s) (x : Option Nat) : Pre x s :=
  ⟨h.nodup, h.distinct, h.empty, h.lt, h.held, fun e he => (h.used e he).imp_right .inl⟩

theorem Pre.inv {s : FMem E lt} (h : Pre none s) : Inv s :=
  ⟨h.nodup, h.distinct, h.empty, h.lt, h.held, fun e he => (h.used e he).imp_right fun h => h.resolve_right (by simp)⟩

/-- Nothing is moved: what exists before is unchanged or destroyed. (Specification or proof device, not part of the code.) -/
def Keeps (s s' : FMem E lt) : Prop := ∀ e ∈ s.bufs, ∀ b, (b, e.2) ∈ s'.bufs → e ∈ s'.bufs

theorem unify_spec {s : FMem E lt} (h : Inv s) {b n : Nat} (hb : s.next ≤ b) (hn : b < n) (d : FSet E lt) :
    Pre (some (unify b d { s with next := n }).1) (unify b d { s with next := n }).2 ∧
    ((unify b d { s with next := n }).1, d) ∈ (unify b d { s with next := n }).2.bufs ∧
    (unify b d { s with next := n }).2.vars = s.vars ∧ (∀ e ∈ s.bufs, e ∈ (unify b d { s with next := n }).2.bufs) ∧
    (∀ e ∈ (unify b d { s with next := n }).2.bufs, e ∈ s.bufs ∨ e = (b, d)) ∧
    ((unify b d { s with next := n }).1 = b ↔ ∀ e ∈ s.bufs, e.2 ≠ d) := by
  have hlt : ∀ e ∈ s.bufs, e.1 < n := fun e he => by have := h.lt e he; omega
  unfold unify
  cases e : s.bufs.find? fun e => e.2 = d with
  | some p =>
    have h1 := List.find?_some e
    have h2 := List.mem_of_find?_eq_some e
    simp only [decide_eq_true_eq] at h1
    simp only
    refine ⟨⟨h.nodup, h.distinct, h.empty, hlt, h.held, fun e he => (h.used e he).imp_right .inl⟩, h1 ▸ h2, trivial, fun e he => he,
      fun e he => .inl he, ⟨fun hh => ?_, fun hh => absurd h1 (hh p h2)⟩⟩
    have := h.lt p h2
    omega
  | none =>
    have h1 : ∀ e ∈ s.bufs, e.2 ≠ d := fun x hx => by have := List.find?_eq_none.1 e x hx; simpa using this
    simp only
    refine ⟨⟨?_, ?_, List.mem_cons_of_mem _ h.empty, ?_, fun b hb => List.mem_cons_of_mem _ (h.held b hb), ?_⟩, by simp, trivial,
      fun e he => List.mem_cons_of_mem _ he, ?_, by simpa using h1⟩
    · rw [List.map_cons, List.nodup_cons]
      refine ⟨fun hm => ?_, h.nodup⟩
      obtain ⟨e, he, h2⟩ := List.mem_map.1 hm
      have := h.lt e he
      simp only at h2
      omega
    · rw [List.map_cons, List.nodup_cons]
      refine ⟨fun hm => ?_, h.distinct⟩
      obtain ⟨e, he, h2⟩ := List.mem_map.1 hm
      exact h1 e he h2
    · intro e he
      rcases List.mem_cons.1 he with rfl | he
      · exact hn
      · exact hlt e he
    · intro e he
      rcases List.mem_cons.1 he with rfl | he
      · exact .inr (.inr rfl)
      · exact (h.used e he).imp_right .inl
    · intro e he
      rcases List.mem_cons.1 he with rfl | he
      · exact .inr rfl
      · exact .inl he

theorem release_spec {s : FMem E lt} {b : Nat} (h : Pre (some b) s) : Inv (release b s) ∧ (release b s).vars = s.vars ∧
    (∀ e ∈ (release b s).bufs, e ∈ s.bufs) ∧ ∀ e ∈ s.bufs, some e.1 ∈ s.vars → e ∈ (release b s).bufs := by
  unfold release
  split
  · rename_i hb
    refine ⟨⟨h.nodup, h.distinct, h.empty, h.lt, h.held, fun e he => ?_⟩, rfl, fun e he => he, fun e he _ => he⟩
    rcases h.used e he with h1 | h1 | h1
    · exact .inl h1
    · exact .inr h1
    · cases h1
      exact hb
  · rename_i hb
    rw [not_or] at hb
    refine ⟨⟨h.nodup.sublist (List.filter_sublist.map _), h.distinct.sublist (List.filter_sublist.map _), ?_, ?_, ?_, ?_⟩, rfl,
      fun e he => (List.mem_filter.1 he).1, fun e he hv => ?_⟩
    · exact List.mem_filter.2 ⟨h.empty, by simpa using Ne.symm hb.1⟩
    · exact fun e he => h.lt e (List.mem_filter.1 he).1
    · intro c hc
      obtain ⟨e, he, rfl⟩ := List.mem_map.1 (h.held c hc)
      refine List.mem_map.2 ⟨e, List.mem_filter.2 ⟨he, ?_⟩, rfl⟩
      simp only [ne_eq, decide_not, Bool.not_eq_eq_eq_not, Bool.not_true, decide_eq_false_iff_not]
      rintro rfl
      exact hb.2 hc
    · intro e he
      obtain ⟨he, hne⟩ := List.mem_filter.1 he
      rcases h.used e he with h1 | h1 | h1
      · exact .inl h1
      · exact .inr h1
      · cases h1
        simp at hne
    · refine List.mem_filter.2 ⟨he, ?_⟩
      simp only [ne_eq, decide_not, Bool.not_eq_eq_eq_not, Bool.not_true, decide_eq_false_iff_not]
      rintro rfl
      exact hb.2 hv

theorem mem_set {vars : List (Option Nat)} {v : Nat} {y z : Option Nat} (h : z ∈ vars.set v y) : z ∈ vars ∨ z = y := by
  obtain ⟨i, hi, e⟩ := List.mem_iff_getElem.1 h
  rw [List.getElem_set] at e
  split at e
  · exact .inr e.symm
  · exact .inl (e ▸ List.getElem_mem _)

theorem mem_set_of {vars : List (Option Nat)} {v : Nat} {y z : Option Nat} (h : z ∈ vars) : z ∈ vars.set v y ∨ vars[v]? = some z := by
  obtain ⟨i, hi, e⟩ := List.mem_iff_getElem.1 h
  by_cases hv : v = i
  · subst hv
    exact .inr (by rw [List.getElem?_eq_getElem hi, e])
  · refine .inl (List.mem_iff_getElem.2 ⟨i, by simpa using hi, ?_⟩)
    rw [List.getElem_set_of_ne hv, e]

theorem mem_set_self {vars : List (Option Nat)} {v : Nat} (hv : v < vars.length) (y : Option Nat) : y ∈ vars.set v y :=
  List.mem_iff_getElem.2 ⟨v, by simpa using hv, by simp⟩

theorem assign_spec {s : FMem E lt} {v b : Nat} (hv : v < s.vars.length) (h : Pre (some b) s) (hb : b ∈ s.bufs.map Prod.fst) :
    Inv (assign v b s) ∧ (assign v b s).vars = s.vars.set v (some b) ∧ (∀ e ∈ (assign v b s).bufs, e ∈ s.bufs) ∧
    ∀ e ∈ s.bufs, some e.1 ∈ s.vars.set v (some b) → e ∈ (assign v b s).bufs := by
  have hheld : ∀ c, some c ∈ s.vars.set v (some b) → c ∈ s.bufs.map Prod.fst := fun c hc => by
    rcases mem_set hc with h1 | h1
    · exact h.held c h1
    · cases h1
      exact hb
  unfold assign
  split
  · rename_i e0
    refine ⟨⟨h.nodup, h.distinct, h.empty, h.lt, hheld, fun e he => ?_⟩, rfl, fun e he => he, fun e he _ => he⟩
    rcases h.used e he with h1 | h1 | h1
    · exact .inl h1
    · rcases mem_set_of (v := v) (y := some b) h1 with h2 | h2
      · exact .inr h2
      · rw [h2] at e0
        cases e0
    · cases h1
      exact .inr (mem_set_self hv _)
  · rename_i b0 e0
    refine release_spec (s := { s with vars := s.vars.set v (some b) }) ⟨h.nodup, h.distinct, h.empty, h.lt, hheld, fun e he => ?_⟩
    rcases h.used e he with h1 | h1 | h1
    · exact .inl h1
    · rcases mem_set_of (v := v) (y := some b) h1 with h2 | h2
      · exact .inr (.inl h2)
      · rw [h2] at e0
        cases e0
        exact .inr (.inr rfl)
    · cases h1
      exact .inr (.inl (mem_set_self hv _))

theorem Inv.unique {s : FMem E lt} (h : Inv s) {a b : Nat} {d : FSet E lt} (ha : (a, d) ∈ s.bufs) (hb : (b, d) ∈ s.bufs) : a = b :=
  congrArg Prod.fst (List.inj_on_of_nodup_map h.distinct ha hb rfl)

theorem set_eq {s : FMem E lt} (h : Inv s) {v : Nat} {d : FSet E lt} :
    s.set v = some d ↔ ∃ b, s.vars[v]? = some (some b) ∧ (b, d) ∈ s.bufs := by
  unfold FMem.set
  rw [Option.bind_eq_some_iff]
  refine exists_congr fun b => ?_
  rw [FMem.at_eq h, Option.join_eq_some_iff]

/-- The set of a handle which is assigned the set `d`. -/
theorem unify_assign {s : FMem E lt} (h : Inv s) {v b n : Nat} (hv : v < s.vars.length) (hb : s.next ≤ b) (hn : b < n) (d : FSet E lt)
    {s' : FMem E lt} (e : s' = assign v (unify b d { s with next := n }).1 (unify b d { s with next := n }).2) :
    Inv s' ∧ s'.set v = some d ∧ (∀ w, w ≠ v → s'.set w = s.set w) ∧ Keeps s s' ∧
    ((b, d) ∈ s'.bufs ↔ ∀ e ∈ s.bufs, e.2 ≠ d) ∧ ∀ e ∈ s'.bufs, e ∈ s.bufs ∨ e = (b, d) := by
  obtain ⟨hp, hm, hvars, hsub, hsup, hnew⟩ := unify_spec h hb hn d
  obtain ⟨hi, hvars', hsub', hkeep⟩ := assign_spec (v := v) (b := (unify b d { s with next := n }).1) (by rw [hvars]; exact hv) hp
    (List.mem_map.2 ⟨_, hm, rfl⟩)
  rw [← e] at hi hvars' hsub' hkeep
  rw [hvars] at hvars'
  have hd : ((unify b d { s with next := n }).1, d) ∈ s'.bufs := hkeep _ hm (mem_set_self (by rw [hvars]; exact hv) _)
  refine ⟨hi, (set_eq hi).2 ⟨_, by rw [hvars', List.getElem?_set_self hv], hd⟩, fun w hw => ?_, fun e he c hc => ?_, ?_, ?_⟩
  · have hw' : s'.vars[w]? = s.vars[w]? := by rw [hvars', List.getElem?_set_ne hw.symm]
    unfold FMem.set
    rw [hw']
    cases e1 : s.vars[w]?.join with
    | none => rfl
    | some c =>
      simp only [Option.bind_some]
      rw [Option.join_eq_some_iff] at e1
      obtain ⟨⟨c', dc⟩, hc, rfl⟩ := List.mem_map.1 (h.held c (List.mem_of_getElem? e1))
      rw [(FMem.at_eq h).2 hc, (FMem.at_eq hi).2 (hkeep _ (hsub _ hc) ?_)]
      rw [hvars, ← hvars']
      exact List.mem_of_getElem? (hw'.trans e1)
  · rcases hsup _ (hsub' _ hc) with h1 | h1
    · have := h.unique he h1
      subst this
      exact hc
    · have hed : e.2 = d := congrArg Prod.snd h1
      have : e = (_, d) := List.inj_on_of_nodup_map hp.distinct (hsub e he) hm hed
      rw [this]
      exact hd
  · constructor
    · intro h1
      exact hnew.1 (hi.unique hd h1)
    · intro h1
      rw [← hnew.2 h1]
      exact hd
  · exact fun e he => hsup e (hsub' e he)

theorem destroy_spec {s : FMem E lt} (h : Inv s) {v b : Nat} (hv : s.vars[v]? = some (some b)) :
    Inv (release b { s with vars := s.vars.set v none }) ∧ ∀ e ∈ (release b { s with vars := s.vars.set v none }).bufs, e ∈ s.bufs := by
  have hp : Pre (some b) { s with vars := s.vars.set v none } := by
    refine ⟨h.nodup, h.distinct, h.empty, h.lt, fun c hc => ?_, fun e he => ?_⟩
    · rcases mem_set hc with h1 | h1
      · exact h.held c h1
      · cases h1
    · rcases h.used e he with h1 | h1
      · exact .inl h1
      · rcases mem_set_of (v := v) (y := none) h1 with h2 | h2
        · exact .inr (.inl h2)
        · rw [hv] at h2
          cases h2
          exact .inr (.inr rfl)
  obtain ⟨h1, -, h3, -⟩ := release_spec hp
  exact ⟨h1, h3⟩

theorem Keeps.of_sub {s s' : FMem E lt} (h : Inv s) (hs : ∀ e ∈ s'.bufs, e ∈ s.bufs) : Keeps s s' := fun e he b hb => by
  have := h.unique he (hs _ hb)
  subst this
  exact hb

theorem exec_spec {h : StrictTotal lt} {cap : Nat → Nat} {s s' : FMem E lt} {op : FOp E} {o : FOut} (hi : Inv s)
    (he : exec h cap s op = some (o, s')) : Inv s' ∧ Keeps s s' := by
  cases op with
  | make v l =>
    simp only [exec] at he
    split at he
    · rename_i hv
      simp only [Option.some.injEq, Prod.mk.injEq] at he
      obtain ⟨h1, -, -, h4, -⟩ := unify_assign hi (List.getElem?_eq_some_iff.1 hv).1 (le_refl s.next) (Nat.lt_succ_self _) (FSet.ofList h l) he.2.symm
      exact ⟨h1, h4⟩
    · cases he
  | copy v w =>
    simp only [exec] at he
    split at he
    · rename_i hv
      rw [Option.map_eq_some_iff] at he
      obtain ⟨b, hb, he⟩ := he
      simp only [Prod.mk.injEq] at he
      rw [Option.join_eq_some_iff] at hb
      obtain ⟨h1, -, h3, -⟩ := assign_spec (v := v) (List.getElem?_eq_some_iff.1 hv).1 (hi.pre (some b)) (hi.held b (List.mem_of_getElem? hb))
      rw [← he.2]
      exact ⟨h1, .of_sub hi h3⟩
    · cases he
  | destroy v =>
    simp only [exec, Option.map_eq_some_iff, Option.join_eq_some_iff, Prod.mk.injEq] at he
    obtain ⟨b, hb, -, rfl⟩ := he
    obtain ⟨h1, h2⟩ := destroy_spec hi hb
    exact ⟨h1, .of_sub hi h2⟩
  | insert v x =>
    simp only [exec, insert, Option.map_eq_some_iff] at he
    obtain ⟨d, hd, he⟩ := he
    obtain ⟨b0, hv, -⟩ := (set_eq hi).1 hd
    split at he
    · simp only [Prod.mk.injEq] at he
      obtain ⟨h1, -, -, h4, -⟩ := unify_assign hi (List.getElem?_eq_some_iff.1 hv).1 (b := if cap (d.insert h x).1.size = (d.insert h x).1.size
        then s.next else s.next + 1) (n := s.next + 2) (by split <;> omega) (by split <;> omega) _ he.2.symm
      exact ⟨h1, h4⟩
    · simp only [Prod.mk.injEq] at he
      rw [← he.2]
      exact ⟨⟨hi.nodup, hi.distinct, hi.empty, fun e he => Nat.lt_succ_of_lt (hi.lt e he), hi.held, hi.used⟩, .of_sub hi fun e he => he⟩
  | erase v x =>
    simp only [exec, Option.map_eq_some_iff] at he
    obtain ⟨d, hd, he⟩ := he
    obtain ⟨b0, hv, -⟩ := (set_eq hi).1 hd
    simp only [Prod.mk.injEq] at he
    obtain ⟨h1, -, -, h4, -⟩ := unify_assign hi (List.getElem?_eq_some_iff.1 hv).1 (le_refl s.next) (Nat.lt_succ_self _) _ he.2.symm
    exact ⟨h1, h4⟩

theorem Reach.inv {h : StrictTotal lt} {cap : Nat → Nat} {n : Nat} {s : FMem E lt} (hr : Reach h cap n s) : Inv s := by
  induction hr with
  | init =>
    refine ⟨by simp [FlatIter.init], by simp [FlatIter.init], by simp [FlatIter.init], by simp [FlatIter.init], ?_, by simp [FlatIter.init]⟩
    intro b hb
    have := List.eq_of_mem_replicate hb
    cases this
  | step _ he ih => exact (exec_spec ih he).1

/-- The element inserted is at its position. -/
theorem getElem?_position (h : StrictTotal lt) : ∀ (l : List E) (x : E), (l.Pairwise fun a b => lt a b = true) →
    (insertBy lt x l)[(l.takeWhile fun y => lt y x).length]? = some x
  | [], x, _ => by simp [insertBy]
  | a :: l, x, hs => by
    have hs' := List.pairwise_cons.1 hs
    unfold insertBy
    by_cases h1 : lt x a = true
    · have h2 : lt a x = false := by
        cases e : lt a x
        · rfl
        · have := h.trans _ _ _ h1 e
          rw [h.irrefl] at this
          cases this
      simp [h1, h2]
    · by_cases h2 : lt a x = true
      · simp only [h1, h2, List.takeWhile_cons, if_true, List.length_cons]
        simpa using getElem?_position h l x hs'.2
      · have := h.eq_of h1 h2
        subst this
        simp [h.irrefl]

theorem getElem?_position_of_mem (h : StrictTotal lt) (d : FSet E lt) {x : E} (hx : x ∈ d.data) : d.data[position d x]? = some x := by
  have := getElem?_position h d.data x d.sorted
  have hl := (FSet.insert_spec h d x).2
  have e : insertBy lt x d.data = d.data := sorted_ext (r := fun a b => lt a b = true) (fun a => by simp [h.irrefl])
    (fun a b c => h.trans a b c) (insertBy_sorted h x d.data d.sorted) d.sorted fun y => by
      rw [mem_insertBy h]
      exact ⟨fun h' => h'.elim (fun e => e ▸ hx) id, .inr⟩
  rw [e] at this
  exact this

theorem insert_data (h : StrictTotal lt) (d : FSet E lt) {x : E} (hx : x ∉ d.data) :
    (d.insert h x).1.data = insertBy lt x d.data ∧ (d.insert h x).1.size = d.size + 1 := by
  have h2 := (FSet.insert_spec h d x).2.2 hx
  have hl := FSet.insertBy_length h x d.data d.sorted
  unfold FSet.insert at h2 ⊢
  simp only at h2 ⊢
  split
  · rename_i h3
    rw [if_pos h3] at h2
    cases h2
  · exact ⟨rfl, hl.2 hx⟩

theorem insert_ins {h : StrictTotal lt} {cap : Nat → Nat} {s s' : FMem E lt} {v : Nat} {x : E} {o : FOut} (hi : Inv s) {d : FSet E lt}
    (hd : s.set v = some d) (he : exec h cap s (.insert v x) = some (o, s')) :
    ∃ it b d', o = .insertion it b ∧ (b = true ↔ x ∉ d.data) ∧ s'.set v = some d' ∧ (∀ y, y ∈ d'.data ↔ y = x ∨ y ∈ d.data) ∧
      (∀ w, w ≠ v → s'.set w = s.set w) ∧
      (x ∉ d.data ∧ cap (d.size + 1) = d.size + 1 ∧ (∀ w, s.set w ≠ some d') → deref s' it = some x) ∧
      (¬ (x ∉ d.data ∧ cap (d.size + 1) = d.size + 1 ∧ ∀ w, s.set w ≠ some d') → deref s' it = none) := by
  obtain ⟨i1, i2⟩ := FSet.insert_spec h d x
  obtain ⟨b0, hv, -⟩ := (set_eq hi).1 hd
  simp only [exec, insert, hd, Option.map_some, Option.some.injEq] at he
  by_cases hx : x ∈ d.data
  · have h2 : (d.insert h x).2 = false := by
      cases e : (d.insert h x).2
      · rfl
      · exact absurd hx (i2.1 e)
    rw [h2] at he
    simp only [Bool.false_eq_true, if_false, Prod.mk.injEq] at he
    obtain ⟨rfl, rfl⟩ := he
    refine ⟨_, _, d, rfl, by simp [hx], hd, fun y => ⟨.inr, fun h' => h'.elim (fun e => e ▸ hx) id⟩, fun w _ => rfl, fun h' => absurd hx h'.1, fun _ => ?_⟩
    unfold deref
    have : FMem.at { s with next := s.next + 1 } s.next = none := by
      cases e : FMem.at { s with next := s.next + 1 } s.next with
      | none => rfl
      | some d =>
        have := hi.lt _ ((FMem.at_eq hi (s := s)).1 e)
        simp at this
    rw [this]; rfl
  · have h2 : (d.insert h x).2 = true := i2.2 hx
    obtain ⟨hda, hsz⟩ := insert_data h d hx
    rw [h2] at he
    simp only [if_true, Prod.mk.injEq] at he
    obtain ⟨rfl, he⟩ := he
    obtain ⟨u1, u2, u3, -, u5, u6⟩ := unify_assign hi (List.getElem?_eq_some_iff.1 hv).1 (b := if cap (d.insert h x).1.size = (d.insert h x).1.size
        then s.next else s.next + 1) (n := s.next + 2) (by split <;> omega) (by split <;> omega) _ he.symm
    refine ⟨_, _, _, rfl, by simp [hx], u2, i1, u3, ?_⟩
    have hheld : (∀ e ∈ s.bufs, e.2 ≠ (d.insert h x).1) ↔ ∀ w, s.set w ≠ some (d.insert h x).1 := by
      constructor
      · intro h1 w hw
        obtain ⟨b, -, hb⟩ := (set_eq hi).1 hw
        exact h1 _ hb rfl
      · intro h1 e he1 he2
        rcases hi.used e he1 with h3 | h3
        · have : e = (0, FSet.empty) := List.inj_on_of_nodup_map hi.nodup he1 hi.empty h3
          rw [this] at he2
          have := (i1 x).2 (.inl rfl)
          rw [← he2] at this
          simp [FSet.Mem, FSet.empty] at this
        · obtain ⟨w, hw, hw'⟩ := List.mem_iff_getElem.1 h3
          exact h1 w ((set_eq hi).2 ⟨e.1, by rw [List.getElem?_eq_getElem hw, hw'], he2 ▸ he1⟩)
    have hat : ∀ d', FMem.at s' s.next = some d' ↔ cap (d.size + 1) = d.size + 1 ∧ (∀ w, s.set w ≠ some (d.insert h x).1) ∧
        d' = (d.insert h x).1 := by
      intro d'
      rw [FMem.at_eq u1, ← hheld, ← u5, hsz]
      constructor
      · intro hm
        rcases u6 _ hm with h1 | h1
        · have := hi.lt _ h1
          simp at this
        · rw [hsz] at h1
          by_cases hc : cap (d.size + 1) = d.size + 1
          · rw [if_pos hc] at h1 ⊢
            cases h1
            exact ⟨hc, hm, rfl⟩
          · rw [if_neg hc] at h1
            simp at h1
      · rintro ⟨hc, hm, rfl⟩
        rw [if_pos hc] at hm
        exact hm
    refine ⟨fun hcond => ?_, fun hcond => ?_⟩
    · unfold deref
      rw [(hat _).2 ⟨hcond.2.1, hcond.2.2, rfl⟩, Option.bind_some, hda]
      exact getElem?_position h d.data x d.sorted
    · unfold deref
      cases e : FMem.at s' s.next with
      | none => rfl
      | some d' =>
        obtain ⟨h3, h4, -⟩ := (hat d').1 e
        exact absurd ⟨hx, h3, h4⟩ hcond

end FlatIter
end Verif
