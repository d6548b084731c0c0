import Verif.Mem.HeapSem
/-!
# The operations kept by the caches, in memory

A cache keeps operations and their results (`/repo/sdd/mem/cache_entry.hh`): an operation holds handles on its operands, an entry holds a handle on
the result.  Operations are found again by comparing the *addresses* of operands.  Here operations and entries are put in the memory of `Mem/Heap`,
where objects are deleted when no handle holds them and where addresses are used again.

An operation or an entry is made of places (`vars` of `Mem/Heap`) where handles are: `owned`.  The other places are the variables of the code of the
user and of the library.

Simplifications: the buckets and the list of entries of each cache are in `Mem/Cache`; here there is one list of the entries of all the caches, each one
with the number (`tag`) of its cache, and the entry to evict, if any, is chosen by the environment.  The code reads the operands of the operation which
is being evaluated by references; here they are copied first.
-/

set_option autoImplicit false
set_option linter.unusedSectionVars false

namespace Verif
namespace OpMem
open Heap

/-- An operation: a sum or an intersection, with its array of operands (a null pointer when it has been moved from) and its number of operands
(`/repo/sdd/dd/nary.hh:41-46`), or a structure with some handles: `difference_op` (`/repo/sdd/dd/difference.hh:133-138`), `cached_homomorphism`
(`/repo/sdd/hom/evaluation.hh:84-92`, where the order is not a handle). -/
inductive COp : Type where
  | nary (operands : Option (List Nat)) (size : Nat)
  | fixed (members : List Nat)
  deriving DecidableEq

/-- Where the operands which are visited are: `begin()` and `end()`, `/repo/sdd/dd/nary.hh:83-97`; for others, the members. -/
def COp.visited : COp → List Nat
  | .nary none _ => []
  | .nary (some arr) n => arr.take n
  | .fixed ms => ms

/-- An entry of a cache, `/repo/sdd/mem/cache_entry.hh:28-36`. -/
structure Entry : Type where
  tag : Nat
  op : COp
  result : Nat
  deriving DecidableEq

/-- Memory, with the entries of the caches and the operations which are being evaluated (those of the calls of `cache::operator()` which are at
line 239 of `/repo/sdd/mem/cache.hh`, the last one first). -/
structure Mach (L : Type) where
  heap : State L
  entries : List Entry
  pending : List (Nat × COp)

/-- How an operation gets its operands: a sum or an intersection from its builder (`/repo/sdd/dd/nary.hh:49-57`), a structure by moves
(`/repo/sdd/dd/difference.hh:185`) or by copies (`/repo/sdd/hom/definition.hh:192-205`). -/
inductive Shape : Type where
  | nary
  | moved
  | copied
  deriving DecidableEq

section
variable {L : Type} [DecidableEq L] (hash : Key L → Nat) (bytes : Key L → Nat) (bits : Nat)

/-- Statements on handles, one after the other. (`/repo/sdd/mem/ptr.hh`, lines 76-150.) -/
def execs : List (Op L) → State L → Option (State L)
  | [], s => some s
  | op :: ops, s => (exec hash bytes s op).bind (execs ops)

/-- The construction of an operation from the handles of the places `ps.map Prod.fst`, in the places `ps.map Prod.snd`:
`nary_builder::consolidate`, `/repo/sdd/dd/nary.hh:246-257`, with the number of operands of line 53 on `bits` bits; or the initialisation
of a structure, `/repo/sdd/dd/difference.hh:185` and `/repo/sdd/hom/definition.hh:204`. -/
def build (sh : Shape) (ps : List (Nat × Nat)) (s : State L) : Option (COp × State L) :=
  match sh with
  | .nary => (execs hash bytes (ps.map fun p => .move p.2 p.1) s).map fun s' => (.nary (some (ps.map Prod.snd)) (ps.length % 2 ^ bits), s')
  | .moved => (execs hash bytes (ps.map fun p => .move p.2 p.1) s).map fun s' => (.fixed (ps.map Prod.snd), s')
  | .copied => (execs hash bytes (ps.map fun p => .copy p.2 p.1) s).map fun s' => (.fixed (ps.map Prod.snd), s')

/-- The destruction of an operation: the destructor of `/repo/sdd/dd/nary.hh:70-81`, or the one of a structure, whose members are destroyed from
the last to the first. (The members of `/repo/sdd/dd/difference.hh:133-138` and `/repo/sdd/hom/evaluation.hh:84-92`.) -/
def COp.destroy (o : COp) (s : State L) : Option (State L) :=
  match o with
  | .nary _ _ => execs hash bytes (o.visited.map .destroy) s
  | .fixed ms => execs hash bytes (ms.reverse.map .destroy) s

/-- The move of an operation: the new one, and the one which has been moved from. The pointer is taken, `/repo/sdd/dd/nary.hh:60-67`; the members of
structures are `const`, hence copied (in the places `ds`). (`/repo/sdd/dd/difference.hh:133-138`, `/repo/sdd/hom/evaluation.hh:84-92`.) -/
def COp.move (o : COp) (ds : List Nat) (s : State L) : Option (COp × COp × State L) :=
  match o with
  | .nary arr n => some (.nary arr n, .nary none n, s)
  | .fixed ms => (execs hash bytes ((ms.zip ds).map fun p => .copy p.2 p.1) s).map fun s' => (.fixed ds, .fixed ms, s')

/-- What is compared, `/repo/sdd/dd/nary.hh:123-129`, `/repo/sdd/dd/difference.hh:150-156`, `/repo/sdd/hom/evaluation.hh:105-111`: addresses. -/
def COp.key (s : State L) (o : COp) : Option (List Addr) := o.visited.mapM (target s)

/-- The look-up of an operation in a cache, `/repo/sdd/mem/cache.hh:220-225`. -/
def find (s : State L) (es : List Entry) (tag : Nat) (o : COp) : Option Entry :=
  es.find? fun e => e.tag == tag && decide (e.op.key s = o.key s)

/-- The destruction of an entry: its result, then its operation. (`/repo/sdd/mem/cache_entry.hh:28-36`.) -/
def Entry.destroy (e : Entry) (s : State L) : Option (State L) :=
  (exec hash bytes s (.destroy e.result)).bind (e.op.destroy hash bytes)

/-- The destruction of entries, one after the other. (`/repo/sdd/mem/cache.hh:267-275`.) -/
def destroyAll : List Entry → State L → Option (State L)
  | [], s => some s
  | e :: es, s => (e.destroy hash bytes s).bind (destroyAll es)

/-- The eviction of an entry, `/repo/sdd/mem/cache.hh:242-250`. -/
def evict (ev : Option Nat) (es : List Entry) (s : State L) : Option (List Entry × State L) :=
  match ev with
  | none => some (es, s)
  | some i => es[i]?.bind fun e => (e.destroy hash bytes s).map fun s' => (es.eraseIdx i, s')

/-- What happens: a statement of the user or of the library on its variables; a call of a cache (`v` gets the result when it is known); a copy to
`v` of the operand `j` of the operation `i` which is being evaluated; the end of the evaluation of the last operation, whose result is in `res`
and which is put in its cache, then returned in `v`; its end when it throws, or when the operation is not to be cached; the removal of all the
entries of a cache. (`/repo/sdd/mem/cache.hh`, lines 211-276.) -/
inductive Act (L : Type) : Type where
  | user (op : Op L)
  | call (tag : Nat) (cached : Bool) (sh : Shape) (ps : List (Nat × Nat)) (v : Nat)
  | operand (v i j : Nat)
  | finish (res : Nat) (ev : Option Nat) (ds : List Nat) (r v : Nat)
  | leave
  | clear (tag : Nat)

/-- The execution of an action; `none`: undefined behaviour. `/repo/sdd/mem/cache.hh`: lines 211-234 (`call`), 236-261 (`finish`), 267-275
(`clear`). -/
def run (m : Mach L) : Act L → Option (Mach L)
  | .user op => (exec hash bytes m.heap op).map fun s => { m with heap := s }
  | .call tag cached sh ps v =>
    (build hash bytes bits sh ps m.heap).bind fun (o, s) =>
      match if cached then find s m.entries tag o else none with
      | some e =>
        -- the result is copied, line 233, then `op` is destroyed by the caller
        (exec hash bytes s (.copy v e.result)).bind fun s => (o.destroy hash bytes s).map fun s => { m with heap := s }
      | none => some { m with heap := s, pending := (tag, o) :: m.pending }
  | .operand v i j =>
    m.pending[i]?.bind fun p => p.2.visited[j]?.bind fun w => (exec hash bytes m.heap (.copy v w)).map fun s => { m with heap := s }
  | .finish res ev ds r v =>
    match m.pending with
    | [] => none
    | (tag, o) :: ps =>
      (evict hash bytes ev m.entries m.heap).bind fun (es, s) =>
        -- line 252
        (o.move hash bytes ds s).bind fun (o1, o2, s) =>
          (exec hash bytes s (.move r res)).bind fun s =>
            -- line 260, then `res` is destroyed, and `op` by the caller
            (exec hash bytes s (.copy v r)).bind fun s =>
              (exec hash bytes s (.destroy res)).bind fun s =>
                (o2.destroy hash bytes s).map fun s => ⟨s, es ++ [⟨tag, o1, r⟩], ps⟩
  | .leave =>
    match m.pending with
    | [] => none
    | (_, o) :: ps => (o.destroy hash bytes m.heap).map fun s => { m with heap := s, pending := ps }
  | .clear tag =>
    (destroyAll hash bytes (m.entries.filter fun e => e.tag == tag) m.heap).map fun s =>
      { m with heap := s, entries := m.entries.filter fun e => !(e.tag == tag) }

/-- The places where the handles of operations and entries are. (Specification, not part of the code.) -/
def Mach.owned (m : Mach L) : List Nat := m.entries.flatMap (fun e => e.result :: e.op.visited) ++ m.pending.flatMap fun p => p.2.visited

/-- The variables of a statement. (Specification, not part of the code.) -/
def opVars : Op L → List Nat
  | .create v _ ks _ => v :: ks
  | .copy v w | .move v w | .copyAssign v w | .moveAssign v w | .swap v w => [v, w]
  | .destroy v => [v]
  | .read v w _ | .readAssign v w _ => [v, w]

/-- A place which is not used. (Specification, not part of the code.) -/
def Mach.Fresh (m : Mach L) (v : Nat) : Prop := m.heap.vars[v]? = some .dead ∧ v ∉ m.owned

/-- A variable which holds something. (Specification, not part of the code.) -/
def Mach.Var (m : Mach L) (v : Nat) : Prop := (∃ a, m.heap.vars[v]? = some (.live a)) ∧ v ∉ m.owned

/-- What may happen: statements are valid (`Heap.Valid`) and are on variables; operations are built from different variables which hold something
and, for sums and intersections, their number fits in `bits` bits; new handles are in places which are not used; there is an
operation to finish, and the entry to evict exists and is in the same cache. (Model of the environment: what the user or the system does.) -/
def Valid (m : Mach L) : Act L → Prop
  | .user op => Heap.Valid m.heap op ∧ ∀ v ∈ opVars op, v ∉ m.owned
  | .call _ _ sh ps v => (∀ p ∈ ps, m.Var p.1) ∧ (ps.map Prod.fst).Nodup ∧ (∀ b ∈ v :: ps.map Prod.snd, m.Fresh b) ∧
      (v :: ps.map Prod.snd).Nodup ∧ (sh = .nary → ps.length < 2 ^ bits)
  | .operand v i j => m.Fresh v ∧ ∃ p, m.pending[i]? = some p ∧ j < p.2.visited.length
  | .finish res ev ds r v => m.Var res ∧ (∀ b ∈ v :: r :: ds, m.Fresh b) ∧ (v :: r :: ds).Nodup ∧
      (∃ tag o ps, m.pending = (tag, o) :: ps ∧ (∀ ms, o = .fixed ms → ms.length = ds.length) ∧
        ∀ i, ev = some i → ∃ e, m.entries[i]? = some e ∧ e.tag = tag)
  | .leave => m.pending ≠ []
  | .clear _ => True

/-! ## The same with values -/

/-- Values of variables, entries and operations being evaluated, when data are values. (Specification, not part of the code.) -/
structure VMach (L : Type) where
  vars : List (VSlot L)
  entries : List (Nat × List (Tree L) × Tree L)
  pending : List (Nat × List (Tree L))

/-- What actions mean when data are values: a cache associates results to operations on values. (Specification, not part of the code.) -/
def vrun [DecidableEq (Tree L)] (m : VMach L) : Act L → Option (VMach L)
  | .user op => (vexec m.vars op).map fun V => { m with vars := V }
  | .call tag cached sh ps v =>
    ((ps.map Prod.fst).mapM (vtarget m.vars)).bind fun ts =>
      let V := if sh = .copied then m.vars else (ps.map Prod.fst).foldl (fun V e => V.set e .moved) m.vars
      match if cached then m.entries.find? (fun f => f.1 == tag && decide (f.2.1 = ts)) else none with
      | some f => some { m with vars := V.set v (.val f.2.2) }
      | none => some { m with vars := V, pending := (tag, ts) :: m.pending }
  | .operand v i j => m.pending[i]?.bind fun p => p.2[j]?.map fun t => { m with vars := m.vars.set v (.val t) }
  | .finish res ev _ _ v =>
    match m.pending with
    | [] => none
    | (tag, ts) :: ps => (vtarget m.vars res).map fun t =>
      ⟨(m.vars.set v (.val t)).set res .dead, (match ev with | none => m.entries | some i => m.entries.eraseIdx i) ++ [(tag, ts, t)], ps⟩
  | .leave =>
    match m.pending with
    | [] => none
    | _ :: ps => some { m with pending := ps }
  | .clear tag => some { m with entries := m.entries.filter fun f => !(f.1 == tag) }

end

/-! ## Statements and places -/

section
variable {L : Type} [DecidableEq L] {hash : Key L → Nat} {bytes : Key L → Nat}

/-- What is outside of the places `F` is not changed. (Proof device, not part of the code.) -/
structure Pres (hash : Key L → Nat) (F : List Nat) (s s' : State L) : Prop where
  inv : Inv hash [] s'
  vars : ∀ v, v ∉ F → s'.vars[v]? = s.vars[v]?
  holds : ∀ v t, v ∉ F → Holds s v t → Holds s' v t
  len : s'.vars.length = s.vars.length

theorem Pres.refl {s : State L} (h : Inv hash [] s) : Pres hash [] s s := ⟨h, fun _ _ => rfl, fun _ _ _ h => h, rfl⟩

theorem Pres.mono {F G : List Nat} {s s' : State L} (h : Pres hash F s s') (hs : F ⊆ G) : Pres hash G s s' :=
  ⟨h.inv, fun v hv => h.vars v fun h => hv (hs h), fun v t hv => h.holds v t fun h => hv (hs h), h.len⟩

theorem Pres.trans {F : List Nat} {s s' s'' : State L} (h : Pres hash F s s') (h' : Pres hash F s' s'') : Pres hash F s s'' :=
  ⟨h'.inv, fun v hv => (h'.vars v hv).trans (h.vars v hv), fun v t hv ht => h'.holds v t hv (h.holds v t hv ht), h'.len.trans h.len⟩

/-- The variables which a statement changes. (Proof device, not part of the code.) -/
def opWrites : Op L → List Nat
  | .create v _ _ _ | .copy v _ | .copyAssign v _ | .destroy v | .read v _ _ | .readAssign v _ _ => [v]
  | .move v w | .moveAssign v w | .swap v w => [v, w]

theorem effect_frame {s : State L} {V V' : List Slot} {op : Op L} (h : VarsEffect s V V' op) :
    V'.length = V.length ∧ ∀ v, v ∉ opWrites op → V'[v]? = V[v]? := by
  have h1 : ∀ (u : Nat) (x : Slot), (V.set u x).length = V.length ∧ ∀ v, v ∉ [u] → (V.set u x)[v]? = V[v]? := by
    intro u x
    refine ⟨List.length_set .., fun v hv => ?_⟩
    rw [List.getElem?_set_ne]
    rintro rfl
    simp at hv
  have h2 : ∀ (u w : Nat) (x y : Slot), ((V.set u x).set w y).length = V.length ∧ ∀ v, v ∉ [u, w] → ((V.set u x).set w y)[v]? = V[v]? := by
    intro u w x y
    refine ⟨by simp, fun v hv => ?_⟩
    simp only [List.mem_cons, List.not_mem_nil, or_false, not_or] at hv
    rw [List.getElem?_set_ne (Ne.symm hv.2), List.getElem?_set_ne (Ne.symm hv.1)]
  cases op with
  | create v l ks fr => obtain ⟨a, rfl⟩ := h; exact h1 _ _
  | copy v w => obtain ⟨x, -, rfl⟩ := h; exact h1 _ _
  | copyAssign v w => obtain ⟨x, -, rfl⟩ := h; exact h1 _ _
  | move v w => obtain ⟨x, -, rfl⟩ := h; exact h2 _ _ _ _
  | moveAssign v w => obtain ⟨x, -, rfl⟩ := h; exact h2 _ _ _ _
  | destroy v => cases h; exact h1 _ _
  | swap v w => obtain ⟨x, y, -, -, rfl⟩ := h; exact h2 _ _ _ _
  | read v w i => obtain ⟨k, -, rfl⟩ := h; exact h1 _ _
  | readAssign v w i => obtain ⟨k, -, rfl⟩ := h; exact h1 _ _

/-- A statement and the variables it does not change. -/
theorem exec_pres {s : State L} (h : Inv hash [] s) {op : Op L} (hv : Heap.Valid s op) :
    ∃ s', exec hash bytes s op = some s' ∧ Pres hash (opWrites op) s s' ∧ VarsEffect s s.vars s'.vars op := by
  obtain ⟨s', e, i, hk⟩ := exec_inv (bytes := bytes) h hv
  have heff := exec_vars h hv e
  obtain ⟨hl, hf⟩ := effect_frame heff
  refine ⟨s', e, ⟨i, hf, ?_, hl⟩, heff⟩
  rintro v t hv ⟨a, ha, hd⟩
  have ha' : s'.vars[v]? = some (.live a) := (hf v hv).trans ha
  obtain ⟨c, hc⟩ := i.cell_of_var ha'
  exact ⟨a, ha', denotes_keeps i hk t hd (by rw [hc]; rfl)⟩

theorem holds_live {s : State L} {v : Nat} {t : Tree L} (h : Holds s v t) : ∃ a, s.vars[v]? = some (.live a) := h.imp fun _ h => h.1

/-- The copy of a handle. -/
theorem exec_copy {s : State L} (h : Inv hash [] s) {d w : Nat} {t : Tree L} (hd : s.vars[d]? = some .dead) (hw : Holds s w t) :
    ∃ s', exec hash bytes s (.copy d w) = some s' ∧ Pres hash [d] s s' ∧ Holds s' d t := by
  obtain ⟨s', e, hp, he⟩ := exec_pres (bytes := bytes) (op := .copy d w) h ⟨hd, holds_live hw⟩
  refine ⟨s', e, hp, ?_⟩
  have hne : w ∉ [d] := by
    rintro h
    rw [List.mem_singleton.1 h] at hw
    obtain ⟨a, ha⟩ := holds_live hw
    rw [hd] at ha
    cases ha
  obtain ⟨a, ha, hd'⟩ := hp.holds w t hne hw
  obtain ⟨x, hx, hV⟩ := he
  refine ⟨a, ?_, hd'⟩
  rw [hp.vars w hne, hx] at ha
  rw [hV, List.getElem?_set_self (List.getElem?_eq_some_iff.1 hd).1]
  exact ha

/-- The move of a handle. -/
theorem exec_move {s : State L} (h : Inv hash [] s) {d w : Nat} {t : Tree L} (hd : s.vars[d]? = some .dead) (hw : Holds s w t) :
    ∃ s', exec hash bytes s (.move d w) = some s' ∧ Pres hash [d, w] s s' ∧ Holds s' d t ∧ s'.vars[w]? = some .moved := by
  obtain ⟨a, ha, hden⟩ := hw
  have hne : d ≠ w := by
    rintro rfl
    rw [hd] at ha
    cases ha
  obtain ⟨s', e, hp, he⟩ := exec_pres (bytes := bytes) (op := .move d w) h ⟨hd, _, ha, by simp⟩
  obtain ⟨x, hx, hV⟩ := he
  have hld := (List.getElem?_eq_some_iff.1 hd).1
  have hlw := (List.getElem?_eq_some_iff.1 ha).1
  rw [ha] at hx
  cases hx
  have hd' : s'.vars[d]? = some (.live a) := by rw [hV, List.getElem?_set_ne hne.symm, List.getElem?_set_self hld]
  refine ⟨s', e, hp, ⟨a, hd', ?_⟩, by rw [hV, List.getElem?_set_self (by simpa using hlw)]⟩
  obtain ⟨s1, e1, i, hk⟩ := exec_inv (bytes := bytes) (op := .move d w) h ⟨hd, _, ha, by simp⟩
  rw [e] at e1
  cases e1
  obtain ⟨c, hc⟩ := i.cell_of_var hd'
  exact denotes_keeps i hk t hden (by rw [hc]; rfl)

/-- The destruction of a handle. -/
theorem exec_destroy {s : State L} (h : Inv hash [] s) {v : Nat} {x : Slot} (hv : s.vars[v]? = some x) (hx : x ≠ .dead) :
    ∃ s', exec hash bytes s (.destroy v) = some s' ∧ Pres hash [v] s s' ∧ s'.vars[v]? = some .dead := by
  obtain ⟨s', e, hp, he⟩ := exec_pres (bytes := bytes) (op := .destroy v) h ⟨x, hv, hx⟩
  refine ⟨s', e, hp, ?_⟩
  rw [show s'.vars = s.vars.set v .dead from he, List.getElem?_set_self (List.getElem?_eq_some_iff.1 hv).1]

theorem execs_append (ops ops' : List (Op L)) (s : State L) :
    execs hash bytes (ops ++ ops') s = (execs hash bytes ops s).bind (execs hash bytes ops') := by
  induction ops generalizing s with
  | nil => rfl
  | cons op ops ih =>
    simp only [List.cons_append, execs]
    cases exec hash bytes s op with
    | none => rfl
    | some s' => exact ih s'

theorem forall₂_holds {s s' : State L} {F vs : List Nat} {ts : List (Tree L)} (hp : Pres hash F s s') (h : List.Forall₂ (Holds s) vs ts)
    (hd : ∀ v ∈ vs, v ∉ F) : List.Forall₂ (Holds s') vs ts := by
  induction h with
  | nil => exact .nil
  | cons h _ ih => exact .cons (hp.holds _ _ (hd _ (by simp)) h) (ih fun v hv => hd v (by simp [hv]))

theorem mem_forall₂ {α β : Type} {R : α → β → Prop} {l : List α} {l' : List β} (h : List.Forall₂ R l l') {x : α} (hx : x ∈ l) :
    ∃ y ∈ l', R x y := by
  induction h with
  | nil => cases hx
  | cons h _ ih =>
    rcases List.mem_cons.1 hx with rfl | hx
    · exact ⟨_, by simp, h⟩
    · obtain ⟨y, hy, h⟩ := ih hx
      exact ⟨y, by simp [hy], h⟩

/-- Copies of handles. -/
theorem execs_copy : ∀ (ps : List (Nat × Nat)) {s : State L} {ts : List (Tree L)}, Inv hash [] s → (ps.map Prod.snd).Nodup →
    (∀ b ∈ ps.map Prod.snd, s.vars[b]? = some .dead) → List.Forall₂ (Holds s) (ps.map Prod.fst) ts →
    ∃ s', execs hash bytes (ps.map fun p => .copy p.2 p.1) s = some s' ∧ Pres hash (ps.map Prod.snd) s s' ∧
      List.Forall₂ (Holds s') (ps.map Prod.snd) ts
  | [], s, ts, h, _, _, ht => by cases ht; exact ⟨s, rfl, .refl h, .nil⟩
  | (e, b) :: ps, s, ts, h, hn, hb, ht => by
    obtain ⟨t, ts, rfl⟩ : ∃ t ts', ts = t :: ts' := by cases ht; exact ⟨_, _, rfl⟩
    obtain ⟨h1, h2⟩ := List.forall₂_cons.1 ht
    rw [List.map_cons, List.nodup_cons] at hn
    obtain ⟨s1, e1, p1, h3⟩ := exec_copy (bytes := bytes) h (hb b (by simp)) h1
    have hlive : ∀ v ∈ ps.map Prod.fst, v ∉ [b] := by
      intro v hv hvb
      rw [List.mem_singleton.1 hvb] at hv
      obtain ⟨u, -, hu⟩ := mem_forall₂ h2 hv
      obtain ⟨a, ha⟩ := holds_live hu
      rw [hb b (by simp)] at ha
      cases ha
    obtain ⟨s2, e2, p2, h4⟩ := execs_copy ps p1.inv hn.2
      (fun v hv => by rw [p1.vars v fun h => hn.1 (by rw [← List.mem_singleton.1 h]; exact hv)]; exact hb v (by simp only [List.map_cons, List.mem_cons]; exact .inr hv))
      (forall₂_holds p1 h2 hlive)
    refine ⟨s2, by simp only [List.map_cons, execs, e1, Option.bind_some, e2],
      (p1.mono (by simp)).trans (p2.mono (by simp)), .cons (p2.holds b t hn.1 h3) h4⟩

/-- Moves of handles. -/
theorem execs_move : ∀ (ps : List (Nat × Nat)) {s : State L} {ts : List (Tree L)}, Inv hash [] s → (ps.map Prod.fst).Nodup →
    (ps.map Prod.snd).Nodup → (∀ b ∈ ps.map Prod.snd, s.vars[b]? = some .dead) → List.Forall₂ (Holds s) (ps.map Prod.fst) ts →
    ∃ s', execs hash bytes (ps.map fun p => .move p.2 p.1) s = some s' ∧ Pres hash (ps.map Prod.fst ++ ps.map Prod.snd) s s' ∧
      List.Forall₂ (Holds s') (ps.map Prod.snd) ts ∧ ∀ e ∈ ps.map Prod.fst, s'.vars[e]? = some .moved
  | [], s, ts, h, _, _, _, ht => by cases ht; exact ⟨s, rfl, .refl h, .nil, by simp⟩
  | (e, b) :: ps, s, ts, h, hm, hn, hb, ht => by
    obtain ⟨t, ts, rfl⟩ : ∃ t ts', ts = t :: ts' := by cases ht; exact ⟨_, _, rfl⟩
    obtain ⟨h1, h2⟩ := List.forall₂_cons.1 ht
    rw [List.map_cons, List.nodup_cons] at hn hm
    have hlive : ∀ v ∈ e :: ps.map Prod.fst, v ∉ b :: ps.map Prod.snd := by
      intro v hv hvb
      obtain ⟨u, -, hu⟩ := mem_forall₂ ht hv
      obtain ⟨a, ha⟩ := holds_live hu
      rw [hb v hvb] at ha
      cases ha
    obtain ⟨s1, e1, p1, h3, h3'⟩ := exec_move (bytes := bytes) h (hb b (by simp)) h1
    obtain ⟨s2, e2, p2, h4, h5⟩ := execs_move ps p1.inv hm.2 hn.2
      (fun v hv => by
        rw [p1.vars v fun h => ?_]
        · exact hb v (by simp only [List.map_cons, List.mem_cons]; exact .inr hv)
        · simp only [List.mem_cons, List.not_mem_nil, or_false] at h
          rcases h with rfl | rfl
          · exact hn.1 hv
          · exact hlive v (by simp) (List.mem_cons_of_mem _ hv))
      (forall₂_holds p1 h2 fun v hv h => by
        simp only [List.mem_cons, List.not_mem_nil, or_false] at h
        rcases h with rfl | rfl
        · exact hlive v (List.mem_cons_of_mem _ hv) (by simp)
        · exact hm.1 hv)
    have hbn : b ∉ ps.map Prod.fst ++ ps.map Prod.snd := by
      rw [List.mem_append, not_or]
      exact ⟨fun h => hlive b (List.mem_cons_of_mem _ h) (by simp), hn.1⟩
    have hen : e ∉ ps.map Prod.fst ++ ps.map Prod.snd := by
      rw [List.mem_append, not_or]
      exact ⟨hm.1, fun h => hlive e (by simp) (List.mem_cons_of_mem _ h)⟩
    refine ⟨s2, by simp only [List.map_cons, execs, e1, Option.bind_some, e2], (p1.mono ?_).trans (p2.mono ?_),
      .cons (p2.holds b t hbn h3) h4, ?_⟩
    · intro v hv; simp only [List.mem_cons, List.not_mem_nil, or_false] at hv; rcases hv with rfl | rfl <;> simp
    · intro v hv; simp only [List.map_cons, List.mem_append, List.mem_cons] at hv ⊢; tauto
    · intro v hv
      rcases List.mem_cons.1 hv with rfl | hv
      · rw [p2.vars _ hen]; exact h3'
      · exact h5 v hv

/-- Destructions of handles. -/
theorem execs_destroy : ∀ (vs : List Nat) {s : State L}, Inv hash [] s → vs.Nodup → (∀ v ∈ vs, ∃ x, s.vars[v]? = some x ∧ x ≠ .dead) →
    ∃ s', execs hash bytes (vs.map .destroy) s = some s' ∧ Pres hash vs s s' ∧ ∀ v ∈ vs, s'.vars[v]? = some .dead
  | [], s, h, _, _ => ⟨s, rfl, .refl h, by simp⟩
  | v :: vs, s, h, hn, hv => by
    rw [List.nodup_cons] at hn
    obtain ⟨x, hx, hx'⟩ := hv v (by simp)
    obtain ⟨s1, e1, p1, h1⟩ := exec_destroy (bytes := bytes) h hx hx'
    obtain ⟨s2, e2, p2, h2⟩ := execs_destroy vs p1.inv hn.2 fun w hw => by
      rw [p1.vars w fun h => hn.1 (by rw [← List.mem_singleton.1 h]; exact hw)]
      exact hv w (by simp [hw])
    refine ⟨s2, by simp only [List.map_cons, execs, e1, Option.bind_some, e2], (p1.mono (by simp)).trans (p2.mono (by simp)), ?_⟩
    intro w hw
    rcases List.mem_cons.1 hw with rfl | hw
    · rw [p2.vars _ hn.1]; exact h1
    · exact h2 w hw

/-! ## Machines and values -/

/-- All the operands are visited. (Proof device, not part of the code.) -/
def COp.Full : COp → Prop
  | .nary none _ => False
  | .nary (some arr) n => n = arr.length
  | .fixed _ => True

/-- An entry and what it stands for. (Specification or proof device, not part of the code.) -/
def EntRel (s : State L) (e : Entry) (f : Nat × List (Tree L) × Tree L) : Prop :=
  e.tag = f.1 ∧ e.op.Full ∧ List.Forall₂ (Holds s) e.op.visited f.2.1 ∧ Holds s e.result f.2.2

/-- An operation being evaluated and what it stands for. (Specification or proof device, not part of the code.) -/
def PendRel (s : State L) (p : Nat × COp) (q : Nat × List (Tree L)) : Prop :=
  p.1 = q.1 ∧ p.2.Full ∧ List.Forall₂ (Holds s) p.2.visited q.2

/-- A machine and what it stands for. (Specification or proof device, not part of the code.) -/
structure Rel (hash : Key L → Nat) (m : Mach L) (w : VMach L) : Prop where
  inv : Inv hash [] m.heap
  nodup : m.owned.Nodup
  ents : List.Forall₂ (EntRel m.heap) m.entries w.entries
  pend : List.Forall₂ (PendRel m.heap) m.pending w.pending
  len : w.vars.length = m.heap.vars.length
  own : ∀ v ∈ m.owned, w.vars[v]? = some .dead
  usr : ∀ v, v ∉ m.owned → v < m.heap.vars.length →
    ∃ x y, m.heap.vars[v]? = some x ∧ w.vars[v]? = some y ∧ SlotRel m.heap x y

variable {m : Mach L} {w : VMach L}

theorem slot_pres {F : List Nat} {s s' : State L} (hp : Pres hash F s s') {v : Nat} {x : Slot} {y : VSlot L} (hv : v ∉ F)
    (hx : s.vars[v]? = some x) (hr : SlotRel s x y) : s'.vars[v]? = some x ∧ SlotRel s' x y := by
  refine ⟨(hp.vars v hv).trans hx, ?_⟩
  cases x with
  | dead => cases y <;> exact hr
  | moved => cases y <;> exact hr
  | live a =>
    cases y with
    | dead => exact hr
    | moved => exact hr
    | val t =>
      obtain ⟨b, hb, hd⟩ := hp.holds v t hv ⟨a, hx, hr⟩
      rw [hp.vars v hv, hx] at hb
      cases hb
      exact hd

theorem ent_pres {F : List Nat} {s s' : State L} (hp : Pres hash F s s') {e : Entry} {f : Nat × List (Tree L) × Tree L} (h : EntRel s e f)
    (hd : ∀ v ∈ e.result :: e.op.visited, v ∉ F) : EntRel s' e f :=
  ⟨h.1, h.2.1, forall₂_holds hp h.2.2.1 fun v hv => hd v (by simp [hv]), hp.holds _ _ (hd _ (by simp)) h.2.2.2⟩

theorem pend_pres {F : List Nat} {s s' : State L} (hp : Pres hash F s s') {p : Nat × COp} {q : Nat × List (Tree L)} (h : PendRel s p q)
    (hd : ∀ v ∈ p.2.visited, v ∉ F) : PendRel s' p q :=
  ⟨h.1, h.2.1, forall₂_holds hp h.2.2 hd⟩

theorem forall₂_mem {α β : Type} {R Q : α → β → Prop} {l : List α} {l' : List β} (h : List.Forall₂ R l l')
    (hi : ∀ x y, x ∈ l → R x y → Q x y) : List.Forall₂ Q l l' := forall₂_imp h hi

/-- The places of an operation or an entry hold something. -/
theorem Rel.owned_holds (h : Rel hash m w) {v : Nat} (hv : v ∈ m.owned) : ∃ t, Holds m.heap v t := by
  unfold Mach.owned at hv
  rw [List.mem_append, List.mem_flatMap, List.mem_flatMap] at hv
  rcases hv with ⟨e, he, hv⟩ | ⟨p, hp, hv⟩
  · obtain ⟨f, -, -, -, h1, h2⟩ := mem_forall₂ h.ents he
    rcases List.mem_cons.1 hv with rfl | hv
    · exact ⟨_, h2⟩
    · obtain ⟨t, -, ht⟩ := mem_forall₂ h1 hv
      exact ⟨t, ht⟩
  · obtain ⟨f, -, -, -, h1⟩ := mem_forall₂ h.pend hp
    obtain ⟨t, -, ht⟩ := mem_forall₂ h1 hv
    exact ⟨t, ht⟩

theorem Rel.fresh (h : Rel hash m w) {v : Nat} (hv : m.Fresh v) : w.vars[v]? = some .dead := by
  obtain ⟨x, y, hx, hy, hr⟩ := h.usr v hv.2 (List.getElem?_eq_some_iff.1 hv.1).1
  rw [hv.1] at hx
  cases hx
  cases y with
  | dead => exact hy
  | moved => exact hr.elim
  | val t => exact hr.elim

theorem Rel.var (h : Rel hash m w) {v : Nat} (hv : m.Var v) : ∃ t, w.vars[v]? = some (.val t) ∧ Holds m.heap v t := by
  obtain ⟨⟨a, ha⟩, hv⟩ := hv
  obtain ⟨x, y, hx, hy, hr⟩ := h.usr v hv (List.getElem?_eq_some_iff.1 ha).1
  rw [ha] at hx
  cases hx
  cases y with
  | dead => exact hr.elim
  | moved => exact hr.elim
  | val t => exact ⟨t, hy, a, ha, hr⟩

/-- What is to be checked after a change. -/
theorem Rel.step (h : Rel hash m w) {F : List Nat} {m' : Mach L} {w' : VMach L} (hp : Pres hash F m.heap m'.heap)
    (hents : List.Forall₂ (EntRel m'.heap) m'.entries w'.entries) (hpend : List.Forall₂ (PendRel m'.heap) m'.pending w'.pending)
    (hnd : m'.owned.Nodup) (hlen : w'.vars.length = w.vars.length)
    (hF : ∀ v ∈ F, (v ∈ m'.owned ∧ w'.vars[v]? = some .dead) ∨ (v ∉ m'.owned ∧ (v < m'.heap.vars.length →
      ∃ x y, m'.heap.vars[v]? = some x ∧ w'.vars[v]? = some y ∧ SlotRel m'.heap x y)))
    (hO : ∀ v, v ∉ F → (v ∈ m'.owned ↔ v ∈ m.owned) ∧ w'.vars[v]? = w.vars[v]?) : Rel hash m' w' := by
  refine ⟨hp.inv, hnd, hents, hpend, by rw [hlen, hp.len, h.len], fun v hv => ?_, fun v hv hl => ?_⟩
  · by_cases hf : v ∈ F
    · rcases hF v hf with h1 | h1
      · exact h1.2
      · exact absurd hv h1.1
    · rw [(hO v hf).2]
      exact h.own v ((hO v hf).1.1 hv)
  · by_cases hf : v ∈ F
    · rcases hF v hf with h1 | h1
      · exact absurd h1.1 hv
      · exact h1.2 hl
    · obtain ⟨x, y, hx, hy, hr⟩ := h.usr v (fun h => hv ((hO v hf).1.2 h)) (by rw [← hp.len]; exact hl)
      obtain ⟨h1, h2⟩ := slot_pres hp hf hx hr
      exact ⟨x, y, h1, by rw [(hO v hf).2]; exact hy, h2⟩

theorem Rel.ents_pres (h : Rel hash m w) {F : List Nat} {s' : State L} (hp : Pres hash F m.heap s') (hd : ∀ v ∈ F, v ∉ m.owned) :
    List.Forall₂ (EntRel s') m.entries w.entries :=
  forall₂_imp h.ents fun e f he hr => ent_pres hp hr fun v hv hf => hd v hf (by
    unfold Mach.owned
    rw [List.mem_append, List.mem_flatMap]
    exact .inl ⟨e, he, hv⟩)

theorem Rel.pend_pres (h : Rel hash m w) {F : List Nat} {s' : State L} (hp : Pres hash F m.heap s') (hd : ∀ v ∈ F, v ∉ m.owned) :
    List.Forall₂ (PendRel s') m.pending w.pending :=
  forall₂_imp h.pend fun e f he hr => OpMem.pend_pres hp hr fun v hv hf => hd v hf (by
    unfold Mach.owned
    rw [List.mem_append, List.mem_flatMap, List.mem_flatMap]
    exact .inr ⟨e, he, hv⟩)

/-- A handle is copied to a variable. -/
theorem Rel.copyOut (h : Rel hash m w) {v x : Nat} {t : Tree L} (hv : m.Fresh v) (hx : Holds m.heap x t) :
    ∃ s', exec hash bytes m.heap (.copy v x) = some s' ∧ Rel hash { m with heap := s' } { w with vars := w.vars.set v (.val t) } ∧
      Pres hash [v] m.heap s' := by
  obtain ⟨s', e, hp, hh⟩ := exec_copy (bytes := bytes) h.inv hv.1 hx
  have hd : ∀ u ∈ [v], u ∉ m.owned := by
    intro u hu
    rw [List.mem_singleton.1 hu]
    exact hv.2
  have hlt : v < w.vars.length := (List.getElem?_eq_some_iff.1 (h.fresh hv)).1
  refine ⟨s', e, h.step hp (h.ents_pres hp hd) (h.pend_pres hp hd) h.nodup (List.length_set ..) ?_ ?_, hp⟩
  · intro u hu
    rw [List.mem_singleton.1 hu]
    obtain ⟨a, ha, hd⟩ := hh
    exact .inr ⟨hv.2, fun _ => ⟨_, _, ha, List.getElem?_set_self hlt, hd⟩⟩
  · intro u hu
    exact ⟨Iff.rfl, List.getElem?_set_ne fun h => hu (by simp [h])⟩

/-- The destruction of an operation. -/
theorem COp.destroy_spec {s : State L} (h : Inv hash [] s) {o : COp} (hn : o.visited.Nodup) (hv : ∀ v ∈ o.visited, ∃ t, Holds s v t) :
    ∃ s', o.destroy hash bytes s = some s' ∧ Pres hash o.visited s s' ∧ ∀ v ∈ o.visited, s'.vars[v]? = some .dead := by
  have hv' : ∀ v ∈ o.visited, ∃ x, s.vars[v]? = some x ∧ x ≠ .dead := fun v hm => by
    obtain ⟨t, ht⟩ := hv v hm
    obtain ⟨a, ha⟩ := holds_live ht
    exact ⟨_, ha, by simp⟩
  cases o with
  | nary arr n => exact execs_destroy _ h hn hv'
  | fixed ms =>
    obtain ⟨s', e, hp, hd⟩ := execs_destroy (bytes := bytes) ms.reverse h (List.nodup_reverse.2 hn) fun v hm => hv' v (List.mem_reverse.1 hm)
    exact ⟨s', e, hp.mono fun v hm => List.mem_reverse.1 hm, fun v hm => hd v (List.mem_reverse.2 hm)⟩

/-- The last operation being evaluated is destroyed. -/
theorem Rel.pop (h : Rel hash m w) {tag : Nat} {o : COp} {ps : List (Nat × COp)} (hm : m.pending = (tag, o) :: ps) :
    ∃ s', o.destroy hash bytes m.heap = some s' ∧ ∃ q qs, w.pending = q :: qs ∧ Rel hash { m with heap := s', pending := ps } { w with pending := qs } := by
  obtain ⟨sh, es, pd⟩ := m
  obtain ⟨V, fs, qd⟩ := w
  dsimp only at hm
  subst hm
  have hpd := h.pend
  dsimp only at hpd
  obtain ⟨q, qs, rfl⟩ : ∃ q qs, qd = q :: qs := by cases hpd; exact ⟨_, _, rfl⟩
  obtain ⟨hq, hqs⟩ := List.forall₂_cons.1 hpd
  have hnd := h.nodup
  simp only [Mach.owned, List.flatMap_cons] at hnd
  have hnd2 := (List.nodup_append'.1 hnd).2.1
  have ho : o.visited.Nodup := (List.nodup_append'.1 hnd2).1
  obtain ⟨s', e, hp, hdead⟩ := COp.destroy_spec (bytes := bytes) h.inv ho fun v hv => by
    obtain ⟨t, -, ht⟩ := mem_forall₂ hq.2.2 hv
    exact ⟨t, ht⟩
  have hdis : ∀ v ∈ o.visited, v ∉ es.flatMap (fun e => e.result :: e.op.visited) ++ ps.flatMap fun p => p.2.visited := by
    intro v hv hm
    rw [List.mem_append] at hm
    rcases hm with hm | hm
    · exact (List.nodup_append'.1 hnd).2.2 hm (List.mem_append_left _ hv)
    · exact (List.nodup_append'.1 hnd2).2.2 hv hm
  refine ⟨s', e, q, qs, rfl, h.step (F := o.visited) hp ?_ ?_ ?_ rfl ?_ ?_⟩
  · exact forall₂_imp h.ents fun e f he hr => ent_pres hp hr fun v hv hf => hdis v hf (List.mem_append_left _ (List.mem_flatMap.2 ⟨e, he, hv⟩))
  · exact forall₂_imp hqs fun e f he hr => OpMem.pend_pres hp hr fun v hv hf => hdis v hf (List.mem_append_right _ (List.mem_flatMap.2 ⟨e, he, hv⟩))
  · simp only [Mach.owned]
    rw [List.nodup_append'] at hnd hnd2 ⊢
    exact ⟨hnd.1, hnd2.2.1, fun v h1 h2 => hnd.2.2 h1 (List.mem_append_right _ h2)⟩
  · intro v hv
    refine .inr ⟨hdis v hv, fun _ => ⟨.dead, .dead, hdead v hv, h.own v ?_, trivial⟩⟩
    simp only [Mach.owned, List.flatMap_cons]
    exact List.mem_append_right _ (List.mem_append_left _ hv)
  · intro v hv
    refine ⟨?_, rfl⟩
    simp only [Mach.owned, List.flatMap_cons, List.mem_append]
    tauto

/-- The destruction of an entry. -/
theorem Rel.remove (h : Rel hash m w) {e : Entry} {es1 es2 : List Entry} {f : Nat × List (Tree L) × Tree L} {fs1 fs2 : List (Nat × List (Tree L) × Tree L)}
    (hm : m.entries = es1 ++ e :: es2) (hw : w.entries = fs1 ++ f :: fs2) (hl : es1.length = fs1.length) :
    ∃ s', e.destroy hash bytes m.heap = some s' ∧ Rel hash { m with heap := s', entries := es1 ++ es2 } { w with entries := fs1 ++ fs2 } ∧
      Pres hash (e.result :: e.op.visited) m.heap s' := by
  obtain ⟨sh, es, pd⟩ := m
  obtain ⟨V, fs, qd⟩ := w
  dsimp only at hm hw
  subst hm hw
  have hents := h.ents
  dsimp only at hents
  obtain ⟨h1, h2⟩ : List.Forall₂ (EntRel sh) es1 fs1 ∧ List.Forall₂ (EntRel sh) (e :: es2) (f :: fs2) := by
    have ht := List.forall₂_take es1.length hents
    have hd := List.forall₂_drop es1.length hents
    rw [List.take_left' rfl, List.take_left' hl.symm] at ht
    rw [List.drop_left' rfl, List.drop_left' hl.symm] at hd
    exact ⟨ht, hd⟩
  obtain ⟨he, h2⟩ := List.forall₂_cons.1 h2
  have hperm : (Mach.owned ⟨sh, es1 ++ e :: es2, pd⟩).Perm ((e.result :: e.op.visited) ++ Mach.owned (⟨sh, es1 ++ es2, pd⟩ : Mach L)) := by
    simp only [Mach.owned, List.flatMap_append, List.flatMap_cons]
    simp only [← List.append_assoc]
    refine List.Perm.append_right _ (List.Perm.append_right _ ?_)
    exact List.perm_append_comm
  have hnd := hperm.nodup_iff.1 h.nodup
  rw [List.nodup_append'] at hnd
  obtain ⟨hn1, hn2, hdis⟩ := hnd
  have hn1' := List.nodup_cons.1 hn1
  obtain ⟨s1, e1, p1, d1⟩ : ∃ s1, exec hash bytes sh (.destroy e.result) = some s1 ∧ Pres hash [e.result] sh s1 ∧ s1.vars[e.result]? = some .dead := by
    obtain ⟨a, ha⟩ := holds_live he.2.2.2
    exact exec_destroy h.inv ha (by simp)
  obtain ⟨s2, e2, p2, d2⟩ := COp.destroy_spec (bytes := bytes) (o := e.op) p1.inv hn1'.2 fun v hv => by
    obtain ⟨t, -, ht⟩ := mem_forall₂ he.2.2.1 hv
    exact ⟨t, p1.holds v t (fun h => hn1'.1 (by rw [← List.mem_singleton.1 h]; exact hv)) ht⟩
  have hp : Pres hash (e.result :: e.op.visited) sh s2 := (p1.mono (by simp)).trans (p2.mono (by simp))
  have hdead : ∀ v ∈ e.result :: e.op.visited, s2.vars[v]? = some .dead := by
    intro v hv
    rcases List.mem_cons.1 hv with rfl | hv
    · rw [p2.vars _ hn1'.1]; exact d1
    · exact d2 v hv
  have hown : ∀ v ∈ e.result :: e.op.visited, v ∉ Mach.owned (⟨sh, es1 ++ es2, pd⟩ : Mach L) := fun v h1 h2 => hdis h1 h2
  refine ⟨s2, by simp only [Entry.destroy, e1, Option.bind_some, e2], h.step (F := e.result :: e.op.visited) hp ?_ ?_ hn2 rfl ?_ ?_, hp⟩
  · refine forall₂_imp (List.rel_append h1 h2) fun e' f' he' hr => ent_pres hp hr fun v hv hf => hown v hf ?_
    exact List.mem_append_left _ (List.mem_flatMap.2 ⟨e', he', hv⟩)
  · exact forall₂_imp h.pend fun e' f' he' hr => OpMem.pend_pres hp hr fun v hv hf => hown v hf
      (List.mem_append_right _ (List.mem_flatMap.2 ⟨e', he', hv⟩))
  · intro v hv
    exact .inr ⟨hown v hv, fun _ => ⟨.dead, .dead, hdead v hv, h.own v (hperm.mem_iff.2 (List.mem_append_left _ hv)), trivial⟩⟩
  · intro v hv
    refine ⟨?_, rfl⟩
    rw [hperm.mem_iff, List.mem_append]
    exact ⟨.inr, fun h => h.resolve_left hv⟩

/-- The removal of the entries of a cache. -/
theorem Rel.clear (tag : Nat) : ∀ (es2 es1 : List Entry) (fs1 fs2 : List (Nat × List (Tree L) × Tree L)) (m : Mach L) (w : VMach L), Rel hash m w →
    m.entries = es1 ++ es2 → w.entries = fs1 ++ fs2 → es1.length = fs1.length →
    ∃ s', destroyAll hash bytes (es2.filter fun e => e.tag == tag) m.heap = some s' ∧
      Rel hash { m with heap := s', entries := es1 ++ es2.filter fun e => !(e.tag == tag) }
        { w with entries := fs1 ++ fs2.filter fun f => !(f.1 == tag) } := by
  intro es2
  induction es2 with
  | nil =>
    intro es1 fs1 fs2 m w h hm hw hl
    have := h.ents.length_eq
    rw [hm, hw] at this
    obtain rfl : fs2 = [] := by
      simp at this
      exact List.eq_nil_of_length_eq_zero (by omega)
    refine ⟨m.heap, rfl, ?_⟩
    simp only [List.filter_nil, ← hm, ← hw]
    exact h
  | cons e es2 ih =>
    intro es1 fs1 fs2 m w h hm hw hl
    obtain ⟨f, fs2, rfl⟩ : ∃ f fs, fs2 = f :: fs := by
      have := h.ents.length_eq
      rw [hm, hw] at this
      cases fs2 with
      | nil => simp at this; omega
      | cons f fs => exact ⟨f, fs, rfl⟩
    have hef : e.tag = f.1 := by
      have hents := h.ents
      rw [hm, hw] at hents
      have hd := List.forall₂_drop es1.length hents
      rw [List.drop_left' rfl, List.drop_left' hl.symm] at hd
      exact (List.forall₂_cons.1 hd).1.1
    by_cases ht : e.tag = tag
    · obtain ⟨s1, e1, r1, -⟩ := h.remove (bytes := bytes) hm hw hl
      obtain ⟨s2, e2, r2⟩ := ih es1 fs1 fs2 _ _ r1 rfl rfl hl
      refine ⟨s2, ?_, ?_⟩
      · rw [List.filter_cons_of_pos (by simp [ht]), destroyAll, e1]
        exact e2
      · rw [List.filter_cons_of_neg (by simp [ht]), List.filter_cons_of_neg (by simp [← hef, ht])]
        exact r2
    · obtain ⟨s2, e2, r2⟩ := ih (es1 ++ [e]) (fs1 ++ [f]) fs2 m w h (by simp [hm]) (by simp [hw]) (by simp [hl])
      refine ⟨s2, ?_, ?_⟩
      · rw [List.filter_cons_of_neg (by simp [ht])]
        exact e2
      · rw [List.filter_cons_of_pos (by simp [ht]), List.filter_cons_of_pos (by simp [← hef, ht])]
        simpa using r2

/-! ## Look-ups -/

theorem holds_key {s : State L} {vs : List Nat} {ts : List (Tree L)} (h : List.Forall₂ (Holds s) vs ts) :
    ∃ as, vs.mapM (target s) = some as ∧ DenotesL s ts as := by
  induction h with
  | nil => exact ⟨[], rfl, trivial⟩
  | cons h _ ih =>
    obtain ⟨a, ha, hd⟩ := h
    obtain ⟨as, e, hds⟩ := ih
    exact ⟨a :: as, by simp [target, ha, e], hd, hds⟩

/-- Two operations have the same addresses when they have the same operands. -/
theorem key_eq {s : State L} (h : Inv hash [] s) {o o' : COp} {ts ts' : List (Tree L)} (h1 : List.Forall₂ (Holds s) o.visited ts)
    (h2 : List.Forall₂ (Holds s) o'.visited ts') : o.key s = o'.key s ↔ ts = ts' := by
  obtain ⟨as, e1, d1⟩ := holds_key h1
  obtain ⟨bs, e2, d2⟩ := holds_key h2
  rw [COp.key, COp.key, e1, e2, Option.some.injEq]
  constructor
  · rintro rfl
    exact denotesL_fun _ _ d1 d2
  · rintro rfl
    exact denotesL_inj h _ d1 d2

theorem find_rel [DecidableEq (Tree L)] {s : State L} (h : Inv hash [] s) {tag : Nat} {o : COp} {ts : List (Tree L)}
    (ho : List.Forall₂ (Holds s) o.visited ts) {es : List Entry} {fs : List (Nat × List (Tree L) × Tree L)}
    (hr : List.Forall₂ (EntRel s) es fs) :
    Option.Rel (EntRel s) (find s es tag o) (fs.find? fun f => f.1 == tag && decide (f.2.1 = ts)) := by
  unfold find
  induction hr with
  | nil => exact .none
  | @cons e f es fs he _ ih =>
    have hb : (e.tag == tag && decide (e.op.key s = o.key s)) = (f.1 == tag && decide (f.2.1 = ts)) := by
      rw [he.1, decide_eq_decide.2 (key_eq h he.2.2.1 ho)]
    cases hc : (f.1 == tag && decide (f.2.1 = ts)) with
    | true =>
      rw [List.find?_cons_of_pos (by rw [hb, hc]), List.find?_cons_of_pos (by rw [hc])]
      exact .some he
    | false =>
      rw [List.find?_cons_of_neg (by rw [hb, hc]; simp), List.find?_cons_of_neg (by rw [hc]; simp)]
      exact ih

/-! ## Statements on variables -/

theorem mapM_congr {V W : List (VSlot L)} : ∀ {ks : List Nat}, (∀ k ∈ ks, W[k]? = V[k]?) → ks.mapM (vtarget W) = ks.mapM (vtarget V)
  | [], _ => rfl
  | k :: ks, h => by
    rw [List.mapM_cons, List.mapM_cons, mapM_congr fun k hk => h k (by simp [hk]), vtarget, vtarget, h k (by simp)]

/-- A statement only depends on its variables. -/
theorem vexec_frame {V W V' : List (VSlot L)} {op : Op L} (hl : W.length = V.length) (ha : ∀ v ∈ opVars op, W[v]? = V[v]?)
    (h : vexec V op = some V') :
    ∃ W', vexec W op = some W' ∧ W'.length = W.length ∧ (∀ v ∈ opVars op, W'[v]? = V'[v]?) ∧ ∀ v, v ∉ opVars op → W'[v]? = W[v]? := by
  have hs1 : ∀ (u v : Nat) (x : VSlot L), W[v]? = V[v]? → (W.set u x)[v]? = (V.set u x)[v]? := by
    intro u v x h
    rw [List.getElem?_set, List.getElem?_set, h, hl]
  have hs2 : ∀ (u u' v : Nat) (x x' : VSlot L), W[v]? = V[v]? → ((W.set u x).set u' x')[v]? = ((V.set u x).set u' x')[v]? := by
    intro u u' v x x' h
    rw [List.getElem?_set, List.getElem?_set (l := V.set u x), hs1 u v x h, List.length_set, List.length_set, hl]
  have hn1 : ∀ (u v : Nat) (x : VSlot L), v ≠ u → (W.set u x)[v]? = W[v]? := fun u v x h => List.getElem?_set_ne (Ne.symm h)
  have hp : ∀ w i, W[w]? = V[w]? → vpart W w i = vpart V w i := by
    intro w i h
    rw [vpart, vpart, vtarget, vtarget, h]
  cases op with
  | create v l ks fr =>
    simp only [vexec] at h ⊢
    rw [mapM_congr (V := V) fun k hk => ha k (by simp [opVars, hk])]
    cases hm : ks.mapM (vtarget V) with
    | none => rw [hm] at h; cases h
    | some ts =>
      rw [hm, Option.map_some, Option.some.injEq] at h
      subst h
      exact ⟨_, rfl, List.length_set .., fun u hu => hs1 _ _ _ (ha u hu), fun u hu => hn1 _ _ _ (by rintro rfl; simp [opVars] at hu)⟩
  | copy v w | copyAssign v w =>
    simp only [vexec] at h ⊢
    rw [ha w (by simp [opVars])]
    cases hm : V[w]? with
    | none => rw [hm] at h; cases h
    | some x =>
      rw [hm, Option.map_some, Option.some.injEq] at h
      subst h
      exact ⟨_, rfl, List.length_set .., fun u hu => hs1 _ _ _ (ha u hu), fun u hu => hn1 _ _ _ (by rintro rfl; simp [opVars] at hu)⟩
  | move v w | moveAssign v w =>
    simp only [vexec] at h ⊢
    rw [ha w (by simp [opVars])]
    cases hm : V[w]? with
    | none => rw [hm] at h; cases h
    | some x =>
      rw [hm, Option.map_some, Option.some.injEq] at h
      subst h
      refine ⟨_, rfl, by simp, fun u hu => hs2 _ _ _ _ _ (ha u hu), fun u hu => ?_⟩
      simp only [opVars, List.mem_cons, List.not_mem_nil, or_false, not_or] at hu
      rw [List.getElem?_set_ne (Ne.symm hu.2), List.getElem?_set_ne (Ne.symm hu.1)]
  | destroy v =>
    simp only [vexec, Option.some.injEq] at h ⊢
    subst h
    exact ⟨_, rfl, List.length_set .., fun u hu => hs1 _ _ _ (ha u hu), fun u hu => hn1 _ _ _ (by rintro rfl; simp [opVars] at hu)⟩
  | swap v w =>
    simp only [vexec] at h ⊢
    rw [ha w (by simp [opVars]), ha v (by simp [opVars])]
    cases hv : V[v]? with
    | none => rw [hv] at h; cases h
    | some x =>
      cases hw : V[w]? with
      | none => rw [hv, hw] at h; cases h
      | some y =>
        rw [hv, hw] at h
        simp only [Option.some.injEq] at h
        subst h
        refine ⟨_, rfl, by simp, fun u hu => hs2 _ _ _ _ _ (ha u hu), fun u hu => ?_⟩
        simp only [opVars, List.mem_cons, List.not_mem_nil, or_false, not_or] at hu
        rw [List.getElem?_set_ne (Ne.symm hu.2), List.getElem?_set_ne (Ne.symm hu.1)]
  | read v w i | readAssign v w i =>
    simp only [vexec] at h ⊢
    rw [hp w i (ha w (by simp [opVars]))]
    cases hm : vpart V w i with
    | none => rw [hm] at h; cases h
    | some x =>
      rw [hm, Option.map_some, Option.some.injEq] at h
      subst h
      exact ⟨_, rfl, List.length_set .., fun u hu => hs1 _ _ _ (ha u hu), fun u hu => hn1 _ _ _ (by rintro rfl; simp [opVars] at hu)⟩

theorem writes_vars (op : Op L) : opWrites op ⊆ opVars op := by
  cases op <;> simp [opWrites, opVars]

/-- The values of all places, those of variables being given. -/
theorem Rel.abs (h : Rel hash m w) : ∃ V, Abs m.heap V ∧ ∀ v, v ∉ m.owned → V[v]? = w.vars[v]? := by
  have key : ∀ v : Fin m.heap.vars.length, ∃ y, SlotRel m.heap (m.heap.vars[v]) y ∧ (v.1 ∉ m.owned → w.vars[v.1]? = some y) := by
    intro v
    by_cases hv : v.1 ∈ m.owned
    · obtain ⟨t, a, ha, hd⟩ := h.owned_holds hv
      refine ⟨.val t, ?_, fun h => absurd hv h⟩
      have : m.heap.vars[v] = .live a := (List.getElem?_eq_some_iff.1 ha).2
      rw [this]
      exact hd
    · obtain ⟨x, y, hx, hy, hr⟩ := h.usr v.1 hv v.2
      refine ⟨y, ?_, fun _ => hy⟩
      have : m.heap.vars[v] = x := (List.getElem?_eq_some_iff.1 hx).2
      rw [this]
      exact hr
  choose f hf hw using key
  refine ⟨List.ofFn f, ?_, ?_⟩
  · unfold Abs
    rw [List.forall₂_iff_get]
    refine ⟨by simp, fun i h1 h2 => ?_⟩
    simp only [List.get_eq_getElem, List.getElem_ofFn]
    exact hf ⟨i, h1⟩
  · intro v hv
    by_cases hl : v < m.heap.vars.length
    · rw [hw ⟨v, hl⟩ hv, List.getElem?_ofFn, dif_pos hl]
    · rw [List.getElem?_eq_none (by simpa using hl), List.getElem?_eq_none (by rw [h.len]; omega)]

/-- A statement on variables. -/
theorem Rel.user (h : Rel hash m w) {op : Op L} (hv : Heap.Valid m.heap op) (ho : ∀ v ∈ opVars op, v ∉ m.owned) :
    ∃ s' V, exec hash bytes m.heap op = some s' ∧ vexec w.vars op = some V ∧ Rel hash { m with heap := s' } { w with vars := V } ∧
      Pres hash (opVars op) m.heap s' := by
  obtain ⟨s', e, hp, -⟩ := exec_pres (bytes := bytes) h.inv hv
  have hp := hp.mono (writes_vars op)
  obtain ⟨V0, a0, h0⟩ := h.abs
  obtain ⟨V1, e1, a1⟩ := exec_abs h.inv hv e a0
  obtain ⟨W, e2, hl, h1, h2⟩ := vexec_frame (W := w.vars) (by rw [h.len]; exact a0.length_eq) (fun v hv => (h0 v (ho v hv)).symm) e1
  refine ⟨s', W, e, e2, h.step hp (h.ents_pres hp ho) (h.pend_pres hp ho) h.nodup hl ?_ fun v hv => ⟨Iff.rfl, h2 v hv⟩, hp⟩
  intro v hv
  refine .inr ⟨ho v hv, fun hlt => ?_⟩
  obtain ⟨y, hy, hr⟩ := forall₂_get a1 (List.getElem?_eq_getElem hlt)
  exact ⟨_, y, List.getElem?_eq_getElem hlt, by rw [h1 v hv]; exact hy, hr⟩

/-! ## Calls -/

theorem getElem?_moved (es : List Nat) : ∀ (V : List (VSlot L)) (v : Nat),
    (es.foldl (fun V e => V.set e .moved) V).length = V.length ∧
    (v ∉ es → (es.foldl (fun V e => V.set e .moved) V)[v]? = V[v]?) ∧
    (v ∈ es → v < V.length → (es.foldl (fun V e => V.set e .moved) V)[v]? = some .moved) := by
  induction es with
  | nil => exact fun V v => ⟨rfl, fun _ => rfl, by simp⟩
  | cons e es ih =>
    intro V v
    obtain ⟨h1, h2, h3⟩ := ih (V.set e .moved) v
    rw [List.length_set] at h1 h3
    refine ⟨h1, fun hv => ?_, fun hv hl => ?_⟩
    · rw [List.mem_cons, not_or] at hv
      rw [List.foldl_cons, h2 hv.2, List.getElem?_set_ne (Ne.symm hv.1)]
    · rw [List.foldl_cons]
      by_cases hm : v ∈ es
      · exact h3 hm hl
      · obtain rfl : v = e := (List.mem_cons.1 hv).resolve_right hm
        rw [h2 hm, List.getElem?_set_self hl]

theorem Rel.args (h : Rel hash m w) : ∀ {es : List Nat}, (∀ e ∈ es, m.Var e) →
    ∃ ts, es.mapM (vtarget w.vars) = some ts ∧ List.Forall₂ (Holds m.heap) es ts
  | [], _ => ⟨[], rfl, .nil⟩
  | e :: es, he => by
    obtain ⟨t, h1, h2⟩ := h.var (he e (by simp))
    obtain ⟨ts, h3, h4⟩ := h.args (es := es) fun e' h' => he e' (List.mem_cons_of_mem _ h')
    exact ⟨t :: ts, by simp [vtarget, h1, h3], .cons h2 h4⟩

/-- An operation is built. -/
theorem Rel.push (h : Rel hash m w) {bits : Nat} {sh : Shape} {ps : List (Nat × Nat)} {tag : Nat} (he : ∀ p ∈ ps, m.Var p.1) (hn : (ps.map Prod.fst).Nodup)
    (hb : ∀ b ∈ ps.map Prod.snd, m.Fresh b) (hnb : (ps.map Prod.snd).Nodup) (hfit : sh = .nary → ps.length < 2 ^ bits) :
    ∃ o s' ts, build hash bytes bits sh ps m.heap = some (o, s') ∧ (ps.map Prod.fst).mapM (vtarget w.vars) = some ts ∧
      Rel hash { m with heap := s', pending := (tag, o) :: m.pending }
        { w with
          vars := if sh = .copied then w.vars else (ps.map Prod.fst).foldl (fun V e => V.set e .moved) w.vars
          pending := (tag, ts) :: w.pending } ∧ Pres hash (ps.map Prod.fst ++ ps.map Prod.snd) m.heap s' := by
  have he' : ∀ e ∈ ps.map Prod.fst, m.Var e := by
    intro e hm
    obtain ⟨p, hp, rfl⟩ := List.mem_map.1 hm
    exact he p hp
  obtain ⟨ts, hts, hh⟩ := h.args he'
  have hd : ∀ v ∈ ps.map Prod.fst ++ ps.map Prod.snd, v ∉ m.owned := by
    intro v hv
    rcases List.mem_append.1 hv with hv | hv
    · exact (he' v hv).2
    · exact (hb v hv).2
  have hne : ∀ v ∈ ps.map Prod.snd, v ∉ ps.map Prod.fst := by
    intro v hv hv'
    obtain ⟨a, ha⟩ := (he' v hv').1
    rw [(hb v hv).1] at ha
    cases ha
  have main : ∀ (o : COp) (s' : State L), o.visited = ps.map Prod.snd → o.Full → Pres hash (ps.map Prod.fst ++ ps.map Prod.snd) m.heap s' →
      List.Forall₂ (Holds s') (ps.map Prod.snd) ts →
      (∀ e ∈ ps.map Prod.fst, ∃ x y, s'.vars[e]? = some x ∧
        (if sh = .copied then w.vars else (ps.map Prod.fst).foldl (fun V e => V.set e .moved) w.vars)[e]? = some y ∧ SlotRel s' x y) →
      Rel hash { m with heap := s', pending := (tag, o) :: m.pending }
        { w with
          vars := if sh = .copied then w.vars else (ps.map Prod.fst).foldl (fun V e => V.set e .moved) w.vars
          pending := (tag, ts) :: w.pending } := by
    intro o s' ho hf hp hb' hmv
    have hperm : (Mach.owned { m with heap := s', pending := (tag, o) :: m.pending }).Perm (ps.map Prod.snd ++ m.owned) := by
      simp only [Mach.owned, List.flatMap_cons, ho]
      simp only [← List.append_assoc]
      exact List.Perm.append_right _ List.perm_append_comm
    refine h.step (F := ps.map Prod.fst ++ ps.map Prod.snd) hp (h.ents_pres hp hd) (.cons ⟨rfl, hf, by rw [ho]; exact hb'⟩ (h.pend_pres hp hd)) ?_ ?_ ?_ ?_
    · rw [hperm.nodup_iff, List.nodup_append']
      exact ⟨hnb, h.nodup, fun v h1 h2 => (hb v h1).2 h2⟩
    · split
      · rfl
      · exact (getElem?_moved _ _ 0).1
    · intro v hv
      rw [hperm.mem_iff, List.mem_append]
      by_cases hv' : v ∈ ps.map Prod.snd
      · refine .inl ⟨.inl hv', ?_⟩
        split
        · exact h.fresh (hb v hv')
        · dsimp only
          rw [(getElem?_moved _ _ v).2.1 (hne v hv')]
          exact h.fresh (hb v hv')
      · have hv1 := (List.mem_append.1 hv).resolve_right hv'
        exact .inr ⟨fun h => h.elim hv' (he' v hv1).2, fun _ => hmv v hv1⟩
    · intro v hv
      rw [List.mem_append, not_or] at hv
      rw [hperm.mem_iff, List.mem_append]
      refine ⟨⟨fun h => h.resolve_left hv.2, .inr⟩, ?_⟩
      split
      · rfl
      · exact (getElem?_moved _ _ v).2.1 hv.1
  have hmoved : sh ≠ .copied → ∀ s' : State L, (∀ e ∈ ps.map Prod.fst, s'.vars[e]? = some .moved) → ∀ e ∈ ps.map Prod.fst, ∃ x y, s'.vars[e]? = some x ∧
        (if sh = .copied then w.vars else (ps.map Prod.fst).foldl (fun V e => V.set e .moved) w.vars)[e]? = some y ∧ SlotRel s' x y := by
    intro hsh s' hm e hmem
    rw [if_neg hsh]
    obtain ⟨t, ht, -⟩ := h.var (he' e hmem)
    exact ⟨.moved, .moved, hm e hmem, (getElem?_moved _ _ e).2.2 hmem (List.getElem?_eq_some_iff.1 ht).1, trivial⟩
  cases sh with
  | nary =>
    obtain ⟨s', e, hp, h1, h2⟩ := execs_move (bytes := bytes) ps h.inv hn hnb (fun b hm => (hb b hm).1) hh
    have hsz : ps.length % 2 ^ bits = (ps.map Prod.snd).length := by rw [Nat.mod_eq_of_lt (hfit rfl), List.length_map]
    exact ⟨_, s', ts, by simp only [build, e, Option.map_some], hts,
      main (.nary (some (ps.map Prod.snd)) (ps.length % 2 ^ bits)) s' (by rw [COp.visited, hsz, List.take_length]) hsz hp h1 (hmoved (by simp) s' h2), hp⟩
  | moved =>
    obtain ⟨s', e, hp, h1, h2⟩ := execs_move (bytes := bytes) ps h.inv hn hnb (fun b hm => (hb b hm).1) hh
    exact ⟨_, s', ts, by simp only [build, e, Option.map_some], hts,
      main (.fixed (ps.map Prod.snd)) s' rfl trivial hp h1 (hmoved (by simp) s' h2), hp⟩
  | copied =>
    obtain ⟨s', e, hp, h1⟩ := execs_copy (bytes := bytes) ps h.inv hnb (fun b hm => (hb b hm).1) hh
    have hp' := hp.mono (G := ps.map Prod.fst ++ ps.map Prod.snd) (by simp)
    refine ⟨_, s', ts, by simp only [build, e, Option.map_some], hts,
      main (.fixed (ps.map Prod.snd)) s' rfl trivial hp' h1 fun e hm => ?_, hp'⟩
    rw [if_pos rfl]
    obtain ⟨t, ht, a, ha, hden⟩ := h.var (he' e hm)
    have hne' : e ∉ ps.map Prod.snd := fun h => hne e h hm
    obtain ⟨h1, h2⟩ := slot_pres hp hne' ha (y := .val t) hden
    exact ⟨_, _, h1, ht, h2⟩

/-! ## The end of an evaluation -/

theorem Rel.evict (h : Rel hash m w) {ev : Option Nat} (he : ∀ i, ev = some i → ∃ e, m.entries[i]? = some e) :
    ∃ es s', OpMem.evict hash bytes ev m.entries m.heap = some (es, s') ∧
      Rel hash { m with heap := s', entries := es } { w with entries := match ev with | none => w.entries | some i => w.entries.eraseIdx i } ∧
      (∀ v, v ∉ m.owned → s'.vars[v]? = m.heap.vars[v]? ∧ v ∉ Mach.owned { m with heap := s', entries := es }) ∧
      ∀ v t, v ∉ m.owned → Holds m.heap v t → Holds s' v t := by
  cases ev with
  | none => exact ⟨_, _, rfl, h, fun v hv => ⟨rfl, hv⟩, fun v t _ ht => ht⟩
  | some i =>
    obtain ⟨e, hi⟩ := he i rfl
    obtain ⟨hl, hie⟩ := List.getElem?_eq_some_iff.1 hi
    have hl' : i < w.entries.length := by rw [← h.ents.length_eq]; exact hl
    have hm : m.entries = m.entries.take i ++ e :: m.entries.drop (i + 1) := by
      rw [← hie, ← List.drop_eq_getElem_cons hl, List.take_append_drop]
    have hw : w.entries = w.entries.take i ++ w.entries[i] :: w.entries.drop (i + 1) := by
      rw [← List.drop_eq_getElem_cons hl', List.take_append_drop]
    obtain ⟨s', e', r, hp⟩ := h.remove (bytes := bytes) hm hw (by simp; omega)
    rw [← List.eraseIdx_eq_take_drop_succ, ← List.eraseIdx_eq_take_drop_succ] at r
    have hsub : ∀ v ∈ e.result :: e.op.visited, v ∈ m.owned := fun v hv =>
      List.mem_append_left _ (List.mem_flatMap.2 ⟨e, List.mem_of_getElem? hi, hv⟩)
    refine ⟨_, s', by simp only [OpMem.evict, hi, Option.bind_some, e', Option.map_some], r, fun v hv => ⟨hp.vars v fun h => hv (hsub v h), fun hv' => hv ?_⟩,
      fun v t hv => hp.holds v t fun h => hv (hsub v h)⟩
    simp only [Mach.owned, List.mem_append, List.mem_flatMap] at hv' ⊢
    rcases hv' with ⟨e1, h1, h2⟩ | hv'
    · exact .inl ⟨e1, List.mem_of_mem_eraseIdx h1, h2⟩
    · exact .inr hv'

/-- The result is moved to a new entry. -/
theorem Rel.enter (h : Rel hash m w) {G : List Nat} {s1 : State L} {tag r res : Nat} {o1 : COp} {ts : List (Tree L)} {pd : List (Nat × COp)}
    {qd : List (Nat × List (Tree L))} (hp1 : Pres hash G m.heap s1) (hres : m.Var res) (hr : m.Fresh r) (hG : ∀ v ∈ G, m.Fresh v) (hrG : r ∉ G)
    (ho : o1.Full) (hts : List.Forall₂ (Holds s1) o1.visited ts)
    (hperm : (Mach.owned ⟨s1, m.entries ++ [⟨tag, o1, r⟩], pd⟩).Perm (r :: (G ++ m.owned)))
    (hpd : ∀ p ∈ pd, p ∈ m.pending) (hpq : List.Forall₂ (PendRel m.heap) pd qd) (hGn : G.Nodup) :
    ∃ s2 t, exec hash bytes s1 (.move r res) = some s2 ∧ vtarget w.vars res = some t ∧
      Rel hash ⟨s2, m.entries ++ [⟨tag, o1, r⟩], pd⟩ ⟨w.vars.set res .moved, w.entries ++ [(tag, ts, t)], qd⟩ ∧
      Pres hash (G ++ [r, res]) m.heap s2 ∧ Holds s2 r t ∧ s2.vars[res]? = some .moved := by
  obtain ⟨t, ht, hh⟩ := h.var hres
  have hresG : res ∉ G := by
    intro hm
    obtain ⟨a, ha⟩ := hres.1
    rw [(hG res hm).1] at ha
    cases ha
  have hrr : r ≠ res := by
    rintro rfl
    obtain ⟨a, ha⟩ := hres.1
    rw [hr.1] at ha
    cases ha
  obtain ⟨s2, e, hp2, hh2, hmv⟩ := exec_move (bytes := bytes) hp1.inv (d := r) (w := res) (t := t) (by rw [hp1.vars r hrG]; exact hr.1)
    (hp1.holds res t hresG hh)
  have hp : Pres hash (G ++ [r, res]) m.heap s2 := (hp1.mono (by simp)).trans (hp2.mono (by simp))
  have hd : ∀ v ∈ G ++ [r, res], v ∉ m.owned := by
    intro v hv
    simp only [List.mem_append, List.mem_cons, List.not_mem_nil, or_false] at hv
    rcases hv with hv | rfl | rfl
    · exact (hG v hv).2
    · exact hr.2
    · exact hres.2
  have hvis : ∀ v ∈ o1.visited, v ∉ [r, res] := by
    intro v hv hm
    have hnd : (Mach.owned ⟨s1, m.entries ++ [⟨tag, o1, r⟩], pd⟩).Nodup := by
      rw [hperm.nodup_iff, List.nodup_cons, List.mem_append, not_or, List.nodup_append']
      exact ⟨⟨hrG, hr.2⟩, hGn, h.nodup, fun v h1 h2 => (hG v h1).2 h2⟩
    simp only [List.mem_cons, List.not_mem_nil, or_false] at hm
    rcases hm with rfl | rfl
    · simp only [Mach.owned, List.flatMap_append, List.flatMap_cons, List.flatMap_nil, List.append_nil] at hnd
      exact (List.nodup_cons.1 (List.nodup_append'.1 (List.nodup_append'.1 hnd).1).2.1).1 hv
    · have : v ∈ r :: (G ++ m.owned) := hperm.mem_iff.1 (List.mem_append_left _ (List.mem_flatMap.2 ⟨⟨tag, o1, r⟩, by simp, by simp [hv]⟩))
      simp only [List.mem_cons, List.mem_append] at this
      rcases this with h | h | h
      · exact hrr h.symm
      · exact hresG h
      · exact hres.2 h
  have hrt : res < w.vars.length := (List.getElem?_eq_some_iff.1 ht).1
  refine ⟨s2, t, e, by rw [vtarget, ht], h.step (F := G ++ [r, res]) hp ?_ ?_ ?_ (List.length_set ..) ?_ ?_, hp, hh2, hmv⟩
  · exact List.rel_append (h.ents_pres hp hd) (.cons ⟨rfl, ho, forall₂_holds hp2 hts hvis, hh2⟩ .nil)
  · exact forall₂_imp hpq fun p q hm hr => OpMem.pend_pres hp hr fun v hv hf => hd v hf
      (List.mem_append_right _ (List.mem_flatMap.2 ⟨p, hpd p hm, hv⟩))
  · refine (hperm.nodup_iff (l₁ := Mach.owned ⟨s1, m.entries ++ [⟨tag, o1, r⟩], pd⟩)).2 ?_
    rw [List.nodup_cons, List.mem_append, not_or, List.nodup_append']
    exact ⟨⟨hrG, hr.2⟩, hGn, h.nodup, fun v h1 h2 => (hG v h1).2 h2⟩
  · intro v hv
    by_cases hv' : v = res
    · subst hv'
      refine .inr ⟨fun hm => ?_, fun _ => ⟨.moved, .moved, hmv, List.getElem?_set_self hrt, trivial⟩⟩
      have := hperm.mem_iff.1 hm
      simp only [List.mem_cons, List.mem_append] at this
      rcases this with h | h | h
      · exact hrr h.symm
      · exact hresG h
      · exact hres.2 h
    · refine .inl ⟨hperm.mem_iff.2 ?_, ?_⟩
      · simp only [List.mem_append, List.mem_cons, List.not_mem_nil, or_false] at hv ⊢
        rcases hv with hv | hv | hv
        · exact .inr (.inl hv)
        · exact .inl hv
        · exact absurd hv hv'
      · dsimp only
        rw [List.getElem?_set_ne (Ne.symm hv')]
        refine h.fresh ?_
        simp only [List.mem_append, List.mem_cons, List.not_mem_nil, or_false] at hv
        rcases hv with hv | rfl | hv
        · exact hG v hv
        · exact hr
        · exact absurd hv hv'
  · intro v hv
    simp only [List.mem_append, List.mem_cons, List.not_mem_nil, or_false, not_or] at hv
    refine ⟨?_, List.getElem?_set_ne (Ne.symm hv.2.2)⟩
    refine (hperm.mem_iff (a := v)).trans ?_
    simp only [List.mem_cons, List.mem_append]
    tauto

/-- The end of the evaluation of an operation. -/
theorem Rel.finish (h : Rel hash m w) {bits : Nat} [DecidableEq (Tree L)] {res : Nat} {ev : Option Nat} {ds : List Nat} {r v : Nat}
    (hv : Valid bits m (.finish res ev ds r v)) :
    ∃ m' w', run hash bytes bits m (.finish res ev ds r v) = some m' ∧ vrun w (.finish res ev ds r v) = some w' ∧ Rel hash m' w' := by
  obtain ⟨hres, hfr, hnd, tag, o, ps, hpd, hds, hev⟩ := hv
  obtain ⟨es, s1, e1, r1, k1, k2⟩ := h.evict (bytes := bytes) (ev := ev) fun i hi => (hev i hi).imp fun _ h => h.1
  obtain ⟨q, qs, hq⟩ : ∃ q qs, w.pending = q :: qs := by
    have := h.pend.length_eq
    rw [hpd] at this
    cases hw : w.pending with
    | nil => rw [hw] at this; simp at this
    | cons q qs => exact ⟨q, qs, rfl⟩
  obtain ⟨tag', ts⟩ := q
  have hpend := r1.pend
  dsimp only at hpend
  rw [hpd, hq] at hpend
  obtain ⟨⟨htag, hfull, hts⟩, hqs⟩ := List.forall₂_cons.1 hpend
  dsimp only at htag hfull hts
  subst htag
  generalize hm1 : ({ m with heap := s1, entries := es } : Mach L) = m1 at r1 k1
  have hh1 : m1.heap = s1 := by rw [← hm1]
  have he1 : m1.entries = es := by rw [← hm1]
  have hp1 : m1.pending = (tag, o) :: ps := by rw [← hm1, ← hpd]
  have fresh1 : ∀ b ∈ v :: r :: ds, m1.Fresh b := fun b hb => by
    have h1 := hfr b hb
    obtain ⟨h2, h3⟩ := k1 b h1.2
    exact ⟨by rw [hh1, h2]; exact h1.1, h3⟩
  have var1 : m1.Var res := by
    obtain ⟨h2, h3⟩ := k1 res hres.2
    exact ⟨by rw [hh1, h2]; exact hres.1, h3⟩
  simp only [List.nodup_cons, List.mem_cons, not_or] at hnd
  have hvres : v ≠ res := by
    rintro rfl
    obtain ⟨a, ha⟩ := hres.1
    rw [(hfr v (by simp)).1] at ha
    cases ha
  -- what follows the move of the operation and of the result
  have tail : ∀ (G : List Nat) (s3 : State L) (t : Tree L) (o1 : COp) (pd : List (Nat × COp)) (qd : List (Nat × List (Tree L))) (fs : List (Nat × List (Tree L) × Tree L)),
      (∀ b ∈ G, b ∈ ds) → Rel hash ⟨s3, es ++ [⟨tag, o1, r⟩], pd⟩ ⟨w.vars.set res .moved, fs, qd⟩ → Pres hash (G ++ [r, res]) s1 s3 →
      Holds s3 r t → s3.vars[res]? = some .moved →
      (∀ b, b ∈ Mach.owned ⟨s3, es ++ [⟨tag, o1, r⟩], pd⟩ → b ∈ r :: (G ++ m1.owned)) →
      ∃ s4 s5, exec hash bytes s3 (.copy v r) = some s4 ∧ exec hash bytes s4 (.destroy res) = some s5 ∧
        Rel hash ⟨s5, es ++ [⟨tag, o1, r⟩], pd⟩ ⟨(w.vars.set v (.val t)).set res .dead, fs, qd⟩ := by
    intro G s3 t o1 pd qd fs hG r3 p3 hr3 hm3 hown
    have hvo : v ∉ Mach.owned ⟨s3, es ++ [⟨tag, o1, r⟩], pd⟩ := fun hm => by
      have := hown v hm
      simp only [List.mem_cons, List.mem_append] at this
      rcases this with h | h | h
      · exact hnd.1.1 h
      · exact hnd.1.2 (hG v h)
      · exact (fresh1 v (by simp)).2 h
    have hvF : v ∉ G ++ [r, res] := by
      simp only [List.mem_append, List.mem_cons, List.not_mem_nil, or_false, not_or]
      exact ⟨fun h => hnd.1.2 (hG v h), hnd.1.1, hvres⟩
    have hro : res ∉ Mach.owned ⟨s3, es ++ [⟨tag, o1, r⟩], pd⟩ := fun hm => by
      have := hown res hm
      obtain ⟨a, ha⟩ := var1.1
      simp only [List.mem_cons, List.mem_append] at this
      rcases this with rfl | h | h
      · rw [(fresh1 res (by simp)).1] at ha; cases ha
      · rw [(fresh1 res (by simp [hG res h])).1] at ha; cases ha
      · exact var1.2 h
    obtain ⟨s4, e4, r4, p4⟩ := r3.copyOut (bytes := bytes) (v := v) (x := r) (t := t)
      ⟨by rw [p3.vars v hvF, ← hh1]; exact (fresh1 v (by simp)).1, hvo⟩ hr3
    have hv4 : s4.vars[res]? = some .moved := by
      rw [p4.vars res (by simp [Ne.symm hvres])]
      exact hm3
    obtain ⟨s5, V5, e5, ve5, r5, -⟩ := r4.user (bytes := bytes) (op := .destroy res) ⟨_, hv4, by simp⟩ (by simp only [opVars, List.mem_singleton]; rintro _ rfl; exact hro)
    refine ⟨s4, s5, e4, e5, ?_⟩
    simp only [vexec, Option.some.injEq] at ve5
    subst ve5
    dsimp only at r5
    rw [List.set_comm _ _ (Ne.symm hvres)] at r5
    rw [List.set_set] at r5
    exact r5
  cases o with
  | nary arr n =>
    have hperm : (Mach.owned ⟨s1, m1.entries ++ [⟨tag, .nary arr n, r⟩], ps⟩).Perm (r :: ([] ++ m1.owned)) := by
      simp only [Mach.owned, hp1, List.flatMap_append, List.flatMap_cons, List.flatMap_nil, List.append_nil, List.nil_append]
      simp only [List.append_assoc, List.cons_append]
      exact List.perm_middle
    obtain ⟨s3, t, e3, ht, r3, p3, hr3, hm3⟩ := r1.enter (bytes := bytes) (G := []) (s1 := s1) (tag := tag) (o1 := .nary arr n) (ts := ts) (pd := ps) (qd := qs)
      (hh1 ▸ Pres.refl r1.inv) var1 (fresh1 r (by simp)) (by simp) (by simp) hfull hts hperm (fun p hp => by rw [hp1]; simp [hp]) (by rw [hh1]; exact hqs) (by simp)
    rw [he1] at r3
    rw [hh1] at p3
    obtain ⟨s4, s5, e4, e5, r5⟩ := tail [] s3 t _ _ _ _ (by simp) r3 p3 hr3 hm3 fun b hb => hperm.mem_iff.1 (by rw [he1]; exact hb)
    refine ⟨_, _, ?_, ?_, r5⟩
    · simp only [run, hpd, e1, Option.bind_some, COp.move, e3, e4, e5, COp.destroy, COp.visited, List.map_nil, execs, Option.map_some]
    · dsimp only at ht
      simp only [vrun, hq, ht, Option.map_some]
      cases ev <;> rfl
  | fixed ms =>
    have hlen := hds ms rfl
    have hfst : (ms.zip ds).map Prod.fst = ms := List.map_fst_zip (by omega)
    have hsnd : (ms.zip ds).map Prod.snd = ds := List.map_snd_zip (by omega)
    obtain ⟨s2, e2, p2, h2⟩ := execs_copy (bytes := bytes) (ms.zip ds) (s := s1) (ts := ts) (hh1 ▸ r1.inv) (by rw [hsnd]; exact hnd.2.2)
      (by rw [hsnd, ← hh1]; exact fun b hb => (fresh1 b (by simp [hb])).1) (by rw [hfst]; exact hts)
    rw [hsnd] at p2 h2
    have hperm : (Mach.owned ⟨s2, m1.entries ++ [⟨tag, .fixed ds, r⟩], m1.pending⟩).Perm (r :: (ds ++ m1.owned)) := by
      simp only [Mach.owned, List.flatMap_append, List.flatMap_cons, List.flatMap_nil, List.append_nil, COp.visited]
      simp only [List.append_assoc, List.cons_append]
      refine List.perm_middle.trans (List.Perm.cons _ ?_)
      simp only [← List.append_assoc]
      exact List.Perm.append_right _ List.perm_append_comm
    obtain ⟨s3, t, e3, ht, r3, p3, hr3, hm3⟩ := r1.enter (bytes := bytes) (G := ds) (s1 := s2) (tag := tag) (o1 := .fixed ds) (ts := ts) (pd := m1.pending) (qd := w.pending)
      (by rw [hh1]; exact p2) var1 (fresh1 r (by simp)) (fun b hb => fresh1 b (by simp [hb])) hnd.2.1 trivial h2 hperm (fun p hp => hp) r1.pend hnd.2.2
    rw [he1] at r3
    rw [hh1] at p3
    obtain ⟨s4, s5, e4, e5, r5⟩ := tail ds s3 t _ _ _ _ (fun b hb => hb) r3 p3 hr3 hm3 fun b hb => hperm.mem_iff.1 (by rw [he1]; exact hb)
    obtain ⟨s6, e6, q', qs', hq', r6⟩ := r5.pop (bytes := bytes) hp1
    dsimp only at hq' r6
    rw [hq] at hq'
    cases hq'
    refine ⟨_, _, ?_, ?_, r6⟩
    · simp only [run, hpd, e1, Option.bind_some, COp.move, e2, Option.map_some, e3, e4, e5, e6]
    · dsimp only at ht
      simp only [vrun, hq, ht, Option.map_some]
      cases ev <;> rfl

/-- Machines follow values. -/
theorem Rel.run [DecidableEq (Tree L)] (h : Rel hash m w) {bits : Nat} {act : Act L} (hv : Valid bits m act) :
    ∃ m' w', run hash bytes bits m act = some m' ∧ vrun w act = some w' ∧ Rel hash m' w' := by
  cases act with
  | user op =>
    obtain ⟨s', V, e, ve, r, -⟩ := h.user (bytes := bytes) hv.1 hv.2
    exact ⟨_, _, by simp only [OpMem.run, e, Option.map_some], by simp only [vrun, ve, Option.map_some], r⟩
  | call tag cached sh ps v =>
    obtain ⟨he, hn, hb, hnb, hfit⟩ := hv
    rw [List.nodup_cons] at hnb
    obtain ⟨o, s1, ts, e1, ht, r1, p1⟩ := h.push (bytes := bytes) (tag := tag) he hn (fun b hm => hb b (by simp only [List.mem_cons]; exact .inr hm)) hnb.2 hfit
    have hpr := (List.forall₂_cons.1 r1.pend).1
    have hfind := find_rel (tag := tag) r1.inv hpr.2.2 r1.ents
    dsimp only at hfind
    have hres : Option.Rel (EntRel s1) (if cached then find s1 m.entries tag o else none)
        (if cached then w.entries.find? (fun f => f.1 == tag && decide (f.2.1 = ts)) else none) := by
      cases cached
      · exact .none
      · exact hfind
    simp only [OpMem.run, e1, Option.bind_some, vrun, ht]
    cases hc : (if cached then find s1 m.entries tag o else none) with
    | none =>
      rw [hc] at hres
      cases hd : (if cached then w.entries.find? (fun f => f.1 == tag && decide (f.2.1 = ts)) else none) with
      | none => exact ⟨_, _, rfl, rfl, r1⟩
      | some f => rw [hd] at hres; cases hres
    | some e =>
      rw [hc] at hres
      cases hd : (if cached then w.entries.find? (fun f => f.1 == tag && decide (f.2.1 = ts)) else none) with
      | none => rw [hd] at hres; cases hres
      | some f =>
        rw [hd] at hres
        have hef : EntRel s1 e f := by cases hres; assumption
        have hvf := hb v (by simp)
        have hvn : v ∉ ps.map Prod.fst ++ ps.map Prod.snd := by
          rw [List.mem_append, not_or]
          refine ⟨fun hm => ?_, hnb.1⟩
          obtain ⟨p, hp, rfl⟩ := List.mem_map.1 hm
          obtain ⟨a, ha⟩ := (he p hp).1
          rw [hvf.1] at ha
          cases ha
        have hov : o.visited = ps.map Prod.snd ∨ ∀ u ∈ o.visited, u ∈ ps.map Prod.snd := by
          cases sh <;> simp only [build, Option.map_eq_some_iff, Prod.mk.injEq] at e1 <;> obtain ⟨_, -, rfl, -⟩ := e1
          · exact .inr fun u hu => List.mem_of_mem_take hu
          · exact .inl rfl
          · exact .inl rfl
        have hvo : v ∉ Mach.owned { m with heap := s1, pending := (tag, o) :: m.pending } := by
          simp only [Mach.owned, List.flatMap_cons, List.mem_append, not_or]
          have := hvf.2
          simp only [Mach.owned, List.mem_append, not_or] at this
          refine ⟨this.1, fun hm => ?_, this.2⟩
          rcases hov with hov | hov
          · rw [hov] at hm; exact hnb.1 hm
          · exact hnb.1 (hov v hm)
        obtain ⟨s2, e2, r2, -⟩ := r1.copyOut (bytes := bytes) (v := v) (x := e.result) ⟨(p1.vars v hvn).trans hvf.1, hvo⟩ hef.2.2.2
        obtain ⟨s3, e3, q, qs, hq, r3⟩ := r2.pop (bytes := bytes) rfl
        dsimp only at hq
        cases hq
        dsimp only at e2 e3
        exact ⟨_, _, by simp only [e2, Option.bind_some, e3, Option.map_some], rfl, r3⟩
  | operand v i j =>
    obtain ⟨hf, p, hp, hj⟩ := hv
    obtain ⟨q, hq, hr⟩ := forall₂_get h.pend hp
    obtain ⟨t, ht, hh⟩ := forall₂_get hr.2.2 (List.getElem?_eq_getElem hj)
    obtain ⟨s', e, r, -⟩ := h.copyOut (bytes := bytes) hf hh
    exact ⟨_, _, by simp only [OpMem.run, hp, Option.bind_some, List.getElem?_eq_getElem hj, e, Option.map_some],
      by simp only [vrun, hq, Option.bind_some, ht, Option.map_some], r⟩
  | finish res ev ds r v => exact h.finish hv
  | leave =>
    cases hm : m.pending with
    | nil => exact absurd hm hv
    | cons p ps =>
      obtain ⟨tag, o⟩ := p
      obtain ⟨s', e, q, qs, hq, r⟩ := h.pop (bytes := bytes) hm
      exact ⟨_, _, by simp only [OpMem.run, hm, e, Option.map_some], by simp only [vrun, hq], r⟩
  | clear tag =>
    obtain ⟨s', e, r⟩ := Rel.clear (bytes := bytes) tag m.entries [] [] w.entries m w h rfl rfl rfl
    simp only [List.nil_append] at r
    refine ⟨_, _, ?_, rfl, r⟩
    simp only [OpMem.run]
    rw [e, Option.map_some]

/-! ## Programs -/

/-- The states reached by a program: what happened, from the beginning, and the machine. (Model of the environment: what the user or the system
does.) -/
inductive Trace (hash bytes : Key L → Nat) (bits : Nat) (size : BitVec 64) (n : Nat) : List (Act L) → Mach L → Prop where
  | init : Trace hash bytes bits size n [] ⟨Heap.init size n, [], []⟩
  | step {acts : List (Act L)} {m m' : Mach L} {act : Act L} : Trace hash bytes bits size n acts m → Valid bits m act →
      OpMem.run hash bytes bits m act = some m' → Trace hash bytes bits size n (acts ++ [act]) m'

/-- What a program means when data are values. (Specification, not part of the code.) -/
def vruns [DecidableEq (Tree L)] (n : Nat) (acts : List (Act L)) : Option (VMach L) :=
  acts.foldlM vrun ⟨List.replicate n .dead, [], []⟩

theorem init_rel {size : BitVec 64} (h1 : 1 ≤ size.toNat) (h2 : size.toNat ≤ 2 ^ 63) (n : Nat) :
    Rel hash (⟨Heap.init size n, [], []⟩ : Mach L) ⟨List.replicate n .dead, [], []⟩ := by
  refine ⟨init_inv h1 h2 n, List.nodup_nil, .nil, .nil, by simp [Heap.init], by simp [Mach.owned], fun v _ hv => ?_⟩
  simp only [Heap.init, List.length_replicate] at hv
  exact ⟨.dead, .dead, by simp [Heap.init, hv], by simp [hv], trivial⟩

theorem Trace.rel [DecidableEq (Tree L)] {bits : Nat} {size : BitVec 64} (h1 : 1 ≤ size.toNat) (h2 : size.toNat ≤ 2 ^ 63) {n : Nat}
    {acts : List (Act L)} {m : Mach L} (h : Trace hash bytes bits size n acts m) : ∃ w, vruns n acts = some w ∧ Rel hash m w := by
  induction h with
  | init => exact ⟨_, rfl, init_rel h1 h2 n⟩
  | @step acts m m' act _ hv e ih =>
    obtain ⟨w, hw, hr⟩ := ih
    obtain ⟨m1, w1, e1, e2, r⟩ := hr.run (bytes := bytes) hv
    rw [e] at e1
    cases e1
    refine ⟨w1, ?_, r⟩
    unfold vruns at hw ⊢
    rw [List.foldlM_append, hw]
    simpa using e2

/-- The values needed by a program. (Specification, not part of the code.) -/
def VMach.values (w : VMach L) : List (Tree L) :=
  w.vars.filterMap (fun x => match x with | .val t => some t | _ => none) ++ w.entries.flatMap (fun f => f.2.2 :: f.2.1) ++
    w.pending.flatMap fun q => q.2

/-- A value is a part of another one, at any depth. (Specification, not part of the code.) -/
inductive PartOf : Tree L → Tree L → Prop where
  | refl (t : Tree L) : PartOf t t
  | kid {t u : Tree L} {l : L} {ts : List (Tree L)} : u ∈ ts → PartOf t u → PartOf t (.node l ts)

theorem PartOf.trans {t u v : Tree L} (h1 : PartOf t u) (h2 : PartOf u v) : PartOf t v := by
  induction h2 with
  | refl => exact h1
  | kid hm _ ih => exact .kid hm ih

theorem denotesL_mem {s : State L} : ∀ {ts : List (Tree L)} {as : List Addr}, DenotesL s ts as → ∀ {t : Tree L}, t ∈ ts → ∃ a, Denotes s t a
  | [], _, _, t, h => by cases h
  | t :: ts, a :: as, h, u, hu => by
    rcases List.mem_cons.1 hu with rfl | hu
    · exact ⟨a, h.1⟩
    · exact denotesL_mem h.2 hu
  | _ :: _, [], h, _, _ => by simp [DenotesL] at h

/-- The parts of a value which is in memory are in memory. -/
theorem PartOf.denotes {s : State L} {t u : Tree L} (h : PartOf t u) : ∀ {a : Addr}, Denotes s u a → ∃ b, Denotes s t b := by
  induction h with
  | refl => exact fun h => ⟨_, h⟩
  | kid hm _ ih =>
    intro a ha
    obtain ⟨kids, b, -, hk⟩ := ha
    obtain ⟨c, hc⟩ := denotesL_mem hk hm
    exact ih hc

theorem Rel.value_holds (h : Rel hash m w) {t : Tree L} (ht : t ∈ w.values) : ∃ a, Denotes m.heap t a := by
  simp only [VMach.values, List.mem_append, List.mem_filterMap, List.mem_flatMap] at ht
  have hflip : ∀ {α β : Type} {R : α → β → Prop} {l : List α} {l' : List β}, List.Forall₂ R l l' → ∀ {y}, y ∈ l' → ∃ x ∈ l, R x y :=
    @fun _ _ _ _ _ h y hy => mem_forall₂ h.flip hy
  rcases ht with (⟨x, hx, e⟩ | ⟨f, hf, ht⟩) | ⟨q, hq, ht⟩
  · cases x with
    | dead => simp at e
    | moved => simp at e
    | val u =>
      simp only [Option.some.injEq] at e
      subst e
      obtain ⟨v, hl, hv⟩ := List.getElem_of_mem hx
      have hv' : w.vars[v]? = some (.val u) := by rw [List.getElem?_eq_getElem hl, hv]
      have hno : v ∉ m.owned := fun ho => by
        rw [h.own v ho] at hv'
        cases hv'
      obtain ⟨x, y, hx, hy, hr⟩ := h.usr v hno (by rw [← h.len]; exact hl)
      rw [hv'] at hy
      cases hy
      cases x with
      | dead => exact hr.elim
      | moved => exact hr.elim
      | live a => exact ⟨a, hr⟩
  · obtain ⟨e, -, -, -, h1, h2⟩ := hflip h.ents hf
    rcases List.mem_cons.1 ht with rfl | ht
    · exact h2.imp fun _ h => h.2
    · obtain ⟨v, -, hv⟩ := hflip h1 ht
      exact hv.imp fun _ h => h.2
  · obtain ⟨e, -, -, -, h1⟩ := hflip h.pend hq
    obtain ⟨v, -, hv⟩ := hflip h1 ht
    exact hv.imp fun _ h => h.2

theorem Rel.cell_value (h : Rel hash m w) {a : Addr} (ha : (m.heap.cells a).isSome) : ∃ t ∈ w.values, ∃ u, PartOf u t ∧ Denotes m.heap u a := by
  have hr := (h.inv.live_iff a).1 ha
  clear ha
  induction hr with
  | @handle a hm =>
    obtain ⟨v, hl, hv⟩ := List.getElem_of_mem hm
    have hv' : m.heap.vars[v]? = some (.live a) := by rw [List.getElem?_eq_getElem hl, hv]
    simp only [VMach.values, List.mem_append, List.mem_filterMap, List.mem_flatMap]
    have hden : ∀ t, Holds m.heap v t → Denotes m.heap t a := by
      rintro t ⟨b, hb, hd⟩
      rw [hv'] at hb
      cases hb
      exact hd
    by_cases ho : v ∈ m.owned
    · unfold Mach.owned at ho
      rw [List.mem_append, List.mem_flatMap, List.mem_flatMap] at ho
      rcases ho with ⟨e, he, hv⟩ | ⟨p, hp, hv⟩
      · obtain ⟨f, hf, -, -, h1, h2⟩ := mem_forall₂ h.ents he
        rcases List.mem_cons.1 hv with rfl | hv
        · exact ⟨_, .inl (.inr ⟨f, hf, by simp⟩), _, .refl _, hden _ h2⟩
        · obtain ⟨t, ht, hh⟩ := mem_forall₂ h1 hv
          exact ⟨_, .inl (.inr ⟨f, hf, by simp [ht]⟩), _, .refl _, hden _ hh⟩
      · obtain ⟨f, hf, -, -, h1⟩ := mem_forall₂ h.pend hp
        obtain ⟨t, ht, hh⟩ := mem_forall₂ h1 hv
        exact ⟨_, .inr ⟨f, hf, ht⟩, _, .refl _, hden _ hh⟩
    · obtain ⟨x, y, hx, hy, hr⟩ := h.usr v ho hl
      rw [hv'] at hx
      cases hx
      cases y with
      | dead => exact hr.elim
      | moved => exact hr.elim
      | val t => exact ⟨t, .inl (.inl ⟨_, List.mem_of_getElem? hy, rfl⟩), _, .refl _, hr⟩
  | @kid a k c _ hc hk ih =>
    obtain ⟨t, ht, u, hu, hd⟩ := ih
    obtain ⟨l, ts⟩ := u
    obtain ⟨kids, b, hc', hks⟩ := hd
    rw [hc] at hc'
    cases hc'
    obtain ⟨i, hi, e⟩ := List.getElem_of_mem hk
    obtain ⟨u, hu', hd⟩ := denotesL_get hks (i := i) (k := k) (by rw [List.getElem?_eq_getElem hi, e])
    exact ⟨t, ht, u, PartOf.trans (.kid (List.mem_of_getElem? hu') (.refl u)) hu, hd⟩

/-- Statements which do not name a variable keep what it holds. -/
theorem runs_holds {s s' : State L} {ops : List (Op L)} (hr : Runs hash bytes s ops s') : Inv hash [] s → ∀ {v : Nat} {t : Tree L},
    Holds s v t → (∀ op ∈ ops, v ∉ opVars op) → Inv hash [] s' ∧ Holds s' v t := by
  induction hr with
  | nil s => exact fun hi v t h _ => ⟨hi, h⟩
  | cons hv he _ ih =>
    intro hi v t h hn
    obtain ⟨s1, e1, p1, -⟩ := exec_pres (bytes := bytes) hi hv
    rw [he] at e1
    cases e1
    exact ih p1.inv (p1.holds v t (fun h => hn _ (by simp) (writes_vars _ h)) h) fun op hop => hn op (by simp [hop])

end

/-! ## What is not changed by statements, whatever they are -/

section
variable {L : Type} [DecidableEq L] {hash : Key L → Nat} {bytes : Key L → Nat} {bits : Nat}

theorem inc_frame {a : Addr} {s s' : State L} (h : inc a s = some s') : s'.vars = s.vars := by
  unfold inc at h
  split at h
  · cases h
  · cases h; rfl

theorem incs_frame : ∀ (as : List Addr) {s s' : State L}, incs as s = some s' → s'.vars = s.vars := by
  intro as
  induction as with
  | nil => intro s s' h; cases h; rfl
  | cons a as ih =>
    intro s s' h
    simp only [incs, List.foldlM_cons] at h
    cases h1 : inc a s with
    | none => rw [h1] at h; cases h
    | some s1 =>
      rw [h1] at h
      exact (ih h).trans (inc_frame h1)

theorem destroys_frame {n : Nat} {P : List Item} {s s' : State L} (h : Heap.destroy hash n P s = some s') : s'.vars = s.vars := by
  have e := destroy_vars (hash := hash) n P s s.vars
  rw [show ({ s with vars := s.vars } : State L) = s from rfl, h, Option.map_some, Option.some.injEq] at e
  rw [e]

theorem recycle_frame {a : Addr} {n : Nat} {s s' : State L} (h : recycle a n s = some s') : s'.vars = s.vars := by
  unfold recycle release at h
  split at h
  · split at h
    · split at h
      · cases h; rfl
      · cases h
    · split at h
      · cases h; rfl
      · cases h
  · cases h; rfl

theorem allocate_frame (n : Nat) (fr : Addr) (s : State L) : (allocate n fr s).2.vars = s.vars := by
  unfold allocate
  split
  · split <;> rfl
  · rfl

theorem unify_frame {l : L} {kids : List Addr} {fr a : Addr} {s s' : State L} (h : unify hash bytes l kids fr s = some (a, s')) : s'.vars = s.vars := by
  simp only [unify] at h
  split at h
  · cases h1 : incs kids (allocate (bytes (l, kids)) fr s).2 with
    | none => rw [h1] at h; cases h
    | some s1 =>
      rw [h1] at h
      have hs1 := (incs_frame kids h1).trans (allocate_frame _ _ _)
      simp only at h
      split at h
      · cases h
      · cases h; exact hs1
      · split at h
        · cases h
        · rename_i s2 hd
          have hs2 := (destroys_frame hd).trans hs1
          rw [Option.map_eq_some_iff] at h
          obtain ⟨s3, h3, e⟩ := h
          cases e
          exact (recycle_frame h3).trans hs2
  · cases h

/-- Whatever the statement, when it is defined. -/
theorem exec_frame {s s' : State L} {op : Op L} (h : exec hash bytes s op = some s') : ∀ v, v ∉ opWrites op → s'.vars[v]? = s.vars[v]? := by
  have h1 : ∀ {V : List Slot} {u : Nat} {x : Slot}, V = s.vars → ∀ v, v ∉ [u] → (V.set u x)[v]? = s.vars[v]? := by
    rintro V u x rfl v hv
    rw [List.getElem?_set_ne]
    rintro rfl
    simp at hv
  have h2 : ∀ {V : List Slot} {u w : Nat} {x y : Slot}, V = s.vars → ∀ v, v ∉ [u, w] → ((V.set u x).set w y)[v]? = s.vars[v]? := by
    rintro V u w x y rfl v hv
    simp only [List.mem_cons, List.not_mem_nil, or_false, not_or] at hv
    rw [List.getElem?_set_ne (Ne.symm hv.2), List.getElem?_set_ne (Ne.symm hv.1)]
  have hi : ∀ {b : Addr} {s1 s2 : State L} {u : Nat}, s1.vars = s.vars →
      (inc b s1).map (fun s' => { s' with vars := s'.vars.set u (.live b) }) = some s2 → ∀ v, v ∉ [u] → s2.vars[v]? = s.vars[v]? := by
    intro b s1 s2 u e hm
    rw [Option.map_eq_some_iff] at hm
    obtain ⟨s3, e3, rfl⟩ := hm
    exact h1 ((inc_frame e3).trans e)
  cases op with
  | create v l ks fr =>
    simp only [exec] at h
    split at h
    · split at h
      · cases h
      · rename_i hu
        exact hi (unify_frame hu) h
    · cases h
  | copy v w =>
    simp only [exec] at h
    split at h
    · exact hi rfl h
    · cases h
  | move v w =>
    simp only [exec] at h
    split at h
    · cases h
      intro u hu
      exact h1 rfl u (by simp only [opWrites, List.mem_cons, List.not_mem_nil, or_false, not_or] at hu ⊢; exact hu.1)
    · cases h; exact h2 rfl
    · cases h
  | copyAssign v w =>
    simp only [exec] at h
    split at h
    · exact hi rfl h
    · split at h
      · cases h
      · rename_i hd
        exact hi (destroys_frame hd) h
    · cases h
  | moveAssign v w =>
    simp only [exec] at h
    split at h
    · split at h
      · cases h
      · cases h; exact h2 rfl
    · split at h
      · cases h
      · rw [Option.map_eq_some_iff] at h
        obtain ⟨s1, hd, rfl⟩ := h
        exact h2 (destroys_frame hd)
    · cases h
  | destroy v =>
    simp only [exec] at h
    split at h
    · cases h; exact h1 rfl
    · rw [Option.map_eq_some_iff] at h
      obtain ⟨s1, hd, rfl⟩ := h
      exact h1 (destroys_frame hd)
    · cases h
  | swap v w =>
    simp only [exec] at h
    split at h
    · split at h
      · cases h
      · cases h; exact h2 rfl
    · cases h
  | read v w i =>
    simp only [exec] at h
    split at h
    · exact hi rfl h
    · cases h
  | readAssign v w i =>
    simp only [exec] at h
    split at h
    · rw [Option.bind_eq_some_iff] at h
      obtain ⟨k, -, h⟩ := h
      exact hi rfl h
    · split at h
      · cases h
      · split at h
        · cases h
        · rename_i hd
          rw [Option.bind_eq_some_iff] at h
          obtain ⟨k, -, h⟩ := h
          exact hi (destroys_frame hd) h
    · cases h

theorem execs_frame : ∀ (ops : List (Op L)) {s s' : State L}, execs hash bytes ops s = some s' →
    ∀ v, (∀ op ∈ ops, v ∉ opWrites op) → s'.vars[v]? = s.vars[v]? := by
  intro ops
  induction ops with
  | nil => intro s s' h v _; cases h; rfl
  | cons op ops ih =>
    intro s s' h v hv
    simp only [execs, Option.bind_eq_some_iff] at h
    obtain ⟨s1, e1, h⟩ := h
    exact (ih h v fun o ho => hv o (List.mem_cons_of_mem _ ho)).trans (exec_frame e1 v (hv op List.mem_cons_self))

theorem build_frame {sh : Shape} {ps : List (Nat × Nat)} {s s' : State L} {o : COp} (h : build hash bytes bits sh ps s = some (o, s')) :
    (∀ v, v ∉ ps.map Prod.fst → v ∉ ps.map Prod.snd → s'.vars[v]? = s.vars[v]?) ∧ ∀ v ∈ o.visited, v ∈ ps.map Prod.snd := by
  have hm : ∀ (v : Nat), v ∉ ps.map Prod.fst → v ∉ ps.map Prod.snd → ∀ op ∈ ps.map (fun p => (Op.move p.2 p.1 : Op L)), v ∉ opWrites op := by
    intro v h1 h2 op hop
    obtain ⟨p, hp, rfl⟩ := List.mem_map.1 hop
    simp only [opWrites, List.mem_cons, List.not_mem_nil, or_false, not_or]
    exact ⟨fun e => h2 (e ▸ List.mem_map_of_mem hp), fun e => h1 (e ▸ List.mem_map_of_mem hp)⟩
  have hc : ∀ (v : Nat), v ∉ ps.map Prod.snd → ∀ op ∈ ps.map (fun p => (Op.copy p.2 p.1 : Op L)), v ∉ opWrites op := by
    intro v h2 op hop
    obtain ⟨p, hp, rfl⟩ := List.mem_map.1 hop
    simp only [opWrites, List.mem_cons, List.not_mem_nil, or_false]
    exact fun e => h2 (e ▸ List.mem_map_of_mem hp)
  cases sh with
  | nary =>
    simp only [build, Option.map_eq_some_iff, Prod.mk.injEq] at h
    obtain ⟨s1, e, rfl, rfl⟩ := h
    exact ⟨fun v h1 h2 => execs_frame _ e v (hm v h1 h2), fun v hv => List.mem_of_mem_take hv⟩
  | moved =>
    simp only [build, Option.map_eq_some_iff, Prod.mk.injEq] at h
    obtain ⟨s1, e, rfl, rfl⟩ := h
    exact ⟨fun v h1 h2 => execs_frame _ e v (hm v h1 h2), fun v hv => hv⟩
  | copied =>
    simp only [build, Option.map_eq_some_iff, Prod.mk.injEq] at h
    obtain ⟨s1, e, rfl, rfl⟩ := h
    exact ⟨fun v _ h2 => execs_frame _ e v (hc v h2), fun v hv => hv⟩

theorem COp.destroy_frame {o : COp} {s s' : State L} (h : o.destroy hash bytes s = some s') : ∀ v, v ∉ o.visited → s'.vars[v]? = s.vars[v]? := by
  intro v hv
  cases o with
  | nary arr n =>
    refine execs_frame _ h v fun op hop => ?_
    obtain ⟨u, hu, rfl⟩ := List.mem_map.1 hop
    simp only [opWrites, List.mem_singleton]
    rintro rfl
    exact hv hu
  | fixed ms =>
    refine execs_frame _ h v fun op hop => ?_
    obtain ⟨u, hu, rfl⟩ := List.mem_map.1 hop
    simp only [opWrites, List.mem_singleton]
    rintro rfl
    exact hv (List.mem_reverse.1 hu)

theorem COp.move_frame {o o1 o2 : COp} {ds : List Nat} {s s' : State L} (h : o.move hash bytes ds s = some (o1, o2, s')) :
    (∀ v, v ∉ ds → s'.vars[v]? = s.vars[v]?) ∧ ∀ v ∈ o2.visited, v ∈ o.visited := by
  cases o with
  | nary arr n =>
    simp only [COp.move, Option.some.injEq, Prod.mk.injEq] at h
    obtain ⟨rfl, rfl, rfl⟩ := h
    exact ⟨fun _ _ => rfl, fun v hv => by cases hv⟩
  | fixed ms =>
    simp only [COp.move, Option.map_eq_some_iff, Prod.mk.injEq] at h
    obtain ⟨s1, e, rfl, rfl, rfl⟩ := h
    refine ⟨fun v hv => execs_frame _ e v fun op hop => ?_, fun v hv => hv⟩
    obtain ⟨p, hp, rfl⟩ := List.mem_map.1 hop
    simp only [opWrites, List.mem_singleton]
    rintro rfl
    exact hv (List.of_mem_zip hp).2

theorem Entry.destroy_frame {e : Entry} {s s' : State L} (h : e.destroy hash bytes s = some s') :
    ∀ v, v ∉ e.result :: e.op.visited → s'.vars[v]? = s.vars[v]? := by
  intro v hv
  simp only [Entry.destroy, Option.bind_eq_some_iff] at h
  obtain ⟨s1, e1, h⟩ := h
  simp only [List.mem_cons, not_or] at hv
  exact (COp.destroy_frame h v hv.2).trans (exec_frame e1 v (by simpa [opWrites] using hv.1))

theorem destroyAll_frame : ∀ (es : List Entry) {s s' : State L}, destroyAll hash bytes es s = some s' →
    ∀ v, (∀ e ∈ es, v ∉ e.result :: e.op.visited) → s'.vars[v]? = s.vars[v]? := by
  intro es
  induction es with
  | nil => intro s s' h v _; cases h; rfl
  | cons e es ih =>
    intro s s' h v hv
    simp only [destroyAll, Option.bind_eq_some_iff] at h
    obtain ⟨s1, e1, h⟩ := h
    exact (ih h v fun o ho => hv o (List.mem_cons_of_mem _ ho)).trans (Entry.destroy_frame e1 v (hv e List.mem_cons_self))

/-- The places of an entry. (Proof device, not part of the code.) -/
def Entry.places (e : Entry) : List Nat := e.result :: e.op.visited

variable {m m' : Mach L} {w : VMach L}

theorem Rel.entry_pend (h : Rel hash m w) {e : Entry} (he : e ∈ m.entries) {p : Nat × COp} (hp : p ∈ m.pending) {v : Nat} (hv : v ∈ e.places) :
    v ∉ p.2.visited := by
  have hn := h.nodup
  unfold Mach.owned at hn
  exact fun h => (List.nodup_append.1 hn).2.2 v (List.mem_flatMap.2 ⟨e, he, hv⟩) v (List.mem_flatMap.2 ⟨p, hp, h⟩) rfl

theorem Rel.entry_entry (h : Rel hash m w) {i j : Nat} (hi : i < m.entries.length) (hj : j < m.entries.length) (hne : i ≠ j) {v : Nat}
    (hv : v ∈ m.entries[i].places) : v ∉ m.entries[j].places := by
  have hn := h.nodup
  unfold Mach.owned at hn
  have hp := (List.nodup_flatMap.1 (List.nodup_append.1 hn).1).2
  rw [List.pairwise_iff_getElem] at hp
  intro hv'
  rcases Nat.lt_or_gt_of_ne hne with hl | hl
  · exact hp i j hi hj hl hv hv'
  · exact hp j i hj hi hl hv' hv

/-- An entry which stays in its cache has the same places with the same contents. -/
theorem Rel.entry_frame (h : Rel hash m w) {act : Act L} (hv : OpMem.Valid bits m act) (hr : OpMem.run hash bytes bits m act = some m') {e : Entry}
    (he : e ∈ m.entries) (he' : e ∈ m'.entries) : ∀ v ∈ e.places, m'.heap.vars[v]? = m.heap.vars[v]? := by
  intro v hvp
  have hown : v ∈ m.owned := List.mem_append_left _ (List.mem_flatMap.2 ⟨e, he, hvp⟩)
  cases act with
  | user op =>
    simp only [OpMem.run, Option.map_eq_some_iff] at hr
    obtain ⟨s, e1, rfl⟩ := hr
    exact exec_frame e1 v fun hm => hv.2 v (writes_vars op hm) hown
  | call tag cached sh ps d =>
    obtain ⟨h1, -, h3, -, -⟩ := hv
    simp only [OpMem.run, Option.bind_eq_some_iff] at hr
    obtain ⟨⟨o, s⟩, hb, hr⟩ := hr
    obtain ⟨hb, ho⟩ := build_frame hb
    have hf : v ∉ ps.map Prod.fst := by
      intro hm
      obtain ⟨p, hp, rfl⟩ := List.mem_map.1 hm
      exact (h1 p hp).2 hown
    have hs : v ∉ ps.map Prod.snd := fun hm => (h3 v (List.mem_cons_of_mem _ hm)).2 hown
    have hd : v ≠ d := fun hm => (h3 d List.mem_cons_self).2 (hm ▸ hown)
    simp only at hr
    split at hr
    · simp only [Option.bind_eq_some_iff, Option.map_eq_some_iff] at hr
      obtain ⟨s1, e1, s2, e2, rfl⟩ := hr
      exact ((COp.destroy_frame e2 v fun hm => hs (ho v hm)).trans (exec_frame e1 v (by simpa [opWrites] using hd))).trans (hb v hf hs)
    · cases hr
      exact hb v hf hs
  | operand d i j =>
    simp only [OpMem.run, Option.bind_eq_some_iff, Option.map_eq_some_iff] at hr
    obtain ⟨p, -, x, -, s, e1, rfl⟩ := hr
    refine exec_frame e1 v ?_
    simp only [opWrites, List.mem_singleton]
    exact fun hm => hv.1.2 (hm ▸ hown)
  | finish res ev ds r d =>
    obtain ⟨h1, h2, -, tag, o, ps, hp, -, h4⟩ := hv
    simp only [OpMem.run, hp, Option.bind_eq_some_iff, Option.map_eq_some_iff] at hr
    obtain ⟨⟨es, s0⟩, e0, ⟨o1, o2, s1⟩, e1, s2, e2, s3, e3, s4, e4, s5, e5, rfl⟩ := hr
    have hres : v ≠ res := fun hm => h1.2 (hm ▸ hown)
    have hr : v ≠ r := fun hm => (h2 r (by simp)).2 (hm ▸ hown)
    have hd : v ≠ d := fun hm => (h2 d (by simp)).2 (hm ▸ hown)
    have hds : v ∉ ds := fun hm => (h2 v (by simp [hm])).2 hown
    obtain ⟨hm1, hm2⟩ := COp.move_frame e1
    have ho : v ∉ o.visited := h.entry_pend he (p := (tag, o)) (by rw [hp]; exact List.mem_cons_self) hvp
    have hes : e ∈ es := by
      rcases List.mem_append.1 he' with hm | hm
      · exact hm
      · rw [List.mem_singleton] at hm
        subst hm
        exact absurd (List.mem_append_left _ (List.mem_flatMap.2 ⟨_, he, List.mem_cons_self⟩)) (h2 r (by simp)).2
    have hev : s0.vars[v]? = m.heap.vars[v]? := by
      cases ev with
      | none => simp only [OpMem.evict, Option.some.injEq, Prod.mk.injEq] at e0; rw [e0.2]
      | some i =>
        simp only [OpMem.evict, Option.bind_eq_some_iff, Option.map_eq_some_iff, Prod.mk.injEq] at e0
        obtain ⟨f, hf, s6, e6, rfl, rfl⟩ := e0
        obtain ⟨hi, hf⟩ := List.getElem?_eq_some_iff.1 hf
        obtain ⟨j, hj, hne, ej⟩ := List.mem_eraseIdx_iff_getElem.1 hes
        refine Entry.destroy_frame e6 v ?_
        rw [← hf]
        exact h.entry_entry hj hi hne (by rw [ej]; exact hvp)
    simp only
    rw [COp.destroy_frame e5 v fun hm => ho (hm2 v hm), exec_frame e4 v (by simpa [opWrites] using hres), exec_frame e3 v (by simpa [opWrites] using hd),
      exec_frame e2 v (by simp [opWrites, hr, hres]), hm1 v hds, hev]
  | leave =>
    cases hp : m.pending with
    | nil => simp only [OpMem.run, hp] at hr; cases hr
    | cons p ps =>
      simp only [OpMem.run, hp, Option.map_eq_some_iff] at hr
      obtain ⟨s, e1, rfl⟩ := hr
      exact COp.destroy_frame e1 v (h.entry_pend he (by rw [hp]; exact List.mem_cons_self) hvp)
  | clear tag =>
    simp only [OpMem.run, Option.map_eq_some_iff] at hr
    obtain ⟨s, e1, rfl⟩ := hr
    refine destroyAll_frame _ e1 v fun f hf => ?_
    obtain ⟨hf, hft⟩ := List.mem_filter.1 hf
    have het := (List.mem_filter.1 he').2
    obtain ⟨i, hi, rfl⟩ := List.getElem_of_mem he
    obtain ⟨j, hj, rfl⟩ := List.getElem_of_mem hf
    refine h.entry_entry hi hj ?_ hvp
    rintro rfl
    rw [hft] at het
    cases het

theorem target_frame {s s' : State L} {v : Nat} (h : s'.vars[v]? = s.vars[v]?) : target s' v = target s v := by
  unfold target
  rw [h]

/-- What is compared and hashed does not change. -/
theorem Rel.stable (h : Rel hash m w) {act : Act L} (hv : OpMem.Valid bits m act) (hr : OpMem.run hash bytes bits m act = some m') {e : Entry}
    (he : e ∈ m.entries) (he' : e ∈ m'.entries) :
    ∃ as a, e.op.key m.heap = some as ∧ e.op.key m'.heap = some as ∧ target m.heap e.result = some a ∧ target m'.heap e.result = some a := by
  have hf := h.entry_frame hv hr he he'
  obtain ⟨f, -, -, -, h1, b, hb, -⟩ := mem_forall₂ h.ents he
  have hk : ∀ {vs : List Nat} {ts : List (Tree L)}, List.Forall₂ (Holds m.heap) vs ts → ∃ as, vs.mapM (target m.heap) = some as := by
    intro vs ts h
    induction h with
    | nil => exact ⟨[], rfl⟩
    | cons hd _ ih =>
      obtain ⟨as, e⟩ := ih
      obtain ⟨a, ha, -⟩ := hd
      exact ⟨a :: as, by simp [List.mapM_cons, target, ha, e]⟩
  have hkey : e.op.key m'.heap = e.op.key m.heap := by
    unfold COp.key
    have : ∀ (vs : List Nat), (∀ v ∈ vs, m'.heap.vars[v]? = m.heap.vars[v]?) → vs.mapM (target m'.heap) = vs.mapM (target m.heap) := by
      intro vs
      induction vs with
      | nil => intro _; rfl
      | cons v vs ih =>
        intro hvs
        rw [List.mapM_cons, List.mapM_cons, target_frame (hvs v List.mem_cons_self), ih fun u hu => hvs u (List.mem_cons_of_mem _ hu)]
    exact this _ fun v hm => hf v (List.mem_cons_of_mem _ hm)
  obtain ⟨as, has⟩ := hk h1
  refine ⟨as, b, has, hkey.trans has, ?_, ?_⟩
  · unfold target
    rw [hb]
  · rw [target_frame (hf _ List.mem_cons_self)]
    unfold target
    rw [hb]

end

end OpMem
end Verif
