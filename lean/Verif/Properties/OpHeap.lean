import Verif.Mem.OpHeap
import Verif.Mem.Shutdown
/-!
# Properties of the operations kept by caches, in memory
-/

set_option autoImplicit false
set_option linter.unusedSectionVars false

namespace Verif
open Heap OpMem

section
variable {L : Type} [DecidableEq L] [DecidableEq (Tree L)] {hash : Key L → Nat} {bytes : Key L → Nat}

/-- **C98**, partial. After any program (statements on handles, calls of caches, evaluations which end or throw, evictions, removals of all entries of
a cache), for any hash function, when sums and intersections have fewer than `2 ^ bits` operands: what may be done is defined; the same program,
with values instead of pointers and caches which compare values, is defined (`vruns`) and gives the same variables, with as many entries in caches and operations being evaluated (hence results are known exactly
when they are in the table of values); two variables are equal
exactly when their values are; every value of a variable, of an operand or a result in a cache, or of an operand of an operation being evaluated
is in memory, with its parts, and nothing else is in memory.

What is missing: more operands (`C98_negation`). -/
theorem C98_cached_operations_partial {size : BitVec 64} (h1 : 1 ≤ size.toNat) (h2 : size.toNat ≤ 2 ^ 63) {bits n : Nat} {acts : List (Act L)}
    {m : Mach L} (h : Trace hash bytes bits size n acts m) :
    (∀ act, OpMem.Valid bits m act → ∃ m', OpMem.run hash bytes bits m act = some m' ∧ Trace hash bytes bits size n (acts ++ [act]) m') ∧
    ∃ w, vruns n acts = some w ∧ m.entries.length = w.entries.length ∧ m.pending.length = w.pending.length ∧
      (∀ v, v ∉ m.owned → (∀ a, m.heap.vars[v]? = some (.live a) → ∃ t, w.vars[v]? = some (.val t) ∧ Denotes m.heap t a) ∧
        ∀ t, w.vars[v]? = some (.val t) → ∃ a, m.heap.vars[v]? = some (.live a) ∧ Denotes m.heap t a) ∧
      (∀ t u a b, Denotes m.heap t a → Denotes m.heap u b → (a = b ↔ t = u)) ∧
      (∀ t ∈ w.values, ∀ u, PartOf u t → ∃ a, Denotes m.heap u a) ∧
      ∀ a, (m.heap.cells a).isSome → ∃ t ∈ w.values, ∃ u, PartOf u t ∧ Denotes m.heap u a := by
  obtain ⟨w, hw, hr⟩ := h.rel h1 h2
  refine ⟨fun act hv => ?_, w, hw, hr.ents.length_eq, hr.pend.length_eq, fun v hv => ⟨fun a ha => ?_, fun t ht => ?_⟩, fun t u a b ht hu => ⟨?_, ?_⟩, fun t ht u hu => ?_, fun a ha => hr.cell_value ha⟩
  · obtain ⟨m', w', e, -, -⟩ := hr.run (bytes := bytes) hv
    exact ⟨m', e, .step h hv e⟩
  · obtain ⟨t, ht, b, hb, hd⟩ := hr.var ⟨⟨a, ha⟩, hv⟩
    rw [ha] at hb
    cases hb
    exact ⟨t, ht, hd⟩
  · have hl := (List.getElem?_eq_some_iff.1 ht).1
    obtain ⟨x, y, hx, hy, hs⟩ := hr.usr v hv (by rw [← hr.len]; exact hl)
    rw [ht] at hy
    cases hy
    cases x with
    | dead => exact hs.elim
    | moved => exact hs.elim
    | live a => exact ⟨a, hx, hs⟩
  · rintro rfl
    exact denotes_fun _ _ ht hu
  · rintro rfl
    exact denotes_inj hr.inv _ ht hu
  · obtain ⟨a, ha⟩ := hr.value_holds ht
    exact hu.denotes ha

/-- **C98**, partial: releasing. When no variable holds a value, no operation is in a cache and none is being evaluated, nothing is in memory but at
most one spare block. -/
theorem C98_released_partial {size : BitVec 64} (h1 : 1 ≤ size.toNat) (h2 : size.toNat ≤ 2 ^ 63) {bits n : Nat} {acts : List (Act L)}
    {m : Mach L} (h : Trace hash bytes bits size n acts m) (he : m.entries = []) (hp : m.pending = [])
    (hv : ∀ (v : Nat) (a : Addr), v ∉ m.owned → m.heap.vars[v]? ≠ some (.live a)) : (∀ a, m.heap.cells a = none) ∧ m.heap.blocks.length ≤ 1 := by
  obtain ⟨w, -, hr⟩ := h.rel h1 h2
  have hnone : ∀ a, m.heap.cells a = none := by
    intro a
    cases hc : m.heap.cells a with
    | none => rfl
    | some c =>
      exfalso
      have hR := (hr.inv.live_iff a).1 (by rw [hc]; rfl)
      clear hc
      induction hR with
      | handle hm =>
        obtain ⟨v, hl, e⟩ := List.getElem_of_mem hm
        exact hv v _ (by simp [Mach.owned, he, hp]) (by rw [List.getElem?_eq_getElem hl, e])
      | kid _ _ _ ih => exact ih
  refine ⟨hnone, ?_⟩
  have hsub : ∀ a ∈ m.heap.blocks.map Prod.fst, ∃ k, m.heap.spare = some (a, k) := fun a ha => by
    rcases (hr.inv.alloc a).1 ha with h | h
    · rw [hnone a] at h; cases h
    · exact h
  have hnd := hr.inv.nodup
  have hlen : (m.heap.blocks.map Prod.fst).length = m.heap.blocks.length := List.length_map _
  rw [← hlen]
  generalize m.heap.blocks.map Prod.fst = l at hsub hnd
  match l with
  | [] => simp
  | [_] => simp
  | a :: b :: l =>
    exfalso
    obtain ⟨k, ha⟩ := hsub a List.mem_cons_self
    obtain ⟨k', hb⟩ := hsub b (List.mem_cons_of_mem _ List.mem_cons_self)
    rw [ha] at hb
    cases hb
    simp at hnd

/-- **C98**, partial: stability. Whatever may happen, the addresses of the operands of an operation which stays in a cache do not change (they are what
is hashed and compared, hence it stays in its bucket), nor does the one of its result. -/
theorem C98_stable_keys_partial {size : BitVec 64} (h1 : 1 ≤ size.toNat) (h2 : size.toNat ≤ 2 ^ 63) {bits n : Nat} {acts : List (Act L)}
    {m m' : Mach L} (h : Trace hash bytes bits size n acts m) {act : Act L} (hv : OpMem.Valid bits m act)
    (hr : OpMem.run hash bytes bits m act = some m') {e : Entry} (he : e ∈ m.entries) (he' : e ∈ m'.entries) :
    ∃ as a, e.op.visited.mapM (target m.heap) = some as ∧ e.op.visited.mapM (target m'.heap) = some as ∧
      target m.heap e.result = some a ∧ target m'.heap e.result = some a := by
  obtain ⟨w, -, hw⟩ := h.rel h1 h2
  exact hw.stable hv hr he he'

/-- **C98**, negation, for every width. A sum or an intersection of `2 ^ bits` operands or more, which is evaluated then destroyed, does not release
all its operands (`/repo/sdd/dd/nary.hh:53`, `/repo/sdd/dd/nary.hh:70-81`): one of them stays in memory forever, whatever is done next. -/
theorem C98_negation {size : BitVec 64} (h1 : 1 ≤ size.toNat) (h2 : size.toNat ≤ 2 ^ 63) {bits n : Nat} {acts : List (Act L)}
    {m : Mach L} (h : Trace hash bytes bits size n acts m) (hm : m.entries = []) {tag v : Nat} {cached : Bool} {ps : List (Nat × Nat)}
    (he : ∀ p ∈ ps, m.Var p.1) (hn : (ps.map Prod.fst).Nodup) (hb : ∀ b ∈ v :: ps.map Prod.snd, m.Fresh b) (hnb : (v :: ps.map Prod.snd).Nodup)
    (hbig : 2 ^ bits ≤ ps.length) :
    ∃ m1 m2 b t, OpMem.run hash bytes bits m (.call tag cached .nary ps v) = some m1 ∧ OpMem.run hash bytes bits m1 .leave = some m2 ∧
      m2.entries = m.entries ∧ m2.pending = m.pending ∧ b ∈ ps.map Prod.snd ∧ (∃ p ∈ ps, Holds m.heap p.1 t) ∧
      ∀ ops s, Runs hash bytes m2.heap ops s → (∀ op ∈ ops, b ∉ opVars op) → ∃ a, Denotes s t a := by
  obtain ⟨w, -, hr⟩ := h.rel h1 h2
  have he' : ∀ e ∈ ps.map Prod.fst, m.Var e := by
    intro e hm
    obtain ⟨p, hp, rfl⟩ := List.mem_map.1 hm
    exact he p hp
  rw [List.nodup_cons] at hnb
  obtain ⟨ts, -, hh⟩ := hr.args he'
  obtain ⟨s1, e1, p1, b1, -⟩ := execs_move (bytes := bytes) ps hr.inv hn hnb.2 (fun b hm => (hb b (List.mem_cons_of_mem _ hm)).1) hh
  have hlt : ps.length % 2 ^ bits < (ps.map Prod.snd).length := by
    rw [List.length_map]
    exact Nat.lt_of_lt_of_le (Nat.mod_lt _ (Nat.pow_pos (by omega))) hbig
  have hvis : (COp.nary (some (ps.map Prod.snd)) (ps.length % 2 ^ bits)).visited = (ps.map Prod.snd).take (ps.length % 2 ^ bits) := rfl
  obtain ⟨s2, e2, p2, -⟩ := COp.destroy_spec (bytes := bytes) (o := .nary (some (ps.map Prod.snd)) (ps.length % 2 ^ bits)) p1.inv
    (by rw [hvis]; exact hnb.2.sublist (List.take_sublist ..)) (fun v hv => by
      rw [hvis] at hv
      obtain ⟨t, -, ht⟩ := mem_forall₂ b1 (List.mem_of_mem_take hv)
      exact ⟨t, ht⟩)
  generalize hk : ps.length % 2 ^ bits = k at *
  obtain ⟨t, htk, ht⟩ := forall₂_get b1 (List.getElem?_eq_getElem hlt)
  have hnot : (ps.map Prod.snd)[k] ∉ (ps.map Prod.snd).take k := by
    intro hm
    obtain ⟨i, hi, e⟩ := List.getElem_of_mem hm
    rw [List.getElem_take] at e
    have := (List.Nodup.getElem_inj_iff hnb.2).1 e
    rw [List.length_take] at hi
    omega
  have hhold : Holds s2 (ps.map Prod.snd)[k] t := p2.holds _ _ (by rw [hvis]; exact hnot) ht
  refine ⟨{ m with heap := s1, pending := (tag, .nary (some (ps.map Prod.snd)) k) :: m.pending }, { m with heap := s2 }, (ps.map Prod.snd)[k], t, ?_, ?_,
    rfl, rfl, List.getElem_mem _, ?_, fun ops s hrun hno => ?_⟩
  · have hf : (if cached then find s1 m.entries tag (.nary (some (ps.map Prod.snd)) k) else none) = none := by
      rw [hm]
      cases cached <;> rfl
    simp only [OpMem.run, build, e1, Option.map_some, Option.bind_some, hk, hf]
  · simp only [OpMem.run, e2, Option.map_some]
  · obtain ⟨i, hi, e⟩ := List.getElem_of_mem (List.mem_of_getElem? htk)
    have hl : i < (ps.map Prod.fst).length := by rw [hh.length_eq]; exact hi
    have := (List.forall₂_iff_get.1 hh).2 i hl hi
    simp only [List.get_eq_getElem, List.getElem_map] at this
    rw [e] at this
    exact ⟨_, List.getElem_mem _, this⟩
  · obtain ⟨-, a, -, hd⟩ := runs_holds hrun p2.inv hhold hno
    exact ⟨a, hd⟩

end

/-! ## A concrete program -/

namespace OpMem.Demo

mutual
/-- The equality of values is decidable. (Proof device, not part of the code.) -/
def treeDec : (t u : Tree Nat) → Decidable (t = u)
  | .node l ts, .node k us =>
    if hl : l = k then
      match treesDec ts us with
      | .isTrue h => .isTrue (by rw [hl, h])
      | .isFalse h => .isFalse fun e => by cases e; exact h rfl
    else .isFalse fun e => by cases e; exact hl rfl
/-- The same, for lists. (Proof device, not part of the code.) -/
def treesDec : (ts us : List (Tree Nat)) → Decidable (ts = us)
  | [], [] => .isTrue rfl
  | [], _ :: _ => .isFalse nofun
  | _ :: _, [] => .isFalse nofun
  | t :: ts, u :: us =>
    match treeDec t u, treesDec ts us with
    | .isTrue h, .isTrue h' => .isTrue (by rw [h, h'])
    | .isFalse h, _ => .isFalse fun e => by cases e; exact h rfl
    | _, .isFalse h => .isFalse fun e => by cases e; exact h rfl
end

instance : DecidableEq (Tree Nat) := treeDec

/-- Whether a place is not used. (Proof device, not part of the code.) -/
def freshB (m : Mach Nat) (v : Nat) : Bool := m.heap.vars[v]? == some .dead && !m.owned.contains v

/-- Whether a variable holds something. (Proof device, not part of the code.) -/
def varB (m : Mach Nat) (v : Nat) : Bool := (target m.heap v).isSome && !m.owned.contains v

theorem freshB_fresh {m : Mach Nat} {v : Nat} (h : freshB m v = true) : m.Fresh v := by
  simpa [freshB, Mach.Fresh] using h

theorem varB_var {m : Mach Nat} {v : Nat} (h : varB m v = true) : m.Var v := by
  simp only [varB, Bool.and_eq_true] at h
  exact ⟨target_isSome h.1, by simpa using h.2⟩

/-- Whether an action may happen. (Proof device, not part of the code.) -/
def validB (bits : Nat) (m : Mach Nat) : Act Nat → Bool
  | .user op => Heap.validB m.heap op && (opVars op).all fun v => !m.owned.contains v
  | .call _ _ sh ps v => ps.all (fun p => varB m p.1) && decide (ps.map Prod.fst).Nodup && (v :: ps.map Prod.snd).all (freshB m) &&
      decide (v :: ps.map Prod.snd).Nodup && decide (sh = .nary → ps.length < 2 ^ bits)
  | .operand v i j => freshB m v && (m.pending[i]?).any fun p => decide (j < p.2.visited.length)
  | .finish res ev ds r v => varB m res && (v :: r :: ds).all (freshB m) && decide (v :: r :: ds).Nodup &&
      (m.pending.head?).any fun p => (match p.2 with | .fixed ms => decide (ms.length = ds.length) | _ => true) &&
        (match ev with | none => true | some i => (m.entries[i]?).any fun e => decide (e.tag = p.1))
  | .leave => !m.pending.isEmpty
  | .clear _ => true

theorem validB_valid {bits : Nat} {m : Mach Nat} {act : Act Nat} (h : validB bits m act = true) : Valid bits m act := by
  cases act with
  | user op =>
    simp only [validB, Bool.and_eq_true, List.all_eq_true] at h
    exact ⟨Heap.validB_valid h.1, fun v hv => by simpa using h.2 v hv⟩
  | call tag cached sh ps v =>
    simp only [validB, Bool.and_eq_true, List.all_eq_true, decide_eq_true_eq] at h
    exact ⟨fun p hp => varB_var (h.1.1.1.1 p hp), h.1.1.1.2, fun b hb => freshB_fresh (h.1.1.2 b hb), h.1.2, h.2⟩
  | operand v i j =>
    simp only [validB, Bool.and_eq_true, Option.any_eq_true, decide_eq_true_eq] at h
    exact ⟨freshB_fresh h.1, h.2⟩
  | finish res ev ds r v =>
    simp only [validB, Bool.and_eq_true, List.all_eq_true, decide_eq_true_eq, Option.any_eq_true] at h
    obtain ⟨⟨⟨h1, h2⟩, h3⟩, ⟨tag, o⟩, hp, h4, h5⟩ := h
    obtain ⟨ps, hps⟩ := List.head?_eq_some_iff.1 hp
    refine ⟨varB_var h1, fun b hb => freshB_fresh (h2 b hb), h3, tag, o, ps, hps, ?_, ?_⟩
    · rintro ms rfl
      simpa using h4
    · rintro i rfl
      simpa [Option.any_eq_true] using h5
  | leave =>
    simp only [validB, Bool.not_eq_true', List.isEmpty_eq_false_iff] at h
    exact h
  | clear tag => trivial

/-- The execution of a program whose actions may happen. (Proof device, not part of the code.) -/
def runsB (bits : Nat) (m : Mach Nat) (acts : List (Act Nat)) : Option (Mach Nat) :=
  acts.foldlM (fun m act => if validB bits m act then run (fun _ => 0) (fun _ => 8) bits m act else none) m

theorem runsB_trace {bits n : Nat} {size : BitVec 64} : ∀ {acts done : List (Act Nat)} {m m' : Mach Nat},
    Trace (fun _ => 0) (fun _ => 8) bits size n done m → runsB bits m acts = some m' → Trace (fun _ => 0) (fun _ => 8) bits size n (done ++ acts) m'
  | [], done, m, m', h, e => by
    cases e
    simpa using h
  | act :: acts, done, m, m', h, e => by
    simp only [runsB, List.foldlM_cons] at e
    split at e
    · rename_i hv
      cases hr : run (fun _ => 0) (fun _ => 8) bits m act with
      | none => rw [hr] at e; cases e
      | some m1 =>
        rw [hr] at e
        have := runsB_trace (.step h (validB_valid hv) hr) (acts := acts) e
        simpa using this
    · cases e

/-- An object whose parts are `ks`, in the variable `v`, at the address `a` if it is new. (Model of the environment: what the user or the system
does.) -/
def mk (v l : Nat) (ks : List Nat) (a : Nat) : Act Nat := .user (.create v l ks a)

/-- A program: two leaves (at 100 and 101); a sum of both, which is evaluated and cached (variables 2 to 5); the same sum again, which is found;
another operation, whose insertion evicts the first one: the second leaf is then deleted, and its address is used again for another object; the
sum of the first leaf and of this object is *not* found. -/
def acts : List (Act Nat) :=
  [mk 0 1 [] 100, mk 1 2 [] 101, .user (.copy 2 0), .user (.copy 3 1), .call 0 true .nary [(2, 4), (3, 5)] 6,
   -- the evaluation: the operands are read, the result is a new object
   .operand 7 0 0, .operand 8 0 1, mk 9 3 [7, 8] 102, .user (.destroy 7), .user (.destroy 8), .finish 9 none [] 10 6,
   -- the same operation
   .user (.destroy 2), .user (.destroy 3), .user (.copy 2 0), .user (.copy 3 1), .call 0 true .nary [(2, 11), (3, 12)] 13]

/-- The rest of the program. -/
def acts' : List (Act Nat) :=
  [.user (.destroy 6), .user (.destroy 13), .user (.destroy 1), .user (.destroy 2), .user (.destroy 3),
   -- another operation, a structure with one operand
   .call 0 true .copied [(0, 14)] 15, .operand 7 0 0, .finish 7 (some 0) [16] 17 15,
   -- the address 101 is used again
   mk 1 7 [] 101, .user (.copy 2 0), .user (.copy 3 1), .call 0 true .nary [(2, 4), (3, 5)] 6]

/-- The end: an exception, then everything is removed. -/
def acts'' : List (Act Nat) :=
  [.leave, .clear 0, .user (.destroy 0), .user (.destroy 1), .user (.destroy 2), .user (.destroy 3), .user (.destroy 15)]

/-- The beginning. (Proof device, not part of the code.) -/
def m0 : Mach Nat := ⟨Heap.init 4 20, [], []⟩

/-- `C98_cached_operations_partial`: the program `acts` is possible, the second sum is found (nothing is evaluated), and it is the same object. -/
example : ∃ m, Trace (fun _ => 0) (fun _ => 8) 16 4 20 acts m ∧ m.entries.length = 1 ∧ m.pending.length = 0 ∧ target m.heap 13 = some 102 ∧
    target m.heap 6 = some 102 := by
  obtain ⟨m, hm⟩ : ∃ m, runsB 16 m0 acts = some m := Option.isSome_iff_exists.1 (by decide +kernel)
  refine ⟨m, by simpa using runsB_trace .init hm, ?_⟩
  have : ∀ x, runsB 16 m0 acts = some x → x.entries.length = 1 ∧ x.pending.length = 0 ∧ target x.heap 13 = some 102 ∧ target x.heap 6 = some 102 := by
    have h : (runsB 16 m0 acts).all fun x => x.entries.length == 1 && x.pending.length == 0 && target x.heap 13 == some 102 &&
      target x.heap 6 == some 102 := by decide +kernel
    intro x hx
    rw [hx] at h
    simpa [and_assoc] using h
  exact this m hm

/-- With values, the variable 13 has the value of 6: a node on both leaves. -/
example : (vruns 20 acts).map (fun w => (vtarget w.vars 6, vtarget w.vars 13)) =
    some (some (.node 3 [.node 1 [], .node 2 []]), some (.node 3 [.node 1 [], .node 2 []])) := by
  decide +kernel

/-- The program goes on: an operation on an object which is at an address used before by an operand of an operation is not mistaken for it: it is being
evaluated. -/
example : ∃ m, Trace (fun _ => 0) (fun _ => 8) 16 4 20 (acts ++ acts') m ∧ m.entries.length = 1 ∧ m.pending.length = 1 ∧
    target m.heap 1 = some 101 := by
  obtain ⟨m, hm⟩ : ∃ m, runsB 16 m0 (acts ++ acts') = some m := Option.isSome_iff_exists.1 (by decide +kernel)
  refine ⟨m, by simpa using runsB_trace .init hm, ?_⟩
  have h : (runsB 16 m0 (acts ++ acts')).all fun x => x.entries.length == 1 && x.pending.length == 1 && target x.heap 1 == some 101 := by
    decide +kernel
  rw [hm] at h
  simpa [and_assoc] using h

/-- `C98_released_partial`: after the whole program, nothing is left. -/
example : ∃ m, Trace (fun _ => 0) (fun _ => 8) 16 4 20 (acts ++ acts' ++ acts'') m ∧ m.entries = [] ∧ m.pending = [] ∧
    ∀ (v : Nat) (a : Addr), v ∉ m.owned → m.heap.vars[v]? ≠ some (.live a) := by
  obtain ⟨m, hm⟩ : ∃ m, runsB 16 m0 (acts ++ acts' ++ acts'') = some m := Option.isSome_iff_exists.1 (by decide +kernel)
  refine ⟨m, by simpa using runsB_trace .init hm, ?_⟩
  have h : (runsB 16 m0 (acts ++ acts' ++ acts'')).all fun x => x.entries.isEmpty && x.pending.isEmpty && x.heap.vars.all fun y =>
      match y with | .live _ => false | _ => true := by decide +kernel
  rw [hm] at h
  simp only [Option.all_some, Bool.and_eq_true, List.isEmpty_iff, List.all_eq_true] at h
  refine ⟨h.1.1, h.1.2, fun v a _ e => ?_⟩
  have := h.2 _ (List.mem_of_getElem? e)
  cases this

/-- `C98_stable_keys_partial`: the operation on one operand stays in its cache while a variable is assigned and another sum is called. -/
example : ∃ m m' e, Trace (fun _ => 0) (fun _ => 8) 16 4 20 (acts ++ acts'.take 11) m ∧
    Valid 16 m (.call 0 true .nary [(2, 4), (3, 5)] 6) ∧ run (fun _ => 0) (fun _ => 8) 16 m (.call 0 true .nary [(2, 4), (3, 5)] 6) = some m' ∧
    e ∈ m.entries ∧ e ∈ m'.entries ∧ e.op.visited.length = 1 := by
  obtain ⟨m, hm⟩ : ∃ m, runsB 16 m0 (acts ++ acts'.take 11) = some m := Option.isSome_iff_exists.1 (by decide +kernel)
  have h : (runsB 16 m0 (acts ++ acts'.take 11)).all fun x => validB 16 x (.call 0 true .nary [(2, 4), (3, 5)] 6) &&
      (run (fun _ => 0) (fun _ => 8) 16 x (.call 0 true .nary [(2, 4), (3, 5)] 6)).any fun y =>
        x.entries.any fun e => y.entries.contains e && e.op.visited.length == 1 := by
    decide +kernel
  rw [hm] at h
  simp only [Option.all_some, Bool.and_eq_true, Option.any_eq_true, List.any_eq_true, List.contains_iff_mem, beq_iff_eq] at h
  obtain ⟨hv, m', hr, e, he, he', hl⟩ := h
  exact ⟨m, m', e, by simpa using runsB_trace .init hm, validB_valid hv, hr, he, he', hl⟩

/-- `C98_negation`, with a number of operands on one bit: a sum of two leaves, in an empty cache. -/
example : ∃ m, Trace (fun _ => 0) (fun _ => 8) 1 4 20 (acts.take 4) m ∧ m.entries = [] ∧ (∀ p ∈ [(2, 4), (3, 5)], m.Var p.1) ∧
    (∀ b ∈ [6, 4, 5], m.Fresh b) ∧ 2 ^ 1 ≤ [(2, 4), (3, 5)].length := by
  obtain ⟨m, hm⟩ : ∃ m, runsB 1 m0 (acts.take 4) = some m := Option.isSome_iff_exists.1 (by decide +kernel)
  refine ⟨m, by simpa using runsB_trace .init hm, ?_⟩
  have h : (runsB 1 m0 (acts.take 4)).all fun x => x.entries.isEmpty && [(2, 4), (3, 5)].all (fun p => varB x p.1) && [6, 4, 5].all (freshB x) := by
    decide +kernel
  rw [hm] at h
  simp only [Option.all_some, Bool.and_eq_true, List.isEmpty_iff, List.all_eq_true] at h
  exact ⟨h.1.1, fun p hp => varB_var (h.1.2 p hp), fun b hb => freshB_fresh (h.2 b hb), by decide⟩

end OpMem.Demo
end Verif
