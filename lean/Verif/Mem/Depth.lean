import Verif.Mem.SddHeap
import Verif.DD.Machine
/-!
# How deep deletions nest

The destruction of the last handle to an object destroys its data, hence the handles they contain, before it releases its memory: destructions nest.
-/

set_option autoImplicit false
set_option linter.unusedSectionVars false

namespace Verif
namespace Heap

section
variable {L : Type} [DecidableEq L] (hash : Key L → Nat)

/-- The destructions in progress: objects removed from the table whose memory is not released yet. (Calls of
`/repo/sdd/mem/unique_table.hh`, lines 147-156, on the stack.) -/
def open' : List Item → Nat
  | [] => 0
  | .dec _ :: is => open' is
  | .free _ :: is => open' is + 1

/-- `destroy` (`/repo/sdd/mem/ptr.hh:140-150`, `/repo/sdd/mem/unique_table.hh:147-155`) when there is room on the stack for at most `d` nested
destructions. -/
def destroyD (d : Nat) : Nat → List Item → State L → Option (State L)
  | _, [], s => some s
  | 0, _ :: _, _ => none
  | n + 1, .free a :: is, s => (free a s).bind (destroyD d n is)
  | n + 1, .dec a :: is, s =>
    match s.cells a with
    | none => none
    | some c =>
      if s.refs a = 0 then none
      else
        let s' := { s with refs := Function.update s.refs a (s.refs a - 1) }
        if s.refs a = 1 then
          if d < open' is + 1 then none
          else
            match HT.erase (hashE hash) eqE (a, c.key) s'.table with
            | none => none
            | some t => destroyD d n (c.key.2.map Item.dec ++ Item.free a :: is) { s' with table := t }
        else destroyD d n is s'

/-- The destruction of one handle, with room for `d` nested destructions. (`/repo/sdd/mem/ptr.hh`, lines 140-150.) -/
def dropD (d : Nat) (a : Addr) (s : State L) : Option (State L) := destroyD hash d (steps s) [.dec a] s

end

section
variable {L : Type} [DecidableEq L] {hash : Key L → Nat} {bytes : Key L → Nat}

/-- All the chains of objects which start from `a`, each one pointing to the next one, have at most `d` objects. (Specification, not part of
the code.) -/
inductive Tall (s : State L) : Addr → Nat → Prop where
  | mk {a : Addr} {c : Cell L} {d : Nat} : s.cells a = some c → (∀ k ∈ c.key.2, Tall s k d) → Tall s a (d + 1)

theorem Tall.mono {s : State L} {a : Addr} {d e : Nat} (h : Tall s a d) (hde : d ≤ e) : Tall s a e := by
  induction h generalizing e with
  | mk hc _ ih =>
    obtain ⟨e, rfl⟩ : ∃ e', e = e' + 1 := ⟨e - 1, by omega⟩
    exact .mk hc fun k hk => ih k hk (by omega)

/-- Every object has a height. -/
theorem Inv.tall {s : State L} (h : Inv hash [] s) : ∀ (n : Nat) (a : Addr) (c : Cell L), s.cells a = some c → c.birth < n → Tall s a n := by
  intro n
  induction n with
  | zero => intro a c _ h; omega
  | succ n ih =>
    intro a c hc hb
    refine .mk hc fun k hk => ?_
    obtain ⟨c', h1, _, h2⟩ := h.kids a c hc (by simp) k hk
    exact ih k c' h1 (by omega)

/-- What remains to be done needs no more room than `d`. (Proof device, not part of the code.) -/
def Room (s : State L) (d : Nat) : List Item → Prop
  | [] => True
  | .dec a :: is => (∃ e, Tall s a e ∧ e + open' is ≤ d) ∧ Room s d is
  | .free _ :: is => Room s d is

theorem room_kids {s : State L} {d e : Nat} {a : Addr} {is : List Item} (hr : Room s d is) : ∀ ks : List Addr, (∀ k ∈ ks, Tall s k e) →
    e + open' is + 1 ≤ d → Room s d (ks.map Item.dec ++ Item.free a :: is) ∧ open' (ks.map Item.dec ++ Item.free a :: is) = open' is + 1 := by
  intro ks
  induction ks with
  | nil => intro _ _; exact ⟨hr, rfl⟩
  | cons k ks ih =>
    intro hk he
    obtain ⟨h1, h2⟩ := ih (fun k h => hk k (by simp [h])) he
    exact ⟨⟨⟨e, hk k (by simp), by have : open' ((List.map Item.dec ks).append (Item.free a :: is)) = open' is + 1 := h2; omega⟩, h1⟩, h2⟩

theorem destroyD_eq {s0 : State L} {d : Nat} (n : Nat) : ∀ (P : List Item) (s : State L), (∀ a c, s.cells a = some c → s0.cells a = some c) →
    Room s0 d P → destroyD hash d n P s = destroy hash n P s := by
  induction n with
  | zero => intro P s _ _; cases P <;> rfl
  | succ n ih =>
    intro P s hs hr
    cases P with
    | nil => rfl
    | cons i is =>
      cases i with
      | free a =>
        rw [destroyD, destroy, free]
        split
        · exact ih is _ (fun b c hb => by
            by_cases hab : b = a
            · subst hab; simp at hb
            · simp only [Function.update_of_ne hab] at hb
              exact hs b c hb) hr
        · rfl
      | dec a =>
        obtain ⟨⟨e, he, hle⟩, hr⟩ := hr
        rw [destroyD, destroy]
        cases hc : s.cells a with
        | none => rfl
        | some c =>
          simp only
          split
          · rfl
          · split
            · cases he with
              | @mk _ c' e hc' hk =>
                have : c' = c := by
                  have := hs a c hc
                  rw [hc'] at this
                  exact Option.some.inj this
                subst this
                rw [if_neg (by omega)]
                cases HT.erase (hashE hash) eqE (a, c'.key) s.table with
                | none => rfl
                | some t => exact ih _ _ hs (room_kids hr _ hk (by omega)).1
            · exact ih is _ hs hr

/-- The destruction of a handle to an object of height `d` nests at most `d` destructions. -/
theorem dropD_eq {s : State L} {a : Addr} {d : Nat} (h : Tall s a d) : dropD hash d a s = drop hash a s :=
  destroyD_eq (s0 := s) _ _ s (fun _ _ h => h) ⟨⟨d, h, by simp [open']⟩, trivial⟩

mutual
/-- The height of a term. (Specification, not part of the code.) -/
def Tree.height : Tree L → Nat
  | .node _ ts => Tree.heightL ts + 1
/-- The greatest height of terms. (Specification, not part of the code.) -/
def Tree.heightL : List (Tree L) → Nat
  | [] => 0
  | t :: ts => max t.height (heightL ts)
end

mutual
theorem denotes_tall {s : State L} : ∀ (t : Tree L) (a : Addr), Denotes s t a → Tall s a t.height
  | .node l ts, a, h => by
    obtain ⟨kids, b, hc, hk⟩ := h
    exact .mk hc (denotesL_tall ts kids hk)
theorem denotesL_tall {s : State L} : ∀ (ts : List (Tree L)) (as : List Addr), DenotesL s ts as → ∀ k ∈ as, Tall s k (Tree.heightL ts)
  | [], [], _, k, hk => by simp at hk
  | [], _ :: _, h, _, _ => by simp [DenotesL] at h
  | _ :: _, [], h, _, _ => by simp [DenotesL] at h
  | t :: ts, a :: as, h, k, hk => by
    rw [DenotesL] at h
    rw [List.mem_cons] at hk
    rw [Tree.heightL]
    rcases hk with rfl | hk
    · exact (denotes_tall t k h.1).mono (Nat.le_max_left _ _)
    · exact (denotesL_tall ts as h.2 k hk).mono (Nat.le_max_right _ _)
end

end
end Heap
namespace SDD
variable {V : Type} [DecidableEq V]

mutual
/-- The objects of an SDD: its nodes, then values and terminals. -/
theorem tree_height : ∀ x : SDD V, x.tree.height ≤ x.height + 1
  | .zero => by simp [tree, Heap.Tree.height, Heap.Tree.heightL]
  | .one => by simp [tree, Heap.Tree.height, Heap.Tree.heightL]
  | .flat _ arcs => by
    rw [tree, Heap.Tree.height, height]
    have := treeF_height arcs
    omega
  | .hier _ arcs => by
    rw [tree, Heap.Tree.height, height]
    have := treeH_height arcs
    omega
theorem treeF_height : ∀ arcs : List (V × SDD V), Heap.Tree.heightL (treeF arcs) ≤ heightF arcs + 1
  | [] => by simp [treeF, Heap.Tree.heightL]
  | (v, s) :: arcs => by
    have h1 := tree_height s
    have h2 := treeF_height arcs
    simp only [treeF, Heap.Tree.heightL, Heap.Tree.height, heightF]
    omega
theorem treeH_height : ∀ arcs : List (SDD V × SDD V), Heap.Tree.heightL (treeH arcs) ≤ heightH arcs + 1
  | [] => by simp [treeH, Heap.Tree.heightL]
  | (v, s) :: arcs => by
    have h0 := tree_height v
    have h1 := tree_height s
    have h2 := treeH_height arcs
    simp only [treeH, Heap.Tree.heightL, heightH]
    omega
end

end SDD

end Verif
