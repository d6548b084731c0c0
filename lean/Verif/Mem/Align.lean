import Verif.Mem.Layout
/-!
# The alignment of the memory given by the arena

Containers of temporary objects ask the arena for memory with `linear_alloc` (`/repo/sdd/mem/linear_alloc.hh:226-283`). The arena gives the next free
address of its buffer, whatever the type of the objects (`/repo/sdd/mem/linear_alloc.hh:74-97`). Types are those of `Mem/Layout`.
-/

set_option autoImplicit false
set_option linter.unusedSectionVars false

namespace Verif
namespace Arena
open Layout

/-- `linear_alloc<T>::allocate(n)`, `/repo/sdd/mem/linear_alloc.hh:264-269`. The product is in natural numbers (containers check that it fits in `size_t`). -/
def lallocate (t : CType) (n a : Nat) (s : State) : Block × State := allocate (n * t.size) a s

/-- What containers do: `linear_alloc<T>::allocate`, `linear_alloc<T>::deallocate` of a block in use, scopes of rewinders.
(`/repo/sdd/mem/linear_alloc.hh`, lines 198-219 and 264-276.) -/
inductive LOp where
  | allocate (t : CType) (n a : Nat)
  | deallocate (b : Block)
  | enter
  | leave

/-- The operation on the arena. (`/repo/sdd/mem/linear_alloc.hh`, lines 198-219 and 264-276.) -/
def LOp.op : LOp → Op
  | .allocate t n a => .allocate (n * t.size) a
  | .deallocate b => .deallocate b
  | .enter => .enter
  | .leave => .leave

/-- Containers hold objects of the types `ts`, and the system gives addresses which are multiples of `A`.
(Model of the environment: what the user or the system does.) -/
def LValid (ts : List CType) (A : Nat) (s : State) : LOp → Prop
  | .allocate t n a => t ∈ ts ∧ A ∣ a ∧ Valid s (.allocate (n * t.size) a)
  | .deallocate b => b ∈ s.live
  | .enter => True
  | .leave => s.stack ≠ []

/-- States reached by containers. (Model of the environment: what the user or the system does.) -/
inductive LReach (ts : List CType) (A base size : Nat) : State → Prop where
  | init : LReach ts A base size (init base size)
  | step {s s' : State} {op : LOp} {o : Out} :
      LReach ts A base size s → LValid ts A s op → exec s op.op = some (o, s') → LReach ts A base size s'

/-- A container (`nary_builder`, `/repo/sdd/dd/nary.hh:151-161`): the reference of its allocator, a pointer, a size and a capacity. `packed`: the compiler packs
it (line 151), which depends on the compiler as its field is not a plain structure. -/
def builderT (packed : Bool) : CType := if packed then packedT [ptrT, ptrT, ptrT, ptrT] else classT [ptrT, ptrT, ptrT, ptrT]

/-- The types of the objects of the containers which use the arena, for values of type `val`, whose elements have the type `elem` and whose builder has the type
`vb`: operands (`/repo/sdd/dd/nary.hh:155-156`), arcs (`/repo/sdd/dd/alpha.hh:93-94`), square unions (`/repo/sdd/dd/square_union.hh:37-38`), sums
(`/repo/sdd/dd/sum.hh:69-88`, with the nodes of an `unordered_map`: a pointer, the pair, the hash; `/repo/sdd/dd/sum.hh:236-239`, `/repo/sdd/dd/sum.hh:267-270`). -/
def arenaTypes (packed : Bool) (val elem vb : CType) : List CType :=
  let b := builderT packed
  [ptrT, val, classT [ptrT, ptrT], classT [ptrT, val], classT [ptrT, b], classT [val, b], classT [ptrT, classT [ptrT, b], ptrT],
    classT [ptrT, classT [val, b], ptrT], classT [elem, b], classT [ptrT, vb]]

/-- Everything is at a multiple of `A`. (Proof device, not part of the code.) -/
structure AInv (A : Nat) (s : State) : Prop where
  base : A ∣ s.base
  pos : A ∣ s.pos
  live : ∀ b ∈ s.live, A ∣ b.addr
  stack : ∀ p ∈ s.stack, A ∣ p.1

theorem LReach.inv {ts : List CType} {A base size : Nat} {s : State} (h : LReach ts A base size s) (hb : A ∣ base) (hts : ∀ t ∈ ts, A ∣ t.size) :
    AInv A s := by
  induction h with
  | init => exact ⟨hb, hb, by simp [Arena.init], by simp [Arena.init]⟩
  | @step s s' op o _ hv he ih =>
    cases op with
    | allocate t n a =>
      obtain ⟨ht, ha, -⟩ := hv
      have hn : A ∣ n * t.size := Dvd.dvd.mul_left (hts t ht) n
      simp only [LOp.op, exec, Option.some.injEq, Prod.mk.injEq, allocate] at he
      obtain ⟨-, rfl⟩ := he
      split
      · refine ⟨ih.base, Nat.dvd_add ih.pos hn, fun b hm => ?_, ih.stack⟩
        rcases List.mem_cons.1 hm with rfl | hm
        · exact ih.pos
        · exact ih.live b hm
      · refine ⟨ih.base, ih.pos, fun b hm => ?_, ih.stack⟩
        rcases List.mem_cons.1 hm with rfl | hm
        · exact ha
        · exact ih.live b hm
    | deallocate b =>
      have hl : ∀ c ∈ s.live.erase b, A ∣ c.addr := fun c hc => ih.live c (List.mem_of_mem_erase hc)
      simp only [LOp.op, exec, Option.some.injEq, Prod.mk.injEq, deallocate] at he
      obtain ⟨-, rfl⟩ := he
      split
      · split
        · exact ⟨ih.base, ih.live b hv, hl, ih.stack⟩
        · exact ⟨ih.base, ih.pos, hl, ih.stack⟩
      · exact ⟨ih.base, ih.pos, hl, ih.stack⟩
    | enter =>
      simp only [LOp.op, exec, enter, Option.some.injEq, Prod.mk.injEq] at he
      obtain ⟨-, rfl⟩ := he
      refine ⟨ih.base, ih.pos, ih.live, fun p hp => ?_⟩
      rcases List.mem_cons.1 hp with rfl | hp
      · exact ih.pos
      · exact ih.stack p hp
    | leave =>
      simp only [LOp.op, exec, Option.map_eq_some_iff, Prod.mk.injEq] at he
      obtain ⟨s1, he, -, rfl⟩ := he
      unfold leave at he
      split at he
      · cases he
      · rename_i p t st hst
        cases he
        exact ⟨ih.base, ih.stack (p, t) (by rw [hst]; exact List.mem_cons_self), fun b hm => ih.live b (List.mem_of_mem_filter hm),
          fun q hq => ih.stack q (by rw [hst]; exact List.mem_cons_of_mem _ hq)⟩

theorem LReach.reach {ts : List CType} {A base size : Nat} {s : State} (h : LReach ts A base size s) : Reach base size s := by
  induction h with
  | init => exact .init
  | @step s s' op o _ hv he ih =>
    refine .step ih (op := op.op) ?_ he
    cases op with
    | allocate t n a => exact hv.2.2
    | deallocate b => exact hv
    | enter => trivial
    | leave => exact hv

end Arena
end Verif
