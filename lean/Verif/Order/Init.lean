import Verif.Order.Order
import Verif.DD.Session
/-!
# SDDs built from an order and an initializer

`/repo/sdd/dd/definition.hh:183-207`.
-/

set_option autoImplicit false
set_option linter.unusedSectionVars false

namespace Verif
variable {V E I : Type} [DecidableEq I]

/-- Constructor from an order and an initializer, `/repo/sdd/dd/definition.hh:183-201`, with fuel; `none`: not enough fuel, or
dereference of a null pointer. -/
def sddOfOrder [DecidableEq V] (C : Cfg V E) (m : Type → Type) [DDMonad V m] (init : I → V) : Nat → Ord I → Option (SDD V)
  | 0, o => if o.empty then some .one else none
  | fuel + 1, o =>
    if o.empty then some .one
    else match o.nested, o.next, o.var, o.identifier with
      | some nst, some nxt, some x, some id =>
        if nst.empty then
          (sddOfOrder C m init fuel nxt).map fun s => mkNode1 (m := m) (flatKind C) x (init id.user) s
        else
          match sddOfOrder C m init fuel nst, sddOfOrder C m init fuel nxt with
          | some n, some s => some (mkNode1 (m := m) (hierKind C fun _ => pure .zero) x n s)
          | _, _ => none
      | _, _, _, _ => none

/-- The shape of the SDDs which follow an order. (Specification, not part of the code.) -/
def OB.ty : OB I → Ty
  | .nil => .nil
  | .node _ .nil nxt => .flat nxt.level.length nxt.ty
  | .node _ nst nxt => .hier nxt.level.length nst.ty nxt.ty

theorem OB.ty_shape (ob : OB I) : ob.ty.IsShape := by
  induction ob with
  | nil => trivial
  | node id nst nxt ihn ih =>
    cases nst with
    | nil => exact ih
    | node a b c => exact ⟨ihn, ih⟩

/-- An assignment of an order: each flat identifier has a value allowed by `ok`, and levels are numbered as in the order.
(Specification, not part of the code.) -/
def Assigns (ok : I → E → Prop) : OB I → Path E → Prop
  | .nil, p => p = .nil
  | .node id nst nxt, p => match p with
    | .nil => False
    | .flat x a q => nst = .nil ∧ x = nxt.level.length ∧ ok id.user a ∧ Assigns ok nxt q
    | .hier x n q => nst ≠ .nil ∧ x = nxt.level.length ∧ Assigns ok nst n ∧ Assigns ok nxt q

theorem Assigns.pty {ok : I → E → Prop} (ob : OB I) : ∀ {p : Path E}, Assigns ok ob p → PTy ob.ty p := by
  induction ob with
  | nil => intro p h; rw [show p = .nil from h]; trivial
  | node id nst nxt ihn ih =>
    intro p h
    cases p with
    | nil => exact absurd h (by simp [Assigns])
    | flat x a q =>
      obtain ⟨rfl, rfl, _, h⟩ := h
      exact ⟨_, by simp [OB.ty, Ty.flatNext], ih h⟩
    | hier x n q =>
      obtain ⟨hn, rfl, h1, h2⟩ := h
      cases nst with
      | nil => exact absurd rfl hn
      | node a b c => exact ⟨_, _, by simp [OB.ty, Ty.hierNext], ihn h1, ih h2⟩

theorem sddOfOrder_spec [DecidableEq V] {C : Cfg V E} (hC : C.Lawful) (m : Type → Type) [DDMonad V m] (init : I → V)
    (ob : OB I) : ∀ (o : Ord I) (p : Nat) (path : List Nat) (fuel : Nat), Ord.View o ob p path → ob.ids.length ≤ fuel →
      ∃ s, sddOfOrder C m init fuel o = some s ∧ Dom C ob.ty s ∧
        ∀ q, Mem C q s ↔ Assigns (fun i a => C.vmem a (init i)) ob q := by
  induction ob with
  | nil =>
    intro o p path fuel hv _
    have he : o.empty = true := hv
    refine ⟨.one, ?_, .one _ trivial, ?_⟩
    · cases fuel <;> simp [sddOfOrder, he]
    · intro q
      cases q <;> simp [Mem, Assigns]
  | node id nst nxt ihn ih =>
    intro o p path fuel hv hf
    obtain ⟨h1, h2, _, h4, _, ⟨on, h6, h7⟩, ⟨ox, h8, h9⟩⟩ := hv
    simp only [OB.ids, List.length_cons, List.length_append] at hf
    cases fuel with
    | zero => omega
    | succ fuel =>
      obtain ⟨s, e, hd, hm⟩ := ih ox _ _ fuel h9 (by omega)
      rw [sddOfOrder, h1, h2, h4, h6, h8]
      simp only [Bool.false_eq_true, if_false]
      by_cases hn : nst = .nil
      · subst hn
        have hne : on.empty = true := h7
        rw [if_pos hne, e]
        obtain ⟨hw, hM⟩ := mkNode1_flat hC (m := m) (x := nxt.level.length) (v := init id.user) hd.wf
        refine ⟨_, rfl, ?_, ?_⟩
        · obtain ⟨t0, hw⟩ := hw
          refine hw.of_pty _ ?_
          intro q hq
          obtain ⟨a, q, rfl, ha, hq⟩ := (hM q).1 hq
          exact ⟨_, by simp [OB.ty, Ty.flatNext], hd.pty _ hq⟩
        · intro q
          rw [hM]
          constructor
          · rintro ⟨a, q, rfl, ha, hq⟩
            exact ⟨rfl, rfl, ha, (hm q).1 hq⟩
          · intro h
            cases q with
            | nil => exact absurd h (by simp [Assigns])
            | flat x a q =>
              obtain ⟨_, rfl, ha, hq⟩ := h
              exact ⟨a, q, rfl, ha, (hm q).2 hq⟩
            | hier x n q => exact absurd rfl h.1
      · have hne : on.empty = false := by
          cases nst with
          | nil => exact absurd rfl hn
          | node a b c => exact h7.1
        rw [hne]
        simp only [Bool.false_eq_true, if_false]
        obtain ⟨n, en, hdn, hmn⟩ := ihn on _ _ fuel h7 (by omega)
        rw [en, e]
        obtain ⟨hw, hM⟩ := mkNode1_hier (m := m) (rec := fun _ => pure .zero) (x := nxt.level.length) hdn.wf hd.wf
        refine ⟨_, rfl, ?_, ?_⟩
        · obtain ⟨t0, hw⟩ := hw
          refine hw.of_pty _ ?_
          intro q hq
          obtain ⟨a, q, rfl, ha, hq⟩ := (hM q).1 hq
          cases nst with
          | nil => exact absurd rfl hn
          | node _ _ _ => exact ⟨_, _, by simp [OB.ty, Ty.hierNext], hdn.pty _ ha, hd.pty _ hq⟩
        · intro q
          rw [hM]
          constructor
          · rintro ⟨a, q, rfl, ha, hq⟩
            exact ⟨hn, rfl, (hmn a).1 ha, (hm q).1 hq⟩
          · intro h
            cases q with
            | nil => exact absurd h (by simp [Assigns])
            | flat x a q => exact absurd h.1 hn
            | hier x a q =>
              obtain ⟨_, rfl, ha, hq⟩ := h
              exact ⟨a, q, rfl, (hmn a).2 ha, (hm q).2 hq⟩

end Verif
