import Verif.Order.Init
import Verif.Order.Force
/-!
# Artificial identifiers

Strategies give artificial identifiers to the levels they make (`/repo/sdd/order/order_identifier.hh:15-100`), whose user part is
a default constructed identifier.
-/

set_option autoImplicit false
set_option linter.unusedSectionVars false

namespace Verif
variable {V E I : Type} [DecidableEq I]

namespace OB

/-- The identifier `i` is in the JSON document. (Specification or proof device, not part of the code.) -/
inductive Json.Leaf (i : I) : Json I → Prop where
  | leaf : Json.Leaf i (.leaf i)
  | arr {l : List (Json I)} {j : Json I} : j ∈ l → Json.Leaf i j → Json.Leaf i (.arr l)

/-- The order builders a program gets from the functions of the library, when all the identifiers it gives are in `S`; `d` is a default
constructed identifier. (Model of the environment: what the user or the system does; `/repo/sdd/order/order_builder.hh:66-196`,
`/repo/sdd/order/strategies/*.hh`, `/repo/sdd/tools/order.hh:96-114`.) -/
inductive Made (S : I → Prop) (d : I) : OB I → Prop where
  | nil : Made S d .nil
  | push {ob nested : OB I} {i : I} : S i → Made S d ob → Made S d nested → Made S d (ob.push (uid i) nested)
  | ofList {l : List I} : (∀ i ∈ l, S i) → Made S d (ofList l)
  | concat {a b : OB I} : Made S d a → Made S d b → Made S d (a.concat b)
  | flatten {ob : OB I} : Made S d ob → Made S d ob.flatten
  | perHierarchy {ob r : OB I} {nb fuel c c' : Nat} : Made S d ob → idsPerHierarchy d nb fuel ob c = some (r, c') → Made S d r
  | force {D : Type} {A : Force.Arith D} {g : Force.Graph I D} {reverse : Bool} {n : Nat} : (∀ i ∈ g.ids, S i) →
      Made S d (Force.force A g reverse n)
  | load {j : Json I} {r : OB I} {c c' : Nat} : (∀ i, j.Leaf i → S i) → load d j c = some (r, c') → Made S d r

/-- Only levels with a nested order have artificial identifiers, whose user part is `d`; the other identifiers are in `S`.
(Proof device, not part of the code.) -/
def Given (S : I → Prop) (d : I) : OB I → Prop
  | .nil => True
  | .node id nst nxt => ((id.artificial = 0 ∧ S id.user) ∨ (id.artificial ≠ 0 ∧ id.user = d ∧ nst ≠ .nil)) ∧ Given S d nst ∧ Given S d nxt

variable {S : I → Prop} {d : I}

theorem given_level (ob : OB I) : ob.Given S d ↔ ∀ e ∈ ob.level,
    ((e.1.artificial = 0 ∧ S e.1.user) ∨ (e.1.artificial ≠ 0 ∧ e.1.user = d ∧ e.2 ≠ .nil)) ∧ e.2.Given S d := by
  induction ob with
  | nil => simp [Given, level]
  | node id nst nxt _ ih => simp only [Given, level, List.forall_mem_cons, ih, and_assoc]

theorem given_concat {a b : OB I} : (a.concat b).Given S d ↔ a.Given S d ∧ b.Given S d := by
  rw [given_level, given_level a, given_level b, level_concat]
  constructor
  · exact fun h => ⟨fun e he => h e (List.mem_append_left _ he), fun e he => h e (List.mem_append_right _ he)⟩
  · intro h e he
    rcases List.mem_append.1 he with he | he
    · exact h.1 e he
    · exact h.2 e he

theorem given_flatten {ob : OB I} (h : ob.Given S d) : ob.flatten.Given S d := by
  induction ob with
  | nil => trivial
  | node id nst nxt ihn ih =>
    obtain ⟨h1, h2, h3⟩ := h
    unfold flatten
    split
    · rename_i hn
      rw [isNil_iff] at hn
      rw [given_concat]
      refine ⟨⟨.inl ⟨rfl, ?_⟩, trivial, trivial⟩, ih h3⟩
      rcases h1 with h1 | h1
      · exact h1.2
      · exact absurd hn h1.2.2
    · rw [given_concat]
      exact ⟨ihn h2, ih h3⟩

theorem given_packLoop {nb : Nat} (hnb : 1 ≤ nb) : ∀ (fuel : Nat) (ob : OB I) (c : Nat) (r : OB I) (c' : Nat), ob.Given S d →
    packLoop d nb fuel ob c = some (r, c') → r.Given S d := by
  intro fuel
  induction fuel with
  | zero => intro ob c r c' _ h; cases h
  | succ fuel ih =>
    intro ob c r c' hg h
    rw [packLoop] at h
    split at h
    · cases h
    · rename_i hh heq
      split at h
      · obtain ⟨k, p, ps, e, h1, h2, h3, h4, h5⟩ := packetize_spec hnb ob
        have hne : ob ≠ .nil := by
          rintro rfl
          cases heq
        rw [e] at h
        refine ih _ _ _ _ ?_ h
        rw [given_level, (pushPackets_level d (p :: ps).reverse c .nil).2, level, List.append_nil]
        intro x hx
        rw [List.mem_reverse] at hx
        obtain ⟨q1, q2⟩ := zip_fst hx
        have hd : x.1.user = d := by
          obtain ⟨y, _, rfl⟩ := List.mem_map.1 hx
          rfl
        have hp : x.2 ∈ p :: ps := List.mem_reverse.1 q2
        refine ⟨.inr ⟨by omega, hd, ?_⟩, ?_⟩
        · intro h0
          have : 1 ≤ x.2.level.length := by
            rcases List.mem_cons.1 hp with hp | hp
            · rw [hp, h1]; exact h3 hne
            · rw [h4 _ hp]; exact hnb
          rw [h0] at this
          simp [level] at this
        · rw [given_level]
          intro y hy
          refine (given_level ob).1 hg y ?_
          rw [← h5]
          exact List.mem_flatMap.2 ⟨_, hp, hy⟩
      · cases h
        exact hg

theorem given_perHierarchy {ob r : OB I} {nb fuel c c' : Nat} (hg : ob.Given S d) (h : idsPerHierarchy d nb fuel ob c = some (r, c')) :
    r.Given S d := by
  unfold idsPerHierarchy at h
  split at h
  · cases h; exact hg
  · rename_i hn
    by_cases hnb : nb = 0
    · subst hnb
      exfalso
      have key : ∀ fuel ob c, ob ≠ .nil → packLoop d 0 fuel ob c = none := by
        intro fuel
        induction fuel with
        | zero => intros; rfl
        | succ fuel ih =>
          intro ob c hne
          unfold packLoop
          rw [height_eq, if_neg hne]
          have hl : 0 < ob.level.length := List.length_pos_iff.2 fun h => hne (level_nil.1 h)
          simp only [hl, if_true]
          split
          · rfl
          · rename_i k ps hp
            refine ih _ _ ?_
            intro h0
            have := (pushPackets_level d ps.reverse c .nil).2
            rw [h0] at this
            simp [level] at this
            subst this
            have : ∀ ob : OB I, ∀ k, packetize 0 ob ≠ some (k, []) := by
              intro ob
              induction ob with
              | nil => intro k h; cases h
              | node id nst nxt _ ih =>
                intro k h
                unfold packetize at h
                split at h
                · cases h
                · split at h
                  · cases h
                  · split at h <;> cases h
            exact this _ _ hp
      rw [key] at h
      · cases h
      · rintro rfl
        simp [isNil] at hn
    · exact given_packLoop (by omega) _ _ _ _ _ hg h

theorem given_foldl {l : List I} (hl : ∀ i ∈ l, S i) {ob : OB I} (h : ob.Given S d) :
    (l.foldl (fun ob i => ob.push (uid i) .nil) ob).Given S d := by
  induction l generalizing ob with
  | nil => exact h
  | cons a l ih =>
    exact ih (fun i hi => hl i (List.mem_cons_of_mem _ hi)) ⟨.inl ⟨rfl, hl a List.mem_cons_self⟩, trivial, h⟩

mutual
theorem given_loadImpl : ∀ (j : Json I) (c : Nat) (r : OB I) (c' : Nat), (∀ i, j.Leaf i → S i) → loadImpl d j c = some (r, c') →
    r.Given S d := by
  intro j c r c' hj h
  match j with
  | .leaf i =>
    rw [loadImpl] at h
    cases h
    exact ⟨.inl ⟨rfl, hj i .leaf⟩, trivial, trivial⟩
  | .arr l =>
    rw [loadImpl] at h
    split at h
    · cases h
    · rename_i ob c1 e
      have hg : ob.Given S d := given_loadElems l .nil c ob c1 (fun j hm i hi => hj i (.arr hm hi)) trivial e
      split at h
      · cases h
      · rename_i hh heq
        split at h
        · cases h; exact hg
        · cases h
          refine ⟨.inr ⟨by simp, rfl, ?_⟩, hg, trivial⟩
          rintro rfl
          cases heq
theorem given_loadElems : ∀ (l : List (Json I)) (ob : OB I) (c : Nat) (r : OB I) (c' : Nat), (∀ j ∈ l, ∀ i, j.Leaf i → S i) →
    ob.Given S d → loadElems d l ob c = some (r, c') → r.Given S d := by
  intro l ob c r c' hl hg h
  match l with
  | [] => rw [loadElems] at h; cases h; exact hg
  | j :: l =>
    rw [loadElems] at h
    split at h
    · cases h
    · rename_i b c1 e
      have hb : b.Given S d := given_loadImpl j c b c1 (hl j List.mem_cons_self) e
      exact given_loadElems l _ _ _ _ (fun j hj => hl j (List.mem_cons_of_mem _ hj)) (given_concat.2 ⟨hg, hb⟩) h
end

theorem Made.given {ob : OB I} (h : Made S d ob) : ob.Given S d := by
  induction h with
  | nil => trivial
  | push hi _ _ ih1 ih2 => exact ⟨.inl ⟨rfl, hi⟩, ih2, ih1⟩
  | ofList hl => exact given_foldl (fun i hi => hl i (List.mem_reverse.1 hi)) trivial
  | concat _ _ ih1 ih2 => exact given_concat.2 ⟨ih1, ih2⟩
  | flatten _ ih => exact given_flatten ih
  | perHierarchy _ e ih => exact given_perHierarchy ih e
  | force hg =>
    refine given_foldl (fun i hi => ?_) trivial
    obtain ⟨v, _, hv⟩ := List.mem_filterMap.1 hi
    exact hg i (List.mem_of_getElem? hv)
  | load hj e =>
    unfold OB.load at e
    split at e
    · cases e
    · rename_i ob c1 e1
      have hg := given_loadImpl _ _ _ _ hj e1
      split at e
      · cases e
      · split at e
        · cases e; exact hg.2.1
        · cases e; exact hg

theorem Given.ids {ob : OB I} (h : ob.Given S d) : ∀ i ∈ ob.ids, (i.artificial = 0 ∧ S i.user) ∨ (i.artificial ≠ 0 ∧ i.user = d) := by
  induction ob with
  | nil => intro i hi; cases hi
  | node id nst nxt ihn ih =>
    obtain ⟨h1, h2, h3⟩ := h
    intro i hi
    simp only [OB.ids, List.mem_cons, List.mem_append] at hi
    rcases hi with rfl | hi | hi
    · rcases h1 with h1 | h1
      · exact .inl h1
      · exact .inr ⟨h1.1, h1.2.1⟩
    · exact ihn h2 i hi
    · exact ih h3 i hi

end OB

theorem sddOfOrder_congr [DecidableEq V] {C : Cfg V E} (m : Type → Type) [DDMonad V m] {S : I → Prop} {d : I} {init init' : I → V}
    (hi : ∀ i, S i → init i = init' i) (ob : OB I) : ∀ (o : Ord I) (p : Nat) (path : List Nat) (fuel : Nat), Ord.View o ob p path →
      ob.Given S d → sddOfOrder C m init fuel o = sddOfOrder C m init' fuel o := by
  induction ob with
  | nil =>
    intro o p path fuel hv _
    have he : o.empty = true := hv
    cases fuel <;> simp [sddOfOrder, he]
  | node id nst nxt ihn ih =>
    intro o p path fuel hv hg
    obtain ⟨h1, h2, _, h4, _, ⟨on, h6, h7⟩, ⟨ox, h8, h9⟩⟩ := hv
    obtain ⟨g1, g2, g3⟩ := hg
    cases fuel with
    | zero => simp [sddOfOrder, h1]
    | succ fuel =>
      rw [sddOfOrder, sddOfOrder, h1, h2, h4, h6, h8]
      simp only [Bool.false_eq_true, if_false]
      rw [ih ox _ _ fuel h9 g3, ihn on _ _ fuel h7 g2]
      split
      · rename_i hne
        have hn : nst = .nil := by
          cases nst with
          | nil => rfl
          | node a b c => rw [h7.1] at hne; cases hne
        rcases g1 with g1 | g1
        · rw [hi _ g1.2]
        · exact absurd hn g1.2.2
      · rfl

end Verif
