import Verif.DD.Canon
/-!
# Lemmas on the containers: sorted sets, sorted maps, hash maps
-/

set_option autoImplicit false

namespace Verif

section sets
variable {α : Type} {lt : α → α → Bool}

theorem StrictTotal.asymm (h : StrictTotal lt) {a b : α} (h1 : lt a b = true) : lt b a = false := by
  by_contra h2
  rw [Bool.not_eq_false] at h2
  have := h.trans _ _ _ h1 h2
  rw [h.irrefl] at this
  exact absurd this (by simp)

theorem StrictTotal.eq_of (h : StrictTotal lt) {a b : α} (h1 : ¬ lt a b = true)
    (h2 : ¬ lt b a = true) : a = b := by
  rcases h.total a b with h3 | h3 | h3
  · exact absurd h3 h1
  · exact h3
  · exact absurd h3 h2

theorem StrictTotal.ne_of (h : StrictTotal lt) {a b : α} (h1 : lt a b = true) : a ≠ b := by
  rintro rfl
  rw [h.irrefl] at h1
  exact absurd h1 (by simp)

theorem mem_insertBy (h : StrictTotal lt) (x y : α) (l : List α) :
    y ∈ insertBy lt x l ↔ y = x ∨ y ∈ l := by
  induction l with
  | nil => simp [insertBy]
  | cons z l ih =>
    unfold insertBy
    split
    · simp
    · rename_i h1
      split
      · simp [ih]; tauto
      · rename_i h2
        have := h.eq_of h1 h2
        subst this
        simp

theorem insertBy_sorted (h : StrictTotal lt) (x : α) (l : List α)
    (hl : l.Pairwise fun a b => lt a b = true) :
    (insertBy lt x l).Pairwise fun a b => lt a b = true := by
  induction l with
  | nil => simp [insertBy]
  | cons z l ih =>
    unfold insertBy
    rw [List.pairwise_cons] at hl
    split
    · rename_i h1
      rw [List.pairwise_cons, List.pairwise_cons]
      refine ⟨fun a ha => ?_, hl⟩
      rw [List.mem_cons] at ha
      rcases ha with rfl | ha
      · exact h1
      · exact h.trans _ _ _ h1 (hl.1 a ha)
    · split
      · rename_i h1 h2
        rw [List.pairwise_cons]
        refine ⟨fun a ha => ?_, ih hl.2⟩
        rw [mem_insertBy h] at ha
        rcases ha with rfl | ha
        · exact h2
        · exact hl.1 a ha
      · rw [List.pairwise_cons]; exact hl

theorem insertBy_ne_nil (x : α) (l : List α) : insertBy lt x l ≠ [] := by
  cases l with
  | nil => simp [insertBy]
  | cons z l =>
    unfold insertBy
    split
    · simp
    · split <;> simp

/-- A sorted list given by a `flat_set`: sorted, elements satisfy `D` and are not empty. (Specification or proof device, not part of the code.) -/
structure BGood (isEmpty : α → Bool) (lt : α → α → Bool) (D : α → Prop) (l : List α) : Prop where
  sorted : l.Pairwise fun a b => lt a b = true
  dom : ∀ x ∈ l, D x
  ne : ∀ x ∈ l, isEmpty x = false

variable {isEmpty : α → Bool} {D : α → Prop}

theorem BGood.nil : BGood isEmpty lt D [] := ⟨by simp, by simp, by simp⟩

theorem BGood.add (h : StrictTotal lt) {l : List α} (hl : BGood isEmpty lt D l) {x : α} (hx : D x) :
    BGood isEmpty lt D (sumAdd isEmpty lt l x) := by
  unfold sumAdd
  split
  · exact hl
  · rename_i hx'
    refine ⟨insertBy_sorted h x l hl.sorted, fun y hy => ?_, fun y hy => ?_⟩
    · rw [mem_insertBy h] at hy
      rcases hy with rfl | hy
      · exact hx
      · exact hl.dom y hy
    · rw [mem_insertBy h] at hy
      rcases hy with rfl | hy
      · simpa using hx'
      · exact hl.ne y hy

theorem mem_sumAdd (h : StrictTotal lt) {l : List α} {x y : α} :
    y ∈ sumAdd isEmpty lt l x ↔ (y = x ∧ isEmpty x = false) ∨ y ∈ l := by
  unfold sumAdd
  split
  · rename_i h1; simp [h1]
  · rename_i h1; simp [mem_insertBy h, h1]

theorem sumAdd_ne_nil {l : List α} {x : α} (hx : isEmpty x = false) :
    sumAdd isEmpty lt l x ≠ [] := by
  unfold sumAdd
  rw [hx]
  exact insertBy_ne_nil x l

theorem BGood.foldl (h : StrictTotal lt) (xs : List α) (hx : ∀ x ∈ xs, D x) :
    ∀ {l : List α}, BGood isEmpty lt D l → BGood isEmpty lt D (xs.foldl (sumAdd isEmpty lt) l) := by
  induction xs with
  | nil => exact fun h => h
  | cons x xs ih =>
    intro l hl
    exact ih (fun y hy => hx y (by simp [hy])) (hl.add h (hx x (by simp)))

theorem mem_foldl_sumAdd (h : StrictTotal lt) (xs : List α) (y : α) :
    ∀ l : List α, y ∈ xs.foldl (sumAdd isEmpty lt) l ↔ (y ∈ xs ∧ isEmpty y = false) ∨ y ∈ l := by
  induction xs with
  | nil => simp
  | cons x xs ih =>
    intro l
    rw [List.foldl_cons, ih, mem_sumAdd h, List.mem_cons]
    constructor
    · rintro (⟨h1, h2⟩ | ⟨rfl, h1⟩ | h1)
      · exact Or.inl ⟨Or.inr h1, h2⟩
      · exact Or.inl ⟨Or.inl rfl, h1⟩
      · exact Or.inr h1
    · rintro (⟨rfl | h1, h2⟩ | h1)
      · exact Or.inr (Or.inl ⟨rfl, h2⟩)
      · exact Or.inl ⟨h1, h2⟩
      · exact Or.inr (Or.inr h1)

/-- The set of an intersection builder after adding all the operands of a list. -/
theorem foldl_interAdd (h : StrictTotal lt) (xs : List α) :
    ∀ b : InterB α, (b.hasZero = true → b.set = []) → BGood isEmpty lt D b.set →
      (∀ x ∈ xs, D x) →
      let r := xs.foldl (interAdd isEmpty lt) b
      (r.hasZero = true → r.set = []) ∧ BGood isEmpty lt D r.set ∧
      (r.hasZero = true ↔ b.hasZero = true ∨ ∃ x ∈ xs, isEmpty x = true) ∧
      (r.hasZero = false → ∀ y, y ∈ r.set ↔ y ∈ b.set ∨ y ∈ xs) := by
  induction xs with
  | nil => intro b h1 h2 _; simp; exact ⟨h1, h2⟩
  | cons x xs ih =>
    intro b h1 h2 h3
    have hx := h3 x (by simp)
    have hxs : ∀ y ∈ xs, D y := fun y hy => h3 y (by simp [hy])
    have := ih (interAdd isEmpty lt b x) ?_ ?_ hxs
    · obtain ⟨k1, k2, k3, k4⟩ := this
      refine ⟨k1, k2, ?_, ?_⟩
      · simp only [List.foldl_cons] at *
        rw [k3]
        unfold interAdd
        split
        · simp_all
        · split <;> simp_all
      · intro hz y
        simp only [List.foldl_cons] at *
        rw [k4 hz]
        have hb : (interAdd isEmpty lt b x).hasZero = false := by
          by_contra hc
          rw [Bool.not_eq_false] at hc
          rw [k3.2 (Or.inl hc)] at hz
          exact absurd hz (by simp)
        revert hb
        unfold interAdd
        split
        · rename_i hc; intro hd; rw [hc] at hd; simp at hd
        · split
          · simp
          · intro _
            simp [mem_insertBy h]; tauto
    · unfold interAdd
      split
      · exact h1
      · rename_i hc
        split
        · simp
        · intro hd; exact absurd hd hc
    · unfold interAdd
      split
      · exact h2
      · split
        · exact BGood.nil
        · rename_i hc
          have := BGood.add (isEmpty := isEmpty) h h2 hx
          unfold sumAdd at this
          simpa [hc] using this

end sets

section maps
variable {κ β : Type} {lt : κ → κ → Bool}

theorem mem_upsert (h : StrictTotal lt) (k : κ) (new : β) (upd : β → β) (l : List (κ × β))
    (hl : l.Pairwise fun a b => lt a.1 b.1 = true) (k' : κ) (b' : β) :
    (k', b') ∈ upsert lt k new upd l ↔
      (k' = k ∧ ((∃ b, (k, b) ∈ l ∧ b' = upd b) ∨ ((∀ b, (k, b) ∉ l) ∧ b' = new))) ∨
      (k' ≠ k ∧ (k', b') ∈ l) := by
  induction l with
  | nil => simp [upsert]
  | cons e l ih =>
    obtain ⟨k0, b0⟩ := e
    rw [List.pairwise_cons] at hl
    have ih := ih hl.2
    unfold upsert
    split
    · rename_i h1
      have hno : ∀ b, (k, b) ∉ (k0, b0) :: l := by
        intro b hb
        rw [List.mem_cons] at hb
        rcases hb with hb | hb
        · cases hb; rw [h.irrefl] at h1; simp at h1
        · have := h.trans _ _ _ h1 (hl.1 _ hb); rw [h.irrefl] at this; simp at this
      rw [List.mem_cons]
      constructor
      · rintro (h2 | h2)
        · cases h2; exact Or.inl ⟨rfl, Or.inr ⟨hno, rfl⟩⟩
        · refine Or.inr ⟨?_, h2⟩
          rintro rfl; exact hno _ h2
      · rintro (⟨rfl, ⟨b, hb, _⟩ | ⟨_, rfl⟩⟩ | ⟨_, h2⟩)
        · exact absurd hb (hno b)
        · exact Or.inl rfl
        · exact Or.inr h2
    · rename_i h1
      split
      · rename_i h2
        rw [List.mem_cons, ih]
        have hk : k ≠ k0 := (h.ne_of h2).symm
        constructor
        · rintro (h3 | ⟨rfl, ⟨b, hb, rfl⟩ | ⟨hb, rfl⟩⟩ | ⟨h3, h4⟩)
          · cases h3; exact Or.inr ⟨Ne.symm hk, by simp⟩
          · exact Or.inl ⟨rfl, Or.inl ⟨b, by simp [hb], rfl⟩⟩
          · refine Or.inl ⟨rfl, Or.inr ⟨fun b hb' => ?_, rfl⟩⟩
            rw [List.mem_cons] at hb'
            rcases hb' with hb' | hb'
            · cases hb'; exact hk rfl
            · exact hb b hb'
          · exact Or.inr ⟨h3, by simp [h4]⟩
        · rintro (⟨rfl, ⟨b, hb, rfl⟩ | ⟨hb, rfl⟩⟩ | ⟨h3, h4⟩)
          · rw [List.mem_cons] at hb
            rcases hb with hb | hb
            · cases hb; exact absurd rfl hk
            · exact Or.inr (Or.inl ⟨rfl, Or.inl ⟨b, hb, rfl⟩⟩)
          · exact Or.inr (Or.inl ⟨rfl, Or.inr ⟨fun b hb' => hb b (by simp [hb']), rfl⟩⟩)
          · rw [List.mem_cons] at h4
            rcases h4 with h4 | h4
            · exact Or.inl h4
            · exact Or.inr (Or.inr ⟨h3, h4⟩)
      · rename_i h2
        have := h.eq_of h1 h2
        subst this
        have hno : ∀ b, (k, b) ∉ l := by
          intro b hb
          have := hl.1 _ hb
          rw [h.irrefl] at this; simp at this
        rw [List.mem_cons]
        constructor
        · rintro (h3 | h3)
          · cases h3; exact Or.inl ⟨rfl, Or.inl ⟨b0, by simp, rfl⟩⟩
          · refine Or.inr ⟨?_, by simp [h3]⟩
            rintro rfl; exact hno _ h3
        · rintro (⟨rfl, ⟨b, hb, rfl⟩ | ⟨hb, rfl⟩⟩ | ⟨h3, h4⟩)
          · rw [List.mem_cons] at hb
            rcases hb with hb | hb
            · cases hb; exact Or.inl rfl
            · exact absurd hb (hno b)
          · exact absurd (by simp) (hb b0)
          · rw [List.mem_cons] at h4
            rcases h4 with h4 | h4
            · cases h4; exact absurd rfl h3
            · exact Or.inr h4

theorem key_mem_upsert (k : κ) (new : β) (upd : β → β) (l : List (κ × β))
    {e : κ × β} (he : e ∈ upsert lt k new upd l) : e.1 = k ∨ ∃ e' ∈ l, e'.1 = e.1 := by
  induction l with
  | nil => simp [upsert] at he; simp [he]
  | cons e0 l ih =>
    obtain ⟨k0, b0⟩ := e0
    unfold upsert at he
    split at he
    · rw [List.mem_cons] at he
      rcases he with rfl | he
      · exact Or.inl rfl
      · exact Or.inr ⟨e, he, rfl⟩
    · split at he
      · rw [List.mem_cons] at he
        rcases he with rfl | he
        · exact Or.inr ⟨_, by simp, rfl⟩
        · rcases ih he with h1 | ⟨e', h1, h2⟩
          · exact Or.inl h1
          · exact Or.inr ⟨e', by simp [h1], h2⟩
      · rw [List.mem_cons] at he
        rcases he with rfl | he
        · exact Or.inr ⟨(k0, b0), by simp, rfl⟩
        · exact Or.inr ⟨e, by simp [he], rfl⟩

theorem upsert_sorted (h : StrictTotal lt) (k : κ) (new : β) (upd : β → β) (l : List (κ × β))
    (hl : l.Pairwise fun a b => lt a.1 b.1 = true) :
    (upsert lt k new upd l).Pairwise fun a b => lt a.1 b.1 = true := by
  induction l with
  | nil => simp [upsert]
  | cons e0 l ih =>
    obtain ⟨k0, b0⟩ := e0
    rw [List.pairwise_cons] at hl
    unfold upsert
    split
    · rename_i h1
      rw [List.pairwise_cons, List.pairwise_cons]
      refine ⟨fun a ha => ?_, hl⟩
      rw [List.mem_cons] at ha
      rcases ha with rfl | ha
      · exact h1
      · exact h.trans _ _ _ h1 (hl.1 a ha)
    · split
      · rename_i h2
        rw [List.pairwise_cons]
        refine ⟨fun a ha => ?_, ih hl.2⟩
        rcases key_mem_upsert _ _ _ _ ha with h3 | ⟨e', h3, h4⟩
        · simpa [h3] using h2
        · rw [← h4]; exact hl.1 _ h3
      · rw [List.pairwise_cons]; exact ⟨fun a ha => hl.1 a ha, hl.2⟩

theorem upsert_ne_nil (k : κ) (new : β) (upd : β → β) (l : List (κ × β)) :
    upsert lt k new upd l ≠ [] := by
  cases l with
  | nil => simp [upsert]
  | cons e l =>
    obtain ⟨k0, b0⟩ := e
    unfold upsert
    split
    · simp
    · split <;> simp

/-- Inserting a greatest key appends it. -/
theorem upsert_append (h : StrictTotal lt) (k : κ) (new : β) (upd : β → β) (l : List (κ × β))
    (hl : ∀ e ∈ l, lt e.1 k = true) : upsert lt k new upd l = l ++ [(k, new)] := by
  induction l with
  | nil => simp [upsert]
  | cons e0 l ih =>
    obtain ⟨k0, b0⟩ := e0
    have h1 := hl (k0, b0) (by simp)
    unfold upsert
    rw [if_neg (by rw [h.asymm h1]; simp), if_pos h1, ih fun e he => hl e (by simp [he])]
    simp

variable [DecidableEq κ]

theorem emplaceAll_append (r s s' : List (κ × β)) :
    emplaceAll r (s ++ s') = emplaceAll (emplaceAll r s) s' := by
  simp [emplaceAll]

theorem emplace_keys (r : List (κ × β)) (e : κ × β) (k : κ) :
    k ∈ (emplace r e).map Prod.fst ↔ k ∈ r.map Prod.fst ∨ k = e.1 := by
  unfold emplace
  split
  · rename_i h
    constructor
    · exact Or.inl
    · rintro (h1 | rfl)
      · exact h1
      · exact h
  · simp [or_comm]

theorem emplaceAll_keys (s : List (κ × β)) (k : κ) : ∀ r : List (κ × β),
    k ∈ (emplaceAll r s).map Prod.fst ↔ k ∈ r.map Prod.fst ∨ k ∈ s.map Prod.fst := by
  induction s with
  | nil => simp [emplaceAll]
  | cons e s ih =>
    intro r
    have := ih (emplace r e)
    simp only [emplaceAll, List.foldl_cons] at *
    rw [this, emplace_keys]
    simp; tauto

/-- An element whose key already occurs is dropped. -/
theorem emplaceAll_dup (r s : List (κ × β)) (e : κ × β) (h : e.1 ∈ s.map Prod.fst) :
    emplaceAll r (s ++ [e]) = emplaceAll r s := by
  rw [emplaceAll_append]
  have : e.1 ∈ (emplaceAll r s).map Prod.fst := by
    rw [emplaceAll_keys]; exact Or.inr h
  change emplace (emplaceAll r s) e = emplaceAll r s
  unfold emplace
  rw [if_pos this]

/-- With different keys, inserting is appending. -/
theorem emplaceAll_eq_append (s : List (κ × β)) : ∀ r : List (κ × β),
    ((r ++ s).map Prod.fst).Nodup → emplaceAll r s = r ++ s := by
  induction s with
  | nil => simp [emplaceAll]
  | cons e s ih =>
    intro r h
    have h1 : e.1 ∉ r.map Prod.fst := by
      intro hc
      rw [List.map_append, List.nodup_append] at h
      exact h.2.2 e.1 hc e.1 (by simp) rfl
    have : emplace r e = r ++ [e] := by unfold emplace; rw [if_neg h1]
    simp only [emplaceAll, List.foldl_cons] at *
    rw [this, ih]
    · simp
    · simpa using h

end maps
end Verif
