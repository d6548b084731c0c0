import Verif.DD.Stats
/-!
# Iterators kept while counting paths

`/repo/sdd/dd/count_combinations.hh`: the visitor keeps an iterator of its `std::unordered_map` while it visits the arcs of a node, which
inserts in this map.  In the C++ standard, an insertion invalidates the iterators when the number of elements becomes greater than the number
of buckets (the maximal load factor is 1 by default): the container is rehashed.  Here, the use of an invalidated iterator is an error
(`none`).  `DD/Count` is the model in which iterators always designate their element.
-/

set_option autoImplicit false
set_option linter.unusedSectionVars false

namespace Verif

section
variable {V E : Type} [DecidableEq V]

/-- `std::unordered_map` as the standard describes it: its elements, the number of times it was rehashed, its number of buckets.
(Model of the environment: what the user or the system does.) -/
structure IMap (V : Type) where
  entries : CountCache V
  gen : Nat
  buckets : Nat

/-- The insertion of an absent element; `grow n` is the number of buckets chosen by the implementation for `n` elements. (Model of the
environment: what the user or the system does.) -/
def IMap.push (grow : Nat → Nat) (s : SDD V) (m : IMap V) : IMap V :=
  if m.entries.length + 1 ≤ m.buckets then ⟨(s, 0) :: m.entries, m.gen, m.buckets⟩
  else ⟨(s, 0) :: m.entries, m.gen + 1, grow (m.entries.length + 1)⟩

/-- `insertion.first->second`, with an iterator made when the container had been rehashed `g` times: `/repo/sdd/dd/count_combinations.hh:60,75`. -/
def IMap.deref (m : IMap V) (s : SDD V) (g : Nat) : Option Nat := if g = m.gen then ccFind m.entries s else none

/-- `insertion.first->second += n`, `/repo/sdd/dd/count_combinations.hh:58,73`. -/
def IMap.add (m : IMap V) (s : SDD V) (g n : Nat) : Option (IMap V) :=
  if g = m.gen then some { m with entries := ccAdd m.entries s n } else none

mutual
/-- The visitor, `/repo/sdd/dd/count_combinations.hh:21-78`. -/
def cntVI (C : Cfg V E) (grow : Nat → Nat) : SDD V → IMap V → Option (Nat × IMap V)
  | .zero, _ => none
  | .one, m => some (1, m)
  | .flat x arcs, m =>
    match ccFind m.entries (.flat x arcs) with
    | some n => some (n, m)
    | none =>
      match cntFI C grow (.flat x arcs) (m.push grow (.flat x arcs)).gen arcs (m.push grow (.flat x arcs)) with
      | none => none
      | some m' => (m'.deref (.flat x arcs) (m.push grow (.flat x arcs)).gen).map fun n => (n, m')
  | .hier x arcs, m =>
    match ccFind m.entries (.hier x arcs) with
    | some n => some (n, m)
    | none =>
      match cntHI C grow (.hier x arcs) (m.push grow (.hier x arcs)).gen arcs (m.push grow (.hier x arcs)) with
      | none => none
      | some m' => (m'.deref (.hier x arcs) (m.push grow (.hier x arcs)).gen).map fun n => (n, m')
/-- The loop on the arcs of a flat node, `/repo/sdd/dd/count_combinations.hh:56-59`. -/
def cntFI (C : Cfg V E) (grow : Nat → Nat) (self : SDD V) (g : Nat) : List (V × SDD V) → IMap V → Option (IMap V)
  | [], m => some m
  | (v, s) :: arcs, m =>
    match cntVI C grow s m with
    | none => none
    | some (n, m) =>
      match m.add self g (C.vsize v * n) with
      | none => none
      | some m => cntFI C grow self g arcs m
/-- The loop on the arcs of a hierarchical node, `/repo/sdd/dd/count_combinations.hh:71-74`. -/
def cntHI (C : Cfg V E) (grow : Nat → Nat) (self : SDD V) (g : Nat) : List (SDD V × SDD V) → IMap V → Option (IMap V)
  | [], m => some m
  | (v, s) :: arcs, m =>
    match cntVI C grow v m with
    | none => none
    | some (k, m) =>
      match cntVI C grow s m with
      | none => none
      | some (n, m) =>
        match m.add self g (k * n) with
        | none => none
        | some m => cntHI C grow self g arcs m
end

/-- `count_combinations`, `/repo/sdd/dd/count_combinations.hh:86-92`, when a default constructed `std::unordered_map` has `b` buckets. -/
def sizeOfSDDI (C : Cfg V E) (grow : Nat → Nat) (b : Nat) (s : SDD V) : Option Nat :=
  if s.isZero then some 0 else (cntVI C grow s ⟨[], 0, b⟩).map Prod.fst

/-- What an execution with iterators does, with respect to one without. (Specification or proof device, not part of the code.) -/
structure IStep (m m' : IMap V) : Prop where
  gen : m.gen ≤ m'.gen
  same : m'.gen = m.gen → m'.buckets = m.buckets ∧ (m.entries.length ≤ m.buckets → m'.entries.length ≤ m'.buckets)

theorem IStep.refl (m : IMap V) : IStep m m := ⟨le_rfl, fun _ => ⟨rfl, id⟩⟩

theorem IStep.trans {a b c : IMap V} (h1 : IStep a b) (h2 : IStep b c) : IStep a c := by
  have g1 := h1.gen
  have g2 := h2.gen
  refine ⟨g1.trans g2, fun h => ?_⟩
  obtain ⟨b1, l1⟩ := h1.same (by omega)
  obtain ⟨b2, l2⟩ := h2.same (by omega)
  exact ⟨b2.trans b1, fun h => l2 (l1 h)⟩

theorem IMap.push_step (grow : Nat → Nat) (s : SDD V) (m : IMap V) : IStep m (m.push grow s) := by
  unfold IMap.push
  split
  · rename_i h
    exact ⟨le_rfl, fun _ => ⟨rfl, fun _ => by simpa using h⟩⟩
  · exact ⟨Nat.le_succ _, fun h => absurd h (Nat.succ_ne_self _)⟩

theorem IMap.push_entries (grow : Nat → Nat) (s : SDD V) (m : IMap V) : (m.push grow s).entries = (s, 0) :: m.entries := by
  unfold IMap.push
  split <;> rfl

theorem ccAdd_length (c : CountCache V) (s : SDD V) (n : Nat) : (ccAdd c s n).length = c.length := by simp [ccAdd]

theorem ccAdd_keys (c : CountCache V) (s : SDD V) (n : Nat) : (ccAdd c s n).map Prod.fst = c.map Prod.fst := by
  simp only [ccAdd, List.map_map]
  refine List.map_congr_left fun e _ => ?_
  simp only [Function.comp]
  split <;> rfl

theorem IMap.add_step {m m' : IMap V} {s : SDD V} {g n : Nat} (h : m.add s g n = some m') :
    g = m.gen ∧ m' = { m with entries := ccAdd m.entries s n } ∧ IStep m m' := by
  unfold IMap.add at h
  split at h
  · rename_i hg
    cases h
    exact ⟨hg, rfl, le_rfl, fun _ => ⟨rfl, fun h => by simpa [ccAdd_length] using h⟩⟩
  · cases h

theorem ccFind_none_iff (c : CountCache V) (s : SDD V) : ccFind c s = none ↔ s ∉ c.map Prod.fst := by
  simp only [ccFind, Option.map_eq_none_iff, List.find?_eq_none, decide_eq_true_eq, List.mem_map, not_exists, not_and]

/-- An execution which does not use an invalidated iterator gives the result of `DD/Count`. -/
theorem cntVI_sound (C : Cfg V E) (grow : Nat → Nat) (s : SDD V) : ∀ (m m' : IMap V) (n : Nat), cntVI C grow s m = some (n, m') →
    cntV C s m.entries = some (n, m'.entries) ∧ IStep m m' ∧
      (s ≠ .one → ccFind m.entries s = none → m'.gen = (m.push grow s).gen ∧ IStep (m.push grow s) m') := by
  induction s using SDD.ind with
  | h0 => intro m m' n h; simp [cntVI] at h
  | h1 =>
    intro m m' n h
    simp only [cntVI, Option.some.injEq, Prod.mk.injEq] at h
    obtain ⟨rfl, rfl⟩ := h
    exact ⟨by simp [cntV], .refl _, fun h => absurd rfl h⟩
  | hf x arcs ih =>
    intro m m' n h
    rw [cntVI] at h
    rw [cntV]
    split at h
    · rename_i k hk
      cases h
      simp only [hk]
      exact ⟨trivial, .refl _, fun _ h => by cases h⟩
    · rename_i hk0
      simp only [hk0]
      have hloop : ∀ (l : List (V × SDD V)), (∀ a ∈ l, a ∈ arcs) → ∀ (self : SDD V) (g : Nat) (m1 m2 : IMap V),
          cntFI C grow self g l m1 = some m2 → cntF C self l m1.entries = some m2.entries ∧ IStep m1 m2 := by
        intro l
        induction l with
        | nil =>
          intro _ self g m1 m2 h
          simp only [cntFI, Option.some.injEq] at h
          subst h
          exact ⟨by simp [cntF], .refl _⟩
        | cons e l ihl =>
          obtain ⟨v, s⟩ := e
          intro hl self g m1 m2 h
          rw [cntFI] at h
          split at h
          · cases h
          · rename_i k m3 e3
            split at h
            · cases h
            · rename_i m4 e4
              obtain ⟨r1, r2, -⟩ := ih (v, s) (hl _ (by simp)) _ _ _ e3
              obtain ⟨-, rfl, r3⟩ := IMap.add_step e4
              obtain ⟨r4, r5⟩ := ihl (fun a ha => hl a (by simp [ha])) _ _ _ _ h
              simp only at r1
              exact ⟨by rw [cntF, r1]; exact r4, r2.trans (r3.trans r5)⟩
      split at h
      · cases h
      · rename_i m2 e2
        obtain ⟨r1, r2⟩ := hloop arcs (fun _ h => h) _ _ _ _ e2
        obtain ⟨k, hk, e⟩ := Option.map_eq_some_iff.1 h
        cases e
        rw [IMap.push_entries] at r1
        rw [r1]
        unfold IMap.deref at hk
        split at hk
        · rename_i hg
          exact ⟨by simp [hk], (IMap.push_step ..).trans r2, fun _ _ => ⟨hg.symm, r2⟩⟩
        · cases hk
  | hh x arcs ih =>
    intro m m' n h
    rw [cntVI] at h
    rw [cntV]
    split at h
    · rename_i k hk
      cases h
      simp only [hk]
      exact ⟨trivial, .refl _, fun _ h => by cases h⟩
    · rename_i hk0
      simp only [hk0]
      have hloop : ∀ (l : List (SDD V × SDD V)), (∀ a ∈ l, a ∈ arcs) → ∀ (self : SDD V) (g : Nat) (m1 m2 : IMap V),
          cntHI C grow self g l m1 = some m2 → cntH C self l m1.entries = some m2.entries ∧ IStep m1 m2 := by
        intro l
        induction l with
        | nil =>
          intro _ self g m1 m2 h
          simp only [cntHI, Option.some.injEq] at h
          subst h
          exact ⟨by simp [cntH], .refl _⟩
        | cons e l ihl =>
          obtain ⟨v, s⟩ := e
          intro hl self g m1 m2 h
          rw [cntHI] at h
          split at h
          · cases h
          · rename_i k m3 e3
            split at h
            · cases h
            · rename_i k' m5 e5
              split at h
              · cases h
              · rename_i m4 e4
                obtain ⟨r1, r2, -⟩ := (ih (v, s) (hl _ (by simp))).1 _ _ _ e3
                obtain ⟨r6, r7, -⟩ := (ih (v, s) (hl _ (by simp))).2 _ _ _ e5
                obtain ⟨-, rfl, r3⟩ := IMap.add_step e4
                obtain ⟨r4, r5⟩ := ihl (fun a ha => hl a (by simp [ha])) _ _ _ _ h
                simp only at r1 r6
                exact ⟨by rw [cntH, r1]; simp only [r6]; exact r4, r2.trans (r7.trans (r3.trans r5))⟩
      split at h
      · cases h
      · rename_i m2 e2
        obtain ⟨r1, r2⟩ := hloop arcs (fun _ h => h) _ _ _ _ e2
        obtain ⟨k, hk, e⟩ := Option.map_eq_some_iff.1 h
        cases e
        rw [IMap.push_entries] at r1
        rw [r1]
        unfold IMap.deref at hk
        split at hk
        · rename_i hg
          exact ⟨by simp [hk], (IMap.push_step ..).trans r2, fun _ _ => ⟨hg.symm, r2⟩⟩
        · cases hk

/-- The keys of the cache are the nodes visited. -/
theorem cntV_keys (C : Cfg V E) (s : SDD V) : ∀ (c c' : CountCache V) (n : Nat), cntV C s c = some (n, c') →
    c'.map Prod.fst = trav s (c.map Prod.fst) ∧ c.length ≤ c'.length := by
  induction s using SDD.ind with
  | h0 => intro c c' n h; simp [cntV] at h
  | h1 =>
    intro c c' n h
    simp only [cntV, Option.some.injEq, Prod.mk.injEq] at h
    obtain ⟨rfl, rfl⟩ := h
    exact ⟨by simp [trav], le_rfl⟩
  | hf x arcs ih =>
    intro c c' n h
    rw [cntV] at h
    rw [trav]
    split at h
    · rename_i k hk
      cases h
      have : (SDD.flat x arcs) ∈ c.map Prod.fst := by
        by_contra hn
        rw [(ccFind_none_iff c _).2 hn] at hk
        cases hk
      exact ⟨by rw [if_pos this], le_rfl⟩
    · rename_i hk
      have hloop : ∀ (l : List (V × SDD V)), (∀ a ∈ l, a ∈ arcs) → ∀ (self : SDD V) (c1 c2 : CountCache V),
          cntF C self l c1 = some c2 → c2.map Prod.fst = travF l (c1.map Prod.fst) ∧ c1.length ≤ c2.length := by
        intro l
        induction l with
        | nil =>
          intro _ self c1 c2 h
          simp only [cntF, Option.some.injEq] at h
          subst h
          exact ⟨by simp [travF], le_rfl⟩
        | cons e l ihl =>
          obtain ⟨v, s⟩ := e
          intro hl self c1 c2 h
          rw [cntF] at h
          split at h
          · cases h
          · rename_i k c3 e3
            obtain ⟨r1, r2⟩ := ih (v, s) (hl _ (by simp)) _ _ _ e3
            obtain ⟨r3, r4⟩ := ihl (fun a ha => hl a (by simp [ha])) _ _ _ h
            rw [ccAdd_length] at r4
            rw [ccAdd_keys, r1] at r3
            exact ⟨by rw [r3, travF], r2.trans r4⟩
      split at h
      · cases h
      · rename_i c2 e2
        obtain ⟨r1, r2⟩ := hloop arcs (fun _ h => h) _ _ _ e2
        obtain ⟨k, -, e⟩ := Option.map_eq_some_iff.1 h
        cases e
        rw [if_neg ((ccFind_none_iff c _).1 hk)]
        simp only [List.length_cons] at r2
        exact ⟨r1, by omega⟩
  | hh x arcs ih =>
    intro c c' n h
    rw [cntV] at h
    rw [trav]
    split at h
    · rename_i k hk
      cases h
      have : (SDD.hier x arcs) ∈ c.map Prod.fst := by
        by_contra hn
        rw [(ccFind_none_iff c _).2 hn] at hk
        cases hk
      exact ⟨by rw [if_pos this], le_rfl⟩
    · rename_i hk
      have hloop : ∀ (l : List (SDD V × SDD V)), (∀ a ∈ l, a ∈ arcs) → ∀ (self : SDD V) (c1 c2 : CountCache V),
          cntH C self l c1 = some c2 → c2.map Prod.fst = travH l (c1.map Prod.fst) ∧ c1.length ≤ c2.length := by
        intro l
        induction l with
        | nil =>
          intro _ self c1 c2 h
          simp only [cntH, Option.some.injEq] at h
          subst h
          exact ⟨by simp [travH], le_rfl⟩
        | cons e l ihl =>
          obtain ⟨v, s⟩ := e
          intro hl self c1 c2 h
          rw [cntH] at h
          split at h
          · cases h
          · rename_i k c3 e3
            split at h
            · cases h
            · rename_i k' c4 e4
              obtain ⟨r1, r2⟩ := (ih (v, s) (hl _ (by simp))).1 _ _ _ e3
              obtain ⟨r5, r6⟩ := (ih (v, s) (hl _ (by simp))).2 _ _ _ e4
              obtain ⟨r3, r4⟩ := ihl (fun a ha => hl a (by simp [ha])) _ _ _ h
              rw [ccAdd_length] at r4
              rw [ccAdd_keys, r5, r1] at r3
              exact ⟨by rw [r3, travH], r2.trans (r6.trans r4)⟩
      split at h
      · cases h
      · rename_i c2 e2
        obtain ⟨r1, r2⟩ := hloop arcs (fun _ h => h) _ _ _ e2
        obtain ⟨k, -, e⟩ := Option.map_eq_some_iff.1 h
        cases e
        rw [if_neg ((ccFind_none_iff c _).1 hk)]
        simp only [List.length_cons] at r2
        exact ⟨r1, by omega⟩

theorem cntF_length (C : Cfg V E) (self : SDD V) : ∀ (l : List (V × SDD V)) (c1 c2 : CountCache V),
    cntF C self l c1 = some c2 → c1.length ≤ c2.length
  | [], c1, c2, h => by
    simp only [cntF, Option.some.injEq] at h
    rw [h]
  | (v, s) :: l, c1, c2, h => by
    rw [cntF] at h
    split at h
    · cases h
    · rename_i k c3 e3
      have h1 := (cntV_keys C s _ _ _ e3).2
      have h2 := cntF_length C self l _ _ h
      rw [ccAdd_length] at h2
      omega

theorem cntH_length (C : Cfg V E) (self : SDD V) : ∀ (l : List (SDD V × SDD V)) (c1 c2 : CountCache V),
    cntH C self l c1 = some c2 → c1.length ≤ c2.length
  | [], c1, c2, h => by
    simp only [cntH, Option.some.injEq] at h
    rw [h]
  | (v, s) :: l, c1, c2, h => by
    rw [cntH] at h
    split at h
    · cases h
    · rename_i k c3 e3
      split at h
      · cases h
      · rename_i k' c4 e4
        have h1 := (cntV_keys C v _ _ _ e3).2
        have h3 := (cntV_keys C s _ _ _ e4).2
        have h2 := cntH_length C self l _ _ h
        rw [ccAdd_length] at h2
        omega

/-- When there are enough buckets, no iterator is invalidated. -/
theorem cntVI_complete (C : Cfg V E) (grow : Nat → Nat) (b : Nat) (s : SDD V) : ∀ (c c' : CountCache V) (g n : Nat),
    cntV C s c = some (n, c') → c'.length ≤ b → cntVI C grow s ⟨c, g, b⟩ = some (n, ⟨c', g, b⟩) := by
  induction s using SDD.ind with
  | h0 => intro c c' g n h; simp [cntV] at h
  | h1 =>
    intro c c' g n h _
    simp only [cntV, Option.some.injEq, Prod.mk.injEq] at h
    obtain ⟨rfl, rfl⟩ := h
    simp [cntVI]
  | hf x arcs ih =>
    intro c c' g n h hb
    rw [cntV] at h
    rw [cntVI]
    split at h
    · rename_i k hk
      cases h
      simp only [hk]
    · rename_i hk
      simp only [hk]
      have hloop : ∀ (l : List (V × SDD V)), (∀ a ∈ l, a ∈ arcs) → ∀ (self : SDD V) (c1 c2 : CountCache V),
          cntF C self l c1 = some c2 → c2.length ≤ b → cntFI C grow self g l ⟨c1, g, b⟩ = some ⟨c2, g, b⟩ := by
        intro l
        induction l with
        | nil =>
          intro _ self c1 c2 h _
          simp only [cntF, Option.some.injEq] at h
          subst h
          simp [cntFI]
        | cons e l ihl =>
          obtain ⟨v, s⟩ := e
          intro hl self c1 c2 h hb
          rw [cntF] at h
          split at h
          · cases h
          · rename_i k c3 e3
            have h1 := cntF_length C self l _ _ h
            rw [ccAdd_length] at h1
            have r1 := ih (v, s) (hl _ (by simp)) _ _ g _ e3 (h1.trans hb)
            simp only at r1
            rw [cntFI, r1]
            simp only [IMap.add, if_true]
            exact ihl (fun a ha => hl a (by simp [ha])) _ _ _ h hb
      split at h
      · cases h
      · rename_i c2 e2
        obtain ⟨k, hk2, e⟩ := Option.map_eq_some_iff.1 h
        cases e
        have h1 := cntF_length C _ _ _ _ e2
        have hp : IMap.push grow (.flat x arcs) ⟨c, g, b⟩ = ⟨(.flat x arcs, 0) :: c, g, b⟩ := by
          simp only [List.length_cons] at h1
          simp only [IMap.push]
          rw [if_pos (by omega)]
        rw [hp]
        simp only [hloop arcs (fun _ h => h) _ _ _ e2 hb, IMap.deref, if_true, hk2, Option.map_some]
  | hh x arcs ih =>
    intro c c' g n h hb
    rw [cntV] at h
    rw [cntVI]
    split at h
    · rename_i k hk
      cases h
      simp only [hk]
    · rename_i hk
      simp only [hk]
      have hloop : ∀ (l : List (SDD V × SDD V)), (∀ a ∈ l, a ∈ arcs) → ∀ (self : SDD V) (c1 c2 : CountCache V),
          cntH C self l c1 = some c2 → c2.length ≤ b → cntHI C grow self g l ⟨c1, g, b⟩ = some ⟨c2, g, b⟩ := by
        intro l
        induction l with
        | nil =>
          intro _ self c1 c2 h _
          simp only [cntH, Option.some.injEq] at h
          subst h
          simp [cntHI]
        | cons e l ihl =>
          obtain ⟨v, s⟩ := e
          intro hl self c1 c2 h hb
          rw [cntH] at h
          split at h
          · cases h
          · rename_i k c3 e3
            split at h
            · cases h
            · rename_i k' c4 e4
              have h1 := cntH_length C self l _ _ h
              rw [ccAdd_length] at h1
              have h2 := (cntV_keys C s _ _ _ e4).2
              have r1 := (ih (v, s) (hl _ (by simp))).1 _ _ g _ e3 (h2.trans (h1.trans hb))
              have r2 := (ih (v, s) (hl _ (by simp))).2 _ _ g _ e4 (h1.trans hb)
              simp only at r1 r2
              rw [cntHI, r1]
              simp only [r2, IMap.add, if_true]
              exact ihl (fun a ha => hl a (by simp [ha])) _ _ _ h hb
      split at h
      · cases h
      · rename_i c2 e2
        obtain ⟨k, hk2, e⟩ := Option.map_eq_some_iff.1 h
        cases e
        have h1 := cntH_length C _ _ _ _ e2
        have hp : IMap.push grow (.hier x arcs) ⟨c, g, b⟩ = ⟨(.hier x arcs, 0) :: c, g, b⟩ := by
          simp only [List.length_cons] at h1
          simp only [IMap.push]
          rw [if_pos (by omega)]
        rw [hp]
        simp only [hloop arcs (fun _ h => h) _ _ _ e2 hb, IMap.deref, if_true, hk2, Option.map_some]

/-- The number of buckets after the first insertion. (Specification or proof device, not part of the code.) -/
def bucketsOne (grow : Nat → Nat) (b : Nat) : Nat := if 1 ≤ b then b else grow 1

/-- The count is defined exactly when the nodes fit in the buckets. -/
theorem sizeOfSDDI_eq (C : Cfg V E) {grow : Nat → Nat} (hg : 1 ≤ grow 1) (b : Nat) {s : SDD V} (hs : NoZero s) :
    sizeOfSDDI C grow b s = if (distinctNodes s).length ≤ bucketsOne grow b then sizeOfSDD C s else none := by
  obtain ⟨c', e, -, -⟩ := cntV_ok C s hs (fun _ => False) [] (fun _ h => h.elim) (fun s n h => by simp [ccFind] at h)
  have hk := (cntV_keys C s _ _ _ e).1
  have hlen : (distinctNodes s).length = c'.length := by
    rw [distinctNodes, ← List.map_nil (f := Prod.fst), ← hk, List.length_map]
  have hz : s.isZero = false := by
    cases s with
    | zero => exact absurd .refl hs
    | _ => rfl
  unfold sizeOfSDDI sizeOfSDD
  rw [hz]
  simp only [Bool.false_eq_true, if_false]
  rw [hlen, e]
  by_cases hone : s = .one
  · subst hone
    simp only [cntV, Option.some.injEq, Prod.mk.injEq] at e
    obtain ⟨-, rfl⟩ := e
    simp [cntVI, cnt]
  have hb1 : 1 ≤ bucketsOne grow b := by
    unfold bucketsOne
    split
    · assumption
    · exact hg
  have hpush : IMap.push grow s ⟨[], 0, b⟩ = ⟨[(s, 0)], if 1 ≤ b then 0 else 1, bucketsOne grow b⟩ := by
    unfold IMap.push bucketsOne
    simp only [List.length_nil, Nat.zero_add]
    split <;> rfl
  split
  · rename_i hle
    have key : ∀ g, cntVI C grow s ⟨[], g, bucketsOne grow b⟩ = some (cnt C s, ⟨c', g, bucketsOne grow b⟩) :=
      fun g => cntVI_complete C grow _ s _ _ g _ e hle
    have hp2 : ∀ g, IMap.push grow s ⟨[], g, bucketsOne grow b⟩ = ⟨[(s, 0)], g, bucketsOne grow b⟩ := by
      intro g
      unfold IMap.push
      rw [if_pos (by simpa using hb1)]
    have : cntVI C grow s ⟨[], 0, b⟩ = cntVI C grow s ⟨[], if 1 ≤ b then 0 else 1, bucketsOne grow b⟩ := by
      cases s with
      | zero => exact absurd .refl hs
      | one => exact absurd rfl hone
      | flat x arcs =>
        rw [cntVI, cntVI, hpush, hp2]
        simp [ccFind]
      | hier x arcs =>
        rw [cntVI, cntVI, hpush, hp2]
        simp [ccFind]
    rw [this, key]
    rfl
  · rename_i hgt
    cases h : cntVI C grow s ⟨[], 0, b⟩ with
    | none => rfl
    | some p =>
      obtain ⟨n, m'⟩ := p
      obtain ⟨h1, -, h3⟩ := cntVI_sound C grow s _ _ _ h
      obtain ⟨h4, h5⟩ := h3 hone rfl
      obtain ⟨h6, h7⟩ := h5.same h4
      rw [hpush] at h6 h7
      simp only [e, Option.some.injEq, Prod.mk.injEq] at h1
      obtain ⟨-, rfl⟩ := h1
      simp only [List.length_cons, List.length_nil] at h6 h7
      exact absurd (h6 ▸ h7 (by simpa using hb1)) hgt

end
end Verif
