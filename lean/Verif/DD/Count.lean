import Verif.DD.Session
/-!
# Counting paths

`/repo/sdd/dd/count_combinations.hh`.
-/

set_option autoImplicit false
set_option linter.unusedSectionVars false

namespace Verif

section
variable {V E : Type} [DecidableEq V]

/-- The cache of the visitor, `/repo/sdd/dd/count_combinations.hh:27`, keyed by the address of nodes. -/
abbrev CountCache (V : Type) := List (SDD V × Nat)

/-- Look-up in the cache. (`/repo/sdd/dd/count_combinations.hh`, line 27: `std::unordered_map`.) -/
def ccFind (c : CountCache V) (s : SDD V) : Option Nat := (c.find? fun e => e.1 = s).map Prod.snd

/-- `insertion.first->second += n`. (`/repo/sdd/dd/count_combinations.hh`, lines 58 and 73: `insertion.first->second += …`.) -/
def ccAdd (c : CountCache V) (s : SDD V) (n : Nat) : CountCache V :=
  c.map fun e => if e.1 = s then (e.1, e.2 + n) else e

mutual
/-- The visitor of `/repo/sdd/dd/count_combinations.hh:21-78`.  `none` is the undefined behaviour of
`__builtin_unreachable()` on `|0|` (lines 33-39).  The C++ code keeps an iterator in an `unordered_map`
across insertions (lines 53-60), which is not allowed when a rehash happens; with the usual
implementations the iterator still designates the same element, and so it is in the model; `DD/Iter` follows the standard. -/
def cntV (C : Cfg V E) : SDD V → CountCache V → Option (Nat × CountCache V)
  | .zero, _ => none
  | .one, c => some (1, c)
  | .flat x arcs, c =>
    match ccFind c (.flat x arcs) with
    | some n => some (n, c)
    | none =>
      match cntF C (.flat x arcs) arcs ((.flat x arcs, 0) :: c) with
      | none => none
      | some c => (ccFind c (.flat x arcs)).map fun n => (n, c)
  | .hier x arcs, c =>
    match ccFind c (.hier x arcs) with
    | some n => some (n, c)
    | none =>
      match cntH C (.hier x arcs) arcs ((.hier x arcs, 0) :: c) with
      | none => none
      | some c => (ccFind c (.hier x arcs)).map fun n => (n, c)
/-- The loop on the arcs of a flat node, lines 56-59. (`/repo/sdd/dd/count_combinations.hh`, lines 56-59.) -/
def cntF (C : Cfg V E) (self : SDD V) : List (V × SDD V) → CountCache V → Option (CountCache V)
  | [], c => some c
  | (v, s) :: arcs, c =>
    match cntV C s c with
    | none => none
    | some (n, c) => cntF C self arcs (ccAdd c self (C.vsize v * n))
/-- The loop on the arcs of a hierarchical node, lines 71-74. (`/repo/sdd/dd/count_combinations.hh`, lines 71-74.) -/
def cntH (C : Cfg V E) (self : SDD V) : List (SDD V × SDD V) → CountCache V → Option (CountCache V)
  | [], c => some c
  | (v, s) :: arcs, c =>
    match cntV C v c with
    | none => none
    | some (k, c) =>
      match cntV C s c with
      | none => none
      | some (n, c) => cntH C self arcs (ccAdd c self (k * n))
end

/-- `count_combinations`, `/repo/sdd/dd/count_combinations.hh:86-92`; `SDD::size`. -/
def sizeOfSDD (C : Cfg V E) (s : SDD V) : Option Nat :=
  if s.isZero then some 0 else (cntV C s []).map Prod.fst

mutual
/-- The recursion without cache. (Proof device, not part of the code.) -/
def cnt (C : Cfg V E) : SDD V → Nat
  | .zero => 0
  | .one => 1
  | .flat _ arcs => cntFs C arcs
  | .hier _ arcs => cntHs C arcs
/-- Sum over the arcs of a flat node. (Proof device, not part of the code.) -/
def cntFs (C : Cfg V E) : List (V × SDD V) → Nat
  | [] => 0
  | (v, s) :: arcs => C.vsize v * cnt C s + cntFs C arcs
/-- Sum over the arcs of a hierarchical node. (Proof device, not part of the code.) -/
def cntHs (C : Cfg V E) : List (SDD V × SDD V) → Nat
  | [] => 0
  | (v, s) :: arcs => cnt C v * cnt C s + cntHs C arcs
end

/-- The entries of the cache are right, except those of `P` (being computed). (Specification or proof device, not part of the code.) -/
def CntInv (C : Cfg V E) (P : SDD V → Prop) (c : CountCache V) : Prop :=
  ∀ s n, ccFind c s = some n → ¬ P s → n = cnt C s

theorem ccFind_add (c : CountCache V) (s s' : SDD V) (n : Nat) :
    ccFind (ccAdd c s n) s' = if s = s' then (ccFind c s').map (· + n) else ccFind c s' := by
  unfold ccFind ccAdd
  induction c with
  | nil => simp
  | cons e c ih =>
    rw [List.map_cons, List.find?_cons, List.find?_cons]
    by_cases h1 : e.1 = s
    · by_cases h2 : e.1 = s'
      · have h3 : s = s' := h1.symm.trans h2
        simp [h1, h3]
      · have h3 : s ≠ s' := fun h => h2 (h1.trans h)
        simp [h1, h3] at ih ⊢
        exact ih
    · by_cases h2 : e.1 = s'
      · have h3 : s ≠ s' := fun h => h1 (h2.trans h.symm)
        rw [if_neg h1, if_neg h3]
        simp [h2]
      · simp [h1, h2] at ih ⊢
        exact ih

theorem ccFind_cons (c : CountCache V) (s s' : SDD V) (n : Nat) :
    ccFind ((s, n) :: c) s' = if s = s' then some n else ccFind c s' := by
  unfold ccFind
  rw [List.find?_cons]
  by_cases h : s = s' <;> simp [h]

/-- Sizes decrease along arcs. -/
theorem Sub.sizeOf_le {a s : SDD V} (h : Sub a s) : sizeOf a ≤ sizeOf s := by
  induction h with
  | refl => exact le_rfl
  | flat x arcs arc ha _ ih =>
    have := List.sizeOf_lt_of_mem ha
    obtain ⟨v, s⟩ := arc
    simp at *
    omega
  | hierVal x arcs arc ha _ ih =>
    have := List.sizeOf_lt_of_mem ha
    obtain ⟨v, s⟩ := arc
    simp at *
    omega
  | hierSucc x arcs arc ha _ ih =>
    have := List.sizeOf_lt_of_mem ha
    obtain ⟨v, s⟩ := arc
    simp at *
    omega

theorem sizeOf_flat_lt {x : Nat} {arcs : List (V × SDD V)} {arc : V × SDD V} (h : arc ∈ arcs) :
    sizeOf arc.2 < sizeOf (SDD.flat x arcs) := by
  have := List.sizeOf_lt_of_mem h
  obtain ⟨v, s⟩ := arc
  simp at *
  omega

theorem sizeOf_hier_lt {x : Nat} {arcs : List (SDD V × SDD V)} {arc : SDD V × SDD V}
    (h : arc ∈ arcs) :
    sizeOf arc.1 < sizeOf (SDD.hier x arcs) ∧ sizeOf arc.2 < sizeOf (SDD.hier x arcs) := by
  have := List.sizeOf_lt_of_mem h
  obtain ⟨v, s⟩ := arc
  simp at *
  omega

/-- No `|0|` below an SDD (other than itself). (Specification or proof device, not part of the code.) -/
def NoZero (s : SDD V) : Prop := ¬ Sub .zero s

/-- What a visit does: the result is right, the cache stays right, the entries being computed are
left unchanged. (Specification or proof device, not part of the code.) -/
def CntOK (C : Cfg V E) (s : SDD V) : Prop :=
  ∀ (P : SDD V → Prop) (c : CountCache V), (∀ a, P a → sizeOf s < sizeOf a) → CntInv C P c →
    ∃ c', cntV C s c = some (cnt C s, c') ∧ CntInv C P c' ∧
      ∀ a, P a → ccFind c' a = ccFind c a

theorem cntV_ok (C : Cfg V E) (s : SDD V) : NoZero s → CntOK C s := by
  induction s using SDD.ind with
  | h0 => intro h; exact absurd .refl h
  | h1 => intro _ P c _ hc; exact ⟨c, by simp [cntV, cnt], hc, fun _ _ => rfl⟩
  | hf x arcs ih =>
    intro hz P c hP hc
    rw [cntV]
    split
    · rename_i n hn
      have hnP : ¬ P (.flat x arcs) := fun h => absurd (hP _ h) (lt_irrefl _)
      rw [hc _ _ hn hnP]
      exact ⟨c, rfl, hc, fun _ _ => rfl⟩
    · rename_i hn
      set self : SDD V := .flat x arcs with hself
      have hloop : ∀ (l : List (V × SDD V)), (∀ a ∈ l, a ∈ arcs) → ∀ (c1 : CountCache V) (k : Nat),
          CntInv C (fun a => P a ∨ a = self) c1 → ccFind c1 self = some k →
          (∀ a, P a → ccFind c1 a = ccFind c a) →
          ∃ c', cntF C self l c1 = some c' ∧ CntInv C (fun a => P a ∨ a = self) c' ∧
            ccFind c' self = some (k + cntFs C l) ∧ ∀ a, P a → ccFind c' a = ccFind c a := by
        intro l
        induction l with
        | nil => intro _ c1 k h1 h2 h3; exact ⟨c1, by simp [cntF], h1, by simp [cntFs, h2], h3⟩
        | cons e l ihl =>
          obtain ⟨v, s⟩ := e
          intro hl c1 k h1 h2 h3
          have hmem := hl (v, s) (by simp)
          have hlt := sizeOf_flat_lt (x := x) hmem
          simp only at hlt
          obtain ⟨c2, e1, e2, e3⟩ := ih (v, s) hmem (fun h => hz (.flat x arcs (v, s) hmem h))
            (fun a => P a ∨ a = self) c1 (by
              rintro a (ha | rfl)
              · exact lt_trans hlt (hP a ha)
              · exact hlt) h1
          simp only at e1
          rw [cntF, e1]
          simp only
          have hs2 : ccFind c2 self = some k := by rw [e3 self (Or.inr rfl), h2]
          obtain ⟨c3, f1, f2, f3, f4⟩ := ihl (fun a ha => hl a (by simp [ha]))
            (ccAdd c2 self (C.vsize v * cnt C s)) (k + C.vsize v * cnt C s) (by
              intro a n ha hna
              rw [ccFind_add] at ha
              have : self ≠ a := fun h => hna (Or.inr h.symm)
              rw [if_neg this] at ha
              exact e2 a n ha hna) (by rw [ccFind_add, if_pos rfl, hs2]; rfl) (by
              intro a ha
              have : self ≠ a := by
                rintro rfl
                exact absurd (hP _ ha) (lt_irrefl _)
              rw [ccFind_add, if_neg this, e3 a (Or.inl ha), h3 a ha])
          refine ⟨c3, f1, f2, ?_, f4⟩
          rw [f3, cntFs, Nat.add_assoc]
      obtain ⟨c', g1, g2, g3, g4⟩ := hloop arcs (fun _ h => h) ((self, 0) :: c) 0 (by
          intro a n ha hna
          rw [ccFind_cons] at ha
          have : self ≠ a := fun h => hna (Or.inr h.symm)
          rw [if_neg this] at ha
          exact hc a n ha fun h => hna (Or.inl h)) (by rw [ccFind_cons, if_pos rfl]) (by
          intro a ha
          have : self ≠ a := by
            rintro rfl
            exact absurd (hP _ ha) (lt_irrefl _)
          rw [ccFind_cons, if_neg this])
      rw [g1]
      simp only
      rw [g3]
      refine ⟨c', by rw [hself, cnt]; simp, ?_, g4⟩
      intro a n ha hna
      by_cases h : a = self
      · subst h
        rw [g3] at ha
        simp at ha
        rw [← ha, hself, cnt]
      · exact g2 a n ha (by rintro (h' | h'); exact hna h'; exact h h')
  | hh x arcs ih =>
    intro hz P c hP hc
    rw [cntV]
    split
    · rename_i n hn
      have hnP : ¬ P (.hier x arcs) := fun h => absurd (hP _ h) (lt_irrefl _)
      rw [hc _ _ hn hnP]
      exact ⟨c, rfl, hc, fun _ _ => rfl⟩
    · rename_i hn
      set self : SDD V := .hier x arcs with hself
      have hloop : ∀ (l : List (SDD V × SDD V)), (∀ a ∈ l, a ∈ arcs) →
          ∀ (c1 : CountCache V) (k : Nat),
          CntInv C (fun a => P a ∨ a = self) c1 → ccFind c1 self = some k →
          (∀ a, P a → ccFind c1 a = ccFind c a) →
          ∃ c', cntH C self l c1 = some c' ∧ CntInv C (fun a => P a ∨ a = self) c' ∧
            ccFind c' self = some (k + cntHs C l) ∧ ∀ a, P a → ccFind c' a = ccFind c a := by
        intro l
        induction l with
        | nil => intro _ c1 k h1 h2 h3; exact ⟨c1, by simp [cntH], h1, by simp [cntHs, h2], h3⟩
        | cons e l ihl =>
          obtain ⟨v, s⟩ := e
          intro hl c1 k h1 h2 h3
          have hmem := hl (v, s) (by simp)
          have hlt := sizeOf_hier_lt (x := x) hmem
          simp only at hlt
          obtain ⟨c1', d1, d2, d3⟩ := (ih (v, s) hmem).1
            (fun h => hz (.hierVal x arcs (v, s) hmem h)) (fun a => P a ∨ a = self) c1 (by
              rintro a (ha | rfl)
              · exact lt_trans hlt.1 (hP a ha)
              · exact hlt.1) h1
          obtain ⟨c2, e1, e2, e3⟩ := (ih (v, s) hmem).2
            (fun h => hz (.hierSucc x arcs (v, s) hmem h))
            (fun a => P a ∨ a = self) c1' (by
              rintro a (ha | rfl)
              · exact lt_trans hlt.2 (hP a ha)
              · exact hlt.2) d2
          simp only at e1 d1
          rw [cntH, d1]
          simp only
          rw [e1]
          simp only
          have hs2 : ccFind c2 self = some k := by rw [e3 self (Or.inr rfl), d3 self (Or.inr rfl), h2]
          obtain ⟨c3, f1, f2, f3, f4⟩ := ihl (fun a ha => hl a (by simp [ha]))
            (ccAdd c2 self (cnt C v * cnt C s)) (k + cnt C v * cnt C s) (by
              intro a n ha hna
              rw [ccFind_add] at ha
              have : self ≠ a := fun h => hna (Or.inr h.symm)
              rw [if_neg this] at ha
              exact e2 a n ha hna) (by rw [ccFind_add, if_pos rfl, hs2]; rfl) (by
              intro a ha
              have : self ≠ a := by
                rintro rfl
                exact absurd (hP _ ha) (lt_irrefl _)
              rw [ccFind_add, if_neg this, e3 a (Or.inl ha), d3 a (Or.inl ha), h3 a ha])
          refine ⟨c3, f1, f2, ?_, f4⟩
          rw [f3, cntHs, Nat.add_assoc]
      obtain ⟨c', g1, g2, g3, g4⟩ := hloop arcs (fun _ h => h) ((self, 0) :: c) 0 (by
          intro a n ha hna
          rw [ccFind_cons] at ha
          have : self ≠ a := fun h => hna (Or.inr h.symm)
          rw [if_neg this] at ha
          exact hc a n ha fun h => hna (Or.inl h)) (by rw [ccFind_cons, if_pos rfl]) (by
          intro a ha
          have : self ≠ a := by
            rintro rfl
            exact absurd (hP _ ha) (lt_irrefl _)
          rw [ccFind_cons, if_neg this])
      rw [g1]
      simp only
      rw [g3]
      refine ⟨c', by rw [hself, cnt]; simp, ?_, g4⟩
      intro a n ha hna
      by_cases h : a = self
      · subst h
        rw [g3] at ha
        simp at ha
        rw [← ha, hself, cnt]
      · exact g2 a n ha (by rintro (h' | h'); exact hna h'; exact h h')

variable {C : Cfg V E}

theorem Dom.noZero {t : Ty} {s : SDD V} (h : Dom C t s) (hs : s ≠ .zero) : NoZero s := by
  induction h with
  | zero => exact absurd rfl hs
  | one => intro h; cases h
  | flat t t' x arcs h1 h2 h3 ih =>
    intro h
    cases h with
    | flat _ _ arc ha h => exact ih arc ha (h2.succNe arc ha) h
  | hier t tn t' x arcs h1 h2 h3 h4 ih1 ih2 =>
    intro h
    cases h with
    | hierVal _ _ arc ha h =>
      refine ih1 arc ha ?_ h
      intro h0
      obtain ⟨a, hm⟩ := h2.valNe arc ha
      rw [h0] at hm
      exact not_mem_zero a hm
    | hierSucc _ _ arc ha h => exact ih2 arc ha (h2.succNe arc ha) h

mutual
/-- The paths of an SDD. (Specification or proof device, not part of the code.) -/
def pathList (C : Cfg V E) : SDD V → List (Path E)
  | .zero => []
  | .one => [.nil]
  | .flat x arcs => pathListF C x arcs
  | .hier x arcs => pathListH C x arcs
/-- The paths through the arcs of a flat node. (Specification or proof device, not part of the code.) -/
def pathListF (C : Cfg V E) (x : Nat) : List (V × SDD V) → List (Path E)
  | [] => []
  | (v, s) :: arcs =>
    (C.velems v).flatMap (fun a => (pathList C s).map (Path.flat x a)) ++ pathListF C x arcs
/-- The paths through the arcs of a hierarchical node. (Specification or proof device, not part of the code.) -/
def pathListH (C : Cfg V E) (x : Nat) : List (SDD V × SDD V) → List (Path E)
  | [] => []
  | (v, s) :: arcs =>
    (pathList C v).flatMap (fun n => (pathList C s).map (Path.hier x n)) ++ pathListH C x arcs
end

theorem mem_pathList (hC : C.Lawful) (s : SDD V) : ∀ p, p ∈ pathList C s ↔ Mem C p s := by
  induction s using SDD.ind with
  | h0 => intro p; simp [pathList, not_mem_zero]
  | h1 => intro p; cases p <;> simp [pathList, Mem]
  | hf x arcs ih =>
    intro p
    rw [pathList]
    have key : p ∈ pathListF C x arcs ↔
        ∃ arc ∈ arcs, ∃ a q, p = .flat x a q ∧ C.vmem a arc.1 ∧ Mem C q arc.2 := by
      induction arcs with
      | nil => simp [pathListF]
      | cons e l ihl =>
        obtain ⟨v, s⟩ := e
        rw [pathListF, List.mem_append, ihl fun a ha => ih a (by simp [ha])]
        simp only [List.mem_cons, exists_eq_or_imp]
        refine or_congr ?_ Iff.rfl
        simp only [List.mem_flatMap, List.mem_map, hC.mem_elems]
        have := ih (v, s) (by simp)
        simp only at this
        constructor
        · rintro ⟨a, h1, q, h2, rfl⟩; exact ⟨a, q, rfl, h1, (this q).1 h2⟩
        · rintro ⟨a, q, rfl, h1, h2⟩; exact ⟨a, h1, q, (this q).2 h2, rfl⟩
    rw [key]
    cases p with
    | nil => simp [Mem]
    | hier y n q => simp [Mem]
    | flat y a q =>
      simp only [Mem, Path.flat.injEq]
      constructor
      · rintro ⟨arc, h1, a', q', ⟨rfl, rfl, rfl⟩, h2, h3⟩; exact ⟨rfl, arc, h1, h2, h3⟩
      · rintro ⟨rfl, arc, h1, h2, h3⟩; exact ⟨arc, h1, a, q, ⟨rfl, rfl, rfl⟩, h2, h3⟩
  | hh x arcs ih =>
    intro p
    rw [pathList]
    have key : p ∈ pathListH C x arcs ↔
        ∃ arc ∈ arcs, ∃ a q, p = .hier x a q ∧ Mem C a arc.1 ∧ Mem C q arc.2 := by
      induction arcs with
      | nil => simp [pathListH]
      | cons e l ihl =>
        obtain ⟨v, s⟩ := e
        rw [pathListH, List.mem_append, ihl fun a ha => ih a (by simp [ha])]
        simp only [List.mem_cons, exists_eq_or_imp]
        refine or_congr ?_ Iff.rfl
        simp only [List.mem_flatMap, List.mem_map]
        have := ih (v, s) (by simp)
        simp only at this
        constructor
        · rintro ⟨a, h1, q, h2, rfl⟩; exact ⟨a, q, rfl, (this.1 a).1 h1, (this.2 q).1 h2⟩
        · rintro ⟨a, q, rfl, h1, h2⟩; exact ⟨a, (this.1 a).2 h1, q, (this.2 q).2 h2, rfl⟩
    rw [key]
    cases p with
    | nil => simp [Mem]
    | flat y a q => simp [Mem]
    | hier y n q =>
      simp only [Mem, Path.hier.injEq]
      constructor
      · rintro ⟨arc, h1, a', q', ⟨rfl, rfl, rfl⟩, h2, h3⟩; exact ⟨rfl, arc, h1, h2, h3⟩
      · rintro ⟨rfl, arc, h1, h2, h3⟩; exact ⟨arc, h1, n, q, ⟨rfl, rfl, rfl⟩, h2, h3⟩

theorem length_flatMap_map {α β γ : Type} (l : List α) (r : List β) (f : α → β → γ) :
    (l.flatMap fun a => r.map (f a)).length = l.length * r.length := by
  induction l with
  | nil => simp
  | cons a l ih =>
    rw [List.flatMap_cons, List.length_append, ih, List.length_map, List.length_cons,
      Nat.add_mul, Nat.one_mul, Nat.add_comm]

theorem length_pathList (hC : C.Lawful) (s : SDD V) : (pathList C s).length = cnt C s := by
  induction s using SDD.ind with
  | h0 => simp [pathList, cnt]
  | h1 => simp [pathList, cnt]
  | hf x arcs ih =>
    rw [pathList, cnt]
    induction arcs with
    | nil => simp [pathListF, cntFs]
    | cons e l ihl =>
      obtain ⟨v, s⟩ := e
      rw [pathListF, cntFs, List.length_append, ihl fun a ha => ih a (by simp [ha]),
        length_flatMap_map, hC.size_eq, ih (v, s) (by simp)]
  | hh x arcs ih =>
    rw [pathList, cnt]
    induction arcs with
    | nil => simp [pathListH, cntHs]
    | cons e l ihl =>
      obtain ⟨v, s⟩ := e
      have := ih (v, s) (by simp)
      rw [pathListH, cntHs, List.length_append, ihl fun a ha => ih a (by simp [ha]),
        length_flatMap_map, this.1, this.2]

theorem nodup_flatMap_map {α β γ : Type} {l : List α} {r : List β} {f : α → β → γ}
    (hl : l.Nodup) (hr : r.Nodup) (hf : ∀ a b a' b', f a b = f a' b' → a = a' ∧ b = b') :
    (l.flatMap fun a => r.map (f a)).Nodup := by
  induction l with
  | nil => simp
  | cons a l ih =>
    rw [List.nodup_cons] at hl
    rw [List.flatMap_cons, List.nodup_append]
    refine ⟨?_, ih hl.2, ?_⟩
    · exact List.Pairwise.map _ (fun b b' h h' => h (hf _ _ _ _ h').2) hr
    · intro u hu w hw h
      subst h
      obtain ⟨b, hb, rfl⟩ := List.mem_map.1 hu
      obtain ⟨a', ha', hw⟩ := List.mem_flatMap.1 hw
      obtain ⟨b', hb', h⟩ := List.mem_map.1 hw
      have := (hf _ _ _ _ h).1
      subst this
      exact hl.1 ha'

theorem Dom.nodup_pathList (hC : C.Lawful) {t : Ty} {s : SDD V} (h : Dom C t s) :
    (pathList C s).Nodup := by
  induction h with
  | zero => simp [pathList]
  | one => simp [pathList]
  | flat t t' x arcs h1 h2 h3 ih =>
    rw [pathList]
    have hd := h2.disj
    clear h1 h2
    induction arcs with
    | nil => simp [pathListF]
    | cons e l ihl =>
      obtain ⟨v, s⟩ := e
      rw [List.pairwise_cons] at hd
      rw [pathListF, List.nodup_append]
      refine ⟨nodup_flatMap_map (hC.nodup_elems v) (ih (v, s) (by simp)) ?_,
        ihl (fun a ha => h3 a (by simp [ha])) (fun a ha => ih a (by simp [ha])) hd.2, ?_⟩
      · intro a b a' b' h; injection h with _ h1 h2; exact ⟨h1, h2⟩
      · intro u hu w hw h
        subst h
        obtain ⟨a, ha, hu⟩ := List.mem_flatMap.1 hu
        obtain ⟨q, hq, rfl⟩ := List.mem_map.1 hu
        have hw : Path.flat x a q ∈ pathList C (.flat x l) := by rw [pathList]; exact hw
        rw [mem_pathList hC] at hw
        obtain ⟨_, arc, harc, hm, _⟩ := hw
        exact hd.1 arc harc a ⟨(hC.mem_elems _ _).1 ha, hm⟩
  | hier t tn t' x arcs h1 h2 h3 h4 ih1 ih2 =>
    rw [pathList]
    have hd := h2.disj
    clear h1 h2
    induction arcs with
    | nil => simp [pathListH]
    | cons e l ihl =>
      obtain ⟨v, s⟩ := e
      rw [List.pairwise_cons] at hd
      rw [pathListH, List.nodup_append]
      refine ⟨nodup_flatMap_map (ih1 (v, s) (by simp)) (ih2 (v, s) (by simp)) ?_,
        ihl (fun a ha => h3 a (by simp [ha])) (fun a ha => h4 a (by simp [ha]))
        (fun a ha => ih1 a (by simp [ha])) (fun a ha => ih2 a (by simp [ha])) hd.2, ?_⟩
      · intro a b a' b' h; injection h with _ h1 h2; exact ⟨h1, h2⟩
      · intro u hu w hw h
        subst h
        obtain ⟨a, ha, hu⟩ := List.mem_flatMap.1 hu
        obtain ⟨q, hq, rfl⟩ := List.mem_map.1 hu
        have hw : Path.hier x a q ∈ pathList C (.hier x l) := by rw [pathList]; exact hw
        rw [mem_pathList hC] at hw
        obtain ⟨_, arc, harc, hm, _⟩ := hw
        exact hd.1 arc harc a ⟨(mem_pathList hC _ _).1 ha, hm⟩

theorem sizeOfSDD_eq {s : SDD V} (h : WF C s) : sizeOfSDD C s = some (cnt C s) := by
  unfold sizeOfSDD
  split
  · rename_i hz
    rw [isZero_iff.1 hz]
    simp [cnt]
  · rename_i hz
    obtain ⟨n, hn⟩ := h
    obtain ⟨c', hc, _⟩ := cntV_ok C s (hn.noZero fun h => hz (isZero_iff.2 h)) (fun _ => False) []
      (by simp) (by intro s n h; simp [ccFind] at h)
    rw [hc]
    rfl

end
end Verif
