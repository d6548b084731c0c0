import Verif.DD.Count
import Mathlib.Data.List.Forall2
/-!
# Enumerating paths

`/repo/sdd/dd/path_generator.hh`, `/repo/sdd/dd/sdd_stack.hh`.  The coroutine is modelled by the list
of the paths it yields.
-/

set_option autoImplicit false
set_option linter.unusedSectionVars false

namespace Verif

section
variable {V E : Type}

/-- Sizes of the SDDs of a stack, a bound on the length of the traversal. (Specification or proof device, not part of the code.) -/
noncomputable def stackSize : List (SDD V) → Nat
  | [] => 0
  | s :: st => sizeOf s + stackSize st

/-- `paths_visitor`, `/repo/sdd/dd/path_generator.hh:20-72`.  `path` is the current path, `stack` the
stack of successors of the enclosing hierarchical levels (`/repo/sdd/dd/sdd_stack.hh`). -/
def pathsV (s : SDD V) (path : List V) (stack : List (SDD V)) : List (List V) :=
  match s with
  | .hier x arcs => arcs.attach.flatMap fun ⟨arc, h⟩ =>
      have : sizeOf arc.1 + sizeOf arc.2 < sizeOf (SDD.hier x arcs) := by
        have := List.sizeOf_lt_of_mem h
        obtain ⟨v, s⟩ := arc
        simp at *
        omega
      pathsV arc.1 path (arc.2 :: stack)
  | .flat x arcs => arcs.attach.flatMap fun ⟨arc, h⟩ =>
      have : sizeOf arc.2 < sizeOf (SDD.flat x arcs) := by
        have := List.sizeOf_lt_of_mem h
        obtain ⟨v, s⟩ := arc
        simp at *
        omega
      pathsV arc.2 (path ++ [arc.1]) stack
  | .one =>
    match stack with
    | [] => [path]
    | s :: stack => pathsV s path stack
  | .zero => [path]
termination_by sizeOf s + stackSize stack
decreasing_by all_goals simp [stackSize] at * <;> omega

/-- `SDD::paths()`, `/repo/sdd/dd/path_generator.hh:76-84`. -/
def paths (s : SDD V) : List (List V) := pathsV s [] []

mutual
/-- The sequences of valuations of an SDD. (Specification or proof device, not part of the code.) -/
def vals : SDD V → List (List V)
  | .zero => []
  | .one => [[]]
  | .flat _ arcs => valsF arcs
  | .hier _ arcs => valsH arcs
/-- The sequences through the arcs of a flat node. (Specification or proof device, not part of the code.) -/
def valsF : List (V × SDD V) → List (List V)
  | [] => []
  | (v, s) :: arcs => (vals s).map (v :: ·) ++ valsF arcs
/-- The sequences through the arcs of a hierarchical node. (Specification or proof device, not part of the code.) -/
def valsH : List (SDD V × SDD V) → List (List V)
  | [] => []
  | (v, s) :: arcs => (vals v).flatMap (fun w => (vals s).map (w ++ ·)) ++ valsH arcs
end

/-- The sequences of a stack. (Specification or proof device, not part of the code.) -/
def valsS : List (SDD V) → List (List V)
  | [] => [[]]
  | s :: st => (vals s).flatMap fun w => (valsS st).map (w ++ ·)

theorem valsF_eq (arcs : List (V × SDD V)) :
    valsF arcs = arcs.flatMap fun a => (vals a.2).map (a.1 :: ·) := by
  induction arcs with
  | nil => simp [valsF]
  | cons e l ih => obtain ⟨v, s⟩ := e; simp [valsF, ih]

theorem valsH_eq (arcs : List (SDD V × SDD V)) :
    valsH arcs = arcs.flatMap fun a => (vals a.1).flatMap fun w => (vals a.2).map (w ++ ·) := by
  induction arcs with
  | nil => simp [valsH]
  | cons e l ih => obtain ⟨v, s⟩ := e; simp [valsH, ih]

theorem attach_flatMap {α β : Type} (l : List α) (f : α → List β) :
    (l.attach.flatMap fun a => f a.1) = l.flatMap f := by
  rw [List.flatMap_subtype (g := f) (by intros; rfl)]
  simp

theorem flatMap_congr' {α β : Type} {l : List α} {f g : α → List β} (h : ∀ a ∈ l, f a = g a) :
    l.flatMap f = l.flatMap g := by
  induction l with
  | nil => rfl
  | cons a l ih =>
    rw [List.flatMap_cons, List.flatMap_cons, h a (by simp), ih fun b hb => h b (by simp [hb])]

theorem pathsV_eq [DecidableEq V] (n : Nat) : ∀ (s : SDD V) (path : List V) (stack : List (SDD V)),
    sizeOf s + stackSize stack ≤ n → NoZero s → (∀ s ∈ stack, NoZero s) →
    pathsV s path stack = (valsS (s :: stack)).map (path ++ ·) := by
  induction n with
  | zero =>
    intro s path stack h
    cases s <;> simp at h
  | succ n ih =>
    intro s path stack hn hs hst
    cases s with
    | zero => exact absurd .refl hs
    | one =>
      cases stack with
      | nil => simp [pathsV, valsS, vals]
      | cons s stack =>
        rw [pathsV, ih s path stack (by simp [stackSize] at hn ⊢; omega) (hst s (by simp))
          fun s hs => hst s (by simp [hs])]
        simp [valsS, vals]
    | flat x arcs =>
      rw [pathsV, attach_flatMap arcs fun arc => pathsV arc.2 (path ++ [arc.1]) stack]
      rw [flatMap_congr' fun arc ha => ih arc.2 (path ++ [arc.1]) stack
        (by have := sizeOf_flat_lt (x := x) ha; omega)
        (fun h => hs (.flat x arcs arc ha h)) hst]
      simp only [valsS, vals, valsF_eq, List.map_flatMap, List.flatMap_assoc, List.map_map,
        List.flatMap_map]
      refine flatMap_congr' fun arc _ => flatMap_congr' fun w _ => ?_
      simp [Function.comp_def]
    | hier x arcs =>
      rw [pathsV, attach_flatMap arcs fun arc => pathsV arc.1 path (arc.2 :: stack)]
      rw [flatMap_congr' fun arc ha => ih arc.1 path (arc.2 :: stack)
        (by
          have := List.sizeOf_lt_of_mem ha
          obtain ⟨v, s⟩ := arc
          simp [stackSize] at *
          omega)
        (fun h => hs (.hierVal x arcs arc ha h)) (by
          intro s hs'
          rw [List.mem_cons] at hs'
          rcases hs' with rfl | hs'
          · exact fun h => hs (.hierSucc x arcs arc ha h)
          · exact hst s hs')]
      simp only [valsS, vals, valsH_eq, List.map_flatMap, List.flatMap_assoc, List.map_map,
        List.flatMap_map]
      refine flatMap_congr' fun arc _ => flatMap_congr' fun w _ => flatMap_congr' fun w' _ => ?_
      simp [Function.comp_def]

theorem paths_eq [DecidableEq V] {s : SDD V} (h : NoZero s) : paths s = vals s := by
  unfold paths
  rw [pathsV_eq (sizeOf s) s [] [] (by simp [stackSize]) h (by simp)]
  simp [valsS]

/-- The values read along a path, hierarchy removed. (Specification or proof device, not part of the code.) -/
def Path.values : Path E → List E
  | .nil => []
  | .flat _ a p => a :: p.values
  | .hier _ n p => n.values ++ p.values

/-- A sequence of values is in the product of a sequence of sets of values. (Specification or proof device, not part of the code.) -/
def InProduct (C : Cfg V E) (w : List V) (e : List E) : Prop := List.Forall₂ (fun v a => C.vmem a v) w e

variable [DecidableEq V] {C : Cfg V E}

theorem inProduct_append {w w' : List V} {e : List E} :
    InProduct C (w ++ w') e ↔ ∃ e1 e2, e = e1 ++ e2 ∧ InProduct C w e1 ∧ InProduct C w' e2 := by
  unfold InProduct
  constructor
  · intro h
    induction w generalizing e with
    | nil => exact ⟨[], e, rfl, .nil, h⟩
    | cons v w ih =>
      cases h with
      | cons h1 h2 =>
        obtain ⟨e1, e2, rfl, h3, h4⟩ := ih h2
        exact ⟨_ :: e1, e2, rfl, .cons h1 h3, h4⟩
  · rintro ⟨e1, e2, rfl, h1, h2⟩
    induction h1 with
    | nil => exact h2
    | cons h1 _ ih => exact .cons h1 ih

/-- The union of the products is the set of assignments. -/
theorem mem_vals (s : SDD V) (e : List E) :
    (∃ w ∈ vals s, InProduct C w e) ↔ ∃ p, Mem C p s ∧ p.values = e := by
  induction s using SDD.ind generalizing e with
  | h0 => simp [vals, not_mem_zero]
  | h1 =>
    simp only [vals, List.mem_singleton, exists_eq_left, mem_one, InProduct, Path.values]
    constructor
    · intro h; cases h; rfl
    · rintro rfl; exact .nil
  | hf x arcs ih =>
    rw [vals, valsF_eq]
    constructor
    · rintro ⟨w, hw, he⟩
      obtain ⟨arc, ha, hw⟩ := List.mem_flatMap.1 hw
      obtain ⟨w', hw', rfl⟩ := List.mem_map.1 hw
      cases he with
      | cons h1 h2 =>
        obtain ⟨p, hp, rfl⟩ := (ih arc ha _).1 ⟨w', hw', h2⟩
        exact ⟨.flat x _ p, ⟨rfl, arc, ha, h1, hp⟩, rfl⟩
    · rintro ⟨p, hp, rfl⟩
      cases p with
      | nil => simp [Mem] at hp
      | hier => simp [Mem] at hp
      | flat y a p =>
        obtain ⟨rfl, arc, ha, h1, h2⟩ := hp
        obtain ⟨w, hw, hp⟩ := (ih arc ha _).2 ⟨p, h2, rfl⟩
        exact ⟨arc.1 :: w, List.mem_flatMap.2 ⟨arc, ha, List.mem_map_of_mem hw⟩, .cons h1 hp⟩
  | hh x arcs ih =>
    rw [vals, valsH_eq]
    constructor
    · rintro ⟨w, hw, he⟩
      obtain ⟨arc, ha, hw⟩ := List.mem_flatMap.1 hw
      obtain ⟨w1, hw1, hw⟩ := List.mem_flatMap.1 hw
      obtain ⟨w2, hw2, rfl⟩ := List.mem_map.1 hw
      obtain ⟨e1, e2, rfl, h1, h2⟩ := inProduct_append.1 he
      obtain ⟨n, hn, rfl⟩ := ((ih arc ha).1 _).1 ⟨w1, hw1, h1⟩
      obtain ⟨p, hp, rfl⟩ := ((ih arc ha).2 _).1 ⟨w2, hw2, h2⟩
      exact ⟨.hier x n p, ⟨rfl, arc, ha, hn, hp⟩, rfl⟩
    · rintro ⟨p, hp, rfl⟩
      cases p with
      | nil => simp [Mem] at hp
      | flat => simp [Mem] at hp
      | hier y n p =>
        obtain ⟨rfl, arc, ha, h1, h2⟩ := hp
        obtain ⟨w1, hw1, hp1⟩ := ((ih arc ha).1 _).2 ⟨n, h1, rfl⟩
        obtain ⟨w2, hw2, hp2⟩ := ((ih arc ha).2 _).2 ⟨p, h2, rfl⟩
        exact ⟨w1 ++ w2, List.mem_flatMap.2 ⟨arc, ha, List.mem_flatMap.2 ⟨w1, hw1,
          List.mem_map_of_mem hw2⟩⟩, inProduct_append.2 ⟨_, _, rfl, hp1, hp2⟩⟩

/-- The number of flat levels of a shape. (Specification or proof device, not part of the code.) -/
def Ty.width : Ty → Nat
  | .any _ => 0
  | .nil => 0
  | .flat _ t => t.width + 1
  | .hier _ n t => n.width + t.width

theorem values_length {t : Ty} (ht : t.IsShape) {p : Path E} (hp : PTy t p) :
    p.values.length = t.width := by
  have hl : ∀ {t : Ty}, t.IsShape → ∀ {p : Path E}, PTy t p → p.values.length = t.width := by
    intro t
    induction t with
    | any n => intro ht; exact absurd ht (by simp [Ty.IsShape])
    | nil =>
      intro _ p hp
      cases p with
      | nil => rfl
      | flat => simp [PTy, Ty.flatNext] at hp
      | hier => simp [PTy, Ty.hierNext] at hp
    | flat x t ih =>
      intro ht p hp
      cases p with
      | nil => simp [PTy, Ty.hasOne] at hp
      | flat y a p =>
        obtain ⟨t', h1, h2⟩ := hp
        simp [Ty.flatNext] at h1
        obtain ⟨_, rfl⟩ := h1
        simp [Path.values, Ty.width, ih ht h2]
      | hier => simp [PTy, Ty.hierNext] at hp
    | hier x n t ihn ih =>
      intro ht p hp
      cases p with
      | nil => simp [PTy, Ty.hasOne] at hp
      | flat => simp [PTy, Ty.flatNext] at hp
      | hier y m p =>
        obtain ⟨tn, t', h1, h2, h3⟩ := hp
        simp [Ty.hierNext] at h1
        obtain ⟨_, rfl, rfl⟩ := h1
        simp [Path.values, Ty.width, ih ht.2 h3, ihn ht.1 h2]
  exact hl ht hp

/-- On the paths following an order, the values determine the path. -/
theorem values_inj {t : Ty} (ht : t.IsShape) : ∀ {p q : Path E}, PTy t p → PTy t q →
    p.values = q.values → p = q := by
  induction t with
  | any n => exact absurd ht (by simp [Ty.IsShape])
  | nil =>
    intro p q hp hq _
    have : ∀ {p : Path E}, PTy .nil p → p = .nil := by
      intro p hp
      cases p with
      | nil => rfl
      | flat => simp [PTy, Ty.flatNext] at hp
      | hier => simp [PTy, Ty.hierNext] at hp
    rw [this hp, this hq]
  | flat x t ih =>
    intro p q hp hq h
    cases p with
    | nil => simp [PTy, Ty.hasOne] at hp
    | hier => simp [PTy, Ty.hierNext] at hp
    | flat y a p =>
      cases q with
      | nil => simp [PTy, Ty.hasOne] at hq
      | hier => simp [PTy, Ty.hierNext] at hq
      | flat z b q =>
        simp only [PTy, Ty.flatNext] at hp hq
        simp at hp hq
        obtain ⟨rfl, hp⟩ := hp
        obtain ⟨rfl, hq⟩ := hq
        simp [Path.values] at h
        obtain ⟨rfl, h⟩ := h
        rw [ih ht hp hq h]
  | hier x n t ihn ih =>
    intro p q hp hq h
    cases p with
    | nil => simp [PTy, Ty.hasOne] at hp
    | flat => simp [PTy, Ty.flatNext] at hp
    | hier y m p =>
      cases q with
      | nil => simp [PTy, Ty.hasOne] at hq
      | flat => simp [PTy, Ty.flatNext] at hq
      | hier z m' q =>
        simp only [PTy, Ty.hierNext] at hp hq
        simp at hp hq
        obtain ⟨rfl, hm, hp⟩ := hp
        obtain ⟨rfl, hm', hq⟩ := hq
        simp only [Path.values] at h
        have := List.append_inj h (by rw [values_length ht.1 hm, values_length ht.1 hm'])
        rw [ihn ht.1 hm hm' this.1, ih ht.2 hp hq this.2]

/-- The products are pairwise disjoint. -/
theorem Dom.vals_disj {t : Ty} {s : SDD V} (h : Dom C t s) (ht : t.IsShape) :
    (vals s).Pairwise fun w w' => ∀ e, ¬ (InProduct C w e ∧ InProduct C w' e) := by
  induction h with
  | zero => simp [vals]
  | one => simp [vals]
  | flat t t' x arcs h1 h2 h3 ih =>
    have ht' := (Ty.flatNext_depth h1).2 ht
    rw [vals, valsF_eq, List.pairwise_flatMap]
    refine ⟨fun arc ha => ?_, ?_⟩
    · refine List.Pairwise.map _ ?_ (ih arc ha ht')
      intro w w' hw e ⟨h1, h2⟩
      cases h1 with
      | cons _ h1 => cases h2 with | cons _ h2 => exact hw _ ⟨h1, h2⟩
    · refine h2.disj.imp ?_
      intro b c hbc w hw w' hw' e ⟨h1, h2⟩
      obtain ⟨u, _, rfl⟩ := List.mem_map.1 hw
      obtain ⟨u', _, rfl⟩ := List.mem_map.1 hw'
      cases h1 with
      | cons h1 _ => cases h2 with | cons h2 _ => exact hbc _ ⟨h1, h2⟩
  | hier t tn t' x arcs h1 h2 h3 h4 ih1 ih2 =>
    have ht' := (Ty.hierNext_depth h1).2 ht
    -- two nested sequences having a common assignment come from a common nested path
    have key : ∀ {b c : SDD V}, Dom C tn b → Dom C tn c → ∀ {w w' : List V} {u u' : List V} {e},
        w ∈ vals b → w' ∈ vals c → InProduct C (w ++ u) e → InProduct C (w' ++ u') e →
        ∃ n e1 e2, Mem C n b ∧ Mem C n c ∧ e = e1 ++ e2 ∧ InProduct C w e1 ∧ InProduct C w' e1 ∧
          InProduct C u e2 ∧ InProduct C u' e2 := by
      intro b c hb hc w w' u u' e hw hw' h1 h2
      obtain ⟨e1, e2, rfl, h3, h4⟩ := inProduct_append.1 h1
      obtain ⟨e1', e2', he, h3', h4'⟩ := inProduct_append.1 h2
      obtain ⟨n, hn, rfl⟩ := (mem_vals b e1).1 ⟨w, hw, h3⟩
      obtain ⟨n', hn', rfl⟩ := (mem_vals c e1').1 ⟨w', hw', h3'⟩
      have hlen : w.length = w'.length := by
        have := List.Forall₂.length_eq h3
        have := List.Forall₂.length_eq h3'
        have := values_length ht'.1 (hb.pty n hn)
        have := values_length ht'.1 (hc.pty n' hn')
        omega
      have e3 := List.append_inj he (by
        have := List.Forall₂.length_eq h3
        have := List.Forall₂.length_eq h3'
        omega)
      have : n = n' := values_inj ht'.1 (hb.pty n hn) (hc.pty n' hn') e3.1
      subst this
      rw [← e3.2] at h4'
      exact ⟨n, _, _, hn, hn', rfl, h3, h3', h4, h4'⟩
    rw [vals, valsH_eq, List.pairwise_flatMap]
    refine ⟨fun arc ha => ?_, ?_⟩
    · rw [List.pairwise_flatMap]
      refine ⟨fun w hw => ?_, ?_⟩
      · refine List.Pairwise.map _ ?_ (ih2 arc ha ht'.2)
        intro u u' hu e ⟨h1, h2⟩
        obtain ⟨_, e1, e2, _, _, rfl, _, _, h5, h6⟩ := key (h3 arc ha) (h3 arc ha) hw hw h1 h2
        exact hu _ ⟨h5, h6⟩
      · refine (ih1 arc ha ht'.1).imp_of_mem ?_
        intro w w' hw hw' hww u hu u' hu' e ⟨h1, h2⟩
        obtain ⟨u, _, rfl⟩ := List.mem_map.1 hu
        obtain ⟨u', _, rfl⟩ := List.mem_map.1 hu'
        obtain ⟨_, e1, e2, _, _, rfl, h3, h4, h5, h6⟩ := key (h3 arc ha) (h3 arc ha) hw hw' h1 h2
        exact hww _ ⟨h3, h4⟩
    · refine h2.disj.imp_of_mem ?_
      intro b c hb hc hbc w hw w' hw' e ⟨h1, h2⟩
      obtain ⟨u, hu, hw⟩ := List.mem_flatMap.1 hw
      obtain ⟨w, _, rfl⟩ := List.mem_map.1 hw
      obtain ⟨u', hu', hw'⟩ := List.mem_flatMap.1 hw'
      obtain ⟨w', _, rfl⟩ := List.mem_map.1 hw'
      obtain ⟨n, _, _, h5, h6, _⟩ := key (h3 b hb) (h3 c hc) hu hu' h1 h2
      exact hbc n ⟨h5, h6⟩

end
end Verif
