import Verif.Mem.Heap
/-!
# What handles stand for
-/

set_option autoImplicit false
set_option linter.unusedSectionVars false

namespace Verif
namespace Heap

/-- Terms: what a unified datum stands for, once its pointers are followed. (Specification or proof device, not part of the code.) -/
inductive Tree (L : Type) : Type where
  | node (l : L) (ts : List (Tree L))

section
variable {L : Type} [DecidableEq L]

mutual
/-- The object at an address stands for a term. (Specification or proof device, not part of the code.) -/
def Denotes (s : State L) : Tree L → Addr → Prop
  | .node l ts, a => ∃ kids b, s.cells a = some ⟨(l, kids), b⟩ ∧ DenotesL s ts kids
/-- The same for lists. (Specification or proof device, not part of the code.) -/
def DenotesL (s : State L) : List (Tree L) → List Addr → Prop
  | [], [] => True
  | t :: ts, a :: as => Denotes s t a ∧ DenotesL s ts as
  | _, _ => False
end

/-- The objects which can be reached from the variables. (Specification or proof device, not part of the code.) -/
inductive Reaches (s : State L) : Addr → Prop where
  | handle {a : Addr} : Slot.live a ∈ s.vars → Reaches s a
  | kid {a k : Addr} {c : Cell L} : Reaches s a → s.cells a = some c → k ∈ c.key.2 → Reaches s k

variable {hash : Key L → Nat} {bytes : Key L → Nat}

theorem inTable_zero {a : Addr} {l : List (Addr × Key L)} (h : ∀ e ∈ l, a ∉ e.2.2) : inTable a l = 0 := by
  unfold inTable
  rw [List.sum_eq_zero]
  intro x hx
  obtain ⟨e, he, rfl⟩ := List.mem_map.1 hx
  exact List.count_eq_zero.2 (h e he)

/-- An object is in memory exactly when it can be reached. -/
theorem Inv.live_iff {s : State L} (h : Inv hash [] s) (a : Addr) : (s.cells a).isSome ↔ Reaches s a := by
  constructor
  · have key : ∀ (n : Nat) (a : Addr) (c : Cell L), s.cells a = some c → s.clock - c.birth ≤ n →
        Reaches s a := by
      intro n
      induction n with
      | zero =>
        intro a c hc hn
        have := h.birth a c hc
        omega
      | succ n ih =>
        intro a c hc hn
        obtain ⟨hr, hp⟩ := h.refs' hc
        by_cases hv : Slot.live a ∈ s.vars
        · exact .handle hv
        · have h0 := List.count_eq_zero.2 hv
          have : ∃ e ∈ s.table.elems, a ∈ e.2.2 := by
            by_contra hno
            push Not at hno
            have := inTable_zero hno
            omega
          obtain ⟨⟨b, k⟩, he, hin⟩ := this
          obtain ⟨d, hd, rfl, _⟩ := (h.table b k).1 he
          obtain ⟨c', hc', _, hlt⟩ := h.kids b d hd (by simp) a hin
          rw [hc] at hc'
          cases hc'
          have := h.birth b d hd
          exact .kid (ih b d hd (by omega)) hd hin
    intro ha
    obtain ⟨c, hc⟩ := Option.isSome_iff_exists.1 ha
    exact key _ a c hc (le_refl _)
  · intro ha
    induction ha with
    | handle hv =>
      obtain ⟨c, hc, _⟩ := h.handles _ hv
      rw [hc]; rfl
    | kid _ hc hk _ =>
      obtain ⟨c', hc', _⟩ := h.kids _ _ hc (by simp) _ hk
      rw [hc']; rfl

/-- Two objects in memory never have the same data. -/
theorem Inv.unique {s : State L} (h : Inv hash [] s) {a b : Addr} {c d : Cell L}
    (hc : s.cells a = some c) (hd : s.cells b = some d) (hk : c.key = d.key) : a = b := by
  have ha := (h.table a c.key).2 ⟨c, hc, rfl, by simp⟩
  have hb := (h.table b c.key).2 ⟨d, hd, hk.symm, by simp⟩
  have := (compatE (hash := hash)).unique (x := (a, c.key)) (by simp [eqE]) (by simp [eqE])
    h.ht.distinct ha hb
  cases this
  rfl

mutual
theorem denotes_inj {s : State L} (h : Inv hash [] s) : ∀ (t : Tree L) {a b : Addr},
    Denotes s t a → Denotes s t b → a = b
  | .node l ts, a, b, ⟨ka, ba, ha, hka⟩, ⟨kb, bb, hb, hkb⟩ => by
    have := denotesL_inj h ts hka hkb
    subst this
    exact h.unique ha hb rfl
theorem denotesL_inj {s : State L} (h : Inv hash [] s) : ∀ (ts : List (Tree L)) {as bs : List Addr},
    DenotesL s ts as → DenotesL s ts bs → as = bs
  | [], [], [], _, _ => rfl
  | t :: ts, a :: as, b :: bs, ⟨h1, h2⟩, ⟨h3, h4⟩ => by
    rw [denotes_inj h t h1 h3, denotesL_inj h ts h2 h4]
  | [], [], _ :: _, _, h => by simp [DenotesL] at h
  | [], _ :: _, _, h, _ => by simp [DenotesL] at h
  | _ :: _, [], _, h, _ => by simp [DenotesL] at h
  | _ :: _, _ :: _, [], _, h => by simp [DenotesL] at h
end

mutual
theorem denotes_fun {s : State L} : ∀ (t t' : Tree L) {a : Addr}, Denotes s t a → Denotes s t' a → t = t'
  | .node l ts, .node l' ts', a, ⟨ka, ba, ha, hka⟩, ⟨kb, bb, hb, hkb⟩ => by
    rw [ha] at hb
    cases hb
    rw [denotesL_fun ts ts' hka hkb]
theorem denotesL_fun {s : State L} : ∀ (ts ts' : List (Tree L)) {as : List Addr},
    DenotesL s ts as → DenotesL s ts' as → ts = ts'
  | [], [], _, _, _ => rfl
  | t :: ts, t' :: ts', a :: as, ⟨h1, h2⟩, ⟨h3, h4⟩ => by
    rw [denotes_fun t t' h1 h3, denotesL_fun ts ts' h2 h4]
  | [], _ :: _, [], _, h => by simp [DenotesL] at h
  | [], _, _ :: _, h, _ => by simp [DenotesL] at h
  | _ :: _, _, [], h, _ => by simp [DenotesL] at h
  | _ :: _, [], _ :: _, _, h => by simp [DenotesL] at h
end

/-- All objects stand for a term. -/
theorem Inv.denotes_total {s : State L} (h : Inv hash [] s) {a : Addr} (ha : (s.cells a).isSome) :
    ∃ t, Denotes s t a := by
  have key : ∀ (n : Nat) (a : Addr) (c : Cell L), s.cells a = some c → c.birth ≤ n →
      ∃ t, Denotes s t a := by
    intro n
    induction n using Nat.strongRecOn with
    | _ n ih =>
      intro a c hc hn
      have hl : ∀ ks : List Addr, (∀ k ∈ ks, k ∈ c.key.2) → ∃ ts, DenotesL s ts ks := by
        intro ks
        induction ks with
        | nil => exact fun _ => ⟨[], trivial⟩
        | cons k ks ihk =>
          intro hks
          obtain ⟨ts, hts⟩ := ihk fun k hk => hks k (List.mem_cons_of_mem _ hk)
          obtain ⟨c', hc', _, hlt⟩ := h.kids a c hc (by simp) k (hks k List.mem_cons_self)
          obtain ⟨t, ht⟩ := ih c'.birth (by omega) k c' hc' (le_refl _)
          exact ⟨t :: ts, ht, hts⟩
      obtain ⟨ts, hts⟩ := hl c.key.2 fun _ h => h
      exact ⟨.node c.key.1 ts, c.key.2, c.birth, hc, hts⟩
  obtain ⟨c, hc⟩ := Option.isSome_iff_exists.1 ha
  exact key _ a c hc (le_refl _)

mutual
/-- Objects which are kept stand for the same term. -/
theorem denotes_keeps {s s' : State L} (h' : Inv hash [] s') (hk : Keeps s s') :
    ∀ (t : Tree L) {a : Addr}, Denotes s t a → (s'.cells a).isSome → Denotes s' t a
  | .node l ts, a, ⟨kids, b, ha, hkids⟩, hs => by
    have ha' : s'.cells a = some ⟨(l, kids), b⟩ := by
      rcases hk a _ ha with e | e
      · exact e
      · rw [e] at hs; cases hs
    refine ⟨kids, b, ha', denotesL_keeps h' hk ts hkids fun k hk => ?_⟩
    obtain ⟨c, hc, _⟩ := h'.kids a _ ha' (by simp) k hk
    rw [hc]; rfl
theorem denotesL_keeps {s s' : State L} (h' : Inv hash [] s') (hk : Keeps s s') :
    ∀ (ts : List (Tree L)) {as : List Addr}, DenotesL s ts as → (∀ a ∈ as, (s'.cells a).isSome) →
      DenotesL s' ts as
  | [], [], _, _ => trivial
  | t :: ts, a :: as, ⟨h1, h2⟩, hs =>
    ⟨denotes_keeps h' hk t h1 (hs a List.mem_cons_self),
      denotesL_keeps h' hk ts h2 fun a ha => hs a (List.mem_cons_of_mem _ ha)⟩
  | [], _ :: _, h, _ => by simp [DenotesL] at h
  | _ :: _, [], h, _ => by simp [DenotesL] at h
end

/-- The term a variable stands for. (Specification or proof device, not part of the code.) -/
def Holds (s : State L) (v : Nat) (t : Tree L) : Prop := ∃ a, s.vars[v]? = some (.live a) ∧ Denotes s t a

theorem holdsL {s : State L} : ∀ {ks : List Nat} {ts : List (Tree L)} {as : List Addr},
    List.Forall₂ (Holds s) ks ts →
    List.Forall₂ (fun k a => s.vars[k]? = some (Slot.live a)) ks as → DenotesL s ts as
  | [], [], [], _, _ => trivial
  | _ :: _, _ :: _, _ :: _, .cons ⟨a, h1, h2⟩ ht, .cons h3 ha => by
    rw [h1] at h3
    cases h3
    exact ⟨h2, holdsL ht ha⟩

/-- The term of a variable once created: made of the label and of the terms of the operands. -/
theorem create_holds {s s' : State L} (h : Inv hash [] s) {v : Nat} {l : L} {ks : List Nat} {fr : Addr}
    (hv : Valid s (.create v l ks fr)) (he : exec hash bytes s (.create v l ks fr) = some s')
    {ts : List (Tree L)} (hts : List.Forall₂ (Holds s) ks ts) :
    Holds s' v (.node l ts) ∧ (∀ w ≠ v, s'.vars[w]? = s.vars[w]?) ∧
      (∀ a, Denotes s (.node l ts) a → s'.vars[v]? = some (.live a)) := by
  obtain ⟨s1, e1, i1, hk⟩ := exec_inv (bytes := bytes) h hv
  rw [he] at e1
  cases e1
  obtain ⟨hv, hks, hfr⟩ := hv
  obtain ⟨kids, e, hf⟩ := mapM_target hks
  have hd := holdsL hts hf
  have hkids : ∀ k ∈ kids, (s.cells k).isSome := by
    intro a ha
    have : ∀ {ks : List Nat} {as : List Addr},
        List.Forall₂ (fun k a => s.vars[k]? = some (Slot.live a)) ks as →
        a ∈ as → (s.cells a).isSome := by
      intro ks as hf
      induction hf with
      | nil => simp
      | cons h1 _ ih =>
        intro hm
        rcases List.mem_cons.1 hm with rfl | hm
        · obtain ⟨c, hc⟩ := h.cell_of_var h1
          rw [hc]; rfl
        · exact ih hm
    exact this hf ha
  obtain ⟨a, s2, s3, c, e1, e2, e3, i, hkeep, hc, hck, _⟩ :=
    create_spec (bytes := bytes) (l := l) h hv hkids hfr
  simp only [exec, hv, e, e1, e2, Option.map_some, Option.some.injEq] at he
  subst he
  have hlen : v < s.vars.length := (List.getElem?_eq_some_iff.1 hv).1
  have hva : ({ s3 with vars := s3.vars.set v (.live a) } : State L).vars[v]? = some (.live a) := by
    simp only
    rw [e3, List.getElem?_set_self hlen]
  have hden : Denotes { s3 with vars := s3.vars.set v (.live a) } (.node l ts) a := by
    refine ⟨kids, c.birth, by simp only [hc, ← hck], denotesL_keeps i1 hk ts hd fun k hk => ?_⟩
    obtain ⟨d, hd⟩ := Option.isSome_iff_exists.1 (hkids k hk)
    simp only [hkeep k d hd]
    rfl
  refine ⟨⟨a, hva, hden⟩, fun w hw => ?_, fun b hb => ?_⟩
  · simp only
    rw [e3, List.getElem?_set_ne (Ne.symm hw)]
  · rw [hva]
    have hb' : Denotes { s3 with vars := s3.vars.set v (.live a) } (.node l ts) b := by
      refine denotes_keeps i1 hk _ hb ?_
      obtain ⟨_, _, hb, _⟩ := hb
      simp only [hkeep b _ hb]
      rfl
    rw [denotes_inj i1 _ hden hb']

/-- The parts of a datum stand for the parts of its term. -/
theorem denotesL_get {s : State L} : ∀ {ts : List (Tree L)} {as : List Addr}, DenotesL s ts as → ∀ {i : Nat} {k : Addr},
    as[i]? = some k → ∃ t, ts[i]? = some t ∧ Denotes s t k
  | [], [], _, i, k, h => by simp at h
  | t :: ts, a :: as, h, 0, k, hk => by
    simp only [List.getElem?_cons_zero, Option.some.injEq] at hk
    subst hk
    exact ⟨t, rfl, h.1⟩
  | t :: ts, a :: as, h, i + 1, k, hk => by
    simp only [List.getElem?_cons_succ] at hk ⊢
    exact denotesL_get h.2 hk
  | [], _ :: _, h, _, _, _ => by simp [DenotesL] at h
  | _ :: _, [], h, _, _, _ => by simp [DenotesL] at h

/-- The effect of statements on variables. (Specification or proof device, not part of the code.) -/
def VarsEffect (s : State L) (V V' : List Slot) : Op L → Prop
  | .create v _ _ _ => ∃ a, V' = V.set v (.live a)
  | .copy v w | .copyAssign v w => ∃ x, V[w]? = some x ∧ V' = V.set v x
  | .move v w | .moveAssign v w => ∃ x, V[w]? = some x ∧ V' = (V.set v x).set w .moved
  | .destroy v => V' = V.set v .dead
  | .swap v w => ∃ x y, V[v]? = some x ∧ V[w]? = some y ∧ V' = (V.set v y).set w x
  | .read v w i | .readAssign v w i => ∃ k, part s w i = some k ∧ V' = V.set v (.live k)

theorem exec_vars {s s' : State L} {op : Op L} (h : Inv hash [] s) (hv : Valid s op)
    (he : exec hash bytes s op = some s') : VarsEffect s s.vars s'.vars op := by
  cases op with
  | create v l ks fr =>
    obtain ⟨hv, hks, hfr⟩ := hv
    obtain ⟨kids, e, hf⟩ := mapM_target hks
    have hkids : ∀ k ∈ kids, (s.cells k).isSome := by
      intro a ha
      have : ∀ {ks : List Nat} {as : List Addr},
          List.Forall₂ (fun k a => s.vars[k]? = some (Slot.live a)) ks as →
          a ∈ as → (s.cells a).isSome := by
        intro ks as hf
        induction hf with
        | nil => simp
        | cons h1 _ ih =>
          intro hm
          rcases List.mem_cons.1 hm with rfl | hm
          · obtain ⟨c, hc⟩ := h.cell_of_var h1
            rw [hc]; rfl
          · exact ih hm
      exact this hf ha
    obtain ⟨a, s2, s3, c, e1, e2, e3, _⟩ := create_spec (bytes := bytes) (l := l) h hv hkids hfr
    simp only [exec, hv, e, e1, e2, Option.map_some, Option.some.injEq] at he
    exact ⟨a, by rw [← he, e3]⟩
  | copy v w =>
    obtain ⟨hv, a, hw⟩ := hv
    obtain ⟨c, hc⟩ := h.cell_of_var hw
    obtain ⟨s1, e, _, e1, _⟩ := h.attach hv (by simp) (b := a) (by rw [hc]; rfl)
    simp only [exec, target, hv, hw, e, Option.map_some, Option.some.injEq] at he
    exact ⟨_, hw, by rw [← he, e1]⟩
  | move v w =>
    obtain ⟨hv, x, hw, hx⟩ := hv
    have hne : v ≠ w := by
      rintro rfl
      rw [hv] at hw
      cases hw
      exact hx rfl
    refine ⟨x, hw, ?_⟩
    cases x with
    | dead => exact absurd rfl hx
    | moved =>
      simp only [exec, hv, hw, Option.some.injEq] at he
      rw [← he]
      simp only
      refine List.ext_getElem? fun i => ?_
      by_cases e : w = i
      · subst e
        rw [List.getElem?_set_self (by simpa using (List.getElem?_eq_some_iff.1 hw).1),
          List.getElem?_set_ne hne, hw]
      · rw [List.getElem?_set_ne e]
    | live a =>
      simp only [exec, hv, hw, Option.some.injEq] at he
      rw [← he]
  | copyAssign v w =>
    obtain ⟨hne, ⟨x, hv, hx⟩, b, hw⟩ := hv
    obtain ⟨c, hc⟩ := h.cell_of_var hw
    refine ⟨_, hw, ?_⟩
    cases x with
    | dead => exact absurd rfl hx
    | moved =>
      obtain ⟨s1, e, _, e1, _⟩ := h.attach hv (by simp) (b := b) (by rw [hc]; rfl)
      simp only [exec, target, hv, hw, e, Option.map_some, Option.some.injEq] at he
      rw [← he, e1]
    | live a =>
      obtain ⟨s1, e1, i1, ev, ec⟩ := h.detach hv (x := .moved) (by simp)
      simp only [exec, target, hv, hw, e1] at he
      cases hi : inc b s1 with
      | none => rw [hi] at he; cases he
      | some s2 =>
        rw [hi] at he
        simp only [Option.map_some, Option.some.injEq] at he
        have : s2.vars = s1.vars := by
          unfold inc at hi
          split at hi
          · cases hi
          · cases hi; rfl
        rw [← he, this, ev]
  | moveAssign v w =>
    obtain ⟨hne, ⟨x, hv, hx⟩, y, hw, hy⟩ := hv
    refine ⟨y, hw, ?_⟩
    cases x with
    | dead => exact absurd rfl hx
    | moved =>
      simp only [exec, hv, hw] at he
      rw [if_neg hy, Option.some.injEq] at he
      rw [← he]
    | live a =>
      obtain ⟨s1, e1, i1, ev, ec⟩ := h.detach hv (x := .moved) (by simp)
      simp only [exec, hv, hw, e1, Option.map_some] at he
      rw [if_neg hy, Option.some.injEq] at he
      rw [← he, ev]
  | destroy v =>
    obtain ⟨x, hv, hx⟩ := hv
    cases x with
    | dead => exact absurd rfl hx
    | moved =>
      simp only [exec, hv, Option.some.injEq] at he
      rw [← he]
      rfl
    | live a =>
      obtain ⟨s1, e1, i1, ev, ec⟩ := h.detach hv (x := .dead) (by simp)
      simp only [exec, hv, e1, Option.map_some, Option.some.injEq] at he
      rw [← he, ev]
      rfl
  | swap v w =>
    obtain ⟨⟨x, hv, hx⟩, y, hw, hy⟩ := hv
    simp only [exec, hv, hw] at he
    rw [if_neg (by tauto), Option.some.injEq] at he
    exact ⟨x, y, hv, hw, by rw [← he]⟩
  | read v w i =>
    obtain ⟨hv, k, hk⟩ := hv
    obtain ⟨b, c, hw, hc, hi⟩ := part_some hk
    obtain ⟨s1, e, _, e1, _⟩ := h.attach hv (by simp) (b := k) (h.part_cell hc hi)
    simp only [exec, hv, hk, e, Option.map_some, Option.some.injEq] at he
    exact ⟨k, hk, by rw [← he, e1]⟩
  | readAssign v w i =>
    obtain ⟨hne, ⟨x, hv, hx⟩, k, hk⟩ := hv
    obtain ⟨b, c, hw, hc, hi⟩ := part_some hk
    have hl : load s b i = some k := by simp only [load, hc, Option.bind_some, hi]
    refine ⟨k, hk, ?_⟩
    cases x with
    | dead => exact absurd rfl hx
    | moved =>
      obtain ⟨s1, e, _, e1, _⟩ := h.attach hv (by simp) (b := k) (h.part_cell hc hi)
      simp only [exec, target, hv, hw, hl, Option.bind_some, e, Option.map_some, Option.some.injEq] at he
      rw [← he, e1]
    | live a =>
      obtain ⟨s1, e1, i1, ev, ec⟩ := h.detach hv (x := .moved) (by simp)
      simp only [exec, target, hv, hw, hl, Option.isNone_some, Bool.false_eq_true, if_false, e1] at he
      cases hl1 : load s1 b i with
      | none => rw [hl1] at he; cases he
      | some k' =>
        have hkk : k' = k := by
          simp only [load, Option.bind_eq_some_iff] at hl1
          obtain ⟨c', hc', hi'⟩ := hl1
          have := ec b c' hc'
          rw [hc] at this
          cases this
          rw [hi] at hi'
          cases hi'
          rfl
        subst hkk
        rw [hl1, Option.bind_some] at he
        cases hi : inc k' s1 with
        | none => rw [hi] at he; cases he
        | some s2 =>
          rw [hi] at he
          simp only [Option.map_some, Option.some.injEq] at he
          have : s2.vars = s1.vars := by
            unfold inc at hi
            split at hi
            · cases hi
            · cases hi; rfl
          rw [← he, this, ev]

/-! ## Handles are values -/

/-- A variable of a program where data are values: out of its lifetime, moved from, or a term.
(Specification or proof device, not part of the code.) -/
inductive VSlot (L : Type) : Type where
  | dead
  | moved
  | val (t : Tree L)

/-- The value of a variable which can be copied. (Specification or proof device, not part of the code.) -/
def vtarget (V : List (VSlot L)) (v : Nat) : Option (Tree L) :=
  match V[v]? with
  | some (.val t) => some t
  | _ => none

/-- The part number `i` of the value of a variable. (Specification or proof device, not part of the code.) -/
def vpart (V : List (VSlot L)) (w i : Nat) : Option (Tree L) :=
  match vtarget V w with
  | some (.node _ ts) => ts[i]?
  | none => none

/-- The meaning of statements, when data are values: nothing is shared. (Specification or proof device, not part of the code.) -/
def vexec (V : List (VSlot L)) : Op L → Option (List (VSlot L))
  | .create v l ks _ => (ks.mapM (vtarget V)).map fun ts => V.set v (.val (.node l ts))
  | .copy v w | .copyAssign v w => V[w]?.map fun x => V.set v x
  | .move v w | .moveAssign v w => V[w]?.map fun x => (V.set v x).set w .moved
  | .destroy v => some (V.set v .dead)
  | .swap v w =>
    match V[v]?, V[w]? with
    | some x, some y => some ((V.set v y).set w x)
    | _, _ => none
  | .read v w i | .readAssign v w i => (vpart V w i).map fun t => V.set v (.val t)

/-- A variable and the value it stands for. (Specification or proof device, not part of the code.) -/
def SlotRel (s : State L) : Slot → VSlot L → Prop
  | .dead, .dead => True
  | .moved, .moved => True
  | .live a, .val t => Denotes s t a
  | _, _ => False

/-- A state and the values of its variables. (Specification or proof device, not part of the code.) -/
def Abs (s : State L) (V : List (VSlot L)) : Prop := List.Forall₂ (SlotRel s) s.vars V

theorem forall₂_set {α β : Type} {R : α → β → Prop} : ∀ {l : List α} {l' : List β} (_ : List.Forall₂ R l l')
    (i : Nat) {x : α} {y : β} (_ : R x y), List.Forall₂ R (l.set i x) (l'.set i y)
  | _, _, .nil, _, _, _, _ => .nil
  | _, _, .cons _ h, 0, _, _, hxy => .cons hxy h
  | _, _, .cons h0 h, i + 1, _, _, hxy => .cons h0 (forall₂_set h i hxy)

theorem forall₂_get {α β : Type} {R : α → β → Prop} : ∀ {l : List α} {l' : List β} (_ : List.Forall₂ R l l')
    {i : Nat} {x : α} (_ : l[i]? = some x), ∃ y, l'[i]? = some y ∧ R x y
  | _, _, .nil, _, _, h => by simp at h
  | _, _, .cons h0 _, 0, _, h => by
    simp only [List.getElem?_cons_zero, Option.some.injEq] at h
    subst h
    exact ⟨_, rfl, h0⟩
  | _, _, .cons _ h', i + 1, _, h => by
    simp only [List.getElem?_cons_succ] at h
    exact forall₂_get h' h

theorem forall₂_imp {α β : Type} {R Q : α → β → Prop} : ∀ {l : List α} {l' : List β}
    (_ : List.Forall₂ R l l') (_ : ∀ x y, x ∈ l → R x y → Q x y), List.Forall₂ Q l l'
  | _, _, .nil, _ => .nil
  | _, _, .cons h0 h, hi => .cons (hi _ _ List.mem_cons_self h0)
      (forall₂_imp h fun x y hx => hi x y (List.mem_cons_of_mem _ hx))

theorem holds_of_abs {s : State L} {V : List (VSlot L)} (h : Abs s V) : ∀ {ks : List Nat}
    (_ : ∀ k ∈ ks, ∃ a, s.vars[k]? = some (.live a)),
    ∃ ts, ks.mapM (vtarget V) = some ts ∧ List.Forall₂ (Holds s) ks ts
  | [], _ => ⟨[], rfl, .nil⟩
  | k :: ks, hk => by
    obtain ⟨a, ha⟩ := hk k List.mem_cons_self
    obtain ⟨y, hy, hr⟩ := forall₂_get h ha
    obtain ⟨ts, e, hf⟩ := holds_of_abs h (ks := ks) fun k h => hk k (List.mem_cons_of_mem _ h)
    cases y with
    | dead => exact hr.elim
    | moved => exact hr.elim
    | val t =>
      refine ⟨t :: ts, ?_, .cons ⟨a, ha, hr⟩ hf⟩
      rw [List.mapM_cons, vtarget, hy, e]
      rfl

theorem vpart_of_abs {s : State L} {V : List (VSlot L)} (h : Abs s V) {w i : Nat} {k : Addr} (hk : part s w i = some k) :
    ∃ t, vpart V w i = some t ∧ Denotes s t k := by
  obtain ⟨b, c, hw, hc, hi⟩ := part_some hk
  obtain ⟨y, hy, hr⟩ := forall₂_get h hw
  cases y with
  | dead => exact hr.elim
  | moved => exact hr.elim
  | val t =>
    cases t with
    | node l ts =>
      obtain ⟨kids, b', hb, hkids⟩ := hr
      rw [hc] at hb
      cases hb
      obtain ⟨t, ht, hd⟩ := denotesL_get hkids hi
      exact ⟨t, by simp only [vpart, vtarget, hy, ht], hd⟩

/-- The relation between a state and the values of its variables is kept by statements. -/
theorem exec_abs {s : State L} (h : Inv hash [] s) {op : Op L} (hv : Valid s op) {s' : State L}
    (he : exec hash bytes s op = some s') {V : List (VSlot L)} (ha : Abs s V) :
    ∃ V', vexec V op = some V' ∧ Abs s' V' := by
  obtain ⟨s1, e1, i1, hk⟩ := exec_inv (bytes := bytes) h hv
  rw [he] at e1
  cases e1
  have heff := exec_vars h hv he
  -- related slots remain related if they are still used
  have hslot : ∀ x y, x ∈ s'.vars → SlotRel s x y → SlotRel s' x y := by
    intro x y hx hr
    cases x with
    | dead => cases y <;> exact hr
    | moved => cases y <;> exact hr
    | live a =>
      cases y with
      | dead => exact hr
      | moved => exact hr
      | val t =>
        obtain ⟨c, hc, _⟩ := i1.handles a hx
        exact denotes_keeps i1 hk t hr (by rw [hc]; rfl)
  cases op with
  | create v l ks fr =>
    obtain ⟨ts, e, hts⟩ := holds_of_abs ha hv.2.1
    obtain ⟨⟨a, hva, hden⟩, _, _⟩ := create_holds h hv he hts
    obtain ⟨a', hvars⟩ := heff
    have hlen : v < s.vars.length := (List.getElem?_eq_some_iff.1 hv.1).1
    have haa : a' = a := by
      rw [hvars, List.getElem?_set_self hlen] at hva
      cases hva
      rfl
    subst haa
    refine ⟨V.set v (.val (.node l ts)), by simp only [vexec, e, Option.map_some], ?_⟩
    unfold Abs
    rw [hvars]
    have h0 : List.Forall₂ (SlotRel s') (s.vars.set v .dead) (V.set v .dead) := by
      refine forall₂_imp (forall₂_set ha v (x := .dead) (y := .dead) trivial) fun x y hx hr => ?_
      cases x with
      | dead => cases y <;> exact hr
      | moved => cases y <;> exact hr
      | live b =>
        rcases List.mem_or_eq_of_mem_set hx with hx | hx
        · refine hslot _ y ?_ hr
          rw [hvars]
          obtain ⟨i, hi, hib⟩ := List.mem_iff_getElem.1 hx
          refine List.mem_iff_getElem?.2 ⟨i, ?_⟩
          rw [List.getElem?_set_ne]
          · rw [List.getElem?_eq_getElem hi, hib]
          · rintro rfl
            have := hv.1
            rw [List.getElem?_eq_getElem hi, hib] at this
            cases this
        · cases hx
    have := forall₂_set h0 v (x := .live a') (y := .val (.node l ts)) hden
    simpa only [List.set_set] using this
  | copy v w =>
    obtain ⟨x, hx, hvars⟩ := heff
    obtain ⟨y, hy, hr⟩ := forall₂_get ha hx
    refine ⟨V.set v y, by simp only [vexec, hy, Option.map_some], ?_⟩
    unfold Abs
    have := forall₂_set ha v hr
    rw [← hvars] at this
    exact forall₂_imp this hslot
  | copyAssign v w =>
    obtain ⟨x, hx, hvars⟩ := heff
    obtain ⟨y, hy, hr⟩ := forall₂_get ha hx
    refine ⟨V.set v y, by simp only [vexec, hy, Option.map_some], ?_⟩
    unfold Abs
    have := forall₂_set ha v hr
    rw [← hvars] at this
    exact forall₂_imp this hslot
  | move v w =>
    obtain ⟨x, hx, hvars⟩ := heff
    obtain ⟨y, hy, hr⟩ := forall₂_get ha hx
    refine ⟨(V.set v y).set w .moved, by simp only [vexec, hy, Option.map_some], ?_⟩
    unfold Abs
    have := forall₂_set (forall₂_set ha v hr) w (x := .moved) (y := .moved) trivial
    rw [← hvars] at this
    exact forall₂_imp this hslot
  | moveAssign v w =>
    obtain ⟨x, hx, hvars⟩ := heff
    obtain ⟨y, hy, hr⟩ := forall₂_get ha hx
    refine ⟨(V.set v y).set w .moved, by simp only [vexec, hy, Option.map_some], ?_⟩
    unfold Abs
    have := forall₂_set (forall₂_set ha v hr) w (x := .moved) (y := .moved) trivial
    rw [← hvars] at this
    exact forall₂_imp this hslot
  | destroy v =>
    refine ⟨V.set v .dead, rfl, ?_⟩
    unfold Abs
    have := forall₂_set ha v (x := .dead) (y := .dead) trivial
    have hvars : s'.vars = s.vars.set v .dead := heff
    rw [← hvars] at this
    exact forall₂_imp this hslot
  | swap v w =>
    obtain ⟨x, y, hx, hy, hvars⟩ := heff
    obtain ⟨x', hx', hrx⟩ := forall₂_get ha hx
    obtain ⟨y', hy', hry⟩ := forall₂_get ha hy
    refine ⟨(V.set v y').set w x', by simp only [vexec, hx', hy'], ?_⟩
    unfold Abs
    have := forall₂_set (forall₂_set ha v hry) w hrx
    rw [← hvars] at this
    exact forall₂_imp this hslot
  | read v w i =>
    obtain ⟨k, hk, hvars⟩ := heff
    obtain ⟨t, ht, hr⟩ := vpart_of_abs ha hk
    refine ⟨V.set v (.val t), by simp only [vexec, ht, Option.map_some], ?_⟩
    unfold Abs
    have := forall₂_set ha v (x := .live k) (y := .val t) hr
    rw [← hvars] at this
    exact forall₂_imp this hslot
  | readAssign v w i =>
    obtain ⟨k, hk, hvars⟩ := heff
    obtain ⟨t, ht, hr⟩ := vpart_of_abs ha hk
    refine ⟨V.set v (.val t), by simp only [vexec, ht, Option.map_some], ?_⟩
    unfold Abs
    have := forall₂_set ha v (x := .live k) (y := .val t) hr
    rw [← hvars] at this
    exact forall₂_imp this hslot

/-- The values of the variables after a program. (Specification or proof device, not part of the code.) -/
def vexecs : List (VSlot L) → List (Op L) → Option (List (VSlot L))
  | V, [] => some V
  | V, op :: ops => (vexec V op).bind fun V' => vexecs V' ops

/-- A valid program and its final state. (Specification or proof device, not part of the code.) -/
inductive Runs (hash : Key L → Nat) (bytes : Key L → Nat) : State L → List (Op L) → State L → Prop where
  | nil (s : State L) : Runs hash bytes s [] s
  | cons {s s' s'' : State L} {op : Op L} {ops : List (Op L)} : Valid s op →
      exec hash bytes s op = some s' → Runs hash bytes s' ops s'' → Runs hash bytes s (op :: ops) s''

theorem runs_abs {s s' : State L} {ops : List (Op L)} (hr : Runs hash bytes s ops s') :
    Inv hash [] s → ∀ {V : List (VSlot L)}, Abs s V →
    Inv hash [] s' ∧ ∃ V', vexecs V ops = some V' ∧ Abs s' V' := by
  induction hr with
  | nil s => exact fun h V ha => ⟨h, V, rfl, ha⟩
  | cons hv he _ ih =>
    intro h V ha
    obtain ⟨s1, e1, i1, _⟩ := exec_inv (bytes := bytes) h hv
    rw [he] at e1
    cases e1
    obtain ⟨V1, e2, a2⟩ := exec_abs h hv he ha
    obtain ⟨i3, V3, e3, a3⟩ := ih i1 a2
    exact ⟨i3, V3, by simp only [vexecs, e2, Option.bind_some, e3], a3⟩

theorem init_abs (size : BitVec 64) (n : Nat) :
    Abs (init size n : State L) (List.replicate n VSlot.dead) := by
  unfold Abs init
  simp only
  induction n with
  | zero => exact .nil
  | succ n ih =>
    rw [List.replicate_succ, List.replicate_succ]
    refine .cons trivial (forall₂_imp ih fun x y hx hr => ?_)
    rw [List.eq_of_mem_replicate hx] at hr ⊢
    cases y with
    | dead => trivial
    | moved => exact hr
    | val t => exact hr

end
end Heap
end Verif
