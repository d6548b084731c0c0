import Verif.DD.Logic
/-!
# Correctness of the square union and of node creation
-/

set_option autoImplicit false
set_option linter.unusedSectionVars false

namespace Verif

section
variable {V E : Type} {m : Type → Type} [DecidableEq V] [DDMonad V m] {A α : Type}

/-- What the operations on valuations must satisfy for a node of variable `x`, type `t`, whose
valuations satisfy `D` and whose successors have type `t'`. `memV` is membership in a valuation and
`cons` builds a path of the node from an element of a valuation and a path of a successor. Only the sums of lists which satisfy `G` are
considered. (Specification or proof device, not part of the code.) -/
structure KindOK (C : Cfg V E) (L : Logic V m) (t t' : Ty) (x : Nat) (k : Kind V m α)
    (memV : A → α → Prop) (D : α → Prop) (cons : A → Path E → Path E) (G : List α → Prop) : Prop where
  lt_st : StrictTotal k.lt
  ext : ∀ v w, D v → D w → (∀ a, memV a v ↔ memV a w) → v = w
  isEmpty_iff : ∀ v, D v → (k.isEmpty v = true ↔ ∀ a, ¬ memV a v)
  sum : ∀ l, BGood k.isEmpty k.lt D l → G l → L.Sat (k.sum l)
    fun r => D r ∧ ∀ a, memV a r ↔ ∃ v ∈ l, memV a v
  node_dom : ∀ arcs, GoodArcs C memV arcs → (∀ arc ∈ arcs, D arc.1) →
    (∀ arc ∈ arcs, Dom C t' arc.2) → Dom C t (k.node x arcs)
  node_mem : ∀ arcs p, Mem C p (k.node x arcs) ↔
    ∃ a q, p = cons a q ∧ ∃ arc ∈ arcs, memV a arc.1 ∧ Mem C q arc.2
  cons_inj : ∀ a q a' q', cons a q = cons a' q' → a = a' ∧ q = q'

/-- Valuations without common element, unless they are equal. (Specification or proof device, not part of the code.) -/
def VDisj (memV : A → α → Prop) (l : List α) : Prop := ∀ v ∈ l, ∀ w ∈ l, ∀ a, memV a v → memV a w → v = w

/-- What the operations on valuations must satisfy, for nodes whose paths are in `S` and related by `R`. `K`
is the relation between the elements of valuations given by `R`. (Specification or proof device, not part of the code.) -/
structure KindS (C : Cfg V E) (L : Logic V m) (R : Path E → Path E → Prop) (S : Path E → Prop)
    (t t' : Ty) (x : Nat) (k : Kind V m α) (memV : A → α → Prop) (D : α → Prop) (K : A → A → Prop)
    (cons : A → Path E → Path E) : Prop extends KindOK C L t t' x k memV D cons (VDisj memV) where
  inter2 : ∀ v w, D v → D w → L.Sat
    (k.inter (interAdd k.isEmpty k.lt (interAdd k.isEmpty k.lt {} v) w))
    fun r => D r ∧ (∀ a, memV a r ↔ memV a v ∧ memV a w) ∧ ∀ a b, memV a v → memV b w → K a b
  diff : ∀ v w, D v → D w → L.Sat (k.diff v w)
    fun r => D r ∧ ∀ a, memV a r ↔ memV a v ∧ ¬ memV a w
  node_inv : ∀ arcs, Dom C t (k.node x arcs) → SelfIn C R S (k.node x arcs) →
    GoodArcs C memV arcs ∧ (∀ arc ∈ arcs, D arc.1) ∧ (∀ arc ∈ arcs, Dom C t' arc.2)
  rel_cons : ∀ a q b q', R (cons a q) (cons b q') ↔ K a b ∧ (a = b → R q q')
  symm : ∀ a b, K a b → K b a

variable {C : Cfg V E} {L : Logic V m} {t t' : Ty} {x : Nat} {k : Kind V m α}
  {memV : A → α → Prop} {D : α → Prop} {cons : A → Path E → Path E} {G : List α → Prop}

/-- The arcs of a node whose paths are in `S` and related by `R`. -/
theorem KindS.arcs_in {R : Path E → Path E → Prop} {S : Path E → Prop} {K : A → A → Prop}
    (hk : KindS C L R S t t' x k memV D K cons) {arcs : List (α × SDD V)}
    (hd : Dom C t (k.node x arcs)) (hs : SelfIn C R S (k.node x arcs)) :
    (∀ b ∈ arcs, ∀ c ∈ arcs, ∀ a a', memV a b.1 → memV a' c.1 → K a a') ∧
    ∀ arc ∈ arcs, ∀ a, memV a arc.1 → SelfIn C R (fun q => S (cons a q)) arc.2 := by
  obtain ⟨g1, -, g3⟩ := hk.node_inv arcs hd hs
  refine ⟨fun b hb c hc a a' ha ha' => ?_, fun arc harc a ha => ⟨fun q q' hq hq' => ?_, fun q hq => ?_⟩⟩
  · obtain ⟨q, hq⟩ := (g3 b hb).exists_mem (g1.succNe b hb)
    obtain ⟨q', hq'⟩ := (g3 c hc).exists_mem (g1.succNe c hc)
    exact ((hk.rel_cons a q a' q').1 (hs.self _ _ ((hk.node_mem arcs _).2 ⟨a, q, rfl, b, hb, ha, hq⟩)
      ((hk.node_mem arcs _).2 ⟨a', q', rfl, c, hc, ha', hq'⟩))).1
  · exact ((hk.rel_cons a q a q').1 (hs.self _ _ ((hk.node_mem arcs _).2 ⟨a, q, rfl, arc, harc, ha, hq⟩)
      ((hk.node_mem arcs _).2 ⟨a, q', rfl, arc, harc, ha, hq'⟩))).2 rfl
  · exact hs.sub _ ((hk.node_mem arcs _).2 ⟨a, q, rfl, arc, harc, ha, hq⟩)

theorem KindOK.isEmpty_false (hk : KindOK C L t t' x k memV D cons G) {v : α} (hv : D v) :
    k.isEmpty v = false ↔ ∃ a, memV a v := by
  rw [← not_iff_not, Bool.not_eq_false, hk.isEmpty_iff v hv, not_exists]

/-- The contents of a square union: the element `a` goes to the successor `s`. (Specification or proof device, not part of the code.) -/
def SuMem (memV : A → α → Prop) (su : List (SDD V × List α)) (a : A) (s : SDD V) : Prop :=
  ∃ vals, (s, vals) ∈ su ∧ ∃ v ∈ vals, memV a v

/-- A well-formed square union. (Specification or proof device, not part of the code.) -/
structure SuOK (C : Cfg V E) (t' : Ty) (k : Kind V m α) (D : α → Prop)
    (su : List (SDD V × List α)) : Prop where
  sorted : su.Pairwise fun a b => C.lt a.1 b.1 = true
  dom : ∀ e ∈ su, Dom C t' e.1
  succNe : ∀ e ∈ su, e.1 ≠ .zero
  vals : ∀ e ∈ su, BGood k.isEmpty k.lt D e.2
  valsNe : ∀ e ∈ su, e.2 ≠ []

theorem SuOK.nil : SuOK C t' k D [] := ⟨by simp, by simp, by simp, by simp, by simp⟩

theorem SuOK.add (hC : C.Lawful) (hk : KindOK C L t t' x k memV D cons G)
    {su : List (SDD V × List α)} (h : SuOK C t' k D su) {s : SDD V} (hs : Dom C t' s)
    (hs0 : s ≠ .zero) {v : α} (hv : D v) (hv0 : k.isEmpty v = false) :
    SuOK C t' k D (suAdd C k su s v) := by
  unfold suAdd
  have hm := mem_upsert hC.lt_st s (sumAdd k.isEmpty k.lt [] v)
    (fun b => sumAdd k.isEmpty k.lt b v) su h.sorted
  refine ⟨upsert_sorted hC.lt_st _ _ _ _ h.sorted, ?_, ?_, ?_, ?_⟩
  · rintro ⟨s', b⟩ he
    rw [hm] at he
    rcases he with ⟨rfl, _⟩ | ⟨_, he⟩
    · exact hs
    · exact h.dom _ he
  · rintro ⟨s', b⟩ he
    rw [hm] at he
    rcases he with ⟨rfl, _⟩ | ⟨_, he⟩
    · exact hs0
    · exact h.succNe _ he
  · rintro ⟨s', b⟩ he
    rw [hm] at he
    rcases he with ⟨rfl, ⟨b', hb', rfl⟩ | ⟨_, rfl⟩⟩ | ⟨_, he⟩
    · exact (h.vals _ hb').add hk.lt_st hv
    · exact BGood.nil.add hk.lt_st hv
    · exact h.vals _ he
  · rintro ⟨s', b⟩ he
    rw [hm] at he
    rcases he with ⟨rfl, ⟨b', hb', rfl⟩ | ⟨_, rfl⟩⟩ | ⟨_, he⟩
    · exact sumAdd_ne_nil hv0
    · exact sumAdd_ne_nil hv0
    · exact h.valsNe _ he

theorem suMem_add (hC : C.Lawful) (hk : KindOK C L t t' x k memV D cons G)
    {su : List (SDD V × List α)} (h : SuOK C t' k D su) {s : SDD V} {v : α}
    (hv0 : k.isEmpty v = false) (a : A) (s' : SDD V) :
    SuMem memV (suAdd C k su s v) a s' ↔ SuMem memV su a s' ∨ (s' = s ∧ memV a v) := by
  have hm := mem_upsert hC.lt_st s (sumAdd k.isEmpty k.lt [] v)
    (fun b => sumAdd k.isEmpty k.lt b v) su h.sorted
  unfold SuMem suAdd
  constructor
  · rintro ⟨vals, h1, w, hw, haw⟩
    rw [hm] at h1
    rcases h1 with ⟨rfl, ⟨b', hb', rfl⟩ | ⟨hb, rfl⟩⟩ | ⟨hne, he⟩
    · rw [mem_sumAdd hk.lt_st] at hw
      rcases hw with ⟨rfl, _⟩ | hw
      · exact Or.inr ⟨rfl, haw⟩
      · exact Or.inl ⟨b', hb', w, hw, haw⟩
    · rw [mem_sumAdd hk.lt_st] at hw
      rcases hw with ⟨rfl, _⟩ | hw
      · exact Or.inr ⟨rfl, haw⟩
      · simp at hw
    · exact Or.inl ⟨vals, he, w, hw, haw⟩
  · rintro (⟨vals, h1, w, hw, haw⟩ | ⟨rfl, ha⟩)
    · by_cases hss : s' = s
      · subst hss
        exact ⟨_, (hm _ _).2 (Or.inl ⟨rfl, Or.inl ⟨vals, h1, rfl⟩⟩), w,
          (mem_sumAdd hk.lt_st).2 (Or.inr hw), haw⟩
      · exact ⟨vals, (hm _ _).2 (Or.inr ⟨hss, h1⟩), w, hw, haw⟩
    · by_cases hex : ∃ b, (s', b) ∈ su
      · obtain ⟨b, hb⟩ := hex
        exact ⟨_, (hm _ _).2 (Or.inl ⟨rfl, Or.inl ⟨b, hb, rfl⟩⟩), v,
          (mem_sumAdd hk.lt_st).2 (Or.inl ⟨rfl, hv0⟩), ha⟩
      · rw [not_exists] at hex
        exact ⟨_, (hm _ _).2 (Or.inl ⟨rfl, Or.inr ⟨hex, rfl⟩⟩), v,
          (mem_sumAdd hk.lt_st).2 (Or.inl ⟨rfl, hv0⟩), ha⟩

/-- The valuations which have the same successor in a square union have no common element. (Specification or proof device, not part of
the code.) -/
def SuDisj (memV : A → α → Prop) (su : List (SDD V × List α)) : Prop := ∀ e ∈ su, VDisj memV e.2

theorem SuDisj.nil : SuDisj memV ([] : List (SDD V × List α)) := by simp [SuDisj]

/-- Adding a valuation without element in common with those which have the same successor. -/
theorem SuDisj.add (hC : C.Lawful) (hk : KindOK C L t t' x k memV D cons G) {su : List (SDD V × List α)} (hsu : SuOK C t' k D su)
    (h : SuDisj memV su) {s : SDD V} {v : α} (hv : ∀ a, memV a v → ¬ SuMem memV su a s) : SuDisj memV (suAdd C k su s v) := by
  have hm := mem_upsert hC.lt_st s (sumAdd k.isEmpty k.lt [] v)
    (fun b => sumAdd k.isEmpty k.lt b v) su hsu.sorted
  rintro ⟨s', b⟩ he
  unfold suAdd at he
  rw [hm] at he
  rcases he with ⟨rfl, ⟨b', hb', rfl⟩ | ⟨_, rfl⟩⟩ | ⟨_, he⟩
  · intro u hu w hw a ha ha'
    simp only [mem_sumAdd hk.lt_st] at hu hw
    rcases hu with ⟨rfl, _⟩ | hu
    · rcases hw with ⟨rfl, _⟩ | hw
      · rfl
      · exact absurd ⟨b', hb', w, hw, ha'⟩ (hv a ha)
    · rcases hw with ⟨rfl, _⟩ | hw
      · exact absurd ⟨b', hb', u, hu, ha⟩ (hv a ha')
      · exact h _ hb' u hu w hw a ha ha'
  · intro u hu w hw a ha ha'
    simp only [mem_sumAdd hk.lt_st, List.not_mem_nil, or_false] at hu hw
    rw [hu.1, hw.1]
  · exact h _ he

theorem suAdd_ne_nil {su : List (SDD V × List α)} {s : SDD V} {v : α} : suAdd C k su s v ≠ [] :=
  upsert_ne_nil _ _ _ _

theorem upsert_perm {κ β : Type} {lt : κ → κ → Bool} (h : StrictTotal lt) (k : κ) (new : β) (upd : β → β)
    (l : List (κ × β)) (hl : ∀ e ∈ l, e.1 ≠ k) : (upsert lt k new upd l).Perm ((k, new) :: l) := by
  induction l with
  | nil => simp [upsert]
  | cons e l ih =>
    obtain ⟨k0, b0⟩ := e
    unfold upsert
    split
    · exact List.Perm.refl _
    · split
      · exact ((ih fun e he => hl e (by simp [he])).cons _).trans (List.Perm.swap _ _ _)
      · rename_i h1 h2
        rcases h.total k k0 with h3 | h3 | h3
        · exact absurd h3 h1
        · exact absurd h3.symm (hl (k0, b0) (by simp))
        · exact absurd h3 h2

/-- Adding an arc to an alpha, when no arc has the same successor. -/
theorem alphaAdd_perm (hC : C.Lawful) {arcs : List (α × SDD V)} {v : α} {s : SDD V}
    (h : ∀ arc ∈ arcs, arc.2 ≠ s) : (alphaAdd C arcs v s).Perm ((v, s) :: arcs) := by
  unfold alphaAdd
  have := (upsert_perm hC.lt_st s v id (arcs.map Prod.swap) fun e he => by
    rw [List.mem_map] at he
    obtain ⟨arc, ha, rfl⟩ := he
    exact h arc ha).map Prod.swap
  simpa using this

theorem alphaAdd_sorted (hC : C.Lawful) {arcs : List (α × SDD V)} {v : α} {s : SDD V}
    (h : arcs.Pairwise fun a b => C.lt a.2 b.2 = true) :
    (alphaAdd C arcs v s).Pairwise fun a b => C.lt a.2 b.2 = true := by
  unfold alphaAdd
  rw [List.pairwise_map]
  refine upsert_sorted hC.lt_st s v id _ ?_
  rw [List.pairwise_map]
  exact h

/-- Arcs with different successors added in any order give the same alpha. -/
theorem alphaAdd_foldl (hC : C.Lawful) (l : List (α × SDD V)) :
    ∀ acc : List (α × SDD V), (acc.Pairwise fun a b => C.lt a.2 b.2 = true) →
    (l.Pairwise fun a b => a.2 ≠ b.2) → (∀ a ∈ acc, ∀ b ∈ l, a.2 ≠ b.2) →
    (l.foldl (fun arcs e => alphaAdd C arcs e.1 e.2) acc).Perm (acc ++ l) ∧
    (l.foldl (fun arcs e => alphaAdd C arcs e.1 e.2) acc).Pairwise fun a b => C.lt a.2 b.2 = true := by
  induction l with
  | nil => intro acc h _ _; exact ⟨by simp, h⟩
  | cons e l ih =>
    intro acc h hl hne
    rw [List.pairwise_cons] at hl
    rw [List.foldl_cons]
    have hp := alphaAdd_perm hC (v := e.1) (s := e.2) fun a ha => hne a ha e (by simp)
    obtain ⟨h1, h2⟩ := ih _ (alphaAdd_sorted hC (v := e.1) (s := e.2) h) hl.2 fun a ha b hb => by
      rw [hp.mem_iff, List.mem_cons] at ha
      rcases ha with rfl | ha
      · exact hl.1 b hb
      · exact hne a ha b (by simp [hb])
    refine ⟨h1.trans ?_, h2⟩
    refine (hp.append_right l).trans ?_
    exact (List.perm_middle (a := e) (l₁ := acc) (l₂ := l)).symm

theorem alphaAdd_foldl_eq (hC : C.Lawful) {l l' : List (α × SDD V)} (hp : l'.Perm l)
    (h : l.Pairwise fun a b => C.lt a.2 b.2 = true) :
    l'.foldl (fun arcs e => alphaAdd C arcs e.1 e.2) [] = l := by
  obtain ⟨h1, h2⟩ := alphaAdd_foldl hC l' [] (by simp)
    ((hp.pairwise_iff fun {a b} (h : a.2 ≠ b.2) => h.symm).2 (h.imp fun h => hC.lt_st.ne_of h)) (by simp)
  rw [List.nil_append] at h1
  refine (h1.trans hp).eq_of_pairwise (fun a b _ _ h3 h4 => ?_) h2 h
  rw [hC.lt_st.asymm h3] at h4
  exact absurd h4 (by simp)

/-- A list of arcs being built. (Specification or proof device, not part of the code.) -/
structure AlphaOK (C : Cfg V E) (t' : Ty) (memV : A → α → Prop) (D : α → Prop)
    (arcs : List (α × SDD V)) : Prop where
  sorted : arcs.Pairwise fun a b => C.lt a.2 b.2 = true
  dom : ∀ e ∈ arcs, Dom C t' e.2
  succNe : ∀ e ∈ arcs, e.2 ≠ .zero
  vals : ∀ e ∈ arcs, D e.1
  valNe : ∀ e ∈ arcs, ∃ a, memV a e.1

theorem suFinish_sat (hC : C.Lawful) (hk : KindOK C L t t' x k memV D cons G)
    (su : List (SDD V × List α)) : (su.Pairwise fun a b => a.1 ≠ b.1) →
    (∀ e ∈ su, Dom C t' e.1) → (∀ e ∈ su, e.1 ≠ .zero) → (∀ e ∈ su, BGood k.isEmpty k.lt D e.2) →
    (∀ e ∈ su, e.2 ≠ []) → (∀ e ∈ su, G e.2) →
    ∀ acc : List (α × SDD V), AlphaOK C t' memV D acc →
    (∀ arc ∈ acc, ∀ e ∈ su, arc.2 ≠ e.1) →
    L.Sat (suFinish C k su acc) fun arcs => AlphaOK C t' memV D arcs ∧
      (∀ a s, (∃ arc ∈ arcs, memV a arc.1 ∧ arc.2 = s) ↔
        (∃ arc ∈ acc, memV a arc.1 ∧ arc.2 = s) ∨ SuMem memV su a s) ∧
      arcs.length = acc.length + su.length := by
  induction su with
  | nil =>
    intro _ _ _ _ _ _ acc hacc _
    unfold suFinish
    exact L.pure' ⟨hacc, fun a s => by simp [SuMem], by simp⟩
  | cons e su ih =>
    obtain ⟨s, vals⟩ := e
    intro hd1 hd2 hd3 hd4 hd5 hd6 acc hacc hlt
    unfold suFinish
    rw [List.pairwise_cons] at hd1
    have ih := ih hd1.2 (fun e he => hd2 e (by simp [he])) (fun e he => hd3 e (by simp [he]))
      (fun e he => hd4 e (by simp [he])) (fun e he => hd5 e (by simp [he])) (fun e he => hd6 e (by simp [he]))
    refine L.bind' (hk.sum vals (hd4 (s, vals) (by simp)) (hd6 (s, vals) (by simp))) ?_
    rintro v ⟨hv1, hv2⟩
    have hp := alphaAdd_perm hC (v := v) (s := s) fun arc ha => hlt arc ha (s, vals) (by simp)
    have hne : ∃ a, memV a v := by
      obtain ⟨w, l, hl⟩ := List.exists_cons_of_ne_nil (hd5 (s, vals) (by simp))
      simp only at hl
      have hw := (hd4 (s, vals) (by simp)).ne w (by simp [hl])
      have hwD := (hd4 (s, vals) (by simp)).dom w (by simp [hl])
      rw [hk.isEmpty_false hwD] at hw
      obtain ⟨a, ha⟩ := hw
      exact ⟨a, (hv2 a).2 ⟨w, by simp [hl], ha⟩⟩
    refine L.mono' (ih (alphaAdd C acc v s) ⟨alphaAdd_sorted hC hacc.sorted, ?_, ?_, ?_, ?_⟩ ?_) ?_
    · intro e he
      rw [hp.mem_iff, List.mem_cons] at he
      rcases he with rfl | he
      · exact hd2 (s, vals) (by simp)
      · exact hacc.dom e he
    · intro e he
      rw [hp.mem_iff, List.mem_cons] at he
      rcases he with rfl | he
      · exact hd3 (s, vals) (by simp)
      · exact hacc.succNe e he
    · intro e he
      rw [hp.mem_iff, List.mem_cons] at he
      rcases he with rfl | he
      · exact hv1
      · exact hacc.vals e he
    · intro e he
      rw [hp.mem_iff, List.mem_cons] at he
      rcases he with rfl | he
      · exact hne
      · exact hacc.valNe e he
    · intro arc ha e he
      rw [hp.mem_iff, List.mem_cons] at ha
      rcases ha with rfl | ha
      · exact hd1.1 e he
      · exact hlt arc ha e (by simp [he])
    · rintro arcs ⟨h1, h2, h3⟩
      refine ⟨h1, fun a s' => ?_, by rw [h3, hp.length_eq]; simp; omega⟩
      rw [h2]
      unfold SuMem
      constructor
      · rintro (⟨arc, ha, hv, rfl⟩ | ⟨vals', h4, w, hw, haw⟩)
        · rw [hp.mem_iff, List.mem_cons] at ha
          rcases ha with rfl | ha
          · obtain ⟨w, hw, haw⟩ := (hv2 a).1 hv
            exact Or.inr ⟨vals, by simp, w, hw, haw⟩
          · exact Or.inl ⟨arc, ha, hv, rfl⟩
        · exact Or.inr ⟨vals', by simp [h4], w, hw, haw⟩
      · rintro (⟨arc, ha, hv, rfl⟩ | ⟨vals', h4, w, hw, haw⟩)
        · exact Or.inl ⟨arc, by simp [hp.mem_iff, ha], hv, rfl⟩
        · rw [List.mem_cons] at h4
          rcases h4 with h4 | h4
          · cases h4
            exact Or.inl ⟨(v, s), by simp [hp.mem_iff], (hv2 a).2 ⟨w, hw, haw⟩, rfl⟩
          · exact Or.inr ⟨vals', h4, w, hw, haw⟩

/-- The result of a square union does not depend on the order in which its elements are visited. -/
theorem suEnd_sat (hC : C.Lawful) (hk : KindOK C L t t' x k memV D cons G)
    {su : List (SDD V × List α)} (hsu : SuOK C t' k D su) (hG : ∀ e ∈ su, G e.2) :
    L.Sat (suEnd C k su) fun arcs => AlphaOK C t' memV D arcs ∧
      (∀ a s, (∃ arc ∈ arcs, memV a arc.1 ∧ arc.2 = s) ↔ SuMem memV su a s) ∧
      arcs.length = su.length := by
  unfold suEnd
  refine L.bind' (L.ord' su) fun su' hp => ?_
  refine L.mono' (suFinish_sat hC hk su'
    ((hp.pairwise_iff fun {a b} (h : a.1 ≠ b.1) => h.symm).2 (hsu.sorted.imp fun h => hC.lt_st.ne_of h))
    (fun e he => hsu.dom e (hp.mem_iff.1 he)) (fun e he => hsu.succNe e (hp.mem_iff.1 he))
    (fun e he => hsu.vals e (hp.mem_iff.1 he)) (fun e he => hsu.valsNe e (hp.mem_iff.1 he))
    (fun e he => hG e (hp.mem_iff.1 he))
    [] ⟨by simp, by simp, by simp, by simp, by simp⟩ (by simp)) ?_
  rintro arcs ⟨h1, h2, h3⟩
  refine ⟨h1, fun a s => ?_, by rw [h3, hp.length_eq]; simp⟩
  rw [h2]
  simp [SuMem, hp.mem_iff]

/-- From an alpha to a node. -/
theorem mkNode_sat (hC : C.Lawful) (hk : KindOK C L t t' x k memV D cons G)
    (hov : C.limit = none ∨ L.allow .overflow) {arcs : List (α × SDD V)}
    (h : AlphaOK C t' memV D arcs)
    (hfun : ∀ a, ∀ b ∈ arcs, ∀ c ∈ arcs, memV a b.1 → memV a c.1 → b.2 = c.2) :
    L.Sat (mkNode C k.node x arcs : m (SDD V)) fun r => Dom C t r ∧
      ∀ p, Mem C p r ↔ ∃ a q, p = cons a q ∧ ∃ arc ∈ arcs, memV a arc.1 ∧ Mem C q arc.2 := by
  unfold mkNode
  split
  · rename_i h0
    rw [List.isEmpty_iff] at h0
    subst h0
    exact L.pure' ⟨.zero _, fun p => by simp [not_mem_zero]⟩
  · split
    · rename_i hl
      rcases hov with hov | hov
      · rw [hov] at hl; simp [tooMany] at hl
      · exact L.raise' hov
    · rename_i h0 _
      have h0 : arcs ≠ [] := by simpa using h0
      have hg : GoodArcs C memV arcs := by
        refine ⟨h0, h.valNe, h.succNe, ?_, h.sorted⟩
        have hs := h.sorted
        rw [List.pairwise_iff_forall_sublist] at hs ⊢
        intro b c hbc a hab
        have hm := hbc.subset
        have heq := hfun a b (hm (by simp)) c (hm (by simp)) hab.1 hab.2
        have := hs hbc
        rw [heq, hC.lt_st.irrefl] at this
        exact absurd this (by simp)
      exact L.pure' ⟨hk.node_dom arcs hg h.vals h.dom, hk.node_mem arcs⟩

/-- The result of a square union. -/
theorem finish_sat (hC : C.Lawful) (hk : KindOK C L t t' x k memV D cons G)
    (hov : C.limit = none ∨ L.allow .overflow) {su : List (SDD V × List α)}
    (hsu : SuOK C t' k D su) (hG : ∀ e ∈ su, G e.2)
    (hfun : ∀ a s s', SuMem memV su a s → SuMem memV su a s' → s = s') :
    L.Sat (suEnd C k su >>= fun alpha => mkNode C k.node x alpha) fun r => Dom C t r ∧
      ∀ p, Mem C p r ↔ ∃ a q, p = cons a q ∧ ∃ s, SuMem memV su a s ∧ Mem C q s := by
  refine L.bind' (suEnd_sat hC hk hsu hG) ?_
  rintro arcs ⟨h1, h2, _⟩
  refine L.mono' (mkNode_sat hC hk hov h1 ?_) ?_
  · intro a b hb c hc hab hac
    exact hfun a _ _ ((h2 a b.2).1 ⟨b, hb, hab, rfl⟩) ((h2 a c.2).1 ⟨c, hc, hac, rfl⟩)
  · rintro r ⟨hr1, hr2⟩
    refine ⟨hr1, fun p => ?_⟩
    rw [hr2]
    constructor
    · rintro ⟨a, q, rfl, arc, ha, hm, hq⟩
      exact ⟨a, q, rfl, arc.2, (h2 a _).1 ⟨arc, ha, hm, rfl⟩, hq⟩
    · rintro ⟨a, q, rfl, s, hs, hq⟩
      obtain ⟨arc, ha, hm, rfl⟩ := (h2 a s).2 hs
      exact ⟨a, q, rfl, arc, ha, hm, hq⟩

end
end Verif
