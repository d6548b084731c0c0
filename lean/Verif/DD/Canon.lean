import Verif.DD.Spec
/-!
# Basic facts on canonical forms, canonicity
-/

set_option autoImplicit false

namespace Verif

section
variable {V E : Type} {C : Cfg V E}

theorem Dom.flat_inv {t : Ty} {x : Nat} {arcs : List (V × SDD V)} (h : Dom C t (.flat x arcs)) :
    ∃ t', t.flatNext x = some t' ∧ GoodArcs C C.vmem arcs ∧ ∀ arc ∈ arcs, Dom C t' arc.2 := by
  cases h with
  | flat _ t' _ _ h1 h2 h3 => exact ⟨t', h1, h2, h3⟩

theorem Dom.hier_inv {t : Ty} {x : Nat} {arcs : List (SDD V × SDD V)}
    (h : Dom C t (.hier x arcs)) :
    ∃ tn t', t.hierNext x = some (tn, t') ∧ GoodArcs C (Mem C) arcs ∧
      (∀ arc ∈ arcs, Dom C tn arc.1) ∧ ∀ arc ∈ arcs, Dom C t' arc.2 := by
  cases h with
  | hier _ tn t' _ _ h1 h2 h3 h4 => exact ⟨tn, t', h1, h2, h3, h4⟩

/-- Every SDD with a type is well-formed. -/
theorem Dom.to_any {t : Ty} {s : SDD V} (h : Dom C t s) :
    ∀ n, t.depth ≤ n → Dom C (.any n) s := by
  induction h with
  | zero t => intros; exact .zero _
  | one t h => intros; exact .one _ trivial
  | flat t t' x arcs h1 h2 h3 ih =>
    intro n hn
    have : ∃ k, n = k + 1 ∧ t'.depth ≤ k := by
      cases t with
      | any k =>
        cases k with
        | zero => simp [Ty.flatNext] at h1
        | succ k =>
          simp [Ty.flatNext] at h1; subst h1
          simp [Ty.depth] at *
          exact ⟨n - 1, by omega, by omega⟩
      | nil => simp [Ty.flatNext] at h1
      | flat y t =>
        simp [Ty.flatNext] at h1
        obtain ⟨_, rfl⟩ := h1
        simp [Ty.depth] at *
        exact ⟨n - 1, by omega, by omega⟩
      | hier y a b => simp [Ty.flatNext] at h1
    obtain ⟨k, rfl, hk⟩ := this
    exact .flat _ (.any k) x arcs rfl h2 fun arc ha => ih arc ha k hk
  | hier t tn t' x arcs h1 h2 h3 h4 ih1 ih2 =>
    intro n hn
    have : ∃ k, n = k + 1 ∧ t'.depth ≤ k ∧ tn.depth ≤ k := by
      cases t with
      | any k =>
        cases k with
        | zero => simp [Ty.hierNext] at h1
        | succ k =>
          simp [Ty.hierNext] at h1
          obtain ⟨rfl, rfl⟩ := h1
          simp [Ty.depth] at *
          exact ⟨n - 1, by omega, by omega⟩
      | nil => simp [Ty.hierNext] at h1
      | flat y t => simp [Ty.hierNext] at h1
      | hier y a b =>
        simp [Ty.hierNext] at h1
        obtain ⟨_, rfl, rfl⟩ := h1
        simp [Ty.depth] at *
        exact ⟨n - 1, by omega, by omega, by omega⟩
    obtain ⟨k, rfl, hk, hk'⟩ := this
    exact .hier _ (.any k) (.any k) x arcs rfl h2 (fun arc ha => ih1 arc ha k hk')
      fun arc ha => ih2 arc ha k hk

theorem Dom.wf {t : Ty} {s : SDD V} (h : Dom C t s) : WF C s := ⟨_, h.to_any _ le_rfl⟩

theorem Dom.mono {n k : Nat} {s : SDD V} (h : Dom C (.any n) s) (hk : n ≤ k) : Dom C (.any k) s :=
  h.to_any k hk

/-- A well-formed SDD different from `|0|` has a path. -/
theorem Dom.exists_mem {t : Ty} {s : SDD V} (h : Dom C t s) (hs : s ≠ .zero) : ∃ p, Mem C p s := by
  induction h with
  | zero => exact absurd rfl hs
  | one => exact ⟨.nil, rfl⟩
  | flat t t' x arcs h1 h2 h3 ih =>
    obtain ⟨arc, tl, rfl⟩ := List.exists_cons_of_ne_nil h2.ne
    obtain ⟨a, ha⟩ := h2.valNe arc (by simp)
    obtain ⟨p, hp⟩ := ih arc (by simp) (h2.succNe arc (by simp))
    exact ⟨.flat x a p, rfl, arc, by simp, ha, hp⟩
  | hier t tn t' x arcs h1 h2 h3 h4 ih1 ih2 =>
    obtain ⟨arc, tl, rfl⟩ := List.exists_cons_of_ne_nil h2.ne
    obtain ⟨a, ha⟩ := h2.valNe arc (by simp)
    obtain ⟨p, hp⟩ := ih2 arc (by simp) (h2.succNe arc (by simp))
    exact ⟨.hier x a p, rfl, arc, by simp, ha, hp⟩

theorem not_mem_zero (p : Path E) : ¬ Mem C p .zero := by
  cases p <;> simp [Mem]

/-- Emptiness test. -/
theorem Dom.zero_iff {t : Ty} {s : SDD V} (h : Dom C t s) : s = .zero ↔ ∀ p, ¬ Mem C p s := by
  constructor
  · rintro rfl p; exact not_mem_zero p
  · intro hp
    by_contra hne
    obtain ⟨p, hp'⟩ := h.exists_mem hne
    exact hp p hp'

theorem Dom.isZero_iff {t : Ty} {s : SDD V} (h : Dom C t s) :
    s.isZero = true ↔ ∀ p, ¬ Mem C p s := by
  rw [← h.zero_iff]
  cases s <;> simp [SDD.isZero]

theorem isZero_iff {s : SDD V} : s.isZero = true ↔ s = .zero := by
  cases s <;> simp [SDD.isZero]

/-- Arcs sorted by a strict order and with the same elements are equal. -/
theorem sorted_ext {β : Type} {r : β → β → Prop} (irr : ∀ a, ¬ r a a)
    (tr : ∀ a b c, r a b → r b c → r a c) :
    ∀ {l l' : List β}, l.Pairwise r → l'.Pairwise r → (∀ a, a ∈ l ↔ a ∈ l') → l = l'
  | [], [], _, _, _ => rfl
  | [], b :: l', _, _, h => by simpa using h b
  | a :: l, [], _, _, h => by simpa using h a
  | a :: l, b :: l', h1, h2, h => by
    rw [List.pairwise_cons] at h1 h2
    have hab : a = b := by
      have ha := (h a).1 (by simp)
      have hb := (h b).2 (by simp)
      simp only [List.mem_cons] at ha hb
      rcases ha with rfl | ha
      · rfl
      rcases hb with rfl | hb
      · rfl
      exact absurd (tr _ _ _ (h1.1 b hb) (h2.1 a ha)) (irr a)
    subst hab
    congr 1
    refine sorted_ext irr tr h1.2 h2.2 fun c => ?_
    have hc := h c
    simp only [List.mem_cons] at hc
    constructor
    · intro hcl
      rcases hc.1 (Or.inr hcl) with rfl | h'
      · exact absurd (h1.1 _ hcl) (irr _)
      · exact h'
    · intro hcl
      rcases hc.2 (Or.inr hcl) with rfl | h'
      · exact absurd (h2.1 _ hcl) (irr _)
      · exact h'

/-- A symmetric relation holding pairwise holds between any two different elements. -/
theorem pairwise_of_mem {β : Type} {r : β → β → Prop} (sym : ∀ a b, r a b → r b a) :
    ∀ {l : List β}, l.Pairwise r → ∀ {a b}, a ∈ l → b ∈ l → a ≠ b → r a b
  | [], _, _, _, ha, _, _ => by simp at ha
  | c :: l, h, a, b, ha, hb, hne => by
    rw [List.pairwise_cons] at h
    rw [List.mem_cons] at ha hb
    rcases ha with rfl | ha
    · rcases hb with rfl | hb
      · exact absurd rfl hne
      · exact h.1 _ hb
    · rcases hb with rfl | hb
      · exact sym _ _ (h.1 _ ha)
      · exact pairwise_of_mem sym h.2 ha hb hne

/-- Two elements of a pairwise disjoint list sharing a point are equal. -/
theorem GoodArcs.unique {A α : Type} {memV : A → α → Prop} {arcs : List (α × SDD V)}
    (h : GoodArcs C memV arcs) {b c : α × SDD V} (hb : b ∈ arcs) (hc : c ∈ arcs) {a : A}
    (h1 : memV a b.1) (h2 : memV a c.1) : b = c := by
  by_contra hne
  exact pairwise_of_mem (fun x y h a ⟨u, v⟩ => h a ⟨v, u⟩) h.disj hb hc hne a ⟨h1, h2⟩

theorem GoodArcs.disj_perm {A α : Type} {memV : A → α → Prop} {arcs arcs' : List (α × SDD V)}
    (h : GoodArcs C memV arcs) (hp : arcs'.Perm arcs) :
    arcs'.Pairwise fun b c => ∀ a, ¬ (memV a b.1 ∧ memV a c.1) :=
  (hp.pairwise_iff fun {_ _} h a hab => h a ⟨hab.2, hab.1⟩).2 h.disj

theorem GoodArcs.succ_unique (hC : C.Lawful) {A α : Type} {memV : A → α → Prop}
    {arcs : List (α × SDD V)}
    (h : GoodArcs C memV arcs) {b c : α × SDD V} (hb : b ∈ arcs) (hc : c ∈ arcs)
    (h1 : b.2 = c.2) : b = c := by
  by_contra hne
  refine pairwise_of_mem (r := fun b c : α × SDD V => b.2 ≠ c.2) (fun x y h => Ne.symm h)
    (h.sorted.imp fun {b c} h h' => ?_) hb hc hne h1
  rw [h', hC.lt_st.irrefl] at h; exact absurd h (by simp)

/-- Arcs of canonical nodes with the same denotation are included in each other. -/
theorem arcs_subset (hC : C.Lawful) {A α : Type} {memV : A → α → Prop}
    {arcs arcs' : List (α × SDD V)}
    (h : GoodArcs C memV arcs) (h' : GoodArcs C memV arcs')
    (hne : ∀ b ∈ arcs, ∃ p, Mem C p b.2)
    (hsucc : ∀ b ∈ arcs, ∀ c ∈ arcs', (∀ p, Mem C p b.2 ↔ Mem C p c.2) → b.2 = c.2)
    (hval : ∀ b ∈ arcs, ∀ c ∈ arcs', (∀ a, memV a b.1 ↔ memV a c.1) → b.1 = c.1)
    (hden : ∀ a p, (∃ b ∈ arcs, memV a b.1 ∧ Mem C p b.2) ↔
      (∃ b ∈ arcs', memV a b.1 ∧ Mem C p b.2)) :
    ∀ b ∈ arcs, b ∈ arcs' := by
  -- two arcs sharing a point and a path have the same successor
  have key : ∀ b ∈ arcs, ∀ c ∈ arcs', ∀ a, memV a b.1 → memV a c.1 → b.2 = c.2 := by
    intro b hb c hc a hab hac
    refine hsucc b hb c hc fun p => ⟨fun hp => ?_, fun hp => ?_⟩
    · obtain ⟨d, hd, had, hpd⟩ := (hden a p).1 ⟨b, hb, hab, hp⟩
      rwa [h'.unique hc hd hac had]
    · obtain ⟨d, hd, had, hpd⟩ := (hden a p).2 ⟨c, hc, hac, hp⟩
      rwa [h.unique hb hd hab had]
  intro b hb
  obtain ⟨a, ha⟩ := h.valNe b hb
  obtain ⟨p, hp⟩ := hne b hb
  obtain ⟨c, hc, hac, hpc⟩ := (hden a p).1 ⟨b, hb, ha, hp⟩
  have h2 := key b hb c hc a ha hac
  have h1 : b.1 = c.1 := by
    refine hval b hb c hc fun a' => ⟨fun ha' => ?_, fun ha' => ?_⟩
    · obtain ⟨d, hd, had, hpd⟩ := (hden a' p).1 ⟨b, hb, ha', hp⟩
      have : d.2 = c.2 := by rw [← key b hb d hd a' ha' had, h2]
      rwa [← h'.succ_unique hC hd hc this]
    · obtain ⟨d, hd, had, hpd⟩ := (hden a' p).2 ⟨c, hc, ha', hpc⟩
      have : d.2 = b.2 := by rw [key d hd c hc a' had ha', h2]
      rwa [← h.succ_unique hC hd hb this]
  have : b = c := Prod.ext h1 h2
  rwa [this]

theorem canonical_aux (hC : C.Lawful) : ∀ n, ∀ s s' : SDD V, Dom C (.any n) s → Dom C (.any n) s' →
    (∀ p, Mem C p s ↔ Mem C p s') → s = s' := by
  intro n
  induction n with
  | zero =>
    intro s s' h h' hp
    cases h with
    | zero => exact ((h'.zero_iff).2 fun p => by rw [← hp p]; exact not_mem_zero p).symm
    | one =>
      have := (hp .nil).1 rfl
      exact this.symm
    | flat _ _ _ _ h1 => simp [Ty.flatNext] at h1
    | hier _ _ _ _ _ h1 => simp [Ty.hierNext] at h1
  | succ n ih =>
    intro s s' h h' hp
    have irr : ∀ {α : Type} (a : α × SDD V), ¬ (C.lt a.2 a.2 = true) := by
      intro α a; rw [hC.lt_st.irrefl]; simp
    cases h with
    | zero => exact ((h'.zero_iff).2 fun p => by rw [← hp p]; exact not_mem_zero p).symm
    | one =>
      have := (hp .nil).1 rfl
      exact this.symm
    | flat _ t' x arcs h1 h2 h3 =>
      simp only [Ty.flatNext, Option.some.injEq] at h1; subst h1
      have hs : Dom C (.any (n+1)) (.flat x arcs) := .flat _ _ x arcs rfl h2 h3
      obtain ⟨p0, hp0⟩ := hs.exists_mem (by simp)
      have hp0' := (hp p0).1 hp0
      cases p0 with
      | nil => simp [Mem] at hp0
      | hier => simp [Mem] at hp0
      | flat y a p =>
        cases h' with
        | zero => simp [Mem] at hp0'
        | one => simp [Mem] at hp0'
        | hier => simp [Mem] at hp0'
        | flat _ t' x' arcs' h1' h2' h3' =>
          simp only [Ty.flatNext, Option.some.injEq] at h1'; subst h1'
          have hx : x = x' := hp0.1.symm.trans hp0'.1
          subst hx
          congr 1
          have hden : ∀ a p, (∃ b ∈ arcs, C.vmem a b.1 ∧ Mem C p b.2) ↔
              (∃ b ∈ arcs', C.vmem a b.1 ∧ Mem C p b.2) := by
            intro a p
            have := hp (.flat x a p)
            simpa [Mem] using this
          refine sorted_ext (r := fun b c : V × SDD V => C.lt b.2 c.2 = true)
            irr (fun a b c => hC.lt_st.trans _ _ _) h2.sorted h2'.sorted ?_
          intro b
          constructor
          · refine fun hb => arcs_subset hC h2 h2' ?_ ?_ ?_ hden b hb
            · exact fun b hb => (h3 b hb).exists_mem (h2.succNe b hb)
            · exact fun b hb c hc => ih _ _ (h3 b hb) (h3' c hc)
            · exact fun b hb c hc => hC.ext _ _
          · refine fun hb => arcs_subset hC h2' h2 ?_ ?_ ?_ (fun a p => (hden a p).symm) b hb
            · exact fun b hb => (h3' b hb).exists_mem (h2'.succNe b hb)
            · exact fun b hb c hc => ih _ _ (h3' b hb) (h3 c hc)
            · exact fun b hb c hc => hC.ext _ _
    | hier _ tn t' x arcs h1 h2 h3 h4 =>
      simp only [Ty.hierNext, Option.some.injEq, Prod.mk.injEq] at h1
      obtain ⟨rfl, rfl⟩ := h1
      have hs : Dom C (.any (n+1)) (.hier x arcs) := .hier _ _ _ x arcs rfl h2 h3 h4
      obtain ⟨p0, hp0⟩ := hs.exists_mem (by simp)
      have hp0' := (hp p0).1 hp0
      cases p0 with
      | nil => simp [Mem] at hp0
      | flat => simp [Mem] at hp0
      | hier y a p =>
        cases h' with
        | zero => simp [Mem] at hp0'
        | one => simp [Mem] at hp0'
        | flat => simp [Mem] at hp0'
        | hier _ tn t' x' arcs' h1' h2' h3' h4' =>
          simp only [Ty.hierNext, Option.some.injEq, Prod.mk.injEq] at h1'
          obtain ⟨rfl, rfl⟩ := h1'
          have hx : x = x' := hp0.1.symm.trans hp0'.1
          subst hx
          congr 1
          have hden : ∀ a p, (∃ b ∈ arcs, Mem C a b.1 ∧ Mem C p b.2) ↔
              (∃ b ∈ arcs', Mem C a b.1 ∧ Mem C p b.2) := by
            intro a p
            have := hp (.hier x a p)
            simpa [Mem] using this
          refine sorted_ext (r := fun b c : SDD V × SDD V => C.lt b.2 c.2 = true)
            irr (fun a b c => hC.lt_st.trans _ _ _) h2.sorted h2'.sorted ?_
          intro b
          constructor
          · refine fun hb => arcs_subset hC h2 h2' ?_ ?_ ?_ hden b hb
            · exact fun b hb => (h4 b hb).exists_mem (h2.succNe b hb)
            · exact fun b hb c hc => ih _ _ (h4 b hb) (h4' c hc)
            · exact fun b hb c hc => ih _ _ (h3 b hb) (h3' c hc)
          · refine fun hb => arcs_subset hC h2' h2 ?_ ?_ ?_ (fun a p => (hden a p).symm) b hb
            · exact fun b hb => (h4' b hb).exists_mem (h2'.succNe b hb)
            · exact fun b hb c hc => ih _ _ (h4' b hb) (h4 c hc)
            · exact fun b hb c hc => ih _ _ (h3' b hb) (h3 c hc)

/-- Canonicity. -/
theorem canonical_ext (hC : C.Lawful) {s s' : SDD V} (h : WF C s) (h' : WF C s')
    (hp : ∀ p, Mem C p s ↔ Mem C p s') : s = s' := by
  obtain ⟨n, hn⟩ := h
  obtain ⟨k, hk⟩ := h'
  exact canonical_aux hC (max n k) s s' (hn.mono (le_max_left _ _)) (hk.mono (le_max_right _ _)) hp

end
end Verif
