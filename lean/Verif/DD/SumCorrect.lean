import Verif.DD.SquareUnion
/-!
# Correctness of the generic sum (`/repo/sdd/dd/sum.hh:45-218`)
-/

set_option autoImplicit false
set_option linter.unusedSectionVars false

namespace Verif

section
variable {V E : Type} {m : Type → Type} [DecidableEq V] [DDMonad V m] {A α : Type} [DecidableEq α]
variable {C : Cfg V E} {L : Logic V m} {t t' : Ty} {x : Nat} {k : Kind V m α}
  {memV : A → α → Prop} {D : α → Prop} {cons : A → Path E → Path E}
  {R : Path E → Path E → Prop} {S : Path E → Prop} {K : A → A → Prop} {G : List α → Prop} {B : Nat → Prop}

/-- An element of the map `res`. (Specification or proof device, not part of the code.) -/
structure EntryOK (C : Cfg V E) (t' : Ty) (memV : A → α → Prop) (D : α → Prop)
    (e : α × List (SDD V)) : Prop where
  dom : D e.1
  ne : ∃ a, memV a e.1
  succs : BGood SDD.isZero C.lt (Dom C t') e.2
  succsNe : e.2 ≠ []

/-- The keys of `res` are a partition. (Specification or proof device, not part of the code.) -/
structure Part (C : Cfg V E) (t' : Ty) (memV : A → α → Prop) (D : α → Prop)
    (l : List (α × List (SDD V))) : Prop where
  ok : ∀ e ∈ l, EntryOK C t' memV D e
  disj : l.Pairwise fun b c => ∀ a, ¬ (memV a b.1 ∧ memV a c.1)

/-- The successors of an element in `res`. (Specification or proof device, not part of the code.) -/
def Look (memV : A → α → Prop) (l : List (α × List (SDD V))) (a : A) (S : List (SDD V)) : Prop :=
  ∃ e ∈ l, memV a e.1 ∧ e.2 = S

theorem Part.nil : Part C t' memV D [] := ⟨by simp, by simp⟩

theorem Part.perm {l l' : List (α × List (SDD V))} (h : Part C t' memV D l) (hp : l'.Perm l) :
    Part C t' memV D l' :=
  ⟨fun e he => h.ok e (hp.mem_iff.1 he),
    (List.Perm.pairwise_iff (fun {_ _} hxy a ⟨u, v⟩ => hxy a ⟨v, u⟩) hp).2 h.disj⟩

theorem Look.perm {l l' : List (α × List (SDD V))} (hp : l'.Perm l) (a : A) (S : List (SDD V)) :
    Look memV l' a S ↔ Look memV l a S := by
  unfold Look
  simp [hp.mem_iff]

theorem Part.cons_inv {e : α × List (SDD V)} {l : List (α × List (SDD V))}
    (h : Part C t' memV D (e :: l)) : EntryOK C t' memV D e ∧ Part C t' memV D l ∧
      ∀ a, memV a e.1 → ∀ S, ¬ Look memV l a S := by
  have hd := h.disj
  rw [List.pairwise_cons] at hd
  refine ⟨h.ok e (by simp), ⟨fun e he => h.ok e (by simp [he]), hd.2⟩, ?_⟩
  rintro a ha S ⟨e', he', ha', _⟩
  exact hd.1 e' he' a ⟨ha, ha'⟩

theorem Part.mkCons {e : α × List (SDD V)} {l : List (α × List (SDD V))}
    (he : EntryOK C t' memV D e) (hl : Part C t' memV D l)
    (hd : ∀ a, memV a e.1 → ∀ S, ¬ Look memV l a S) : Part C t' memV D (e :: l) := by
  refine ⟨?_, ?_⟩
  · intro e' he'
    rw [List.mem_cons] at he'
    rcases he' with rfl | he'
    · exact he
    · exact hl.ok e' he'
  · rw [List.pairwise_cons]
    refine ⟨fun e' he' a ha => ?_, hl.disj⟩
    exact hd a ha.1 e'.2 ⟨e', he', ha.2, rfl⟩

theorem Part.append {l l' : List (α × List (SDD V))} (h : Part C t' memV D l)
    (h' : Part C t' memV D l') (hd : ∀ a S S', Look memV l a S → ¬ Look memV l' a S') :
    Part C t' memV D (l ++ l') := by
  induction l with
  | nil => simpa using h'
  | cons e l ih =>
    obtain ⟨h1, h2, h3⟩ := h.cons_inv
    rw [List.cons_append]
    refine Part.mkCons h1 (ih h2 ?_) ?_
    · rintro a S S' ⟨e', he', ha', hs⟩
      exact hd a S S' ⟨e', by simp [he'], ha', hs⟩
    · rintro a ha S ⟨e', he', ha', hs⟩
      rw [List.mem_append] at he'
      rcases he' with he' | he'
      · exact h3 a ha S ⟨e', he', ha', hs⟩
      · exact hd a e.2 S ⟨e, by simp, ha, rfl⟩ ⟨e', he', ha', hs⟩

theorem Part.left {l l' : List (α × List (SDD V))} (h : Part C t' memV D (l ++ l')) :
    Part C t' memV D l :=
  ⟨fun e he => h.ok e (by simp [he]), (List.pairwise_append.1 h.disj).1⟩

theorem Part.right {l l' : List (α × List (SDD V))} (h : Part C t' memV D (l ++ l')) :
    Part C t' memV D l' :=
  ⟨fun e he => h.ok e (by simp [he]), (List.pairwise_append.1 h.disj).2.1⟩

theorem look_nil (a : A) (S : List (SDD V)) : ¬ Look memV ([] : List (α × List (SDD V))) a S := by
  simp [Look]

theorem look_cons (e : α × List (SDD V)) (l : List (α × List (SDD V))) (a : A) (S : List (SDD V)) :
    Look memV (e :: l) a S ↔ (memV a e.1 ∧ e.2 = S) ∨ Look memV l a S := by
  simp [Look]

theorem look_append (l l' : List (α × List (SDD V))) (a : A) (S : List (SDD V)) :
    Look memV (l ++ l') a S ↔ Look memV l a S ∨ Look memV l' a S := by
  simp [Look, or_and_right, exists_or]

theorem Part.functional {l : List (α × List (SDD V))} (h : Part C t' memV D l)
    {e e' : α × List (SDD V)} (he : e ∈ l) (he' : e' ∈ l) {a : A} (h1 : memV a e.1)
    (h2 : memV a e'.1) : e = e' := by
  by_contra hne
  exact pairwise_of_mem (fun x y h a ⟨u, v⟩ => h a ⟨v, u⟩) h.disj he he' hne a ⟨h1, h2⟩

theorem Look.unique {l : List (α × List (SDD V))} (h : Part C t' memV D l)
    {a : A} {S S' : List (SDD V)} (h1 : Look memV l a S) (h2 : Look memV l a S') : S = S' := by
  obtain ⟨e, he, ha, rfl⟩ := h1
  obtain ⟨e', he', ha', rfl⟩ := h2
  rw [h.functional he he' ha ha']

theorem Part.nodup {l : List (α × List (SDD V))} (h : Part C t' memV D l) :
    (l.map Prod.fst).Nodup := by
  rw [List.Nodup, List.pairwise_map]
  have hd := h.disj
  rw [List.pairwise_iff_forall_sublist] at hd ⊢
  intro b c hbc heq
  obtain ⟨a, ha⟩ := (h.ok b (hbc.subset (by simp))).ne
  exact hd hbc a ⟨ha, by rw [← heq]; exact ha⟩

theorem Part.emplaceAll {l l' : List (α × List (SDD V))} (h : Part C t' memV D (l ++ l')) :
    emplaceAll l l' = l ++ l' := emplaceAll_eq_append _ _ h.nodup

/-- Two lists whose insertion in a hash map have the same effect. (Specification or proof device, not part of the code.) -/
def SaveEq (s s' : List (α × List (SDD V))) : Prop := ∀ r, emplaceAll r s = emplaceAll r s'

theorem SaveEq.refl (s : List (α × List (SDD V))) : SaveEq s s := fun _ => rfl

theorem SaveEq.trans {s s' s'' : List (α × List (SDD V))} (h : SaveEq s s') (h' : SaveEq s' s'') :
    SaveEq s s'' := fun r => (h r).trans (h' r)

theorem SaveEq.append_right {s s' : List (α × List (SDD V))} (h : SaveEq s s')
    (l : List (α × List (SDD V))) : SaveEq (s ++ l) (s' ++ l) := by
  intro r
  rw [emplaceAll_append, emplaceAll_append, h r]

/-- New successors for an element of the valuation of the arc being added. (Specification or proof device, not part of the code.) -/
def Merge (C : Cfg V E) (memV : A → α → Prop) (succ : SDD V) (l : List (α × List (SDD V))) (a : A)
    (S : List (SDD V)) : Prop :=
  (∃ S0, Look memV l a S0 ∧ S = sumAdd SDD.isZero C.lt S0 succ) ∨
  ((∀ S0, ¬ Look memV l a S0) ∧ S = sumAdd SDD.isZero C.lt [] succ)

/-- The postcondition of the loop (C) and of test (I). (Specification or proof device, not part of the code.) -/
structure ScanPost (C : Cfg V E) (t' : Ty) (memV : A → α → Prop) (D : α → Prop) (K : A → A → Prop) (succ : SDD V)
    (cur : α) (todo kept save rem : List (α × List (SDD V)))
    (r : List (α × List (SDD V)) × List (α × List (SDD V)) × List (α × List (SDD V))) : Prop where
  ex : ∃ delta todo' rem', SaveEq r.2.1 (save ++ delta) ∧ r.2.2 = rem ++ rem' ∧
    r.1 = kept ++ todo' ∧ Part C t' memV D delta ∧
    (∀ a S, Look memV delta a S ↔ memV a cur ∧ Merge C memV succ todo a S) ∧
    Part C t' memV D (todo' ++ rem') ∧
    (∀ a S, Look memV (todo' ++ rem') a S ↔ ¬ memV a cur ∧ Look memV todo a S)
  coh : ∀ a b T, memV a cur → Look memV todo b T → K a b

theorem scan_sat (hC : C.Lawful) (hk : KindS C L R S t t' x k memV D K cons) {succ : SDD V}
    (hs : Dom C t' succ) (hs0 : succ ≠ .zero) (todo : List (α × List (SDD V))) :
    Part C t' memV D todo → (∀ a b T T', Look memV todo a T → Look memV todo b T' → K a b) → ∀ (cur : α) (kept save rem : List (α × List (SDD V))), D cur →
    L.Sat (scan C k succ cur todo kept save rem)
      (ScanPost C t' memV D K succ cur todo kept save rem) := by
  have hz : SDD.isZero succ = false := by
    by_contra hc; rw [Bool.not_eq_false, isZero_iff] at hc; exact hs0 hc
  have hnew : BGood SDD.isZero C.lt (Dom C t') (sumAdd SDD.isZero C.lt [] succ) :=
    BGood.nil.add hC.lt_st hs
  induction todo with
  | nil =>
    intro _ _ cur kept save rem hcur
    unfold scan
    refine L.pure' ⟨?_, fun a b T _ h => absurd h (look_nil b T)⟩
    by_cases he : k.isEmpty cur = true
    · rw [if_pos he]
      rw [hk.isEmpty_iff _ hcur] at he
      refine ⟨[], [], [], by simpa using SaveEq.refl _, by simp, by simp, Part.nil, ?_,
        Part.nil, ?_⟩
      · intro a S; simp [look_nil, he a]
      · intro a S; simp [look_nil]
    · rw [if_neg he]
      rw [Bool.not_eq_true, hk.isEmpty_false hcur] at he
      refine ⟨[(cur, sumAdd SDD.isZero C.lt [] succ)], [], [], SaveEq.refl _, by simp, by simp,
        ?_, ?_, Part.nil, ?_⟩
      · exact Part.mkCons ⟨hcur, he, hnew, sumAdd_ne_nil hz⟩ Part.nil fun a _ S => look_nil a S
      · intro a S
        simp only [look_cons, look_nil, Merge]
        simp [eq_comm]
      · intro a S; simp [look_nil]
  | cons e todo ih =>
    obtain ⟨rv, rs⟩ := e
    intro hpart hK cur kept save rem hcur
    obtain ⟨hE, hpart', hdis⟩ := hpart.cons_inv
    have ih := ih hpart' fun a b T T' h1 h2 =>
      hK a b T T' ((look_cons _ _ _ _).2 (Or.inr h1)) ((look_cons _ _ _ _).2 (Or.inr h2))
    have hrv : ∀ a b T, memV a rv → Look memV ((rv, rs) :: todo) b T → K a b := fun a b T ha hb =>
      hK a b rs T ((look_cons _ _ _ _).2 (Or.inl ⟨ha, rfl⟩)) hb
    have hadd : BGood SDD.isZero C.lt (Dom C t') (sumAdd SDD.isZero C.lt rs succ) :=
      hE.succs.add hC.lt_st hs
    unfold scan
    split
    · -- the current valuation is empty
      rename_i he
      rw [hk.isEmpty_iff _ hcur] at he
      refine L.pure' ⟨⟨[], (rv, rs) :: todo, [], by simpa using SaveEq.refl _, by simp, by simp,
        Part.nil, ?_, by simpa using hpart, ?_⟩, fun a b T ha => absurd ha (he a)⟩
      · intro a S; simp [look_nil, he a]
      · intro a S; simp [he a]
    · rename_i he
      rw [Bool.not_eq_true, hk.isEmpty_false hcur] at he
      split
      · -- (D)
        rename_i heq
        subst heq
        refine L.pure' ⟨⟨[(cur, sumAdd SDD.isZero C.lt rs succ)], todo, [], SaveEq.refl _, by simp,
          by simp, ?_, ?_, by simpa using hpart', ?_⟩, hrv⟩
        · exact Part.mkCons ⟨hcur, he, hadd, sumAdd_ne_nil hz⟩ Part.nil fun a _ S => look_nil a S
        · intro a S
          simp only [look_cons, look_nil, or_false]
          constructor
          · rintro ⟨ha, rfl⟩
            exact ⟨ha, Or.inl ⟨rs, by simp [look_cons, ha], rfl⟩⟩
          · rintro ⟨ha, ⟨S0, h1, rfl⟩ | ⟨h1, _⟩⟩
            · rw [look_cons] at h1
              rcases h1 with ⟨_, rfl⟩ | h1
              · exact ⟨ha, rfl⟩
              · exact absurd h1 (hdis a ha _)
            · exact absurd (by simp [look_cons, ha]) (h1 rs)
        · intro a S
          simp only [List.append_nil, look_cons]
          constructor
          · intro h1
            refine ⟨fun ha => hdis a ha _ h1, Or.inr h1⟩
          · rintro ⟨ha, ⟨ha', _⟩ | h1⟩
            · exact absurd ha' ha
            · exact h1
      · rename_i hneq
        refine L.bind' (hk.inter2 cur rv hcur hE.dom) ?_
        rintro inter ⟨hi1, hi2, hi3⟩
        split
        · -- (H)
          rename_i hie
          rw [hk.isEmpty_iff _ hi1] at hie
          refine L.mono' (ih cur (kept ++ [(rv, rs)]) save rem hcur) ?_
          rintro ⟨r1, r2, r3⟩ ⟨⟨delta, todo', rem', h1, h2, h3, h4, h5, h6, h7⟩, hcoh⟩
          refine ⟨⟨delta, (rv, rs) :: todo', rem', h1, h2, by simpa using h3, h4, ?_, ?_, ?_⟩,
            fun a b T ha hb => ((look_cons _ _ _ _).1 hb).elim (fun hb => hi3 a b ha hb.1) (hcoh a b T ha)⟩
          · intro a S
            rw [h5]
            refine and_congr_right fun ha => ?_
            have : ¬ memV a rv := fun h => hie a ((hi2 a).2 ⟨ha, h⟩)
            simp only [Merge, look_cons, this, false_and, false_or]
          · rw [List.cons_append]
            refine Part.mkCons hE h6 fun a ha S hl => ?_
            exact hdis a ha S ((h7 a S).1 hl).2
          · intro a S
            rw [List.cons_append, look_cons, h7, look_cons]
            constructor
            · rintro (⟨h8, h9⟩ | ⟨h8, h9⟩)
              · exact ⟨fun ha => hie a ((hi2 a).2 ⟨ha, h8⟩), Or.inl ⟨h8, h9⟩⟩
              · exact ⟨h8, Or.inr h9⟩
            · rintro ⟨h8, h9 | h9⟩
              · exact Or.inl h9
              · exact Or.inr ⟨h8, h9⟩
        · -- (E)
          rename_i hie
          rw [Bool.not_eq_true, hk.isEmpty_false hi1] at hie
          refine L.bind' (hk.diff rv inter hE.dom hi1) ?_
          rintro d ⟨hd1, hd2⟩
          -- what remains of the arc of `res`
          obtain ⟨rem1, hrem1, hrP, hrL⟩ : ∃ rem1 : List (α × List (SDD V)),
              (if k.isEmpty d = true then rem else rem ++ [(d, rs)]) = rem ++ rem1 ∧
              Part C t' memV D rem1 ∧
              ∀ a S, Look memV rem1 a S ↔ memV a rv ∧ ¬ memV a cur ∧ S = rs := by
            by_cases hde : k.isEmpty d = true
            · refine ⟨[], by simp [hde], Part.nil, fun a S => ?_⟩
              rw [hk.isEmpty_iff _ hd1] at hde
              simp only [look_nil, false_iff]
              rintro ⟨h1, h2, _⟩
              exact hde a ((hd2 a).2 ⟨h1, fun h => h2 ((hi2 a).1 h).1⟩)
            · refine ⟨[(d, rs)], by simp [hde], ?_, fun a S => ?_⟩
              · rw [Bool.not_eq_true, hk.isEmpty_false hd1] at hde
                exact Part.mkCons ⟨hd1, hde, hE.succs, hE.succsNe⟩ Part.nil fun a _ S => look_nil a S
              · simp only [look_cons, look_nil, or_false, hd2]
                constructor
                · rintro ⟨⟨h1, h2⟩, rfl⟩
                  exact ⟨h1, fun h => h2 ((hi2 a).2 ⟨h, h1⟩), rfl⟩
                · rintro ⟨h1, h2, rfl⟩
                  exact ⟨⟨h1, fun h => h2 ((hi2 a).1 h).1⟩, rfl⟩
          have hEi : EntryOK C t' memV D (inter, sumAdd SDD.isZero C.lt rs succ) :=
            ⟨hi1, hie, hadd, sumAdd_ne_nil hz⟩
          simp only [hrem1]
          split
          · -- (G)
            rename_i hci
            subst hci
            have hsub : ∀ a, memV a cur → memV a rv := fun a ha => ((hi2 a).1 ha).2
            refine L.pure' ⟨⟨[(cur, sumAdd SDD.isZero C.lt rs succ)], todo, rem1, ?_, rfl,
              rfl, ?_, ?_, ?_, ?_⟩, fun a b T ha hb => hrv a b T (hsub a ha) hb⟩
            · intro r
              exact emplaceAll_dup _ _ _ (by simp)
            · exact Part.mkCons hEi Part.nil fun a _ S => look_nil a S
            · intro a S
              simp only [look_cons, look_nil, or_false]
              constructor
              · rintro ⟨ha, rfl⟩
                exact ⟨ha, Or.inl ⟨rs, by simp [look_cons, hsub a ha], rfl⟩⟩
              · rintro ⟨ha, ⟨S0, h1, rfl⟩ | ⟨h1, _⟩⟩
                · rw [look_cons] at h1
                  rcases h1 with ⟨_, rfl⟩ | h1
                  · exact ⟨ha, rfl⟩
                  · exact absurd h1 (hdis a (hsub a ha) _)
                · exact absurd (by simp [look_cons, hsub a ha]) (h1 rs)
            · refine hpart'.append hrP fun a S S' h1 h2 => ?_
              rw [hrL] at h2
              exact hdis a h2.1 _ h1
            · intro a S
              rw [look_append, hrL, look_cons]
              constructor
              · rintro (h1 | ⟨h1, h2, rfl⟩)
                · exact ⟨fun ha => hdis a (hsub a ha) _ h1, Or.inr h1⟩
                · exact ⟨h2, Or.inl ⟨h1, rfl⟩⟩
              · rintro ⟨h1, ⟨h2, rfl⟩ | h2⟩
                · exact Or.inr ⟨h2, h1, rfl⟩
                · exact Or.inl h2
          · rename_i hci
            refine L.bind' (hk.diff cur inter hcur hi1) ?_
            rintro cur' ⟨hc1, hc2⟩
            have hc3 : ∀ a, memV a cur' ↔ memV a cur ∧ ¬ memV a rv := by
              intro a; rw [hc2, hi2]; tauto
            refine L.mono' (ih cur' kept (save ++ [(inter, sumAdd SDD.isZero C.lt rs succ)])
              (rem ++ rem1) hc1) ?_
            rintro ⟨r1, r2, r3⟩ ⟨⟨delta, todo', rem', h1, h2, h3, h4, h5, h6, h7⟩, hcoh⟩
            refine ⟨⟨(inter, sumAdd SDD.isZero C.lt rs succ) :: delta, todo', rem1 ++ rem',
              by simpa using h1, by simpa using h2, h3, ?_, ?_, ?_, ?_⟩, fun a b T ha hb => ?_⟩
            rotate_right
            · by_cases har : memV a rv
              · exact hrv a b T har hb
              · rcases (look_cons _ _ _ _).1 hb with hb | hb
                · exact hi3 a b ha hb.1
                · exact hcoh a b T ((hc3 a).2 ⟨ha, har⟩) hb
            · refine Part.mkCons hEi h4 fun a ha S hl => ?_
              rw [h5, hc3] at hl
              exact hl.1.2 ((hi2 a).1 ha).2
            · intro a S
              rw [look_cons, h5, hc3, hi2]
              simp only [Merge, look_cons]
              constructor
              · rintro (⟨⟨h8, h9⟩, rfl⟩ | ⟨⟨h8, h9⟩, h10⟩)
                · exact ⟨h8, Or.inl ⟨rs, Or.inl ⟨h9, rfl⟩, rfl⟩⟩
                · refine ⟨h8, ?_⟩
                  simpa [h9] using h10
              · rintro ⟨h8, h9⟩
                by_cases harv : memV a rv
                · left
                  refine ⟨⟨h8, harv⟩, ?_⟩
                  rcases h9 with ⟨S0, ⟨_, rfl⟩ | h10, rfl⟩ | ⟨h10, _⟩
                  · rfl
                  · exact absurd h10 (hdis a harv _)
                  · exact absurd (Or.inl ⟨harv, rfl⟩) (h10 rs)
                · right
                  refine ⟨⟨h8, harv⟩, ?_⟩
                  simpa [harv] using h9
            · have hperm : (todo' ++ (rem1 ++ rem')).Perm (rem1 ++ (todo' ++ rem')) := by
                rw [← List.append_assoc, ← List.append_assoc]
                exact (List.perm_append_comm).append_right _
              refine Part.perm (hrP.append h6 fun a S S' h8 h9 => ?_) hperm
              rw [hrL] at h8
              rw [h7] at h9
              exact hdis a h8.1 _ h9.2
            · intro a S
              have h7' := h7 a S
              rw [look_append] at h7' ⊢
              rw [look_append, hrL, look_cons]
              rw [hc3] at h7'
              constructor
              · rintro (h8 | ⟨h8, h9, rfl⟩ | h8)
                · have h8' := h7'.1 (Or.inl h8)
                  refine ⟨fun ha => h8'.1 ⟨ha, fun hb => hdis a hb _ h8'.2⟩, Or.inr h8'.2⟩
                · exact ⟨h9, Or.inl ⟨h8, rfl⟩⟩
                · have h8' := h7'.1 (Or.inr h8)
                  refine ⟨fun ha => h8'.1 ⟨ha, fun hb => hdis a hb _ h8'.2⟩, Or.inr h8'.2⟩
              · rintro ⟨h8, ⟨h9, rfl⟩ | h9⟩
                · exact Or.inr (Or.inl ⟨h9, h8, rfl⟩)
                · rcases h7'.2 ⟨fun h => h8 h.1, h9⟩ with h10 | h10
                  · exact Or.inl h10
                  · exact Or.inr (Or.inr h10)

/-- The loop (B). -/
theorem sumArcs_sat (hC : C.Lawful) (hk : KindS C L R S t t' x k memV D K cons)
    (arcs : List (α × SDD V)) :
    (∀ arc ∈ arcs, D arc.1) → (∀ arc ∈ arcs, Dom C t' arc.2) → (∀ arc ∈ arcs, arc.2 ≠ .zero) →
    (arcs.Pairwise fun b c => ∀ a, ¬ (memV a b.1 ∧ memV a c.1)) →
    (∀ b ∈ arcs, ∀ c ∈ arcs, ∀ a a', memV a b.1 → memV a' c.1 → K a a') →
    ∀ res save : List (α × List (SDD V)), Part C t' memV D res →
    (∀ a b T T', Look memV res a T → Look memV res b T' → K a b) →
    L.Sat (sumArcs C k arcs res save) fun r => ∃ delta, SaveEq r.2 (save ++ delta) ∧
      Part C t' memV D r.1 ∧ Part C t' memV D delta ∧
      (∀ a S, Look memV r.1 a S ↔ (∀ arc ∈ arcs, ¬ memV a arc.1) ∧ Look memV res a S) ∧
      (∀ a S, Look memV delta a S ↔ ∃ arc ∈ arcs, memV a arc.1 ∧ Merge C memV arc.2 res a S) ∧
      (∀ arc ∈ arcs, ∀ a b T, memV a arc.1 → Look memV res b T → K a b) := by
  induction arcs with
  | nil =>
    intro _ _ _ _ _ res save hres _
    unfold sumArcs
    refine L.pure' ⟨[], by simpa using SaveEq.refl _, hres, Part.nil, ?_, ?_, by simp⟩
    · intro a S; simp
    · intro a S; simp [look_nil]
  | cons arc arcs ih =>
    obtain ⟨val, succ⟩ := arc
    intro h1 h2 h3 h4 hKa res save hres hKr
    rw [List.pairwise_cons] at h4
    have ih := ih (fun arc ha => h1 arc (by simp [ha])) (fun arc ha => h2 arc (by simp [ha]))
      (fun arc ha => h3 arc (by simp [ha])) h4.2
      (fun b hb c hc => hKa b (by simp [hb]) c (by simp [hc]))
    unfold sumArcs
    refine L.bind' (L.ord' res) ?_
    intro res1 hperm
    refine L.bind' (scan_sat hC hk (h2 (val, succ) (by simp)) (h3 (val, succ) (by simp)) res1
      (hres.perm hperm) (fun a b T T' h1 h2 => hKr a b T T' ((Look.perm hperm _ _).1 h1)
        ((Look.perm hperm _ _).1 h2)) val [] save [] (h1 (val, succ) (by simp))) ?_
    rintro ⟨res2, save2, rem2⟩ ⟨⟨delta, todo', rem', k1, k2, k3, k4, k5, k6, k7⟩, k8⟩
    simp only [List.nil_append] at k2 k3
    subst k2 k3
    simp only
    rw [k6.emplaceAll]
    have hk7 : ∀ a S, Look memV (res2 ++ rem2) a S ↔ ¬ memV a val ∧ Look memV res a S := by
      intro a S; rw [k7, Look.perm hperm]
    refine L.mono' (ih (res2 ++ rem2) save2 k6 fun a b T T' h1 h2 =>
      hKr a b T T' ((hk7 a T).1 h1).2 ((hk7 b T').1 h2).2) ?_
    rintro ⟨res3, save3⟩ ⟨delta', l1, l2, l3, l4, l5, l6⟩
    have hk5 : ∀ a S, Look memV delta a S ↔ memV a val ∧ Merge C memV succ res a S := by
      intro a S
      rw [k5]
      simp only [Merge, Look.perm hperm]
    have hmerge : ∀ arc ∈ arcs, ∀ a, memV a arc.1 → ∀ S,
        (Merge C memV arc.2 (res2 ++ rem2) a S ↔ Merge C memV arc.2 res a S) := by
      intro arc ha a hm S
      have : ¬ memV a val := fun h => h4.1 arc ha a ⟨h, hm⟩
      simp only [Merge, hk7, this, not_false_eq_true, true_and]
    refine ⟨delta ++ delta', ?_, l2, ?_, ?_, ?_, fun arc harc a b T ha hb => ?_⟩
    rotate_right
    · rw [List.mem_cons] at harc
      rcases harc with rfl | harc
      · exact k8 a b T ha ((Look.perm hperm _ _).2 hb)
      · by_cases hbv : memV b val
        · exact hKa arc (by simp [harc]) (val, succ) (by simp) a b ha hbv
        · exact l6 arc harc a b T ha ((hk7 b T).2 ⟨hbv, hb⟩)
    · refine l1.trans ?_
      rw [← List.append_assoc]
      exact k1.append_right _
    · refine k4.append l3 fun a S S' h5 h6 => ?_
      rw [hk5] at h5
      obtain ⟨arc, ha, hm, _⟩ := (l5 a S').1 h6
      exact h4.1 arc ha a ⟨h5.1, hm⟩
    · intro a S
      rw [l4, hk7]
      simp only [List.mem_cons, forall_eq_or_imp]
      tauto
    · intro a S
      rw [look_append, hk5, l5]
      constructor
      · rintro (⟨h5, h6⟩ | ⟨arc, ha, hm, h5⟩)
        · exact ⟨(val, succ), by simp, h5, h6⟩
        · exact ⟨arc, by simp [ha], hm, (hmerge arc ha a hm S).1 h5⟩
      · rintro ⟨arc, ha, hm, h5⟩
        rw [List.mem_cons] at ha
        rcases ha with rfl | ha
        · exact Or.inl ⟨hm, h5⟩
        · exact Or.inr ⟨arc, ha, hm, (hmerge arc ha a hm S).2 h5⟩

/-- `res` represents the relation `G`: the element `a` goes to the successor `s`. (Specification or proof device, not part of the code.) -/
structure Rep (C : Cfg V E) (t' : Ty) (memV : A → α → Prop) (D : α → Prop)
    (res : List (α × List (SDD V))) (G : A → SDD V → Prop) : Prop where
  part : Part C t' memV D res
  sound : ∀ e ∈ res, ∀ a, memV a e.1 → ∀ s, s ∈ e.2 ↔ G a s
  complete : ∀ a s, G a s → ∃ S, Look memV res a S

/-- Compatible nodes are nodes of the same kind and variable. (Specification or proof device, not part of the code.) -/
structure ViewOK (k : Kind V m α) : Prop where
  view_node : ∀ x arcs, k.view (k.node x arcs) = some (x, arcs)
  compat : ∀ x arcs s, compatible (k.node x arcs) s = true → ∃ arcs', s = k.node x arcs'

/-- The relation between elements of valuations and successors given by arcs. (Specification or proof device, not part of the code.) -/
def ArcRel (memV : A → α → Prop) (arcs : List (α × SDD V)) (a : A) (s : SDD V) : Prop :=
  ∃ arc ∈ arcs, memV a arc.1 ∧ arc.2 = s

/-- The relation given by nodes. (Specification or proof device, not part of the code.) -/
def NodeRel (k : Kind V m α) (memV : A → α → Prop) (x : Nat) (xs : List (SDD V)) (a : A)
    (s : SDD V) : Prop :=
  ∃ arcs, k.node x arcs ∈ xs ∧ ArcRel memV arcs a s

theorem Rep.step (hC : C.Lawful) {res res' delta : List (α × List (SDD V))}
    {arcs : List (α × SDD V)} {G : A → SDD V → Prop}
    (hne : ∀ arc ∈ arcs, arc.2 ≠ .zero)
    (hdis : ∀ b ∈ arcs, ∀ c ∈ arcs, ∀ a, memV a b.1 → memV a c.1 → b.2 = c.2)
    (h : Rep C t' memV D res G)
    (l2 : Part C t' memV D res') (l3 : Part C t' memV D delta)
    (l4 : ∀ a S, Look memV res' a S ↔ (∀ arc ∈ arcs, ¬ memV a arc.1) ∧ Look memV res a S)
    (l5 : ∀ a S, Look memV delta a S ↔
      ∃ arc ∈ arcs, memV a arc.1 ∧ Merge C memV arc.2 res a S) :
    Part C t' memV D (res' ++ delta) ∧
    Rep C t' memV D (res' ++ delta) (fun a s => G a s ∨ ArcRel memV arcs a s) := by
  have hp : Part C t' memV D (res' ++ delta) := by
    refine l2.append l3 fun a S S' h1 h2 => ?_
    rw [l4] at h1
    rw [l5] at h2
    obtain ⟨arc, ha, hm, _⟩ := h2
    exact h1.1 arc ha hm
  refine ⟨hp, hp, ?_, ?_⟩
  · intro e he a ha s
    have hl : Look memV (res' ++ delta) a e.2 := ⟨e, he, ha, rfl⟩
    rw [look_append, l4, l5] at hl
    rcases hl with ⟨h1, e', he', ha', heq⟩ | ⟨arc, harc, hm, h1⟩
    · rw [← heq, h.sound e' he' a ha']
      constructor
      · exact Or.inl
      · rintro (h2 | ⟨arc, h2, h3, _⟩)
        · exact h2
        · exact absurd h3 (h1 arc h2)
    · have hz : SDD.isZero arc.2 = false := by
        by_contra hc; rw [Bool.not_eq_false, isZero_iff] at hc; exact hne arc harc hc
      have harel : ArcRel memV arcs a s ↔ s = arc.2 := by
        constructor
        · rintro ⟨arc', h2, h3, rfl⟩
          exact hdis arc' h2 arc harc a h3 hm
        · rintro rfl; exact ⟨arc, harc, hm, rfl⟩
      rcases h1 with ⟨S0, ⟨e', he', ha', rfl⟩, heq⟩ | ⟨h1, heq⟩
      · rw [heq, mem_sumAdd hC.lt_st, h.sound e' he' a ha', harel]
        simp [hz]; tauto
      · rw [heq, mem_sumAdd hC.lt_st, harel]
        have : ¬ G a s := fun hg => by
          obtain ⟨S, hS⟩ := h.complete a s hg
          exact h1 S hS
        simp [hz, this]
  · intro a s hG
    by_cases hex : ∃ arc ∈ arcs, memV a arc.1
    · obtain ⟨arc, harc, hm⟩ := hex
      by_cases hS : ∃ S0, Look memV res a S0
      · obtain ⟨S0, hS⟩ := hS
        exact ⟨_, (look_append _ _ _ _).2 (Or.inr ((l5 a _).2 ⟨arc, harc, hm, Or.inl ⟨S0, hS, rfl⟩⟩))⟩
      · rw [not_exists] at hS
        exact ⟨_, (look_append _ _ _ _).2 (Or.inr ((l5 a _).2 ⟨arc, harc, hm, Or.inr ⟨hS, rfl⟩⟩))⟩
    · have hno : ∀ arc ∈ arcs, ¬ memV a arc.1 := fun arc h1 h2 => hex ⟨arc, h1, h2⟩
      rcases hG with hG | ⟨arc, h1, h2, _⟩
      · obtain ⟨S, hS⟩ := h.complete a s hG
        exact ⟨S, (look_append _ _ _ _).2 (Or.inl ((l4 a S).2 ⟨hno, hS⟩))⟩
      · exact absurd h2 (hno arc h1)

/-- The loop (A). -/
theorem sumOperands_sat (hC : C.Lawful) (hk : KindS C L R S t t' x k memV D K cons) (hv : ViewOK k)
    {arcs0 : List (α × SDD V)} (xs : List (SDD V))
    (htop : ∀ y ∈ xs, compatible (k.node x arcs0) y ≠ true → L.allow (.top (k.node x arcs0) y)) :
    (∀ y ∈ xs, Dom C t y) → (∀ y ∈ xs, SelfIn C R S y) →
    ∀ (res : List (α × List (SDD V))) (G : A → SDD V → Prop), Rep C t' memV D res G →
    (∀ a b s s', G a s → G b s' → K a b) →
    L.Sat (sumOperands C k (k.node x arcs0) xs res) fun res' =>
      Rep C t' memV D res' (fun a s => G a s ∨ NodeRel k memV x xs a s) ∧
      (∀ y ∈ xs, compatible (k.node x arcs0) y = true) ∧
      (∀ a b s s', G a s ∨ NodeRel k memV x xs a s → G b s' ∨ NodeRel k memV x xs b s' → K a b) := by
  induction xs with
  | nil =>
    intro _ _ res G h hKG
    unfold sumOperands
    refine L.pure' ⟨?_, by simp, by simpa [NodeRel] using hKG⟩
    simpa [NodeRel] using h
  | cons y xs ih =>
    intro hdom hself res G h hKG
    unfold sumOperands
    by_cases hc : compatible (k.node x arcs0) y = true
    · rw [if_pos hc]
      obtain ⟨arcs, rfl⟩ := hv.compat _ _ _ hc
      rw [hv.view_node]
      obtain ⟨g1, g2, g3⟩ := hk.node_inv arcs (hdom _ (by simp)) (hself _ (by simp))
      obtain ⟨g4, -⟩ := hk.arcs_in (arcs := arcs) (hdom _ (by simp)) (hself _ (by simp))
      have hlook : ∀ a T, Look memV res a T → ∃ s, G a s := by
        rintro a T ⟨e, he, ha, rfl⟩
        obtain ⟨s, l, hl⟩ := List.exists_cons_of_ne_nil (h.part.ok e he).succsNe
        exact ⟨s, (h.sound e he a ha s).1 (by simp [hl])⟩
      refine L.bind' (L.ord' arcs) ?_
      intro arcs1 hp1
      refine L.bind' (sumArcs_sat hC hk arcs1 (fun arc ha => g2 arc (hp1.mem_iff.1 ha))
        (fun arc ha => g3 arc (hp1.mem_iff.1 ha)) (fun arc ha => g1.succNe arc (hp1.mem_iff.1 ha))
        (g1.disj_perm hp1) (fun b hb c hc => g4 b (hp1.mem_iff.1 hb) c (hp1.mem_iff.1 hc)) res [] h.part
        fun a b T T' h1 h2 => ?_) ?_
      · obtain ⟨s, hs⟩ := hlook a T h1
        obtain ⟨s', hs'⟩ := hlook b T' h2
        exact hKG a b s s' hs hs'
      rintro ⟨res1, save⟩ ⟨delta, l1, l2, l3, l4, l5, l6⟩
      simp only [hp1.mem_iff] at l1 l2 l4 l5 l6 ⊢
      rw [List.nil_append] at l1
      obtain ⟨hp, hrep⟩ := Rep.step hC g1.succNe
        (fun b hb c hc a h1 h2 => by rw [g1.unique hb hc h1 h2]) h l2 l3 l4 l5
      rw [l1, hp.emplaceAll]
      have hAG : ∀ a b s s', ArcRel memV arcs a s → G b s' → K a b := by
        rintro a b s s' ⟨arc, harc, ha, rfl⟩ hb
        obtain ⟨T, hT⟩ := h.complete b s' hb
        exact l6 arc harc a b T ha hT
      refine L.mono' (ih (fun y hy => htop y (by simp [hy]))
        (fun y hy => hdom y (by simp [hy])) (fun y hy => hself y (by simp [hy])) (res1 ++ delta) _ hrep ?_) ?_
      · rintro a b s s' (ha | ha) (hb | hb)
        · exact hKG a b s s' ha hb
        · exact hk.symm _ _ (hAG b a s' s hb ha)
        · exact hAG a b s s' ha hb
        · obtain ⟨b1, hb1, ha1, _⟩ := ha
          obtain ⟨b2, hb2, ha2, _⟩ := hb
          exact g4 b1 hb1 b2 hb2 a b ha1 ha2
      rintro res2 ⟨hr, hr', hr''⟩
      have heqG : (fun a s => (G a s ∨ ArcRel memV arcs a s) ∨ NodeRel k memV x xs a s) =
            fun a s => G a s ∨ NodeRel k memV x (k.node x arcs :: xs) a s := by
          funext a s
          apply propext
          unfold NodeRel
          constructor
          · rintro ((h1 | h1) | ⟨arcs', h1, h2⟩)
            · exact Or.inl h1
            · exact Or.inr ⟨arcs, by simp, h1⟩
            · exact Or.inr ⟨arcs', by simp [h1], h2⟩
          · rintro (h1 | ⟨arcs', h1, h2⟩)
            · exact Or.inl (Or.inl h1)
            · rw [List.mem_cons] at h1
              rcases h1 with h1 | h1
              · have h3 := congrArg k.view h1
                rw [hv.view_node, hv.view_node] at h3
                cases h3
                exact Or.inl (Or.inr h2)
              · exact Or.inr ⟨arcs', h1, h2⟩
      have heqG' := fun a s => (congrFun (congrFun heqG a) s).symm.to_iff
      refine ⟨by rwa [← heqG], ?_, fun a b s s' ha hb => hr'' a b s s' ((heqG' a s).1 ha) ((heqG' b s').1 hb)⟩
      · intro y hy
        rw [List.mem_cons] at hy
        rcases hy with rfl | hy
        · exact hc
        · exact hr' y hy
    · rw [if_neg hc]
      exact L.raise' (htop y (by simp) hc)

/-- The successor of an element after summing. (Specification or proof device, not part of the code.) -/
structure IsSum (C : Cfg V E) (t' : Ty) (succs : List (SDD V)) (s : SDD V) : Prop where
  dom : Dom C t' s
  mem : ∀ p, Mem C p s ↔ ∃ y ∈ succs, Mem C p y

theorem IsSum.unique (hC : C.Lawful) {succs : List (SDD V)} {s s' : SDD V}
    (h : IsSum C t' succs s) (h' : IsSum C t' succs s') : s = s' :=
  canonical_ext hC h.dom.wf h'.dom.wf fun p => by rw [h.mem, h'.mem]

theorem sumSquare_sat (hC : C.Lawful) (hk : KindOK C L t t' x k memV D cons G)
    {rec : Op V → m (SDD V)} {Q : List (SDD V) → Prop} (res : List (α × List (SDD V))) :
    (∀ e ∈ res, EntryOK C t' memV D e) →
    (∀ e ∈ res, L.Sat (ddSum rec e.2) fun r => Dom C t' r ∧ (∀ p, Mem C p r ↔ ∃ x ∈ e.2, Mem C p x) ∧ Q e.2) →
    ∀ su, SuOK C t' k D su →
    L.Sat (sumSquare C k rec res su) fun su' => SuOK C t' k D su' ∧
      (∀ a s, SuMem memV su' a s ↔ SuMem memV su a s ∨
        ∃ e ∈ res, memV a e.1 ∧ IsSum C t' e.2 s) ∧
      (∀ e ∈ res, (∃ s, IsSum C t' e.2 s) ∧ Q e.2) ∧
      (SuDisj memV su → (res.Pairwise fun b c => ∀ a, ¬ (memV a b.1 ∧ memV a c.1)) →
        (∀ a s, SuMem memV su a s → ∀ e ∈ res, ¬ memV a e.1) → SuDisj memV su') := by
  induction res with
  | nil =>
    intro _ _ su hsu
    unfold sumSquare
    exact L.pure' ⟨hsu, fun a s => by simp, by simp, fun h _ _ => h⟩
  | cons e res ih =>
    obtain ⟨val, succs⟩ := e
    intro hE hrec su hsu
    have he := hE (val, succs) (by simp)
    unfold sumSquare
    refine L.bind' (hrec (val, succs) (by simp)) ?_
    rintro s ⟨hs1, hs2, hs3⟩
    have hs0 : s ≠ .zero := by
      obtain ⟨y, l, hl⟩ := List.exists_cons_of_ne_nil he.succsNe
      simp only at hl
      have hy := he.succs.ne y (by simp [hl])
      have hyD := he.succs.dom y (by simp [hl])
      have : y ≠ .zero := by rintro rfl; simp [SDD.isZero] at hy
      obtain ⟨p, hp⟩ := hyD.exists_mem this
      rintro rfl
      exact not_mem_zero p ((hs2 p).2 ⟨y, by simp [hl], hp⟩)
    have hv0 : k.isEmpty val = false := (hk.isEmpty_false he.dom).2 he.ne
    refine L.mono' (ih (fun e h => hE e (by simp [h])) (fun e h => hrec e (by simp [h])) _ (hsu.add hC hk hs1 hs0 he.dom hv0)) ?_
    rintro su' ⟨h1, h2, h2', h2''⟩
    refine ⟨h1, fun a s' => ?_, fun e he' => ?_, fun h3 h4 h5 => ?_⟩
    rotate_right
    · rw [List.pairwise_cons] at h4
      refine h2'' (h3.add hC hk hsu fun a ha hm => h5 a s hm (val, succs) (by simp) ha) h4.2 fun a s' hm e he' hae => ?_
      rw [suMem_add hC hk hsu hv0] at hm
      rcases hm with hm | ⟨_, hm⟩
      · exact h5 a s' hm e (by simp [he']) hae
      · exact h4.1 e he' a ⟨hm, hae⟩
    rotate_left
    · rw [List.mem_cons] at he'
      rcases he' with rfl | he'
      · exact ⟨⟨s, hs1, hs2⟩, hs3⟩
      · exact h2' e he'
    rw [h2, suMem_add hC hk hsu hv0]
    constructor
    · rintro ((h3 | ⟨rfl, h3⟩) | ⟨e, h3, h4⟩)
      · exact Or.inl h3
      · exact Or.inr ⟨(val, succs), by simp, h3, hs1, hs2⟩
      · exact Or.inr ⟨e, by simp [h3], h4⟩
    · rintro (h3 | ⟨e, h3, h4, h5⟩)
      · exact Or.inl (Or.inl h3)
      · rw [List.mem_cons] at h3
        rcases h3 with rfl | h3
        · exact Or.inl (Or.inr ⟨h5.unique hC ⟨hs1, hs2⟩, h4⟩)
        · exact Or.inr ⟨e, h3, h4, h5⟩

/-- A list of different elements, each of them attached to an element of another list which has no other one. -/
theorem length_le_of_class {β γ : Type} {r : β → γ → Prop} {l : List β} : ∀ {l' : List γ}, l.Nodup → (∀ s ∈ l, ∃ y ∈ l', r s y) →
    (∀ s s' y, y ∈ l' → r s y → r s' y → s = s') → l.length ≤ l'.length := by
  induction l with
  | nil => intro l' _ _ _; exact Nat.zero_le _
  | cons s l ih =>
    intro l' hn h1 h2
    rw [List.nodup_cons] at hn
    obtain ⟨y, hy, hr⟩ := h1 s (by simp)
    obtain ⟨l1, l2, rfl⟩ := List.append_of_mem hy
    have := ih (l' := l1 ++ l2) hn.2 (fun s' hs' => ?_) fun s' s'' z hz => h2 s' s'' z (by
      rw [List.mem_append] at hz
      rw [List.mem_append, List.mem_cons]
      exact hz.imp id .inr)
    · simp only [List.length_append, List.length_cons] at this ⊢
      omega
    · obtain ⟨z, hz, hr'⟩ := h1 s' (by simp [hs'])
      refine ⟨z, ?_, hr'⟩
      rw [List.mem_append, List.mem_cons] at hz
      rcases hz with hz | rfl | hz
      · exact List.mem_append_left _ hz
      · exact absurd (h2 s s' z hy hr hr' ▸ hs') hn.1
      · exact List.mem_append_right _ hz

/-- The generic sum computes the union. -/
theorem sumWork_sat (hC : C.Lawful) (hk : KindS C L R S t t' x k memV D K cons) (hv : ViewOK k)
    (hov : C.limit = none ∨ L.allow .overflow)
    {rec : Op V → m (SDD V)} (hrec : ∀ a, RecS C L R (fun q => S (cons a q)) B t' rec)
    {arcs0 : List (α × SDD V)} (xs : List (SDD V))
    (htop : ∀ y ∈ xs, compatible (k.node x arcs0) y ≠ true → L.allow (.top (k.node x arcs0) y))
    (hdom0 : Dom C t (k.node x arcs0)) (hdom : ∀ y ∈ xs, Dom C t y)
    (hself : ∀ y ∈ k.node x arcs0 :: xs, SelfIn C R S y) (hB : ∀ n, n ≤ (k.node x arcs0 :: xs).length → B n) :
    L.Sat (sumWork C k rec (k.node x arcs0) xs) fun r => Dom C t r ∧
      (∀ p, Mem C p r ↔ ∃ y ∈ k.node x arcs0 :: xs, Mem C p y) ∧
      ∀ y ∈ k.node x arcs0 :: xs, ∀ z ∈ k.node x arcs0 :: xs, Coh C R y z := by
  obtain ⟨g1, g2, g3⟩ := hk.node_inv arcs0 hdom0 (hself _ (by simp))
  obtain ⟨g4, -⟩ := hk.arcs_in hdom0 (hself _ (by simp))
  unfold sumWork
  rw [hv.view_node]
  simp only
  refine L.bind' (L.ord' arcs0) ?_
  intro arcs1 hp1
  -- initialisation
  have hinit : Rep C t' memV D (emplaceAll []
      (arcs1.map fun a => (a.1, sumAdd SDD.isZero C.lt [] a.2))) (ArcRel memV arcs0) := by
    have hz : ∀ a ∈ arcs0, SDD.isZero a.2 = false := by
      intro a ha
      by_contra hc; rw [Bool.not_eq_false, isZero_iff] at hc; exact g1.succNe a ha hc
    have hp : Part C t' memV D
        ([] ++ arcs1.map fun a => (a.1, sumAdd SDD.isZero C.lt [] a.2)) := by
      rw [List.nil_append]
      refine ⟨?_, ?_⟩
      · intro e he
        rw [List.mem_map] at he
        obtain ⟨a, ha, rfl⟩ := he
        have ha := hp1.mem_iff.1 ha
        exact ⟨g2 a ha, g1.valNe a ha, BGood.nil.add hC.lt_st (g3 a ha), sumAdd_ne_nil (hz a ha)⟩
      · rw [List.pairwise_map]
        exact g1.disj_perm hp1
    rw [hp.emplaceAll, List.nil_append]
    rw [List.nil_append] at hp
    refine ⟨hp, ?_, ?_⟩
    · intro e he a ha s
      rw [List.mem_map] at he
      obtain ⟨arc, harc, rfl⟩ := he
      have harc := hp1.mem_iff.1 harc
      simp only at ha ⊢
      rw [mem_sumAdd hC.lt_st]
      simp only [hz arc harc, and_true, List.not_mem_nil, or_false]
      constructor
      · rintro rfl; exact ⟨arc, harc, ha, rfl⟩
      · rintro ⟨arc', h1, h2, rfl⟩
        rw [g1.unique h1 harc h2 ha]
    · rintro a s ⟨arc, h1, h2, rfl⟩
      exact ⟨_, (arc.1, sumAdd SDD.isZero C.lt [] arc.2), by
        rw [List.mem_map]; exact ⟨arc, hp1.mem_iff.2 h1, rfl⟩, h2, rfl⟩
  refine L.bind' (sumOperands_sat hC hk hv xs htop hdom (fun y hy => hself y (by simp [hy])) _ _ hinit ?_) ?_
  · rintro a b s s' ⟨b1, hb1, ha1, _⟩ ⟨b2, hb2, ha2, _⟩
    exact g4 b1 hb1 b2 hb2 a b ha1 ha2
  rintro res ⟨hrep, hcomp, hKG⟩
  -- the successors of the elements of `res`
  have hsuccs : ∀ e ∈ res, ∀ a, memV a e.1 → ∀ s ∈ e.2, SelfIn C R (fun q => S (cons a q)) s := by
    intro e he a ha s hs
    rcases (hrep.sound e he a ha s).1 hs with ⟨arc, h4, h5, rfl⟩ | ⟨arcs, h4, arc, h5, h6, rfl⟩
    · exact (hk.arcs_in hdom0 (hself _ (by simp))).2 arc h4 a h5
    · exact (hk.arcs_in (hdom _ h4) (hself _ (by simp [h4]))).2 arc h5 a h6
  -- at most one successor for each operand
  have hlen : ∀ e ∈ res, e.2.length ≤ (k.node x arcs0 :: xs).length := by
    intro e he
    obtain ⟨a, ha⟩ := (hrep.part.ok e he).ne
    refine length_le_of_class (r := fun s y => ∃ arcs, y = k.node x arcs ∧ ArcRel memV arcs a s)
      ((hrep.part.ok e he).succs.sorted.imp fun h => hC.lt_st.ne_of h) (fun s hs => ?_) ?_
    · rcases (hrep.sound e he a ha s).1 hs with h4 | ⟨arcs, h4, h5⟩
      · exact ⟨_, List.mem_cons_self, arcs0, rfl, h4⟩
      · exact ⟨_, List.mem_cons_of_mem _ h4, arcs, rfl, h5⟩
    · rintro s s' y hy ⟨arcs, rfl, arc, h4, h5, rfl⟩ ⟨arcs', h6, arc', h7, h8, rfl⟩
      have h9 := congrArg k.view h6
      rw [hv.view_node, hv.view_node] at h9
      cases h9
      have hd : Dom C t (k.node x arcs) := by
        rcases List.mem_cons.1 hy with hy | hy
        · rw [hy]; exact hdom0
        · exact hdom _ hy
      rw [(hk.node_inv arcs hd (hself _ hy)).1.unique h4 h7 h5 h8]
  refine L.bind' (L.ord' res) ?_
  intro res' hperm
  refine L.bind' (sumSquare_sat (Q := fun T => ∀ y ∈ T, ∀ z ∈ T, Coh C R y z) hC hk.toKindOK res' ?_ ?_ [] SuOK.nil) ?_
  · intro e he
    exact hrep.part.ok e (hperm.mem_iff.1 he)
  · intro e he
    have he := hperm.mem_iff.1 he
    obtain ⟨a, ha⟩ := (hrep.part.ok e he).ne
    exact ddSum_satS (hrec a) (hrep.part.ok e he).succs (hsuccs e he a ha) (hB _ (hlen e he))
  rintro su ⟨hsu1, hsu2, hsu4, hsu5⟩
  have hsu3 : ∀ a s, SuMem memV su a s ↔ ∃ e ∈ res, memV a e.1 ∧ IsSum C t' e.2 s := by
    intro a s
    rw [hsu2]
    simp [SuMem, hperm.mem_iff]
  -- the paths of an operand
  have hpath : ∀ y ∈ k.node x arcs0 :: xs, ∀ p, Mem C p y → ∃ a q s, p = cons a q ∧ Mem C q s ∧
      (ArcRel memV arcs0 a s ∨ NodeRel k memV x xs a s) := by
    intro y hy p hp
    have : ∃ arcs, y = k.node x arcs := by
      rw [List.mem_cons] at hy
      rcases hy with rfl | hy
      · exact ⟨arcs0, rfl⟩
      · exact hv.compat _ _ _ (hcomp y hy)
    obtain ⟨arcs, rfl⟩ := this
    obtain ⟨a, q, rfl, arc, h1, h2, h3⟩ := (hk.node_mem arcs p).1 hp
    refine ⟨a, q, arc.2, rfl, h3, ?_⟩
    rw [List.mem_cons] at hy
    rcases hy with hy | hy
    · have h4 := congrArg k.view hy
      rw [hv.view_node, hv.view_node] at h4
      cases h4
      exact Or.inl ⟨arc, h1, h2, rfl⟩
    · exact Or.inr ⟨arcs, hy, arc, h1, h2, rfl⟩
  refine L.mono' (finish_sat hC hk.toKindOK hov hsu1
    (hsu5 .nil (hrep.part.perm hperm).disj (by simp [SuMem])) ?_) ?_
  · intro a s s' h1 h2
    rw [hsu3] at h1 h2
    obtain ⟨e, he, ha, h3⟩ := h1
    obtain ⟨e', he', ha', h4⟩ := h2
    have := hrep.part.functional he he' ha ha'
    subst this
    exact h3.unique hC h4
  · rintro r ⟨hr1, hr2⟩
    refine ⟨hr1, fun p => ?_, fun y hy z hz p p' hp hp' => ?_⟩
    · rw [hr2]
      constructor
      · rintro ⟨a, q, rfl, s, hs, hq⟩
        rw [hsu3] at hs
        obtain ⟨e, he, ha, h3⟩ := hs
        obtain ⟨y, hy, hqy⟩ := (h3.mem q).1 hq
        rcases (hrep.sound e he a ha y).1 hy with ⟨arc, h4, h5, rfl⟩ | ⟨arcs, h4, arc, h5, h6, rfl⟩
        · exact ⟨_, by simp, (hk.node_mem arcs0 _).2 ⟨a, q, rfl, arc, h4, h5, hqy⟩⟩
        · exact ⟨k.node x arcs, by simp [h4], (hk.node_mem arcs _).2 ⟨a, q, rfl, arc, h5, h6, hqy⟩⟩
      · rintro ⟨y, hy, hp⟩
        obtain ⟨a, q, s', rfl, hq, hG⟩ := hpath y hy p hp
        obtain ⟨T, e, he, ha, rfl⟩ := hrep.complete a s' hG
        have hin := (hrep.sound e he a ha s').2 hG
        -- the sum of the successors of `e` exists
        obtain ⟨⟨s, hs2⟩, -⟩ := hsu4 e (hperm.mem_iff.2 he)
        have hs1 := (hsu3 a s).2 ⟨e, he, ha, hs2⟩
        exact ⟨a, q, rfl, s, hs1, (hs2.mem q).2 ⟨s', hin, hq⟩⟩
    · obtain ⟨a, q, s, rfl, hq, hG⟩ := hpath y hy p hp
      obtain ⟨b, q', s', rfl, hq', hG'⟩ := hpath z hz p' hp'
      refine (hk.rel_cons _ _ _ _).2 ⟨hKG a b s s' hG hG', ?_⟩
      rintro rfl
      obtain ⟨T, e, he, ha, rfl⟩ := hrep.complete a s hG
      exact (hsu4 e (hperm.mem_iff.2 he)).2 s ((hrep.sound e he a ha s).2 hG) s'
        ((hrep.sound e he a ha s').2 hG') q q' hq hq'

end
end Verif
