import Verif.Hom.RelNary
/-!
# The relation of a rewritten homomorphism

`rewrite` does not change the relation.
-/

set_option autoImplicit false
set_option linter.unusedSectionVars false

namespace Verif

open Relation (ReflTransGen)

variable {V E I U : Type} [DecidableEq V] [DecidableEq I] [DecidableEq U] {env : User V I U} {C : Cfg V E} {sc : Scope I U}

/-! ## The parts -/

/-- The parts of the operands. (Specification or proof device, not part of the code.) -/
structure Parts.Good (env : User V I U) (x : Nat) (i : OId I) (hs : List (Hom V I U)) (p : Parts V I U) : Prop where
  hasId : p.hasId = true ↔ .id ∈ hs
  F : ∀ h, h ∈ p.F ↔ h ∈ hs ∧ h ≠ .id ∧ h.skip env x i = true
  L : ∀ g, g ∈ p.L ↔ .loc x g ∈ hs
  G : ∀ h, h ∈ p.G ↔ h ∈ hs ∧ h.skip env x i = false ∧ h.isLoc = false

theorem hparts_good (env : User V I U) (x : Nat) (i : OId I) (hs : List (Hom V I U)) :
    (hparts env x i hs).Good env x i hs := by
  induction hs with
  | nil => constructor <;> simp [hparts]
  | cons h hs ih =>
    by_cases hid : h = .id
    · subst hid
      have he : hparts env x i (.id :: hs) = { hparts env x i hs with hasId := true } := by simp [hparts]
      rw [he]
      constructor
      · simp
      · intro g
        change g ∈ (hparts env x i hs).F ↔ _
        rw [ih.F]
        constructor
        · rintro ⟨h1, h2⟩; exact ⟨by simp [h1], h2⟩
        · rintro ⟨h1, h2⟩; exact ⟨by simpa [h2.1] using h1, h2⟩
      · intro g
        change g ∈ (hparts env x i hs).L ↔ _
        rw [ih.L]
        simp
      · intro g
        change g ∈ (hparts env x i hs).G ↔ _
        rw [ih.G]
        constructor
        · rintro ⟨h1, h2⟩; exact ⟨by simp [h1], h2⟩
        · rintro ⟨h1, h2⟩
          refine ⟨(List.mem_cons.1 h1).resolve_left ?_, h2⟩
          rintro rfl
          simp [Hom.skip] at h2
    · by_cases hsk : h.skip env x i = true
      · have he : hparts env x i (h :: hs) = { hparts env x i hs with F := h :: (hparts env x i hs).F } := by
          simp [hparts, hid, hsk]
        rw [he]
        constructor
        · change (hparts env x i hs).hasId = true ↔ _
          rw [ih.hasId]
          simp [Ne.symm hid]
        · intro g
          change g ∈ h :: (hparts env x i hs).F ↔ _
          rw [List.mem_cons, List.mem_cons, ih.F]
          constructor
          · rintro (rfl | ⟨h1, h2⟩)
            · exact ⟨Or.inl rfl, hid, hsk⟩
            · exact ⟨Or.inr h1, h2⟩
          · rintro ⟨rfl | h1, h2⟩
            · exact Or.inl rfl
            · exact Or.inr ⟨h1, h2⟩
        · intro g
          change g ∈ (hparts env x i hs).L ↔ _
          rw [ih.L, List.mem_cons]
          constructor
          · exact Or.inr
          · rintro (rfl | h1)
            · simp [Hom.skip] at hsk
            · exact h1
        · intro g
          change g ∈ (hparts env x i hs).G ↔ _
          rw [ih.G]
          constructor
          · rintro ⟨h1, h2⟩; exact ⟨by simp [h1], h2⟩
          · rintro ⟨h1, h2⟩
            refine ⟨(List.mem_cons.1 h1).resolve_left ?_, h2⟩
            rintro rfl
            rw [hsk] at h2
            cases h2.1
      · cases hl : h.isLoc with
        | true =>
          cases h with
          | loc y g0 =>
            have hy : y = x := by
              simp only [Hom.skip, decide_eq_true_eq, ne_eq, Decidable.not_not] at hsk
              exact hsk.symm
            subst hy
            have he : hparts env y i (.loc y g0 :: hs) = { hparts env y i hs with L := g0 :: (hparts env y i hs).L } := by
              simp [hparts, Hom.skip]
            rw [he]
            constructor
            · change (hparts env y i hs).hasId = true ↔ _
              rw [ih.hasId]
              simp
            · intro g
              change g ∈ (hparts env y i hs).F ↔ _
              rw [ih.F]
              constructor
              · rintro ⟨h1, h2⟩; exact ⟨by simp [h1], h2⟩
              · rintro ⟨h1, h2⟩
                refine ⟨(List.mem_cons.1 h1).resolve_left ?_, h2⟩
                rintro rfl
                exact hsk h2.2
            · intro g
              change g ∈ g0 :: (hparts env y i hs).L ↔ _
              rw [List.mem_cons, List.mem_cons, ih.L]
              simp
            · intro g
              change g ∈ (hparts env y i hs).G ↔ _
              rw [ih.G]
              constructor
              · rintro ⟨h1, h2⟩; exact ⟨by simp [h1], h2⟩
              · rintro ⟨h1, h2⟩
                refine ⟨(List.mem_cons.1 h1).resolve_left ?_, h2⟩
                rintro rfl
                simp [Hom.isLoc] at h2
          | _ => simp [Hom.isLoc] at hl
        | false =>
          have he : hparts env x i (h :: hs) = { hparts env x i hs with G := h :: (hparts env x i hs).G } := by
            conv_lhs => unfold hparts
            simp only [if_neg hid, if_neg hsk]
            split
            · simp [Hom.isLoc] at hl
            · rfl
          have hsk' : h.skip env x i = false := by simpa using hsk
          rw [he]
          constructor
          · change (hparts env x i hs).hasId = true ↔ _
            rw [ih.hasId]
            simp [Ne.symm hid]
          · intro g
            change g ∈ (hparts env x i hs).F ↔ _
            rw [ih.F]
            constructor
            · rintro ⟨h1, h2⟩; exact ⟨by simp [h1], h2⟩
            · rintro ⟨h1, h2⟩
              refine ⟨(List.mem_cons.1 h1).resolve_left ?_, h2⟩
              rintro rfl
              exact hsk h2.2
          · intro g
            change g ∈ (hparts env x i hs).L ↔ _
            rw [ih.L, List.mem_cons]
            constructor
            · exact Or.inr
            · rintro (rfl | h1)
              · simp [Hom.isLoc] at hl
              · exact h1
          · intro g
            change g ∈ h :: (hparts env x i hs).G ↔ _
            rw [List.mem_cons, List.mem_cons, ih.G]
            constructor
            · rintro (rfl | ⟨h1, h2⟩)
              · exact ⟨Or.inl rfl, hsk', hl⟩
              · exact ⟨Or.inr h1, h2⟩
            · rintro ⟨rfl | h1, h2⟩
              · exact Or.inl rfl
              · exact Or.inr ⟨h1, h2⟩

theorem mem_homSet {lt : Hom V I U → Hom V I U → Bool} (hlt : StrictTotal lt) {hs : List (Hom V I U)} {h : Hom V I U} :
    h ∈ homSet lt hs ↔ h ∈ hs := by
  have := (foldl_insertBy hlt (fun h : Hom V I U => h) hs [] List.Pairwise.nil).2 h
  rw [homSet, this]
  simp

/-! ## Skipped levels -/

section
variable {lt : Hom V I U → Hom V I U → Bool} {ord : List (Nat × List (Hom V I U)) → List (Nat × List (Hom V I U))}

theorem hloc_skip {x y : Nat} {i : OId I} {h : Hom V I U} (hne : x ≠ y) : (hloc y h).skip env x i = true := by
  unfold hloc
  split
  · rename_i h1; subst h1; rfl
  · exact loc_skip (Ne.symm hne)

/-- A sum or an intersection of homomorphisms which skip a level skips it. -/
theorem hnary_skip {K : NAry} (hlt : StrictTotal lt) (hord : Iterates ord) {x : Nat} {i : OId I} :
    ∀ hs, hs ≠ [] → (∀ h ∈ hs, h.skip env x i = true) → (hnary K lt ord hs).skip env x i = true := by
  refine hnary_induct hlt hord (P := fun hs k => (∀ h ∈ hs, h.skip env x i = true) → k.skip env x i = true)
    fun hs ops hne hops ih hs' => ?_
  have hg := hvisitAll_good (k := K) hlt hs
  have hfl : ∀ (h : Hom V I U), h.skip env x i = true → ∀ l ∈ hflat K h, l.skip env x i = true := by
    intro h
    induction h using nary_induct K with
    | mk hs ih =>
      intro h1 l hl
      rw [hflat_mk, mem_hflatAll] at hl
      obtain ⟨h, hm, hl⟩ := hl
      exact ih h hm (NAry.skip_iff.1 h1 h hm) l hl
    | loc y h => intro h1 l hl; simp [hflat] at hl; subst hl; exact h1
    | other h h1 => intro h2 l hl; simp [h1] at hl; subst hl; exact h2
  have h1 : ∀ h ∈ ops, h.skip env x i = true := by
    intro h hm
    rcases (hops h).1 hm with ⟨h1, _⟩ | ⟨g, hgm, rfl⟩
    · obtain ⟨h0, hm0, h2⟩ := mem_hflatAll.1 h1
      exact hfl h0 (hs' h0 hm0) _ h2
    · obtain ⟨h2, h3⟩ := hg.group g hgm
      obtain ⟨g0, hg0⟩ := List.exists_mem_of_ne_nil _ h2
      obtain ⟨h0, hm0, h4⟩ := mem_hflatAll.1 ((h3 g0).1 hg0)
      have := hfl h0 (hs' h0 hm0) _ h4
      simp only [Hom.skip, decide_eq_true_eq] at this
      exact hloc_skip this
  unfold NAry.fin
  split
  · exact h1 _ (by simp)
  · exact NAry.skip_iff.2 h1

theorem hfix_skip {x : Nat} {i : OId I} {h : Hom V I U} (h1 : h.skip env x i = true) : (hfix h).skip env x i = true := by
  cases h <;> exact h1

theorem hsatFix_skip {x y : Nat} {i : OId I} {f l : Hom V I U} {G : List (Hom V I U)} (hne : y ≠ x) (hf : f.skip env x i = true)
    (hl : l.skip env x i = true) : (hsatFix lt y f G l).skip env x i = true := by
  unfold hsatFix
  split
  · exact hf
  · split
    · exact hl
    · simpa [Hom.skip] using hne

/-- `rewrite` at lower levels does not change that a level is skipped. -/
theorem hrewrite_skip (hlt : StrictTotal lt) (hord : Iterates ord) {x : Nat} {i : OId I} (o : OB I) : ∀ (h : Hom V I U),
    o.lvl ≤ x → h.skip env x i = true → (hrewrite env lt ord o h).skip env x i = true := by
  induction o with
  | nil => intro h _ h1; exact h1
  | node id nst nxt _ ih =>
    intro h hx h1
    have hlv : nxt.lvl < x := by
      have : (OB.node id nst nxt).lvl = nxt.lvl + 1 := by simp [OB.lvl, OB.level]
      omega
    cases h with
    | sum hs =>
      rw [hrewrite]
      have hg := hparts_good env nxt.lvl id hs
      have hsk := Hom.skipAll_iff.1 h1
      simp only
      split
      · exact h1
      · generalize hF : (if (hparts env nxt.lvl id hs).hasId = true then (hparts env nxt.lvl id hs).F ++ [Hom.id] else
          (hparts env nxt.lvl id hs).F) = F'
        have hF' : ∀ h ∈ F', h.skip env x i = true := by
          intro h hm
          subst hF
          split at hm
          · rcases List.mem_append.1 hm with hm | hm
            · exact hsk h ((hg.F h).1 hm).1
            · rw [List.mem_singleton.1 hm]; rfl
          · exact hsk h ((hg.F h).1 hm).1
        unfold hsatSum
        split
        · rename_i f h2 h3
          split at h2
          · cases h2
          · rename_i hne
            cases h2
            exact ih _ (by omega) (hnary_skip hlt hord _ hne hF')
        · rename_i l h2 h3
          split at h3
          · cases h3
          · cases h3
            exact hloc_skip (by omega)
        · simp only [Hom.skip, decide_eq_true_eq]
          omega
    | inter hs =>
      rw [hrewrite]
      have hg := hparts_good env nxt.lvl id hs
      have hsk := Hom.skipAll_iff.1 h1
      simp only
      split
      · exact h1
      · generalize hF : (if (hparts env nxt.lvl id hs).hasId = true then (hparts env nxt.lvl id hs).F ++ [Hom.id] else
          (hparts env nxt.lvl id hs).F) = F'
        have hF' : ∀ h ∈ F', h.skip env x i = true := by
          intro h hm
          subst hF
          split at hm
          · rcases List.mem_append.1 hm with hm | hm
            · exact hsk h ((hg.F h).1 hm).1
            · rw [List.mem_singleton.1 hm]; rfl
          · exact hsk h ((hg.F h).1 hm).1
        unfold hsatInter
        split
        · rename_i f h2 h3
          split at h2
          · cases h2
          · rename_i hne
            cases h2
            exact ih _ (by omega) (hnary_skip hlt hord _ hne hF')
        · rename_i l h2 h3
          split at h3
          · cases h3
          · cases h3
            exact hloc_skip (by omega)
        · simp only [Hom.skip, decide_eq_true_eq]
          omega
    | fix h =>
      cases h with
      | sum hs =>
        rw [hrewrite]
        have hg := hparts_good env nxt.lvl id hs
        have hsk := Hom.skipAll_iff.1 h1
        split
        · exact h1
        · have hF' : ∀ h ∈ (hparts env nxt.lvl id hs).F ++ [Hom.id], h.skip env x i = true := by
            intro h hm
            rcases List.mem_append.1 hm with hm | hm
            · exact hsk h ((hg.F h).1 hm).1
            · rw [List.mem_singleton.1 hm]; rfl
          have hf : (if (hparts env nxt.lvl id hs).F = [] then Hom.id else
              hrewrite env lt ord nxt (hfix (hnary .sum lt ord ((hparts env nxt.lvl id hs).F ++ [.id])))).skip env x i = true := by
            split
            · rfl
            · exact ih _ (by omega) (hfix_skip (hnary_skip hlt hord _ (by simp) hF'))
          have hl : (if (hparts env nxt.lvl id hs).L = [] then Hom.id else
              hloc nxt.lvl (hrewrite env lt ord nst (hfix (hnary .sum lt ord ((hparts env nxt.lvl id hs).L ++ [.id]))))).skip
                env x i = true := by
            split
            · rfl
            · exact hloc_skip (by omega)
          exact hsatFix_skip (by omega) hf hl
      | _ => exact h1
    | _ => exact h1

/-! ## Relations -/

/-- `saturation_sum` and `saturation_intersection`.
(Constructors of `/repo/sdd/hom/saturation_sum.hh` and `/repo/sdd/hom/saturation_intersection.hh`, chosen by `/repo/sdd/hom/rewriting.hh`.) -/
def NAry.sat (K : NAry) (lt : Hom V I U → Hom V I U → Bool) (x : Nat) (F : Option (Hom V I U)) (G : List (Hom V I U))
    (L : Option (Hom V I U)) : Hom V I U :=
  match K with
  | .sum => hsatSum lt x F G L
  | .inter => hsatInter lt x F G L

theorem Rl.sat_mk (hC : C.Lawful) (hsg : Sing C) {K : NAry} {id : OId I} {nst nxt : OB I} {F G L : List (Hom V I U)} {t : Ty}
    (hne : F ++ G ++ L ≠ []) (ha : ∀ h ∈ F ++ G ++ L, AdS env C sc K (.node id nst nxt) h t) :
    Rl env C sc (.node id nst nxt) (match K with | .sum => .satSum nxt.lvl F G L | .inter => .satInter nxt.lvl F G L) t
      (NRel K (F ++ G ++ L) (relOf env C sc (.node id nst nxt))) := by
  obtain ⟨g, hg⟩ := List.exists_mem_of_ne_nil _ hne
  have hsh := ((ha g hg).1.rl hC hsg).hty.shape
  have h1 : ∀ h ∈ F ++ G ++ L, ∃ R, HRel env C sc (.node id nst nxt) h t R ∧
      REq (OB.node id nst nxt).ty R (relOf env C sc (.node id nst nxt) h) := fun h' hm => (ha h' hm).1.rl hC hsg
  choose! R hR hRe using h1
  cases K with
  | sum => exact ⟨_, .satSum R hsh (by simp [Stop, Hom.skip]) hR, NRel.congr (K := .sum) hRe⟩
  | inter =>
    exact ⟨_, .satInter R hsh hne (by simp [Stop, Hom.skip]) hR fun h' hm => ((ha h' hm).2 rfl).congr (hRe h' hm).symm,
      NRel.congr (K := .inter) hRe⟩

theorem Rl.sat (hC : C.Lawful) (hsg : Sing C) {K : NAry} {id : OId I} {nst nxt : OB I} {F : Option (Hom V I U)}
    {G : List (Hom V I U)} {L : Option (Hom V I U)} {t : Ty} (hne : F.toList ++ homSet lt G ++ L.toList ≠ [])
    (ha : ∀ h ∈ F.toList ++ homSet lt G ++ L.toList, AdS env C sc K (.node id nst nxt) h t) :
    Rl env C sc (.node id nst nxt) (K.sat lt nxt.lvl F G L) t
      (NRel K (F.toList ++ homSet lt G ++ L.toList) (relOf env C sc (.node id nst nxt))) := by
  have h1 := Rl.sat_mk hC hsg hne ha
  match G, F, L with
  | [], some f, none =>
    have : K.sat lt nxt.lvl (some f) [] none = f := by cases K <;> rfl
    rw [this]
    exact ((ha f (by simp [homSet])).1.rl hC hsg).congr NRel.single
  | [], none, some l =>
    have : K.sat lt nxt.lvl none [] (some l) = l := by cases K <;> rfl
    rw [this]
    exact ((ha l (by simp [homSet])).1.rl hC hsg).congr NRel.single
  | [], none, none => cases K <;> exact h1
  | [], some f, some l => cases K <;> exact h1
  | g :: G, F, L => cases K <;> exact h1

/-- What is asked of the rewriting at a lower level. (Specification or proof device, not part of the code.) -/
def RwOK (env : User V I U) (C : Cfg V E) (sc : Scope I U) (o : OB I) (f : Hom V I U → Hom V I U) : Prop :=
  ∀ {h : Hom V I U}, h.noEmpty = true → ∀ {t : Ty} {R : PRel E}, Rl env C sc o h t R → Rl env C sc o (f h) t R

theorem AdS.id (hC : C.Lawful) (hsg : Sing C) {K : NAry} {o : OB I} : AdS env C sc K o .id o.ty := by
  refine ⟨Rl.id.ad, fun _ => SubIdOn.congr (fun p _ p' h => h) (Rl.id.relEq hC hsg)⟩

theorem rewrite_nary (hC : C.Lawful) (hsg : Sing C) (hlt : StrictTotal lt) (hord : Iterates ord) {K : NAry} {id : OId I}
    {nst nxt : OB I} {hs : List (Hom V I U)} {t : Ty} (hn : ∀ h ∈ hs, h.noEmpty = true)
    (ha : ∀ h ∈ hs, AdS env C sc K (.node id nst nxt) h t) {rn rx : Hom V I U → Hom V I U} (hrn : RwOK env C sc nst rn)
    (hrx : RwOK env C sc nxt rx) (hrs : ∀ h : Hom V I U, h.skip env nxt.lvl id = true → (rx h).skip env nxt.lvl id = true)
    {p : Parts V I U} (hp : p.Good env nxt.lvl id hs) {F' : List (Hom V I U)}
    (hF' : F' = if p.hasId then p.F ++ [.id] else p.F) (hne : ¬ (p.F = [] ∧ p.L = [])) :
    Rl env C sc (.node id nst nxt) (K.sat lt nxt.lvl (if F' = [] then none else some (rx (hnary K lt ord F'))) p.G
        (if p.L = [] then none else some (hloc nxt.lvl (rn (hnary K lt ord p.L))))) t
      (NRel K hs (relOf env C sc (.node id nst nxt))) := by
  have hFm : ∀ h, h ∈ F' ↔ h ∈ hs ∧ h.skip env nxt.lvl id = true := by
    intro h
    subst hF'
    split
    · rename_i hi
      rw [List.mem_append, hp.F, List.mem_singleton]
      constructor
      · rintro (⟨h1, _, h2⟩ | rfl)
        · exact ⟨h1, h2⟩
        · exact ⟨hp.hasId.1 hi, rfl⟩
      · rintro ⟨h1, h2⟩
        by_cases h3 : h = .id
        · exact Or.inr h3
        · exact Or.inl ⟨h1, h3, h2⟩
    · rename_i hi
      rw [hp.F]
      constructor
      · rintro ⟨h1, _, h2⟩; exact ⟨h1, h2⟩
      · rintro ⟨h1, h2⟩
        refine ⟨h1, ?_, h2⟩
        rintro rfl
        exact hi (hp.hasId.2 h1)
  have hf : F' ≠ [] → AdS env C sc K (.node id nst nxt) (rx (hnary K lt ord F')) t ∧
      REq (OB.node id nst nxt).ty (relOf env C sc (.node id nst nxt) (rx (hnary K lt ord F')))
        (NRel K F' (relOf env C sc (.node id nst nxt))) := by
    intro hne'
    obtain ⟨g, hg⟩ := List.exists_mem_of_ne_nil _ hne'
    obtain ⟨t', h1, _⟩ := ((ha g ((hFm g).1 hg).1).1.rl hC hsg).hty.sk ((hFm g).1 hg).2
    subst h1
    have h2 : ∀ h ∈ F', AdS env C sc K nxt h t' := fun h hm => (ha h ((hFm h).1 hm).1).sk hC hsg ((hFm h).1 hm).2
    have h3 := Rl.hnary hC hsg hlt hord F' hne' (fun h hm => hn h ((hFm h).1 hm).1) h2
    have h4 := hrx (hnary_noEmpty hlt hord F' hne' fun h hm => hn h ((hFm h).1 hm).1) h3
    have h5 := h4.above (nst := nst) (hrs _ (hnary_skip hlt hord F' hne' fun h hm => ((hFm h).1 hm).2))
    have h6 : Rl env C sc (.node id nst nxt) (rx (hnary K lt ord F')) (liftTy nst nxt t')
        (NRel K F' (relOf env C sc (.node id nst nxt))) := by
      refine h5.congr fun p hp p' => ?_
      rw [NRel.lift hne']
      exact NRel.congr (fun h' hm => (relOf_skip hC hsg (h2 h' hm).1 ((hFm h').1 hm).2).symm) p hp p'
    exact ⟨AdS.of hne' hC hsg h6 fun hk h hm => (ha h ((hFm h).1 hm).1).2 hk, (h6.relEq hC hsg).symm⟩
  have hl : p.L ≠ [] → AdS env C sc K (.node id nst nxt) (hloc nxt.lvl (rn (hnary K lt ord p.L))) t ∧
      REq (OB.node id nst nxt).ty (relOf env C sc (.node id nst nxt) (hloc nxt.lvl (rn (hnary K lt ord p.L))))
        (NRel K (p.L.map (.loc nxt.lvl)) (relOf env C sc (.node id nst nxt))) := by
    intro hne'
    obtain ⟨g, hg⟩ := List.exists_mem_of_ne_nil _ hne'
    obtain ⟨_, _, _, he, ⟨_, h1, tn, _, rfl, _⟩ | ⟨h1, _⟩⟩ := ((ha _ ((hp.L g).1 hg)).1.rl hC hsg).loc_inv
    · cases he
      have h2 := fun g hg => (ha _ ((hp.L g).1 hg)).loc_inv hC hsg
      have hn' : ∀ h ∈ p.L, h.noEmpty = true := fun h hm => hn (.loc nxt.lvl h) ((hp.L h).1 hm)
      have h3 := Rl.hnary hC hsg hlt hord p.L hne' hn' fun g hg => (h2 g hg).2.2.1
      have h4 := hrn (hnary_noEmpty hlt hord p.L hne' hn') h3
      have h5 := (Rl.loc (id := id) (nxt := nxt) h1 h4).hloc
      have h6 : Rl env C sc (.node id nst nxt) (hloc nxt.lvl (rn (hnary K lt ord p.L))) (.hier nxt.lvl tn nxt.ty)
          (NRel K (p.L.map (.loc nxt.lvl)) (relOf env C sc (.node id nst nxt))) := by
        refine h5.congr fun q hq p' => ?_
        rw [NRel.inLoc hne', NRel.congr (fun g hg => (h2 g hg).2.2.2.symm) q hq p']
        cases K <;> simp [NRel]
      refine ⟨AdS.of (by simpa using hne') hC hsg h6 fun hk h hm => ?_, (h6.relEq hC hsg).symm⟩
      obtain ⟨g, hg, rfl⟩ := List.mem_map.1 hm
      exact (ha _ ((hp.L g).1 hg)).2 hk
    · cases he
      exact absurd rfl h1
  generalize hfe : rx (hnary K lt ord F') = f at hf
  generalize hle : hloc nxt.lvl (rn (hnary K lt ord p.L)) = l at hl
  have hops : ∀ h, h ∈ (if F' = [] then none else some f).toList ++ homSet lt p.G ++ (if p.L = [] then none else some l).toList ↔
      (F' ≠ [] ∧ h = f) ∨ h ∈ p.G ∨ (p.L ≠ [] ∧ h = l) := by
    intro h
    rw [List.mem_append, List.mem_append, mem_homSet hlt]
    have h1 : ∀ (P : Prop) [Decidable P] (f : Hom V I U), h ∈ (if P then none else some f).toList ↔ ¬ P ∧ h = f := by
      intro P _ f
      split
      · rename_i h2; simp [h2]
      · rename_i h2; simp [h2]
    rw [h1, h1, or_assoc]
  refine (Rl.sat hC hsg ?_ ?_).congr ?_
  · have hne2 : F' ≠ [] ∨ p.L ≠ [] := by
      by_cases h1 : p.L = []
      · left
        obtain ⟨g, hg⟩ := List.exists_mem_of_ne_nil _ (fun h2 => hne ⟨h2, h1⟩ : p.F ≠ [])
        exact List.ne_nil_of_mem ((hFm g).2 ⟨((hp.F g).1 hg).1, ((hp.F g).1 hg).2.2⟩)
      · exact Or.inr h1
    rcases hne2 with h | h
    · exact List.ne_nil_of_mem ((hops f).2 (Or.inl ⟨h, rfl⟩))
    · exact List.ne_nil_of_mem ((hops l).2 (Or.inr (Or.inr ⟨h, rfl⟩)))
  · intro h hm
    rcases (hops h).1 hm with ⟨h1, rfl⟩ | h1 | ⟨h1, rfl⟩
    · exact (hf h1).1
    · exact ha h ((hp.G h).1 h1).1
    · exact (hl h1).1
  · refine NRel.trans ((if F' = [] then [] else [(f, F')]) ++ p.G.map (fun g => (g, [g])) ++
      (if p.L = [] then [] else [(l, p.L.map (.loc nxt.lvl))])) ?_ ?_ ?_
    · intro a ham
      rcases List.mem_append.1 ham with ham | ham
      · rcases List.mem_append.1 ham with ham | ham
        · split at ham
          · cases ham
          · rename_i h1
            rw [List.mem_singleton.1 ham]
            exact (hf h1).2
        · obtain ⟨g, _, rfl⟩ := List.mem_map.1 ham
          exact NRel.single
      · split at ham
        · cases ham
        · rename_i h1
          rw [List.mem_singleton.1 ham]
          exact (hl h1).2
    · intro h
      rw [hops]
      constructor
      · rintro (⟨h1, rfl⟩ | h1 | ⟨h1, rfl⟩)
        · exact ⟨(h, F'), by simp [h1], rfl⟩
        · exact ⟨(h, [h]), by simp [h1], rfl⟩
        · exact ⟨(h, p.L.map (.loc nxt.lvl)), by simp [h1], rfl⟩
      · rintro ⟨a, ham, rfl⟩
        rcases List.mem_append.1 ham with ham | ham
        · rcases List.mem_append.1 ham with ham | ham
          · split at ham
            · cases ham
            · rename_i h1
              rw [List.mem_singleton.1 ham]
              exact Or.inl ⟨h1, rfl⟩
          · obtain ⟨g, hg, rfl⟩ := List.mem_map.1 ham
            exact Or.inr (Or.inl hg)
        · split at ham
          · cases ham
          · rename_i h1
            rw [List.mem_singleton.1 ham]
            exact Or.inr (Or.inr ⟨h1, rfl⟩)
    · intro h
      constructor
      · intro hm
        by_cases h1 : h.skip env nxt.lvl id = true
        · have h2 := (hFm h).2 ⟨hm, h1⟩
          exact ⟨(f, F'), by simp [List.ne_nil_of_mem h2], h2⟩
        · cases h2 : h.isLoc with
          | false => exact ⟨(h, [h]), by simp [(hp.G h).2 ⟨hm, by simpa using h1, h2⟩], by simp⟩
          | true =>
            cases h with
            | loc y g =>
              simp only [Hom.skip, decide_eq_true_eq, ne_eq, Decidable.not_not] at h1
              subst h1
              have h3 := (hp.L g).2 hm
              exact ⟨(l, p.L.map (.loc nxt.lvl)), by simp [List.ne_nil_of_mem h3], List.mem_map.2 ⟨g, h3, rfl⟩⟩
            | _ => simp [Hom.isLoc] at h2
      · rintro ⟨a, ham, hm⟩
        rcases List.mem_append.1 ham with ham | ham
        · rcases List.mem_append.1 ham with ham | ham
          · split at ham
            · cases ham
            · rw [List.mem_singleton.1 ham] at hm
              exact ((hFm h).1 hm).1
          · obtain ⟨g, hg, rfl⟩ := List.mem_map.1 ham
            rw [List.mem_singleton.1 hm]
            exact ((hp.G g).1 hg).1
        · split at ham
          · cases ham
          · rw [List.mem_singleton.1 ham] at hm
            obtain ⟨g, hg, rfl⟩ := List.mem_map.1 hm
            exact (hp.L g).1 hg

theorem locRel_rtc {id : OId I} {nst nxt : OB I} (hne : nst ≠ .nil) {R : PRel E} :
    REq (OB.node id nst nxt).ty (locRel nxt.lvl (ReflTransGen R)) (ReflTransGen (locRel nxt.lvl R)) := by
  intro p hp p'
  obtain ⟨hd, q, rfl, h1, _⟩ := pty_node.1 hp
  cases hd with
  | flat => exact absurd h1.1 hne
  | hier x n =>
    obtain ⟨_, rfl, _⟩ := h1
    change locRel nxt.lvl _ (.hier nxt.lvl n q) p' ↔ ReflTransGen _ (.hier nxt.lvl n q) p'
    constructor
    · rintro ⟨n0, n', q', h2, rfl, h3⟩
      cases h2
      induction h3 with
      | refl => exact .refl
      | tail _ h4 ih => exact ih.tail ⟨_, _, _, rfl, rfl, h4⟩
    · intro h2
      suffices ∃ n', p' = .hier nxt.lvl n' q ∧ ReflTransGen R n n' by
        obtain ⟨n', rfl, h⟩ := this
        exact ⟨n, n', q, rfl, rfl, h⟩
      induction h2 with
      | refl => exact ⟨n, rfl, .refl⟩
      | tail _ h3 ih =>
        obtain ⟨n', rfl, h4⟩ := ih
        obtain ⟨n1, n2, q', h5, rfl, h6⟩ := h3
        cases h5
        exact ⟨n2, rfl, h4.tail h6⟩

/-- A closure of closures. -/
theorem rtc_union {R A B G : PRel E} (h : ∀ p p', R p p' → p' = p ∨ A p p' ∨ B p p' ∨ G p p') (hA : ∀ p p', A p p' → R p p')
    (hB : ∀ p p', B p p' → R p p') (hG : ∀ p p', G p p' → R p p') (p p' : Path E) :
    ReflTransGen R p p' ↔ ReflTransGen (fun p p' => ReflTransGen A p p' ∨ ReflTransGen B p p' ∨ G p p') p p' := by
  constructor
  · intro h1
    induction h1 with
    | refl => exact .refl
    | tail _ h2 ih =>
      rcases h _ _ h2 with rfl | h3 | h3 | h3
      · exact ih
      · exact ih.tail (Or.inl (.single h3))
      · exact ih.tail (Or.inr (Or.inl (.single h3)))
      · exact ih.tail (Or.inr (Or.inr h3))
  · intro h1
    induction h1 with
    | refl => exact .refl
    | tail _ h2 ih =>
      rcases h2 with h3 | h3 | h3
      · exact ih.trans (ReflTransGen.mono hA _ _ h3)
      · exact ih.trans (ReflTransGen.mono hB _ _ h3)
      · exact ih.tail (hG _ _ h3)

theorem rtc_drop_id {A : PRel E} {p p' : Path E} : ReflTransGen (fun p p' => A p p' ∨ p' = p) p p' ↔ ReflTransGen A p p' := by
  constructor
  · intro h
    induction h with
    | refl => exact .refl
    | tail _ h2 ih =>
      rcases h2 with h3 | rfl
      · exact ih.tail h3
      · exact ih
  · exact ReflTransGen.mono (fun _ _ h => Or.inl h) _ _

theorem rtc_rtc {A : PRel E} {p p' : Path E} : ReflTransGen (ReflTransGen A) p p' ↔ ReflTransGen A p p' := by
  constructor
  · intro h
    induction h with
    | refl => exact .refl
    | tail _ h2 ih => exact ih.trans h2
  · exact .single

theorem nrel_id (hC : C.Lawful) (hsg : Sing C) {o : OB I} {F : List (Hom V I U)} :
    REq o.ty (NRel .sum (F ++ [.id]) (relOf env C sc o)) (fun p p' => NRel .sum F (relOf env C sc o) p p' ∨ p' = p) := by
  intro p hp p'
  have h1 := (Rl.id.relEq hC hsg : REq o.ty _ (relOf env C sc o .id)) p hp p'
  constructor
  · rintro ⟨h, hm, h2⟩
    rcases List.mem_append.1 hm with hm | hm
    · exact Or.inl ⟨h, hm, h2⟩
    · rw [List.mem_singleton.1 hm] at h2
      exact Or.inr (h1.2 h2)
  · rintro (⟨h, hm, h2⟩ | h2)
    · exact ⟨h, by simp [hm], h2⟩
    · exact ⟨.id, by simp, h1.1 h2⟩

theorem RTy.nrel {K : NAry} {hs : List (Hom V I U)} {F : Hom V I U → PRel E} {t t' : Ty} (hne : hs ≠ [])
    (h : ∀ g ∈ hs, RTy t t' (F g)) : RTy t t' (NRel K hs F) := by
  intro p hp p' h1
  cases K with
  | sum => obtain ⟨g, hg, h2⟩ := h1; exact h g hg p hp p' h2
  | inter => obtain ⟨g, hg⟩ := List.exists_mem_of_ne_nil _ hne; exact h g hg p hp p' (h1 g hg)

/-- The fixpoint of a sum with the identity. -/
theorem Rl.fix_sum (hC : C.Lawful) (hsg : Sing C) (hlt : StrictTotal lt) (hord : Iterates ord) {o : OB I} {F : List (Hom V I U)}
    (hn : ∀ h ∈ F, h.noEmpty = true) (ha : ∀ h ∈ F, AdS env C sc .sum o h o.ty) :
    (Verif.hfix (Verif.hnary .sum lt ord (F ++ [.id]))).noEmpty = true ∧
      Rl env C sc o (Verif.hfix (Verif.hnary .sum lt ord (F ++ [.id]))) o.ty (ReflTransGen (NRel .sum F (relOf env C sc o))) := by
  have hn' : ∀ h ∈ F ++ [.id], h.noEmpty = true := by
    intro h hm
    rcases List.mem_append.1 hm with hm | hm
    · exact hn h hm
    · rw [List.mem_singleton.1 hm]; rfl
  have ha' : ∀ h ∈ F ++ [.id], AdS env C sc .sum o h o.ty := by
    intro h hm
    rcases List.mem_append.1 hm with hm | hm
    · exact ha h hm
    · rw [List.mem_singleton.1 hm]; exact AdS.id hC hsg
  have h1 := (Rl.hnary hC hsg hlt hord (F ++ [.id]) (by simp) hn' ha').congr (nrel_id hC hsg)
  have h2 := hnary_noEmpty (K := .sum) hlt hord (F ++ [.id]) (by simp) hn'
  refine ⟨?_, (Rl.hfix hC hsg (Rl.fix hsg o h1 fun p _ => Or.inr rfl)).congr fun p _ p' => rtc_drop_id⟩
  generalize Verif.hnary .sum lt ord (F ++ [.id]) = k at h2
  cases k <;> exact h2

/-- What `rewrite` makes of the operands of a fixpoint which skip the level. -/
theorem rewrite_fix_next (hC : C.Lawful) (hsg : Sing C) (hlt : StrictTotal lt) (hord : Iterates ord) {id : OId I}
    {nst nxt : OB I} {hs : List (Hom V I U)} (hn : ∀ h ∈ hs, h.noEmpty = true)
    (ha : ∀ h ∈ hs, AdS env C sc .sum (.node id nst nxt) h (OB.node id nst nxt).ty) {rx : Hom V I U → Hom V I U}
    (hrx : RwOK env C sc nxt rx) (hrs : ∀ h : Hom V I U, h.skip env nxt.lvl id = true → (rx h).skip env nxt.lvl id = true)
    {p : Parts V I U} (hp : p.Good env nxt.lvl id hs) :
    Rl env C sc (.node id nst nxt) (if p.F = [] then .id else rx (hfix (hnary .sum lt ord (p.F ++ [.id]))))
      (OB.node id nst nxt).ty (ReflTransGen (NRel .sum p.F (relOf env C sc (.node id nst nxt)))) := by
  split
  · rename_i hF
    refine Rl.id.congr fun q _ q' => ?_
    rw [hF]
    constructor
    · rintro rfl; exact .refl
    · intro h
      induction h with
      | refl => rfl
      | tail _ h2 _ => obtain ⟨_, h3, _⟩ := h2; cases h3
  · rename_i hF
    have hm := fun h hm => (hp.F h).1 hm
    have ha' : ∀ h ∈ p.F, AdS env C sc .sum nxt h nxt.ty := by
      intro h hh
      refine AdS.sk hC hsg (id := id) (nst := nst) ?_ (hm h hh).2.2
      rw [liftTy_ty (id := id)]
      exact ha h (hm h hh).1
    obtain ⟨h1, h2⟩ := Rl.fix_sum hC hsg hlt hord (fun h hh => hn h (hm h hh).1) ha'
    have h3 := (hrx h1 h2).above (nst := nst) (hrs _ (hfix_skip (hnary_skip hlt hord _ (by simp) (by
      intro h hh
      rcases List.mem_append.1 hh with hh | hh
      · exact (hm h hh).2.2
      · rw [List.mem_singleton.1 hh]; rfl))))
    have h4 := liftRel_rtc (nst := nst) (nxt := nxt) (t := nxt.ty) (R := NRel .sum p.F (relOf env C sc nxt))
    rw [liftTy_ty (id := id)] at h3 h4
    have h5 : REq (OB.node id nst nxt).ty (NRel .sum p.F (relOf env C sc (.node id nst nxt)))
        (liftRel (NRel .sum p.F (relOf env C sc nxt))) := by
      intro q hq q'
      rw [NRel.lift hF]
      exact NRel.congr (fun h' hh => relOf_skip hC hsg (ha' h' hh).1 (hm h' hh).2.2) q hq q'
    refine h3.congr (h4.trans (REq.rtc h5 ?_).symm)
    exact RTy.nrel hF fun h hh => ((ha h (hm h hh).1).1.rl hC hsg).rty

/-- What `rewrite` makes of the local operands of a fixpoint. -/
theorem rewrite_fix_nested (hC : C.Lawful) (hsg : Sing C) (hlt : StrictTotal lt) (hord : Iterates ord) {id : OId I}
    {nst nxt : OB I} {hs : List (Hom V I U)} (hn : ∀ h ∈ hs, h.noEmpty = true)
    (ha : ∀ h ∈ hs, AdS env C sc .sum (.node id nst nxt) h (OB.node id nst nxt).ty) {rn : Hom V I U → Hom V I U} (hrn : RwOK env C sc nst rn)
    {p : Parts V I U} (hp : p.Good env nxt.lvl id hs) :
    Rl env C sc (.node id nst nxt) (if p.L = [] then .id else hloc nxt.lvl (rn (hfix (hnary .sum lt ord (p.L ++ [.id])))))
      (OB.node id nst nxt).ty (ReflTransGen (NRel .sum (p.L.map (.loc nxt.lvl)) (relOf env C sc (.node id nst nxt)))) := by
  split
  · rename_i hL
    refine Rl.id.congr fun q _ q' => ?_
    rw [hL]
    constructor
    · rintro rfl; exact .refl
    · intro h
      induction h with
      | refl => rfl
      | tail _ h2 _ => obtain ⟨_, h3, _⟩ := h2; cases h3
  · rename_i hL
    obtain ⟨g, hg⟩ := List.exists_mem_of_ne_nil _ hL
    have hm := fun h hm => (hp.L h).1 hm
    have hne : nst ≠ .nil := by
      obtain ⟨_, _, _, he, ⟨_, h1, _⟩ | ⟨h1, _⟩⟩ := ((ha _ (hm g hg)).1.rl hC hsg).loc_inv
      · cases he; exact h1
      · cases he; exact absurd rfl h1
    have ha' : ∀ h ∈ p.L, AdS env C sc .sum nst h nst.ty ∧ REq (OB.node id nst nxt).ty
        (relOf env C sc (.node id nst nxt) (.loc nxt.lvl h)) (locRel nxt.lvl (relOf env C sc nst h)) := by
      intro h hh
      have := ha _ (hm h hh)
      rw [hier_ty hne] at this
      exact (this.loc_inv hC hsg).2.2
    obtain ⟨h1, h2⟩ := Rl.fix_sum hC hsg hlt hord (fun h hh => by
      have := hn _ (hm h hh)
      simpa only [Hom.noEmpty] using this) fun h hh => (ha' h hh).1
    have h3 := (Rl.loc (id := id) (nxt := nxt) hne (hrn h1 h2)).hloc
    rw [← hier_ty (id := id) hne] at h3
    have h5 : REq (OB.node id nst nxt).ty (NRel .sum (p.L.map (.loc nxt.lvl)) (relOf env C sc (.node id nst nxt)))
        (locRel nxt.lvl (NRel .sum p.L (relOf env C sc nst))) := by
      intro q hq q'
      rw [NRel.inLoc hL, ← NRel.congr (fun h' hh => (ha' h' hh).2) q hq q']
      simp [NRel]
    refine h3.congr ((locRel_rtc hne).trans (REq.rtc h5 ?_).symm)
    refine RTy.nrel (by simpa using hL) fun h hh => ?_
    obtain ⟨g, hg, rfl⟩ := List.mem_map.1 hh
    exact ((ha _ (hm g hg)).1.rl hC hsg).rty

theorem rewrite_fix (hC : C.Lawful) (hsg : Sing C) (hlt : StrictTotal lt) (hord : Iterates ord) {id : OId I}
    {nst nxt : OB I} {hs : List (Hom V I U)} {t : Ty} {R : PRel E} (hn : ∀ h ∈ hs, h.noEmpty = true)
    (hr : Rl env C sc (.node id nst nxt) (.fix (.sum hs)) t R) {rn rx : Hom V I U → Hom V I U} (hrn : RwOK env C sc nst rn)
    (hrx : RwOK env C sc nxt rx) (hrs : ∀ h : Hom V I U, h.skip env nxt.lvl id = true → (rx h).skip env nxt.lvl id = true)
    {p : Parts V I U} (hp : p.Good env nxt.lvl id hs) (hid : p.hasId = true) :
    Rl env C sc (.node id nst nxt) (hsatFix lt nxt.lvl (if p.F = [] then .id else rx (hfix (hnary .sum lt ord (p.F ++ [.id])))) p.G
      (if p.L = [] then .id else hloc nxt.lvl (rn (hfix (hnary .sum lt ord (p.L ++ [.id])))))) t R := by
  obtain ⟨rfl, R0, h0, _⟩ := Rl.fix_inv _ hr
  have hidm := hp.hasId.1 hid
  obtain ⟨ha, hR0⟩ := Rl.nary_inv (K := .sum) hC hsg (List.ne_nil_of_mem hidm) _ h0
  have h0' := h0.congr hR0
  have hR := Rl.fix_inv_refl hC hsg hr h0' fun q hq => ⟨.id, hidm, (Rl.id.relEq hC hsg q hq q).1 rfl⟩
  have hf := rewrite_fix_next hC hsg hlt hord hn ha hrx hrs hp
  have hl := rewrite_fix_nested hC hsg hlt hord hn ha hrn hp
  generalize (if p.F = [] then .id else rx (hfix (hnary .sum lt ord (p.F ++ [.id])))) = f at hf
  generalize (if p.L = [] then .id else hloc nxt.lvl (rn (hfix (hnary .sum lt ord (p.L ++ [.id]))))) = l at hl
  generalize hA : NRel .sum p.F (relOf env C sc (.node id nst nxt)) = A at hf
  generalize hB : NRel .sum (p.L.map (.loc nxt.lvl)) (relOf env C sc (.node id nst nxt)) = B at hl
  have hX : REq (OB.node id nst nxt).ty R (ReflTransGen fun q q' => ReflTransGen A q q' ∨ ReflTransGen B q q' ∨
      ∃ g ∈ p.G, relOf env C sc (.node id nst nxt) g q q') := by
    refine hR.trans (REq.trans (REq.rtc (R' := fun q q' => q' = q ∨ A q q' ∨ B q q' ∨
      ∃ g ∈ p.G, relOf env C sc (.node id nst nxt) g q q') ?_ ?_) fun q _ q' => ?_)
    · intro q hq q'
      have h1 := (Rl.id.relEq hC hsg : REq _ _ (relOf env C sc (.node id nst nxt) .id)) q hq q'
      subst hA hB
      constructor
      · rintro ⟨h, hm, h2⟩
        by_cases h3 : h = .id
        · subst h3; exact Or.inl (h1.2 h2)
        · by_cases h4 : h.skip env nxt.lvl id = true
          · exact Or.inr (Or.inl ⟨h, (hp.F h).2 ⟨hm, h3, h4⟩, h2⟩)
          · cases h5 : h.isLoc with
            | false => exact Or.inr (Or.inr (Or.inr ⟨h, (hp.G h).2 ⟨hm, by simpa using h4, h5⟩, h2⟩))
            | true =>
              cases h with
              | loc y g =>
                simp only [Hom.skip, decide_eq_true_eq, ne_eq, Decidable.not_not] at h4
                subst h4
                exact Or.inr (Or.inr (Or.inl ⟨_, List.mem_map.2 ⟨g, (hp.L g).2 hm, rfl⟩, h2⟩))
              | _ => simp [Hom.isLoc] at h5
      · rintro (h2 | ⟨h, hm, h2⟩ | ⟨h, hm, h2⟩ | ⟨h, hm, h2⟩)
        · exact ⟨.id, hidm, h1.1 h2⟩
        · exact ⟨h, ((hp.F h).1 hm).1, h2⟩
        · obtain ⟨g, hg, rfl⟩ := List.mem_map.1 hm
          exact ⟨_, (hp.L g).1 hg, h2⟩
        · exact ⟨h, ((hp.G h).1 hm).1, h2⟩
    · exact h0'.rty
    · exact rtc_union (fun _ _ h => h) (fun _ _ h => Or.inr (Or.inl h)) (fun _ _ h => Or.inr (Or.inr (Or.inl h)))
        (fun _ _ h => Or.inr (Or.inr (Or.inr h))) q q'
  have hty : RTy (OB.node id nst nxt).ty (OB.node id nst nxt).ty fun q q' => ReflTransGen A q q' ∨ ReflTransGen B q q' ∨
      ∃ g ∈ p.G, relOf env C sc (.node id nst nxt) g q q' := by
    rintro q hq q' (h | h | ⟨g, hg, h⟩)
    · exact hf.rty q hq q' h
    · exact hl.rty q hq q' h
    · exact ((ha g ((hp.G g).1 hg).1).1.rl hC hsg).rty q hq q' h
  unfold hsatFix
  split
  · rename_i h1
    obtain ⟨h1, _, rfl⟩ := h1
    obtain ⟨_, h2⟩ := hl.id_inv
    refine hf.congr (REq.symm (hX.trans ((REq.rtc (R' := fun q q' => ReflTransGen A q q' ∨ q' = q) ?_ hty).trans
      fun q _ q' => rtc_drop_id.trans rtc_rtc)))
    intro q hq q'
    beta_reduce
    rw [h2 q hq q', h1]
    simp
  · split
    · rename_i _ h1
      obtain ⟨h1, rfl, _⟩ := h1
      obtain ⟨_, h2⟩ := hf.id_inv
      refine hl.congr (REq.symm (hX.trans ((REq.rtc (R' := fun q q' => ReflTransGen B q q' ∨ q' = q) ?_ hty).trans
        fun q _ q' => rtc_drop_id.trans rtc_rtc)))
      intro q hq q'
      beta_reduce
      rw [h2 q hq q', h1]
      simp [or_comm]
    · obtain ⟨R1, g1, g2⟩ := hf
      obtain ⟨R2, g3, g4⟩ := hl
      have h1 : ∀ h ∈ homSet lt p.G, ∃ R, HRel env C sc (.node id nst nxt) h (OB.node id nst nxt).ty R ∧
          REq (OB.node id nst nxt).ty R (relOf env C sc (.node id nst nxt) h) := fun h' hm =>
        (ha h' ((hp.G h').1 ((mem_homSet hlt).1 hm)).1).1.rl hC hsg
      choose! R3 hR3 hRe using h1
      refine ⟨_, .satFix R3 (by simp [Stop, Hom.skip]) g1 ?_ g3 ?_ hR3, REq.symm (hX.trans (REq.rtc ?_ hty))⟩
      · exact ReflOn.congr (fun q _ => .refl) g2.symm
      · exact ReflOn.congr (fun q _ => .refl) g4.symm
      · intro q hq q'
        refine or_congr (g2.symm q hq q') (or_congr (g4.symm q hq q') ?_)
        constructor
        · rintro ⟨g, hg, h⟩
          have hg' := (mem_homSet hlt).2 hg
          exact ⟨g, hg', ((hRe g hg') q hq q').2 h⟩
        · rintro ⟨g, hg, h⟩
          exact ⟨g, (mem_homSet hlt).1 hg, ((hRe g hg) q hq q').1 h⟩

/-- `rewrite` does not change the relation. -/
theorem Rl.hrewrite (hC : C.Lawful) (hsg : Sing C) (hlt : StrictTotal lt) (hord : Iterates ord) (o : OB I) :
    RwOK env C sc o (hrewrite env lt ord o) := by
  induction o with
  | nil => intro h hn t R hr; exact hr
  | node id nst nxt ihn ih =>
    intro h hn t R hr
    have hrs : ∀ h : Hom V I U, h.skip env nxt.lvl id = true →
        (Verif.hrewrite env lt ord nxt h).skip env nxt.lvl id = true := fun h => hrewrite_skip hlt hord nxt h (Nat.le_refl _)
    cases h with
    | sum hs =>
      obtain ⟨hne, hn'⟩ := noEmpty_mk (K := .sum).1 hn
      obtain ⟨ha, hR⟩ := Rl.nary_inv (K := .sum) hC hsg hne _ hr
      rw [Verif.hrewrite]
      simp only
      split
      · exact hr
      · rename_i h1
        exact (rewrite_nary (K := .sum) hC hsg hlt hord hn' ha ihn ih hrs (hparts_good env nxt.lvl id hs) rfl h1).congr hR.symm
    | inter hs =>
      obtain ⟨hne, hn'⟩ := noEmpty_mk (K := .inter).1 hn
      obtain ⟨ha, hR⟩ := Rl.nary_inv (K := .inter) hC hsg hne _ hr
      rw [Verif.hrewrite]
      simp only
      split
      · exact hr
      · rename_i h1
        exact (rewrite_nary (K := .inter) hC hsg hlt hord hn' ha ihn ih hrs (hparts_good env nxt.lvl id hs) rfl h1).congr hR.symm
    | fix h =>
      cases h with
      | sum hs =>
        obtain ⟨_, hn'⟩ := noEmpty_mk (K := .sum).1 hn
        rw [Verif.hrewrite]
        split
        · exact hr
        · rename_i h1
          exact rewrite_fix hC hsg hlt hord hn' hr ihn ih hrs (hparts_good env nxt.lvl id hs) (by simpa using h1)
      | _ => exact hr
    | _ => exact hr

end
end Verif
