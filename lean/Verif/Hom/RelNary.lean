import Verif.Hom.RelBuild
/-!
# The relations of sums, intersections, fixpoints and choices

`sum`, `intersection`, `fixpoint` and `if_then_else` do not change the relations of what they build.
-/

set_option autoImplicit false
set_option linter.unusedSectionVars false

namespace Verif

open Relation (ReflTransGen)

variable {V E I U : Type} [DecidableEq V] [DecidableEq I] [DecidableEq U] {env : User V I U} {C : Cfg V E} {sc : Scope I U}

/-- The relation of a sum or an intersection. (Specification or proof device, not part of the code.) -/
def NRel (K : NAry) (hs : List (Hom V I U)) (F : Hom V I U → PRel E) : PRel E := fun p p' =>
  match K with
  | .sum => ∃ h ∈ hs, F h p p'
  | .inter => ∀ h ∈ hs, F h p p'

theorem NRel.congr {K : NAry} {hs : List (Hom V I U)} {F F' : Hom V I U → PRel E} {t : Ty} (h : ∀ g ∈ hs, REq t (F g) (F' g)) :
    REq t (NRel K hs F) (NRel K hs F') := by
  intro p hp p'
  cases K with
  | sum => exact exists_congr fun g => and_congr_right fun hg => h g hg p hp p'
  | inter => exact forall₂_congr fun g hg => h g hg p hp p'

theorem NRel.lift {K : NAry} {hs : List (Hom V I U)} (hne : hs ≠ []) {F : Hom V I U → PRel E} {p p' : Path E} :
    liftRel (NRel K hs F) p p' ↔ NRel K hs (fun h => liftRel (F h)) p p' := by
  cases K with
  | sum =>
    constructor
    · rintro ⟨hd, q, q', rfl, rfl, h, hm, h1⟩; exact ⟨h, hm, hd, q, q', rfl, rfl, h1⟩
    · rintro ⟨h, hm, hd, q, q', rfl, rfl, h1⟩; exact ⟨hd, q, q', rfl, rfl, h, hm, h1⟩
  | inter =>
    constructor
    · rintro ⟨hd, q, q', rfl, rfl, h1⟩ h hm; exact ⟨hd, q, q', rfl, rfl, h1 h hm⟩
    · intro h1
      obtain ⟨g, hg⟩ := List.exists_mem_of_ne_nil _ hne
      obtain ⟨hd, q, q', rfl, rfl, _⟩ := h1 g hg
      refine ⟨hd, q, q', rfl, rfl, fun h hm => ?_⟩
      obtain ⟨hd', q1, q1', h2, h3, h4⟩ := h1 h hm
      rw [(Head.cons_inj h2).2, (Head.cons_inj h3).2]
      exact h4

theorem NRel.inLoc {K : NAry} {hs : List (Hom V I U)} (hne : hs ≠ []) {x : Nat} {F : Hom V I U → PRel E} {p p' : Path E} :
    locRel x (NRel K hs F) p p' ↔ NRel K hs (fun h => locRel x (F h)) p p' := by
  cases K with
  | sum =>
    constructor
    · rintro ⟨n, n', q, rfl, rfl, h, hm, h1⟩; exact ⟨h, hm, n, n', q, rfl, rfl, h1⟩
    · rintro ⟨h, hm, n, n', q, rfl, rfl, h1⟩; exact ⟨n, n', q, rfl, rfl, h, hm, h1⟩
  | inter =>
    constructor
    · rintro ⟨n, n', q, rfl, rfl, h1⟩ h hm; exact ⟨n, n', q, rfl, rfl, h1 h hm⟩
    · intro h1
      obtain ⟨g, hg⟩ := List.exists_mem_of_ne_nil _ hne
      obtain ⟨n, n', q, rfl, rfl, _⟩ := h1 g hg
      refine ⟨n, n', q, rfl, rfl, fun h hm => ?_⟩
      obtain ⟨_, _, _, h2, h3, h4⟩ := h1 h hm
      cases h2; cases h3
      exact h4

/-- Operands replaced by the operands they stand for. -/
theorem NRel.trans {K : NAry} {t : Ty} {F : Hom V I U → PRel E} (T : List (Hom V I U × List (Hom V I U)))
    (hT : ∀ a ∈ T, REq t (F a.1) (NRel K a.2 F)) {ops hs : List (Hom V I U)} (h1 : ∀ h, h ∈ ops ↔ ∃ a ∈ T, h = a.1)
    (h2 : ∀ h, h ∈ hs ↔ ∃ a ∈ T, h ∈ a.2) : REq t (NRel K ops F) (NRel K hs F) := by
  intro p hp p'
  cases K with
  | sum =>
    constructor
    · rintro ⟨h, hm, h3⟩
      obtain ⟨a, ha, rfl⟩ := (h1 h).1 hm
      obtain ⟨g, hg, h4⟩ := (hT a ha p hp p').1 h3
      exact ⟨g, (h2 g).2 ⟨a, ha, hg⟩, h4⟩
    · rintro ⟨h, hm, h3⟩
      obtain ⟨a, ha, hg⟩ := (h2 h).1 hm
      exact ⟨a.1, (h1 _).2 ⟨a, ha, rfl⟩, (hT a ha p hp p').2 ⟨h, hg, h3⟩⟩
  | inter =>
    constructor
    · intro h3 h hm
      obtain ⟨a, ha, hg⟩ := (h2 h).1 hm
      exact (hT a ha p hp p').1 (h3 _ ((h1 _).2 ⟨a, ha, rfl⟩)) h hg
    · intro h3 h hm
      obtain ⟨a, ha, rfl⟩ := (h1 h).1 hm
      exact (hT a ha p hp p').2 fun g hg => h3 g ((h2 g).2 ⟨a, ha, hg⟩)

theorem NRel.single {K : NAry} {t : Ty} {F : Hom V I U → PRel E} {h : Hom V I U} : REq t (F h) (NRel K [h] F) := by
  intro p hp p'
  cases K <;> simp [NRel]

/-- The operand has a relation, which only removes paths in an intersection. (Specification or proof device, not part of the code.) -/
def AdS (env : User V I U) (C : Cfg V E) (sc : Scope I U) (K : NAry) (o : OB I) (h : Hom V I U) (t : Ty) : Prop :=
  Ad env C sc o h t ∧ (K = .inter → SubIdOn o.ty (relOf env C sc o h))

theorem AdS.sk (hC : C.Lawful) (hsg : Sing C) {K : NAry} {id : OId I} {nst nxt : OB I} {h : Hom V I U} {t : Ty}
    (ha : AdS env C sc K (.node id nst nxt) h (liftTy nst nxt t)) (hs : h.skip env nxt.lvl id = true) : AdS env C sc K nxt h t := by
  have h1 := ha.1.sk hs
  refine ⟨h1, fun hk => ?_⟩
  have h2 := (ha.2 hk).congr (relOf_skip hC hsg h1 hs)
  rw [← liftTy_ty] at h2
  exact h2.unlift hsg

theorem AdS.above (hC : C.Lawful) (hsg : Sing C) {K : NAry} {id : OId I} {nst nxt : OB I} {h : Hom V I U} {t : Ty}
    (ha : AdS env C sc K nxt h t) (hs : h.skip env nxt.lvl id = true) : AdS env C sc K (.node id nst nxt) h (liftTy nst nxt t) := by
  refine ⟨ha.1.above hs, fun hk => ?_⟩
  have h2 := (ha.2 hk).lift (nst := nst) (nxt := nxt)
  rw [liftTy_ty (id := id)] at h2
  exact h2.congr (relOf_skip hC hsg ha.1 hs).symm

theorem Rl.nary (hC : C.Lawful) (hsg : Sing C) {K : NAry} {hs : List (Hom V I U)} (hne : hs ≠ []) (o : OB I) : ∀ {t : Ty},
    (∀ h ∈ hs, AdS env C sc K o h t) → Rl env C sc o (K.mk hs) t (NRel K hs (relOf env C sc o)) := by
  obtain ⟨g, hg⟩ := List.exists_mem_of_ne_nil _ hne
  have stop : ∀ {o : OB I} {t : Ty}, Stop env (K.mk hs) o → (∀ h ∈ hs, AdS env C sc K o h t) →
      Rl env C sc o (K.mk hs) t (NRel K hs (relOf env C sc o)) := by
    intro o t hst h
    have hsh := ((h g hg).1.rl hC hsg).hty.shape
    have h1 : ∀ h ∈ hs, ∃ R, HRel env C sc o h t R ∧ REq o.ty R (relOf env C sc o h) := fun h' hm => (h h' hm).1.rl hC hsg
    choose! R hR hRe using h1
    cases K with
    | sum => exact ⟨_, .sum R hsh hst hR, NRel.congr (K := .sum) hRe⟩
    | inter =>
      exact ⟨_, .inter R hsh hne hst hR fun h' hm => ((h h' hm).2 rfl).congr (hRe h' hm).symm, NRel.congr (K := .inter) hRe⟩
  induction o with
  | nil => intro t h; exact stop trivial h
  | node id nst nxt _ ih =>
    intro t h
    cases hs' : (K.mk hs).skip env nxt.lvl id with
    | false => exact stop hs' h
    | true =>
      have hsk := NAry.skip_iff.1 hs'
      obtain ⟨t', h1, _⟩ := ((h g hg).1.rl hC hsg).hty.sk (hsk g hg)
      subst h1
      have h2 : ∀ h ∈ hs, AdS env C sc K nxt h t' := fun h' hm => (h h' hm).sk hC hsg (hsk h' hm)
      refine ((ih h2).above hs').congr fun p hp p' => ?_
      rw [NRel.lift hne]
      exact NRel.congr (fun h' hm => (relOf_skip hC hsg (h2 h' hm).1 (hsk h' hm)).symm) p hp p'

theorem Rl.nary_inv (hC : C.Lawful) (hsg : Sing C) {K : NAry} {hs : List (Hom V I U)} (hne : hs ≠ []) (o : OB I) :
    ∀ {t : Ty} {R : PRel E}, Rl env C sc o (K.mk hs) t R →
      (∀ h ∈ hs, AdS env C sc K o h t) ∧ REq o.ty R (NRel K hs (relOf env C sc o)) := by
  have stop : ∀ {o : OB I} {t : Ty} {R : PRel E}, Stop env (K.mk hs) o → Rl env C sc o (K.mk hs) t R →
      (∀ h ∈ hs, AdS env C sc K o h t) ∧ REq o.ty R (NRel K hs (relOf env C sc o)) := by
    rintro o t R hst ⟨R0, h1, h2⟩
    cases K with
    | sum =>
      change HRel env C sc o (.sum hs) t R0 at h1
      cases h1 with
      | skip _ h4 => exact absurd (hst.symm.trans h4) (by simp)
      | sum R' _ _ h3 =>
        refine ⟨fun h hm => ⟨(h3 h hm).rl.ad, fun hk => by cases hk⟩, h2.symm.trans ?_⟩
        exact NRel.congr (K := .sum) fun h hm => (h3 h hm).rl.relEq hC hsg
    | inter =>
      change HRel env C sc o (.inter hs) t R0 at h1
      cases h1 with
      | skip _ h4 => exact absurd (hst.symm.trans h4) (by simp)
      | inter R' _ _ _ h3 h4 =>
        refine ⟨fun h hm => ⟨(h3 h hm).rl.ad, fun _ => (h4 h hm).congr ((h3 h hm).rl.relEq hC hsg)⟩, h2.symm.trans ?_⟩
        exact NRel.congr (K := .inter) fun h hm => (h3 h hm).rl.relEq hC hsg
  induction o with
  | nil => intro t R h; exact stop trivial h
  | node id nst nxt _ ih =>
    intro t R h
    cases hs' : (K.mk hs).skip env nxt.lvl id with
    | false => exact stop hs' h
    | true =>
      have hsk := NAry.skip_iff.1 hs'
      obtain ⟨t1, R1, rfl, h2, h3⟩ := h.sk hs'
      obtain ⟨h4, h5⟩ := ih h2
      refine ⟨fun h hm => (h4 h hm).above hC hsg (hsk h hm), h3.trans fun p hp p' => ?_⟩
      have h6 := h5.lift (nst := nst) (nxt := nxt)
      rw [liftTy_ty (id := id)] at h6
      rw [h6 p hp p', NRel.lift hne]
      exact NRel.congr (fun h' hm => (relOf_skip hC hsg (h4 h' hm).1 (hsk h' hm)).symm) p hp p'

theorem Rl.nary_fin (hC : C.Lawful) (hsg : Sing C) {K : NAry} {hs : List (Hom V I U)} (hne : hs ≠ []) {o : OB I} {t : Ty}
    (h : ∀ h ∈ hs, AdS env C sc K o h t) : Rl env C sc o (K.fin hs) t (NRel K hs (relOf env C sc o)) := by
  unfold NAry.fin
  split
  · exact ((h _ (by simp)).1.rl hC hsg).congr NRel.single
  · exact Rl.nary hC hsg hne o h

theorem AdS.of {K : NAry} {o : OB I} {t : Ty} {k : Hom V I U} {hs : List (Hom V I U)} (hne : hs ≠ []) (hC : C.Lawful) (hsg : Sing C)
    {F : Hom V I U → PRel E} (hr : Rl env C sc o k t (NRel K hs F)) (h : K = .inter → ∀ h ∈ hs, SubIdOn o.ty (F h)) :
    AdS env C sc K o k t := by
  refine ⟨hr.ad, fun hk => ?_⟩
  subst hk
  refine SubIdOn.congr (fun p hp p' h1 => ?_) (hr.relEq hC hsg)
  obtain ⟨g, hg⟩ := List.exists_mem_of_ne_nil _ hne
  exact h rfl g hg p hp p' (h1 g hg)

/-! ## Locals -/

/-- A local at its level. -/
theorem AdS.loc_inv (hC : C.Lawful) (hsg : Sing C) {K : NAry} {id : OId I} {nst nxt : OB I} {h : Hom V I U} {tn t' : Ty}
    (ha : AdS env C sc K (.node id nst nxt) (.loc nxt.lvl h) (.hier nxt.lvl tn t')) :
    nst ≠ .nil ∧ t' = nxt.ty ∧ AdS env C sc K nst h tn ∧
      REq (OB.node id nst nxt).ty (relOf env C sc (.node id nst nxt) (.loc nxt.lvl h)) (locRel nxt.lvl (relOf env C sc nst h)) := by
  obtain ⟨_, _, _, he, ⟨_, h1, tn', R, ht, h2, h3⟩ | ⟨h1, _⟩⟩ := (ha.1.rl hC hsg).loc_inv
  · cases he
    cases ht
    have h4 := h3.trans ((h2.relEq hC hsg).loc (id := id) (nxt := nxt))
    refine ⟨h1, rfl, ⟨h2.ad, fun hk => ?_⟩, h4⟩
    intro n hn n' hR
    obtain ⟨q, hq⟩ := exists_pty hsg nxt
    have := (ha.2 hk).congr h4 (.hier nxt.lvl n q) ?_ (.hier nxt.lvl n' q) ⟨n, n', q, rfl, rfl, hR⟩
    · cases this; rfl
    · exact pty_node.2 ⟨.hier nxt.lvl n, q, rfl, ⟨h1, rfl, hn⟩, hq⟩
  · cases he
    exact absurd rfl h1

theorem Rl.loc_nary (hC : C.Lawful) (hsg : Sing C) {K : NAry} {k : Hom V I U} {gs : List (Hom V I U)} (hne : gs ≠ []) {x : Nat}
    (hk : ∀ {o : OB I} {t : Ty}, (∀ g ∈ gs, AdS env C sc K o g t) → Rl env C sc o k t (NRel K gs (relOf env C sc o))) (o : OB I) :
    ∀ {t : Ty}, (∀ g ∈ gs, AdS env C sc K o (.loc x g) t) →
      Rl env C sc o (.loc x k) t (NRel K gs fun g => relOf env C sc o (.loc x g)) := by
  obtain ⟨g0, hg0⟩ := List.exists_mem_of_ne_nil _ hne
  induction o with
  | nil =>
    intro t h
    obtain ⟨_, _, _, he, _⟩ := ((h g0 hg0).1.rl hC hsg).loc_inv
    cases he
  | node id nst nxt _ ih =>
    intro t h
    obtain ⟨_, _, _, he, ⟨hx, h1, tn, R1, ht, h2, h3⟩ | ⟨hx, t1, R1, ht, h2, h3⟩⟩ := ((h g0 hg0).1.rl hC hsg).loc_inv
    · cases he
      subst hx
      subst ht
      have h4 := fun g hg => (h g hg).loc_inv hC hsg
      refine (Rl.loc h1 (hk fun g hg => (h4 g hg).2.2.1)).congr fun p hp p' => ?_
      rw [NRel.inLoc hne]
      exact NRel.congr (fun g hg => (h4 g hg).2.2.2.symm) p hp p'
    · cases he
      subst ht
      have h4 : ∀ g ∈ gs, AdS env C sc K nxt (.loc x g) t1 := fun g hg => (h g hg).sk hC hsg (loc_skip hx)
      refine ((ih h4).above (loc_skip hx)).congr fun p hp p' => ?_
      rw [NRel.lift hne]
      exact NRel.congr (fun g hg => (relOf_skip hC hsg (h4 g hg).1 (loc_skip hx)).symm) p hp p'

/-! ## The construction of sums and intersections -/

theorem AdS.flat (hC : C.Lawful) (hsg : Sing C) {K : NAry} (h : Hom V I U) : h.noEmpty = true → ∀ {o : OB I} {t : Ty},
    AdS env C sc K o h t → (∀ l ∈ hflat K h, AdS env C sc K o l t) ∧ REq o.ty (relOf env C sc o h) (NRel K (hflat K h) (relOf env C sc o)) := by
  induction h using nary_induct K with
  | mk hs ih =>
    intro hn o t ha
    obtain ⟨hne, hn'⟩ := noEmpty_mk.1 hn
    obtain ⟨h1, h2⟩ := Rl.nary_inv hC hsg hne o (ha.1.rl hC hsg)
    rw [hflat_mk]
    refine ⟨fun l hl => ?_, h2.trans ?_⟩
    · obtain ⟨h, hm, hl⟩ := mem_hflatAll.1 hl
      exact (ih h hm (hn' h hm) (h1 h hm)).1 l hl
    · refine NRel.trans (hs.map fun h => (h, hflat K h)) ?_ ?_ ?_
      · intro a ha
        obtain ⟨h, hm, rfl⟩ := List.mem_map.1 ha
        exact (ih h hm (hn' h hm) (h1 h hm)).2
      · intro h
        simp
      · intro h
        simp [mem_hflatAll]
  | loc x h =>
    intro _ o t ha
    exact ⟨by simpa [hflat] using ha, by simpa [hflat] using NRel.single⟩
  | other h h1 =>
    intro _ o t ha
    exact ⟨by simpa [h1] using ha, by simpa [h1] using NRel.single⟩

/-- `sum` and `intersection` do not change the relation. -/
theorem Rl.hnary (hC : C.Lawful) (hsg : Sing C) {K : NAry} {lt : Hom V I U → Hom V I U → Bool} (hlt : StrictTotal lt)
    {ord : List (Nat × List (Hom V I U)) → List (Nat × List (Hom V I U))} (hord : Iterates ord) :
    ∀ hs, hs ≠ [] → (∀ h ∈ hs, h.noEmpty = true) → ∀ {o : OB I} {t : Ty}, (∀ h ∈ hs, AdS env C sc K o h t) →
      Rl env C sc o (hnary K lt ord hs) t (NRel K hs (relOf env C sc o)) := by
  refine hnary_induct hlt hord (P := fun hs k => (∀ h ∈ hs, h.noEmpty = true) → ∀ {o : OB I} {t : Ty},
    (∀ h ∈ hs, AdS env C sc K o h t) → Rl env C sc o k t (NRel K hs (relOf env C sc o))) fun hs ops hne hops ih hn o t ha => ?_
  have hg := hvisitAll_good (k := K) hlt hs
  have hnl : ∀ l ∈ hflatAll K hs, l.noEmpty = true := by
    intro l hl
    obtain ⟨h, hm, hl⟩ := mem_hflatAll.1 hl
    exact hflat_noEmpty h (hn h hm) l hl
  have hl : ∀ l ∈ hflatAll K hs, AdS env C sc K o l t := by
    intro l hl
    obtain ⟨h, hm, hl⟩ := mem_hflatAll.1 hl
    exact (AdS.flat hC hsg h (hn h hm) (ha h hm)).1 l hl
  have hflat : REq o.ty (NRel K hs (relOf env C sc o)) (NRel K (hflatAll K hs) (relOf env C sc o)) := by
    refine NRel.trans (hs.map fun h => (h, hflat K h)) ?_ ?_ ?_
    · intro a ha'
      obtain ⟨h, hm, rfl⟩ := List.mem_map.1 ha'
      exact (AdS.flat hC hsg h (hn h hm) (ha h hm)).2
    · intro h; simp
    · intro h; simp [mem_hflatAll]
  have hloc : ∀ g ∈ (hvisitAll K lt hs ⟨[], []⟩).locals,
      Rl env C sc o (Verif.hloc g.1 (Verif.hnary K lt ord g.2)) t (NRel K g.2 fun h => relOf env C sc o (.loc g.1 h)) := by
    intro g hgm
    obtain ⟨h1, h2⟩ := hg.group g hgm
    refine (Rl.loc_nary hC hsg h1 (fun h => ih g hgm (fun h hh => hnl (.loc g.1 h) ((h2 h).1 hh)) h) o fun h hh => ?_).hloc
    exact hl _ ((h2 h).1 hh)
  have hadl : ∀ g ∈ (hvisitAll K lt hs ⟨[], []⟩).locals, AdS env C sc K o (Verif.hloc g.1 (Verif.hnary K lt ord g.2)) t := by
    intro g hgm
    obtain ⟨h1, h2⟩ := hg.group g hgm
    exact AdS.of h1 hC hsg (hloc g hgm) fun hk h hh => (hl _ ((h2 h).1 hh)).2 hk
  have hado : ∀ h ∈ ops, AdS env C sc K o h t := by
    intro h hm
    rcases (hops h).1 hm with ⟨h1, _⟩ | ⟨g, hgm, rfl⟩
    · exact hl h h1
    · exact hadl g hgm
  have hne' : ops ≠ [] := by
    obtain ⟨h, hm⟩ := List.exists_mem_of_ne_nil _ hne
    obtain ⟨g, hgd⟩ := List.exists_mem_of_ne_nil _ (hdeep_ne (K := K) h (hn h hm))
    obtain ⟨l, hl, _⟩ := (mem_hdeep_flat h g).1 hgd
    have hl := mem_hflatAll.2 ⟨h, hm, hl⟩
    cases hloc : l.isLoc with
    | false => exact List.ne_nil_of_mem ((hops l).2 (Or.inl ⟨hl, hloc⟩))
    | true =>
      cases l with
      | loc x l =>
        obtain ⟨gs, h1⟩ := hg.key x l hl
        exact List.ne_nil_of_mem ((hops _).2 (Or.inr ⟨_, h1, rfl⟩))
      | _ => simp [Hom.isLoc] at hloc
  refine (Rl.nary_fin hC hsg hne' hado).congr (REq.trans ?_ hflat.symm)
  refine NRel.trans (((hflatAll K hs).filter fun l => !l.isLoc).map (fun l => (l, [l])) ++
    (hvisitAll K lt hs ⟨[], []⟩).locals.map fun g => (Verif.hloc g.1 (Verif.hnary K lt ord g.2), g.2.map (.loc g.1))) ?_ ?_ ?_
  · intro a ha'
    rcases List.mem_append.1 ha' with h | h
    · obtain ⟨l, _, rfl⟩ := List.mem_map.1 h
      exact NRel.single
    · obtain ⟨g, hgm, rfl⟩ := List.mem_map.1 h
      refine ((hloc g hgm).relEq hC hsg).symm.trans fun p _ p' => ?_
      cases K <;> simp [NRel]
  · intro h
    rw [hops]
    simp only [List.mem_append, List.mem_map, List.mem_filter, Bool.not_eq_true']
    constructor
    · rintro (⟨h1, h2⟩ | ⟨g, hgm, rfl⟩)
      · exact ⟨(h, [h]), Or.inl ⟨h, ⟨h1, h2⟩, rfl⟩, rfl⟩
      · exact ⟨_, Or.inr ⟨g, hgm, rfl⟩, rfl⟩
    · rintro ⟨a, ⟨l, ⟨h1, h2⟩, rfl⟩ | ⟨g, hgm, rfl⟩, rfl⟩
      · exact Or.inl ⟨h1, h2⟩
      · exact Or.inr ⟨g, hgm, rfl⟩
  · intro h
    simp only [List.mem_append, List.mem_map, List.mem_filter, Bool.not_eq_true']
    constructor
    · intro hm
      cases hi : h.isLoc with
      | false => exact ⟨(h, [h]), Or.inl ⟨h, ⟨hm, hi⟩, rfl⟩, by simp⟩
      | true =>
        cases h with
        | loc x h =>
          obtain ⟨gs, h1⟩ := hg.key x h hm
          exact ⟨_, Or.inr ⟨(x, gs), h1, rfl⟩, List.mem_map.2 ⟨h, ((hg.group _ h1).2 h).2 hm, rfl⟩⟩
        | _ => simp [Hom.isLoc] at hi
    · rintro ⟨a, ⟨l, ⟨h1, h2⟩, rfl⟩ | ⟨g, hgm, rfl⟩, h3⟩
      · rw [List.mem_singleton.1 h3]; exact h1
      · obtain ⟨h', h4, rfl⟩ := List.mem_map.1 h3
        exact ((hg.group g hgm).2 h').1 h4

/-! ## Fixpoints -/

theorem Rl.fix (hsg : Sing C) {h : Hom V I U} (o : OB I) : ∀ {R : PRel E}, Rl env C sc o h o.ty R → ReflOn o.ty R →
    Rl env C sc o (.fix h) o.ty (ReflTransGen R) := by
  have stop : ∀ {o : OB I} {R : PRel E}, Stop env (.fix h) o → Rl env C sc o h o.ty R → ReflOn o.ty R →
      Rl env C sc o (.fix h) o.ty (ReflTransGen R) := by
    rintro o R hst ⟨R1, h1, h2⟩ h3
    exact ⟨_, .fix hst h1 (h3.congr h2.symm), h2.rtc h1.rty⟩
  induction o with
  | nil => intro R hr h'; exact stop trivial hr h'
  | node id nst nxt _ ih =>
    intro R hr h'
    cases hs : (Hom.fix h).skip env nxt.lvl id with
    | false => exact stop hs hr h'
    | true =>
      obtain ⟨t1, R1, h1, h2, h3⟩ := hr.sk (by simpa [Hom.skip] using hs)
      rw [← liftTy_ty] at h1
      cases liftTy_inj h1
      have h4 := h'.congr h3
      rw [← liftTy_ty] at h4
      have h5 := (ih h2 (h4.unlift hsg)).above hs (nst := nst)
      rw [liftTy_ty (id := id)] at h5
      refine h5.congr ?_
      have h6 := liftRel_rtc (nst := nst) (nxt := nxt) (t := nxt.ty) (R := R1)
      rw [liftTy_ty (id := id)] at h6
      exact h6.trans (h3.rtc hr.rty).symm

theorem Rl.fixSel (hsg : Sing C) {h : Hom V I U} (o : OB I) : ∀ {R : PRel E}, Rl env C sc o h o.ty R → SubIdOn o.ty R →
    Rl env C sc o (.fix h) o.ty R := by
  have stop : ∀ {o : OB I} {R : PRel E}, Stop env (.fix h) o → Rl env C sc o h o.ty R → SubIdOn o.ty R →
      Rl env C sc o (.fix h) o.ty R := by
    rintro o R hst ⟨R1, h1, h2⟩ h3
    exact ⟨_, .fixSel hst h1 (h3.congr h2.symm), h2⟩
  induction o with
  | nil => intro R hr h'; exact stop trivial hr h'
  | node id nst nxt _ ih =>
    intro R hr h'
    cases hs : (Hom.fix h).skip env nxt.lvl id with
    | false => exact stop hs hr h'
    | true =>
      obtain ⟨t1, R1, h1, h2, h3⟩ := hr.sk (by simpa [Hom.skip] using hs)
      rw [← liftTy_ty] at h1
      cases liftTy_inj h1
      have h4 := h'.congr h3
      rw [← liftTy_ty] at h4
      have h5 := (ih h2 (h4.unlift hsg)).above hs (nst := nst)
      rw [liftTy_ty (id := id)] at h5
      exact h5.congr h3.symm

theorem Rl.fix_inv {h : Hom V I U} (o : OB I) : ∀ {t : Ty} {R : PRel E}, Rl env C sc o (.fix h) t R →
    t = o.ty ∧ ∃ R0, Rl env C sc o h o.ty R0 ∧
      ((ReflOn o.ty R0 ∧ REq o.ty R (ReflTransGen R0)) ∨ (SubIdOn o.ty R0 ∧ REq o.ty R R0)) := by
  have stop : ∀ {o : OB I} {t : Ty} {R : PRel E}, Stop env (.fix h) o → Rl env C sc o (.fix h) t R →
      t = o.ty ∧ ∃ R0, Rl env C sc o h o.ty R0 ∧
        ((ReflOn o.ty R0 ∧ REq o.ty R (ReflTransGen R0)) ∨ (SubIdOn o.ty R0 ∧ REq o.ty R R0)) := by
    rintro o t R hst ⟨R1, h1, h2⟩
    cases h1 with
    | skip _ h4 => exact absurd (hst.symm.trans h4) (by simp)
    | fix _ h4 h5 => exact ⟨rfl, _, h4.rl, Or.inl ⟨h5, h2.symm⟩⟩
    | fixSel _ h4 h5 => exact ⟨rfl, _, h4.rl, Or.inr ⟨h5, h2.symm⟩⟩
  induction o with
  | nil => intro t R hr; exact stop trivial hr
  | node id nst nxt _ ih =>
    intro t R hr
    cases hs : (Hom.fix h).skip env nxt.lvl id with
    | false => exact stop hs hr
    | true =>
      obtain ⟨t1, R1, rfl, h2, h3⟩ := hr.sk hs
      obtain ⟨rfl, R0, h4, h5⟩ := ih h2
      have hs' : Hom.skip env nxt.lvl id h = true := by simpa [Hom.skip] using hs
      have h6 := h4.above (nst := nst) hs'
      have hl := liftRel_rtc (nst := nst) (nxt := nxt) (t := nxt.ty) (R := R0)
      refine ⟨liftTy_ty, _, liftTy_ty (id := id) ▸ h6, ?_⟩
      rw [← liftTy_ty] at h3 ⊢
      rcases h5 with ⟨h7, h8⟩ | ⟨h7, h8⟩
      · exact Or.inl ⟨h7.lift, h3.trans (h8.lift.trans hl)⟩
      · exact Or.inr ⟨h7.lift, h3.trans h8.lift⟩

/-- The relation of a fixpoint whose operand keeps the paths. -/
theorem Rl.fix_inv_refl {h : Hom V I U} {o : OB I} {t : Ty} {R R0 : PRel E} (hC : C.Lawful) (hsg : Sing C)
    (hr : Rl env C sc o (.fix h) t R) (h0 : Rl env C sc o h o.ty R0) (hrefl : ReflOn o.ty R0) : REq o.ty R (ReflTransGen R0) := by
  obtain ⟨_, R1, h1, h2⟩ := Rl.fix_inv o hr
  have hu := h1.unique hC hsg h0
  rcases h2 with ⟨h3, h4⟩ | ⟨h3, h4⟩
  · exact h4.trans (hu.rtc h1.rty)
  · refine h4.trans (hu.trans fun p hp p' => ⟨.single, fun h => ?_⟩)
    have h5 := h3.congr hu
    have : p' = p := by
      induction h with
      | refl => rfl
      | tail _ h8 ih8 => subst ih8; exact h5 _ hp _ h8
    subst this
    exact hrefl _ hp

/-- `fixpoint` does not change the relation. -/
theorem Rl.hfix {h : Hom V I U} {o : OB I} {t : Ty} {R : PRel E} (hC : C.Lawful) (hsg : Sing C) (hr : Rl env C sc o (.fix h) t R) :
    Rl env C sc o (hfix h) t R := by
  cases h with
  | id =>
    obtain ⟨rfl, _⟩ := Rl.fix_inv o hr
    refine Rl.id.congr (REq.symm ((Rl.fix_inv_refl hC hsg hr Rl.id fun p _ => rfl).trans fun p _ p' => ?_))
    constructor
    · intro h
      induction h with
      | refl => rfl
      | tail _ h8 ih8 => rw [h8, ih8]
    · rintro rfl; exact .refl
  | fix h =>
    simp only [Verif.hfix]
    obtain ⟨rfl, R1, h1, ⟨hrefl, h2⟩ | ⟨_, h2⟩⟩ := Rl.fix_inv o hr
    · refine h1.congr (REq.symm (h2.trans ?_))
      obtain ⟨_, R2, h3, ⟨h4, h5⟩ | ⟨h4, h5⟩⟩ := Rl.fix_inv o h1
      · refine (h5.rtc h1.rty).trans (REq.trans (fun p hp p' => ?_) h5.symm)
        exact ⟨fun h => by induction h with
          | refl => exact .refl
          | tail _ h2 ih => exact ih.trans h2, .single⟩
      · intro p hp p'
        constructor
        · intro h6
          have hsub := h4.congr h5.symm
          have : p' = p := by
            induction h6 with
            | refl => rfl
            | tail _ h8 ih8 => subst ih8; exact hsub _ hp _ h8
          subst this
          exact hrefl _ hp
        · exact .single
    · exact h1.congr h2.symm
  | _ => exact hr

/-! ## Choices -/

/-- The relation of a choice. (Specification or proof device, not part of the code.) -/
def iteRel (Ri Rt Re : PRel E) : PRel E := fun p p' => (Ri p p ∧ Rt p p') ∨ (¬ Ri p p ∧ Re p p')

theorem iteRel_lift {nst nxt : OB I} {t : Ty} {Ri Rt Re : PRel E} :
    REq (liftTy nst nxt t) (liftRel (iteRel Ri Rt Re)) (iteRel (liftRel Ri) (liftRel Rt) (liftRel Re)) := by
  intro p hp p'
  obtain ⟨hd, q, rfl, _, _⟩ := pty_lift.1 hp
  have key : liftRel Ri (hd.cons q) (hd.cons q) ↔ Ri q q := by
    constructor
    · rintro ⟨hd', q1, q2, h1, h2, h3⟩
      rw [← (Head.cons_inj h1).2, ← (Head.cons_inj h2).2] at h3
      exact h3
    · intro h; exact ⟨hd, q, q, rfl, rfl, h⟩
  simp only [iteRel, key]
  constructor
  · rintro ⟨hd', q1, q2, h1, rfl, h2⟩
    obtain ⟨rfl, rfl⟩ := Head.cons_inj h1
    rcases h2 with ⟨h3, h4⟩ | ⟨h3, h4⟩
    · exact Or.inl ⟨h3, hd, q, q2, rfl, rfl, h4⟩
    · exact Or.inr ⟨h3, hd, q, q2, rfl, rfl, h4⟩
  · rintro (⟨h3, hd', q1, q2, h1, rfl, h4⟩ | ⟨h3, hd', q1, q2, h1, rfl, h4⟩)
    · obtain ⟨rfl, rfl⟩ := Head.cons_inj h1
      exact ⟨hd, q, q2, rfl, rfl, Or.inl ⟨h3, h4⟩⟩
    · obtain ⟨rfl, rfl⟩ := Head.cons_inj h1
      exact ⟨hd, q, q2, rfl, rfl, Or.inr ⟨h3, h4⟩⟩

theorem REq.ite {t : Ty} {Ri Rt Re Ri' Rt' Re' : PRel E} (h1 : REq t Ri Ri') (h2 : REq t Rt Rt') (h3 : REq t Re Re') :
    REq t (iteRel Ri Rt Re) (iteRel Ri' Rt' Re') := by
  intro p hp p'
  simp only [iteRel, h1 p hp p, h2 p hp p', h3 p hp p']

theorem Rl.ite (hsg : Sing C) {i a b : Hom V I U} (hsel : i.selector env = true) (o : OB I) :
    ∀ {t : Ty} {Ri Rt Re : PRel E}, Rl env C sc o i o.ty Ri → SubIdOn o.ty Ri → Rl env C sc o a t Rt → Rl env C sc o b t Re →
      Rl env C sc o (.ite i a b) t (iteRel Ri Rt Re) := by
  have stop : ∀ {o : OB I} {t : Ty} {Ri Rt Re : PRel E}, Stop env (.ite i a b) o → Rl env C sc o i o.ty Ri → SubIdOn o.ty Ri →
      Rl env C sc o a t Rt → Rl env C sc o b t Re → Rl env C sc o (.ite i a b) t (iteRel Ri Rt Re) := by
    rintro o t Ri Rt Re hst ⟨R1, h1, h2⟩ h3 ⟨R2, h4, h5⟩ ⟨R3, h6, h7⟩
    exact ⟨_, .ite hst hsel h1 (h3.congr h2.symm) h4 h6, h2.ite h5 h7⟩
  induction o with
  | nil => intro t Ri Rt Re h1 h2 h3 h4; exact stop trivial h1 h2 h3 h4
  | node id nst nxt _ ih =>
    intro t Ri Rt Re h1 h2 h3 h4
    cases hs : (Hom.ite i a b).skip env nxt.lvl id with
    | false => exact stop hs h1 h2 h3 h4
    | true =>
      have hs' : (i.skip env nxt.lvl id = true ∧ b.skip env nxt.lvl id = true) ∧ a.skip env nxt.lvl id = true := by
        simpa [Hom.skip] using hs
      obtain ⟨t1, R1, g1, g2, g3⟩ := h1.sk hs'.1.1
      rw [← liftTy_ty] at g1
      cases liftTy_inj g1
      obtain ⟨t2, R2, rfl, g5, g6⟩ := h3.sk hs'.2
      obtain ⟨t3, R3, g7, g8, g9⟩ := h4.sk hs'.1.2
      cases liftTy_inj g7
      have h5 := h2.congr g3
      rw [← liftTy_ty] at h5
      refine ((ih g2 (h5.unlift hsg) g5 g8).above hs).congr ?_
      refine REq.trans ?_ (g3.ite g6 g9).symm
      rw [← liftTy_ty]
      exact iteRel_lift

theorem Rl.ite_inv {i a b : Hom V I U} (o : OB I) : ∀ {t : Ty} {R : PRel E}, Rl env C sc o (.ite i a b) t R →
    i.selector env = true ∧ ∃ Ri Rt Re, Rl env C sc o i o.ty Ri ∧ SubIdOn o.ty Ri ∧ Rl env C sc o a t Rt ∧ Rl env C sc o b t Re ∧
      REq o.ty R (iteRel Ri Rt Re) := by
  have stop : ∀ {o : OB I} {t : Ty} {R : PRel E}, Stop env (.ite i a b) o → Rl env C sc o (.ite i a b) t R →
      i.selector env = true ∧ ∃ Ri Rt Re, Rl env C sc o i o.ty Ri ∧ SubIdOn o.ty Ri ∧ Rl env C sc o a t Rt ∧ Rl env C sc o b t Re ∧
        REq o.ty R (iteRel Ri Rt Re) := by
    rintro o t R hst ⟨R1, h1, h2⟩
    cases h1 with
    | skip _ h4 => exact absurd (hst.symm.trans h4) (by simp)
    | ite _ h3 h4 h5 h6 h7 => exact ⟨h3, _, _, _, h4.rl, h5, h6.rl, h7.rl, h2.symm⟩
  induction o with
  | nil => intro t R h; exact stop trivial h
  | node id nst nxt _ ih =>
    intro t R h
    cases hs : (Hom.ite i a b).skip env nxt.lvl id with
    | false => exact stop hs h
    | true =>
      have hs' : (i.skip env nxt.lvl id = true ∧ b.skip env nxt.lvl id = true) ∧ a.skip env nxt.lvl id = true := by
        simpa [Hom.skip] using hs
      obtain ⟨t1, R1, rfl, h2, h3⟩ := h.sk hs
      obtain ⟨hsel, Ri, Rt, Re, g1, g2, g3, g4, g5⟩ := ih h2
      have g6 := g1.above (nst := nst) hs'.1.1
      refine ⟨hsel, _, _, _, liftTy_ty (id := id) ▸ g6, ?_, g3.above hs'.2, g4.above hs'.1.2, ?_⟩
      · rw [← liftTy_ty]; exact g2.lift
      · rw [← liftTy_ty] at h3 ⊢
        exact h3.trans (g5.lift.trans iteRel_lift)

/-- `if_then_else` does not change the relation. -/
theorem Rl.hite {i a b k : Hom V I U} {o : OB I} {t : Ty} {R : PRel E} (hC : C.Lawful) (hsg : Sing C)
    (hk : hite env i a b = .ok k) (hr : Rl env C sc o (.ite i a b) t R) : Rl env C sc o k t R := by
  obtain ⟨hsel, Ri, Rt, Re, h1, h2, h3, h4, h5⟩ := Rl.ite_inv o hr
  unfold Verif.hite at hk
  rw [if_neg (by simp [hsel])] at hk
  split at hk
  · rename_i h
    cases hk
    subst h
    obtain ⟨_, h6⟩ := h1.id_inv
    refine h3.congr (REq.symm (h5.trans fun p hp p' => ?_))
    have := (h6 p hp p).2 rfl
    simp [iteRel, this]
  · split at hk
    · rename_i h
      cases hk
      subst h
      refine h3.congr (REq.symm (h5.trans fun p hp p' => ?_))
      have h6 := h3.unique hC hsg h4 p hp p'
      simp only [iteRel, ← h6]
      tauto
    · cases hk
      exact hr

end Verif
