import Verif.Hom.BuildSum
/-!
# Intersections whose locals are alone on their level

The library regroups the locals of a level, and flattens the intersections it finds in them. A local which is alone on its level keeps its
meaning, whatever is in it, if the same condition holds for the intersection it may contain.
-/

set_option autoImplicit false
set_option linter.unusedSectionVars false

namespace Verif

variable {V E I U : Type} [DecidableEq V] [DecidableEq I] [DecidableEq U]
variable {env : User V I U} {C : Cfg V E} {sc : Scope I U}

/-- The local operands of an intersection (those of nested intersections included) are selectors, or alone on their level (`alone`), and then the
same holds inside them. (Specification, not part of the code.) -/
inductive LocFit (env : User V I U) : List (Hom V I U) → Prop
  | mk (hs : List (Hom V I U)) (alone : Nat → Bool)
      (sel : ∀ x g, .loc x g ∈ hflatAll .inter hs → alone x = false → g.selector env = true)
      (one : ∀ x g g', .loc x g ∈ hflatAll .inter hs → .loc x g' ∈ hflatAll .inter hs → alone x = true → g = g')
      (fit : ∀ x g, .loc x g ∈ hflatAll .inter hs → alone x = true → LocFit env [g]) : LocFit env hs

theorem LocFit.congr {hs hs' : List (Hom V I U)} (h : LocFit env hs) (hm : ∀ g, g ∈ hs' ↔ g ∈ hs) : LocFit env hs' := by
  have hf : ∀ g, g ∈ hflatAll .inter hs' ↔ g ∈ hflatAll .inter hs := fun g => by simp only [mem_hflatAll, hm]
  cases h with
  | mk _ alone sel one fit =>
    exact .mk hs' alone (fun x g hg => sel x g ((hf _).1 hg)) (fun x g g' hg hg' => one x g g' ((hf _).1 hg) ((hf _).1 hg'))
      fun x g hg => fit x g ((hf _).1 hg)

/-- The results of `k` are the intersections of the results of `hs`, when the homomorphisms of `D` have results. (Specification or proof device,
not part of the code.) -/
def IOK (env : User V I U) (C : Cfg V E) (sc : Scope I U) (k : Hom V I U) (hs D : List (Hom V I U)) : Prop :=
  ∀ o t, (∀ h ∈ hs, HTy env C sc o h t) → HTy env C sc o k t ∧ ∀ x, Dom C o.ty x → (∀ d ∈ D, Def env C d o x) →
    Def env C k o x ∧ (∀ h ∈ hs, Def env C h o x) ∧ ∀ p, Mem C p (evOf env C k o x) ↔ ∀ h ∈ hs, Mem C p (evOf env C h o x)

theorem IOK.of (hC : C.Lawful) {k : Hom V I U} {hs : List (Hom V I U)} (hne : hs ≠ []) (h : NOK env C sc .inter k hs) :
    IOK env C sc k hs hs := by
  intro o t hty
  obtain ⟨h1, h2⟩ := h o t hty
  refine ⟨h1, fun x hx hd => ?_⟩
  obtain ⟨r, hr⟩ := InterSpec.exists hC h1.shape hne hty hx hd
  have e := (h2 x hx hd r).2 hr
  exact ⟨⟨r, e⟩, hd, fun p => by rw [evOf_eq hC e, hr.2]⟩

theorem IOK.congr {k : Hom V I U} {hs hs' D D' : List (Hom V I U)} (h : IOK env C sc k hs D) (hm : ∀ g, g ∈ hs' ↔ g ∈ hs)
    (hD : ∀ g ∈ D, g ∈ D') : IOK env C sc k hs' D' := by
  intro o t hty
  obtain ⟨h1, h2⟩ := h o t fun g hg => hty g ((hm g).2 hg)
  refine ⟨h1, fun x hx hd => ?_⟩
  obtain ⟨a, b, c⟩ := h2 x hx fun d hd' => hd d (hD d hd')
  exact ⟨a, fun g hg => b g ((hm g).1 hg), fun p => by rw [c]; simp only [hm]⟩

/-- The same homomorphism for one operand. -/
theorem IOK.ev_iff (hC : C.Lawful) {k g : Hom V I U} {D : List (Hom V I U)} (h : IOK env C sc k [g] D) {o : OB I} {t : Ty}
    (ht : HTy env C sc o g t) {x : SDD V} (hx : Dom C o.ty x) (hd : ∀ d ∈ D, Def env C d o x) :
    Def env C g o x ∧ ∀ r, Ev env C k o x r ↔ Ev env C g o x r := by
  obtain ⟨h1, h2⟩ := h o t (by simpa using ht)
  obtain ⟨a, b, c⟩ := h2 x hx hd
  have b := b g (by simp)
  have he : evOf env C k o x = evOf env C g o x :=
    Is.unique hC (S := fun p => Mem C p (evOf env C k o x)) ⟨((a.ev hC).dom h1 hx).wf, fun _ => Iff.rfl⟩
      (S' := fun p => Mem C p (evOf env C g o x)) ⟨((b.ev hC).dom ht hx).wf, fun _ => Iff.rfl⟩ (by simpa using c)
  refine ⟨b, fun r => ?_⟩
  rw [Ev.iff_def hC, Ev.iff_def hC, he]
  exact ⟨fun h => ⟨b, h.2⟩, fun h => ⟨a, h.2⟩⟩

theorem IOK.of_ev (hC : C.Lawful) {k g : Hom V I U} {D : List (Hom V I U)}
    (h : ∀ o t, HTy env C sc o g t → HTy env C sc o k t ∧ ∀ x, Dom C o.ty x → (∀ d ∈ D, Def env C d o x) →
      Def env C g o x ∧ ∀ r, Ev env C k o x r ↔ Ev env C g o x r) : IOK env C sc k [g] D := by
  intro o t hty
  obtain ⟨h1, h2⟩ := h o t (hty g (by simp))
  refine ⟨h1, fun x hx hd => ?_⟩
  obtain ⟨a, b⟩ := h2 x hx hd
  exact ⟨(def_congr b).2 a, by simpa using a, fun p => by rw [evOf_congr hC b]; simp⟩

/-- A local on an operand which is alone. -/
theorem IOK.loc (hC : C.Lawful) {k g : Hom V I U} {D : List (Hom V I U)}
    (hD : ∀ o t, HTy env C sc o g t → ∀ d ∈ D, HTy env C sc o d t) (h : IOK env C sc k [g] D) (x : Nat) :
    IOK env C sc (.loc x k) [.loc x g] (D.map (.loc x)) := by
  refine IOK.of_ev hC fun o => ?_
  induction o with
  | nil =>
    intro t ht
    obtain ⟨_, _, _, he, _⟩ := ht.loc_cases
    cases he
  | node id nst nxt _ ih =>
    intro t ht
    refine ⟨ht.loc_mono fun nst tn hn => (h nst tn (by simpa using hn)).1, fun s hs hd => ?_⟩
    have hd : ∀ d ∈ D, Def env C (.loc x d) (.node id nst nxt) s := fun d hm => hd _ (List.mem_map_of_mem hm)
    have htd : ∀ d ∈ D, HTy env C sc (.node id nst nxt) (.loc x d) t := fun d hm => ht.loc_mono fun nst tn hn => hD nst tn hn d hm
    obtain ⟨_, _, _, he, ⟨rfl, h1, tn, rfl, h2⟩ | ⟨h1, t', rfl, h2⟩⟩ := ht.loc_cases
    · cases he
      rcases dom_hier h1 hs with rfl | ⟨arcs, rfl, h3, h4, h5⟩
      · exact ⟨⟨_, .zero _ _⟩, fun r => ⟨fun e => by rw [e.of_zero]; exact .zero _ _, fun e => by rw [e.of_zero]; exact .zero _ _⟩⟩
      · have hin : ∀ arc ∈ arcs, Def env C g nst arc.1 ∧ ∀ r, Ev env C k nst arc.1 r ↔ Ev env C g nst arc.1 r := fun arc hm =>
          h.ev_iff hC h2 (h4 arc hm) fun d hm' => (Def.loc_here hC (hD nst tn h2 d hm') hs).1 (hd d hm') arc hm
        refine ⟨(Def.loc_here hC h2 hs).2 fun arc hm => (hin arc hm).1, fun r => ?_⟩
        rw [Ev.loc_here hC, Ev.loc_here hC]
        have hset : ∀ p, LocSet C nxt.lvl arcs (evOf env C k nst) p ↔ LocSet C nxt.lvl arcs (evOf env C g nst) p := by
          intro p
          constructor
          · rintro ⟨n, q, rfl, arc, hm, hn, hq⟩
            exact ⟨n, q, rfl, arc, hm, by rw [← evOf_congr hC (hin arc hm).2]; exact hn, hq⟩
          · rintro ⟨n, q, rfl, arc, hm, hn, hq⟩
            exact ⟨n, q, rfl, arc, hm, by rw [evOf_congr hC (hin arc hm).2]; exact hn, hq⟩
        have hdk : (∀ arc ∈ arcs, Def env C k nst arc.1) ↔ ∀ arc ∈ arcs, Def env C g nst arc.1 :=
          forall₂_congr fun arc hm => def_congr (hin arc hm).2
        rw [hdk]
        simp only [Is, hset]
    · cases he
      have hin : ∀ hd' s', ArcOf C s hd' s' → Def env C (.loc x g) nxt s' ∧ ∀ r, Ev env C (.loc x k) nxt s' r ↔ Ev env C (.loc x g) nxt s' r := by
        intro hd' s' ha
        refine (ih t' h2).2 s' (ha.dom hs).1 fun d hm => ?_
        obtain ⟨d, hmm, rfl⟩ := List.mem_map.1 hm
        replace hm := hmm
        exact (Def.skip_iff hC (h2.loc_mono fun nst tn hn => hD nst tn hn d hm) (loc_skip h1) hs).1 (hd d hm) hd' s' ha
      exact ⟨(Def.skip_iff hC h2 (loc_skip h1) hs).2 fun hd' s' ha => (hin hd' s' ha).1,
        Ev.skip_congr hC (loc_skip h1) (loc_skip h1) hs fun hd' s' ha => (hin hd' s' ha).2⟩

theorem IOK.hloc (hC : C.Lawful) {k g : Hom V I U} {D : List (Hom V I U)} {x : Nat} (h : IOK env C sc (.loc x k) [g] D) :
    IOK env C sc (hloc x k) [g] D := by
  by_cases hk : k = .id
  · subst hk
    rw [show Verif.hloc x (.id : Hom V I U) = .id from if_pos rfl]
    refine IOK.of_ev hC fun o t ht => ?_
    obtain ⟨h1, _⟩ := h o t (by simpa using ht)
    refine ⟨by rw [h1.loc_id]; exact .id o, fun s hs hd => ?_⟩
    obtain ⟨a, b⟩ := h.ev_iff hC ht hs hd
    exact ⟨a, fun r => (Ev.loc_id hC o h1 hs).symm.trans (b r)⟩
  · rw [show Verif.hloc x k = .loc x k from if_neg hk]
    exact h

/-- A homomorphism stands for the intersection of its flattened operands. -/
theorem NOK.flat (hC : C.Lawful) {K : NAry} (h : Hom V I U) : h.noEmpty = true → NOK env C sc K h (hflat K h) ∧ hflat K h ≠ [] := by
  induction h using nary_induct K with
  | mk hs ih =>
    intro hn
    obtain ⟨h1, h2⟩ := noEmpty_mk.1 hn
    refine ⟨(NOK.trans hC (hs.map fun h => (h, hflat K h)) ?_ ?_ ?_).congr ?_, ?_⟩
    · intro a ha
      obtain ⟨h, hm, rfl⟩ := List.mem_map.1 ha
      exact (ih h hm (h2 h hm)).2
    · rw [List.map_map, show (Prod.fst ∘ fun h : Hom V I U => (h, hflat K h)) = fun h => h from rfl, List.map_id']
      exact NOK.mk hC h1
    · intro a ha
      obtain ⟨h, hm, rfl⟩ := List.mem_map.1 ha
      exact (ih h hm (h2 h hm)).1
    · intro g
      rw [hflat_mk, mem_hflatAll]
      simp
    · obtain ⟨g, hg⟩ := List.exists_mem_of_ne_nil _ h1
      obtain ⟨l, hl⟩ := List.exists_mem_of_ne_nil _ (ih g hg (h2 g hg)).2
      rw [hflat_mk]
      exact List.ne_nil_of_mem (mem_hflatAll.2 ⟨g, hg, hl⟩)
  | loc x h => intro _; simp only [hflat]; exact ⟨NOK.single hC, by simp⟩
  | other h h1 => intro _; rw [h1]; exact ⟨NOK.single hC, by simp⟩

theorem HTy.flat {K : NAry} (h : Hom V I U) : ∀ {o : OB I} {t : Ty}, HTy env C sc o h t → ∀ l ∈ hflat K h, HTy env C sc o l t := by
  induction h using nary_induct K with
  | mk hs ih =>
    intro o t ht l hl
    rw [hflat_mk, mem_hflatAll] at hl
    obtain ⟨h, hm, hl⟩ := hl
    exact ih h hm (ht.nary_inv h hm) l hl
  | loc x h => intro o t ht l hl; simp [hflat] at hl; subst hl; exact ht
  | other h h1 => intro o t ht l hl; simp [h1] at hl; subst hl; exact ht

/-- Groups of operands. -/
theorem IOK.trans {k : Hom V I U} {ops hs D : List (Hom V I U)} (hC : C.Lawful) (hne : ops ≠ []) (h : NOK env C sc .inter k ops)
    (hops : ∀ a ∈ ops, ∃ G D', G ≠ [] ∧ (∀ g ∈ G, g ∈ hs) ∧ (∀ d ∈ D', d ∈ D) ∧ IOK env C sc a G D')
    (hhs : ∀ g ∈ hs, ∃ a ∈ ops, ∃ G D', g ∈ G ∧ (∀ g ∈ G, g ∈ hs) ∧ (∀ d ∈ D', d ∈ D) ∧ IOK env C sc a G D') :
    IOK env C sc k hs D := by
  intro o t hty
  have h1 : ∀ a ∈ ops, HTy env C sc o a t := by
    intro a ha
    obtain ⟨G, D', _, hG, _, hi⟩ := hops a ha
    exact (hi o t fun g hg => hty g (hG g hg)).1
  obtain ⟨hk, _⟩ := h o t h1
  refine ⟨hk, fun x hx hd => ?_⟩
  have h2 : ∀ a ∈ ops, Def env C a o x := by
    intro a ha
    obtain ⟨G, D', _, hG, hD, hi⟩ := hops a ha
    exact ((hi o t fun g hg => hty g (hG g hg)).2 x hx fun d hd' => hd d (hD d hd')).1
  obtain ⟨a, b, c⟩ := (IOK.of hC hne h o t h1).2 x hx h2
  refine ⟨a, fun g hg => ?_, fun p => ?_⟩
  · obtain ⟨a, ha, G, D', hgG, hG, hD, hi⟩ := hhs g hg
    exact ((hi o t fun g hg => hty g (hG g hg)).2 x hx fun d hd' => hd d (hD d hd')).2.1 g hgG
  · rw [c]
    constructor
    · intro hp g hg
      obtain ⟨a, ha, G, D', hgG, hG, hD, hi⟩ := hhs g hg
      exact (((hi o t fun g hg => hty g (hG g hg)).2 x hx fun d hd' => hd d (hD d hd')).2.2 p).1 (hp a ha) g hgG
    · intro hp a ha
      obtain ⟨G, D', _, hG, hD, hi⟩ := hops a ha
      exact (((hi o t fun g hg => hty g (hG g hg)).2 x hx fun d hd' => hd d (hD d hd')).2.2 p).2 fun g hg => hp g (hG g hg)

/-- What is built stands for the flattened operands. -/
theorem IOK.build (hC : C.Lawful) (hon : Honest env C) {lt : Hom V I U → Hom V I U → Bool} (hlt : StrictTotal lt)
    {ord : List (Nat × List (Hom V I U)) → List (Nat × List (Hom V I U))} (hord : Iterates ord) :
    ∀ hs, hs ≠ [] → (∀ h ∈ hs, h.noEmpty = true) → LocFit env hs →
      IOK env C sc (hnary .inter lt ord hs) (hflatAll .inter hs) (hdeepAll .inter hs) := by
  refine hnary_induct hlt hord (P := fun hs k => (∀ h ∈ hs, h.noEmpty = true) → LocFit env hs →
    IOK env C sc k (hflatAll .inter hs) (hdeepAll .inter hs)) fun hs ops hne hops ih hn hl => ?_
  have hg := hvisitAll_good (k := .inter) hlt hs
  obtain ⟨_, alone, sel, one, fit⟩ := hl
  have hnl : ∀ l ∈ hflatAll .inter hs, l.noEmpty = true := by
    intro l hl
    obtain ⟨h0, hm0, h2⟩ := mem_hflatAll.1 hl
    exact hflat_noEmpty h0 (hn h0 hm0) l h2
  have hdl : ∀ l ∈ hflatAll .inter hs, ∀ d ∈ hdeep .inter l, d ∈ hdeepAll .inter hs := by
    intro l hl d hd
    obtain ⟨h0, hm0, h2⟩ := mem_hflatAll.1 hl
    exact mem_hdeepAll.2 ⟨h0, hm0, (mem_hdeep_flat h0 d).2 ⟨l, h2, hd⟩⟩
  have hloc : ∀ g ∈ (hvisitAll .inter lt hs ⟨[], []⟩).locals, ∃ D', (∀ d ∈ D', d ∈ hdeepAll .inter hs) ∧
      IOK env C sc (Verif.hloc g.1 (hnary .inter lt ord g.2)) (g.2.map (.loc g.1)) D' := by
    intro g hgm
    obtain ⟨hgne, hgl⟩ := hg.group g hgm
    have hgn : ∀ h ∈ g.2, h.noEmpty = true := fun h hh => hnl (.loc g.1 h) ((hgl h).1 hh)
    have hDD : ∀ d ∈ (hdeepAll .inter g.2).map (Hom.loc g.1), d ∈ hdeepAll .inter hs := by
      intro d hd
      obtain ⟨d, hdm, rfl⟩ := List.mem_map.1 hd
      replace hd := hdm
      obtain ⟨h, hh, hd⟩ := mem_hdeepAll.1 hd
      exact hdl (.loc g.1 h) ((hgl h).1 hh) _ (by rw [hdeep]; exact List.mem_map_of_mem hd)
    have hdne : ∀ h ∈ g.2, hdeep .inter h ≠ [] := fun h hh => hdeep_ne h (hgn h hh)
    refine ⟨_, hDD, ?_⟩
    cases ha : alone g.1 with
    | false =>
      have hsel : ∀ h ∈ g.2, h.selector env = true := fun h hh => sel g.1 h ((hgl h).1 hh) ha
      have hal : LocAlone env .inter g.2 := by
        intro _ x l hl
        obtain ⟨h, hh, hl⟩ := mem_hflatAll.1 hl
        exact Or.inl (hflat_selector h (hsel h hh) (.loc x l) hl)
      obtain ⟨h0, hm0⟩ := List.exists_mem_of_ne_nil _ hgne
      have hne2 : hdeepAll .inter g.2 ≠ [] := by
        obtain ⟨d, hd⟩ := List.exists_mem_of_ne_nil _ (hdne h0 hm0)
        exact List.ne_nil_of_mem (mem_hdeepAll.2 ⟨h0, hm0, hd⟩)
      have hk : NOK env C sc .inter (Verif.hloc g.1 (hnary .inter lt ord g.2)) ((hdeepAll .inter g.2).map (.loc g.1)) := by
        refine NOK.hloc hC (NOK.loc hC hon hne2 (fun _ => Or.inl fun l hl => ?_) (NOK.build hC hon hlt hord g.2 hgne hgn hal) g.1)
        obtain ⟨h, hm, hl⟩ := mem_hdeepAll.1 hl
        exact hdeep_selector h (hsel h hm) l hl
      intro o t hty
      have htd : ∀ d ∈ (hdeepAll .inter g.2).map (Hom.loc g.1), HTy env C sc o d t := by
        intro d hd
        obtain ⟨d, hdm, rfl⟩ := List.mem_map.1 hd
        replace hd := hdm
        obtain ⟨h, hh, hd⟩ := mem_hdeepAll.1 hd
        exact (hty (.loc g.1 h) (List.mem_map_of_mem hh)).deep (K := .inter) _ _ (by rw [hdeep]; exact List.mem_map_of_mem hd)
      obtain ⟨h1, h2⟩ := IOK.of hC (by simpa using hne2) hk o t htd
      refine ⟨h1, fun x hx hd => ?_⟩
      obtain ⟨a, _, c⟩ := h2 x hx hd
      have hone : ∀ h ∈ g.2, Def env C (.loc g.1 h) o x ∧ ∀ p, Mem C p (evOf env C (.loc g.1 h) o x) ↔
          ∀ d ∈ hdeep .inter h, Mem C p (evOf env C (.loc g.1 d) o x) := by
        intro h hh
        have hd1 := NOK.deep (sc := sc) hC hon (K := .inter) (.loc g.1 h) (hgn h hh) fun _ x l hl => by
          simp [hflat] at hl
          exact Or.inl (hl.2 ▸ hsel h hh)
        obtain ⟨a, _, c⟩ := (IOK.of hC (hdeep_ne (.loc g.1 h) (hgn h hh)) hd1 o t
          ((hty (.loc g.1 h) (List.mem_map_of_mem hh)).deep _)).2 x hx fun d hd' => hd d (by
            rw [hdeep] at hd'
            obtain ⟨d, hd'm, rfl⟩ := List.mem_map.1 hd'
            replace hd' := hd'm
            exact List.mem_map_of_mem (mem_hdeepAll.2 ⟨h, hh, hd'⟩))
        exact ⟨a, fun p => by rw [c, hdeep]; simp⟩
      refine ⟨a, fun h hh => ?_, fun p => ?_⟩
      · obtain ⟨h, hhm, rfl⟩ := List.mem_map.1 hh
        replace hh := hhm
        exact (hone h hh).1
      · rw [c]
        constructor
        · intro hp h hh
          obtain ⟨h, hhm, rfl⟩ := List.mem_map.1 hh
          replace hh := hhm
          exact ((hone h hh).2 p).2 fun d hd' => hp _ (List.mem_map_of_mem (mem_hdeepAll.2 ⟨h, hh, hd'⟩))
        · intro hp d hd'
          obtain ⟨d, hd'm, rfl⟩ := List.mem_map.1 hd'
          replace hd' := hd'm
          obtain ⟨h, hh, hd'⟩ := mem_hdeepAll.1 hd'
          exact ((hone h hh).2 p).1 (hp _ (List.mem_map_of_mem hh)) d hd'
    | true =>
      obtain ⟨g1, hm1⟩ := List.exists_mem_of_ne_nil _ hgne
      have hall : ∀ h, h ∈ g.2 ↔ h = g1 := fun h =>
        ⟨fun hh => one g.1 h g1 ((hgl h).1 hh) ((hgl g1).1 hm1) ha, fun e => e ▸ hm1⟩
      have hfit := (fit g.1 g1 ((hgl g1).1 hm1) ha).congr (hs' := g.2) (by simpa using hall)
      have hi := ih g hgm hgn hfit
      have hi : IOK env C sc (hnary .inter lt ord g.2) (hflat .inter g1) (hdeep .inter g1) :=
        hi.congr (fun l => by rw [mem_hflatAll]; simp [hall]) fun l hl => by
          obtain ⟨h, hh, hl⟩ := mem_hdeepAll.1 hl
          rw [(hall h).1 hh] at hl
          exact hl
      have hi : IOK env C sc (hnary .inter lt ord g.2) [g1] (hdeep .inter g1) := by
        obtain ⟨hfl, hfne⟩ := NOK.flat (sc := sc) hC (K := .inter) g1 (hgn g1 hm1)
        intro o t hty
        have ht : HTy env C sc o g1 t := hty g1 (by simp)
        obtain ⟨h1, h2⟩ := hi o t (ht.flat g1)
        refine ⟨h1, fun x hx hd => ?_⟩
        obtain ⟨a, b, c⟩ := h2 x hx hd
        obtain ⟨a', _, c'⟩ := (IOK.of hC hfne hfl o t (ht.flat g1)).2 x hx b
        exact ⟨a, by simpa using a', fun p => by rw [c, ← c']; simp⟩
      refine ((IOK.loc hC (fun o t ht => ht.deep g1) hi g.1).hloc hC).congr (fun l => ?_) fun l hl => ?_
      · simp [hall, eq_comm]
      · obtain ⟨d, hd, rfl⟩ := List.mem_map.1 hl
        exact List.mem_map_of_mem (mem_hdeepAll.2 ⟨g1, hm1, hd⟩)
  have hsingle : ∀ l ∈ hflatAll .inter hs, l.isLoc = false → (∀ d ∈ [l], d ∈ hdeepAll .inter hs) ∧ IOK env C sc l [l] [l] := by
    intro l hl hi
    obtain ⟨h0, hm0, h2⟩ := mem_hflatAll.1 hl
    exact ⟨fun d hd => hdl l hl d (by rw [hflat_leaf h0 l h2 hi]; exact hd), IOK.of hC (by simp) (NOK.single hC)⟩
  have hin : ∀ g ∈ (hvisitAll .inter lt hs ⟨[], []⟩).locals, ∀ l ∈ g.2.map (Hom.loc g.1), l ∈ hflatAll .inter hs := by
    intro g hgm l hl
    obtain ⟨h, hh, rfl⟩ := List.mem_map.1 hl
    exact ((hg.group g hgm).2 h).1 hh
  have hcov : ∀ l ∈ hflatAll .inter hs, ∃ a ∈ ops, ∃ G D', l ∈ G ∧ (∀ g ∈ G, g ∈ hflatAll .inter hs) ∧ (∀ d ∈ D', d ∈ hdeepAll .inter hs) ∧
      IOK env C sc a G D' := by
    intro l hl
    cases hi : l.isLoc with
    | false =>
      obtain ⟨h1, h2⟩ := hsingle l hl hi
      exact ⟨l, (hops l).2 (Or.inl ⟨hl, hi⟩), [l], [l], by simp, by simpa using hl, h1, h2⟩
    | true =>
      cases l with
      | loc x l =>
        obtain ⟨gs, h1⟩ := hg.key x l hl
        obtain ⟨D', h2, h3⟩ := hloc _ h1
        exact ⟨_, (hops _).2 (Or.inr ⟨_, h1, rfl⟩), _, D', List.mem_map_of_mem (((hg.group _ h1).2 l).2 hl), hin _ h1, h2, h3⟩
      | _ => simp [Hom.isLoc] at hi
  have hops_ne : ops ≠ [] := by
    obtain ⟨h, hm⟩ := List.exists_mem_of_ne_nil _ hne
    obtain ⟨l, hl⟩ := List.exists_mem_of_ne_nil _ (NOK.flat (env := env) (sc := sc) hC (K := .inter) h (hn h hm)).2
    obtain ⟨a, ha, _⟩ := hcov l (mem_hflatAll.2 ⟨h, hm, hl⟩)
    exact List.ne_nil_of_mem ha
  refine IOK.trans hC hops_ne (NOK.fin hC hops_ne) (fun a ha => ?_) hcov
  rcases (hops a).1 ha with ⟨h1, h2⟩ | ⟨g, hgm, rfl⟩
  · obtain ⟨h3, h4⟩ := hsingle a h1 h2
    exact ⟨[a], [a], by simp, by simpa using h1, h3, h4⟩
  · obtain ⟨D', h2, h3⟩ := hloc g hgm
    exact ⟨_, D', by simpa using (hg.group g hgm).1, hin g hgm, h2, h3⟩

/-- An intersection built by the library, whose local operands are selectors or alone on their level, is the intersection of the results of the operands
given, when all of them (those of the nested intersections too) have a result. -/
theorem hinter_fit (hC : C.Lawful) (hon : Honest env C) {lt : Hom V I U → Hom V I U → Bool} (hlt : StrictTotal lt)
    {ord : List (Nat × List (Hom V I U)) → List (Nat × List (Hom V I U))} (hord : Iterates ord) {hs : List (Hom V I U)}
    (hne : hs ≠ []) (hn : ∀ h ∈ hs, h.noEmpty = true) (hsel : LocFit env hs) {o : OB I} {t : Ty}
    (hty : ∀ h ∈ hs, HTy env C sc o h t) :
    HTy env C sc o (hnary .inter lt ord hs) t ∧
      ∀ x, Dom C o.ty x → (∀ h ∈ hdeepAll .inter hs, Def env C h o x) → (∀ h ∈ hs, Def env C h o x) ∧
        ∀ r, Ev env C (hnary .inter lt ord hs) o x r ↔ InterSpec env C hs o x r := by
  have htf : ∀ l ∈ hflatAll .inter hs, HTy env C sc o l t := by
    intro l hl
    obtain ⟨h, hm, hl⟩ := mem_hflatAll.1 hl
    exact (hty h hm).flat h l hl
  obtain ⟨h1, h2⟩ := IOK.build hC hon hlt hord hs hne hn hsel o t htf
  refine ⟨h1, fun x hx hd => ?_⟩
  obtain ⟨a, b, c⟩ := h2 x hx hd
  have hone : ∀ h ∈ hs, Def env C h o x ∧ ∀ p, Mem C p (evOf env C h o x) ↔ ∀ l ∈ hflat .inter h, Mem C p (evOf env C l o x) := by
    intro h hm
    obtain ⟨hfl, hfne⟩ := NOK.flat (sc := sc) hC (K := .inter) h (hn h hm)
    obtain ⟨a, _, c⟩ := (IOK.of hC hfne hfl o t ((hty h hm).flat h)).2 x hx fun l hl => b l (mem_hflatAll.2 ⟨h, hm, hl⟩)
    exact ⟨a, c⟩
  refine ⟨fun h hm => (hone h hm).1, fun r => ?_⟩
  have hset : ∀ p, Mem C p (evOf env C (hnary .inter lt ord hs) o x) ↔ ∀ h ∈ hs, Mem C p (evOf env C h o x) := by
    intro p
    rw [c]
    constructor
    · intro hp h hm
      exact ((hone h hm).2 p).2 fun l hl => hp l (mem_hflatAll.2 ⟨h, hm, hl⟩)
    · intro hp l hl
      obtain ⟨h, hm, hl⟩ := mem_hflatAll.1 hl
      exact ((hone h hm).2 p).1 (hp h hm) l hl
  have hi : InterSpec env C hs o x (evOf env C (hnary .inter lt ord hs) o x) := ⟨((a.ev hC).dom h1 hx).wf, hset⟩
  constructor
  · intro e
    rw [← evOf_eq hC e]
    exact hi
  · intro h
    rw [Is.unique hC h hi fun _ => Iff.rfl]
    exact a.ev hC

end Verif
