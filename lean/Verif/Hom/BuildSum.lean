import Verif.Hom.Build
/-!
# Sums and intersections built by the library

Flattening the nested operands, removing duplicates and regrouping the locals of a same variable does not change sums, nor the
intersections whose locals are selectors.
-/

set_option autoImplicit false
set_option linter.unusedSectionVars false

namespace Verif

variable {V E I U : Type} [DecidableEq V] [DecidableEq I] [DecidableEq U]
variable {env : User V I U} {C : Cfg V E} {sc : Scope I U}

/-! ## Typing -/

theorem NAry.skip_iff {k : NAry} {x : Nat} {i : OId I} {hs : List (Hom V I U)} :
    (k.mk hs).skip env x i = true ↔ ∀ h ∈ hs, h.skip env x i = true := by
  cases k <;> simp [NAry.mk, Hom.skip, Hom.skipAll_iff]

theorem NAry.ne_id {k : NAry} {hs : List (Hom V I U)} : k.mk hs ≠ .id := by cases k <;> simp [NAry.mk]

/-- Sums and intersections may be applied when their operands may be. -/
theorem HTy.nary {k : NAry} {hs : List (Hom V I U)} (hne : hs ≠ []) (o : OB I) : ∀ {t : Ty}, (∀ h ∈ hs, HTy env C sc o h t) →
    HTy env C sc o (k.mk hs) t := by
  obtain ⟨g, hg⟩ := List.exists_mem_of_ne_nil _ hne
  have stop : ∀ {o : OB I} {t : Ty}, Stop env (k.mk hs) o → (∀ h ∈ hs, HTy env C sc o h t) → HTy env C sc o (k.mk hs) t := by
    intro o t hst h
    cases k with
    | sum => exact .sum (h g hg).shape hst h
    | inter => exact .inter (h g hg).shape hst h
  induction o with
  | nil => intro t h; exact stop trivial h
  | node id nst nxt _ ih =>
    intro t h
    cases hs' : (k.mk hs).skip env nxt.lvl id with
    | false => exact stop hs' h
    | true =>
      have hsk := NAry.skip_iff.1 hs'
      obtain ⟨t', rfl, h1⟩ := (h g hg).sk (hsk g hg)
      exact .skip NAry.ne_id hs' (ih fun h' hm => (h h' hm).sk_lift (hsk h' hm))

theorem HTy.nary_inv {k : NAry} {hs : List (Hom V I U)} {o : OB I} {t : Ty} (ht : HTy env C sc o (k.mk hs) t) :
    ∀ h ∈ hs, HTy env C sc o h t := by
  generalize hg : k.mk hs = g at ht
  induction ht with
  | @skip id nst nxt h t _ hsk _ ih =>
    subst hg
    intro h hm
    exact (ih rfl h hm).above (NAry.skip_iff.1 hsk h hm)
  | inter h1 h2 h3 => cases k <;> cases hg; exact h3
  | sum h1 h2 h3 => cases k <;> cases hg; exact h3
  | _ => cases k <;> cases hg

/-- The cases of a local. -/
theorem HTy.loc_cases {x : Nat} {h : Hom V I U} {o : OB I} {t : Ty} (ht : HTy env C sc o (.loc x h) t) :
    ∃ id nst nxt, o = .node id nst nxt ∧
      ((x = nxt.lvl ∧ nst ≠ .nil ∧ ∃ tn, t = .hier nxt.lvl tn nxt.ty ∧ HTy env C sc nst h tn) ∨
        (x ≠ nxt.lvl ∧ ∃ t', t = liftTy nst nxt t' ∧ HTy env C sc nxt (.loc x h) t')) := by
  cases ht with
  | skip _ hs h1 =>
    simp only [Hom.skip, decide_eq_true_eq, ne_eq] at hs
    exact ⟨_, _, _, rfl, Or.inr ⟨fun h => hs h.symm, _, rfl, h1⟩⟩
  | loc h1 h2 => exact ⟨_, _, _, rfl, Or.inl ⟨rfl, h1, _, rfl, h2⟩⟩

theorem loc_skip {x : Nat} {h : Hom V I U} {y : Nat} {i : OId I} (hne : x ≠ y) : (Hom.loc x h).skip env y i = true := by
  simp only [Hom.skip, decide_eq_true_eq]
  exact fun h => hne h.symm

/-- A local may be applied when other ones may be, if the same is true below. -/
theorem HTy.loc_of {x : Nat} {k : Hom V I U} {gs : List (Hom V I U)} (hne : gs ≠ [])
    (hk : ∀ nst tn, (∀ g ∈ gs, HTy env C sc nst g tn) → HTy env C sc nst k tn) (o : OB I) : ∀ {t : Ty},
    (∀ g ∈ gs, HTy env C sc o (.loc x g) t) → HTy env C sc o (.loc x k) t := by
  obtain ⟨g0, hg0⟩ := List.exists_mem_of_ne_nil _ hne
  induction o with
  | nil =>
    intro t h
    obtain ⟨_, _, _, he, _⟩ := (h g0 hg0).loc_cases
    cases he
  | node id nst nxt _ ih =>
    intro t h
    by_cases hx : x = nxt.lvl
    · subst hx
      obtain ⟨_, _, _, he, ⟨_, h1, tn, rfl, h2⟩ | ⟨h1, _⟩⟩ := (h g0 hg0).loc_cases
      · cases he
        refine .loc h1 (hk _ _ fun g hg => ?_)
        obtain ⟨_, _, _, he, ⟨_, _, tn', h4, h3⟩ | ⟨h1, _⟩⟩ := (h g hg).loc_cases
        · cases he; cases h4; exact h3
        · cases he; exact absurd rfl h1
      · cases he; exact absurd rfl h1
    · obtain ⟨t', rfl, _⟩ := (h g0 hg0).sk (loc_skip hx)
      exact .skip (by simp) (loc_skip hx) (ih fun g hg => (h g hg).sk_lift (loc_skip hx))

theorem HTy.loc_mono {x : Nat} {h h' : Hom V I U} {o : OB I} {t : Ty} (ht : HTy env C sc o (.loc x h) t)
    (hk : ∀ nst tn, HTy env C sc nst h tn → HTy env C sc nst h' tn) : HTy env C sc o (.loc x h') t :=
  HTy.loc_of (gs := [h]) (by simp) (fun nst tn hg => hk nst tn (hg h (by simp))) o fun g hg => by
    rw [List.mem_singleton.1 hg]; exact ht

theorem HTy.loc_id {x : Nat} {o : OB I} {t : Ty} (ht : HTy env C sc o (.loc x .id) t) : t = o.ty := by
  induction o generalizing t with
  | nil =>
    obtain ⟨_, _, _, he, _⟩ := ht.loc_cases
    cases he
  | node id nst nxt _ ih =>
    obtain ⟨_, _, _, he, ⟨_, h1, tn, rfl, h2⟩ | ⟨_, t', rfl, h2⟩⟩ := ht.loc_cases
    · cases he
      cases h2 with
      | id =>
        cases nst with
        | nil => exact absurd rfl h1
        | node a b c => rfl
      | skip h => exact absurd rfl h
    · cases he
      rw [ih h2, liftTy_ty]

/-! ## Equal evaluations -/

theorem evOf_congr (hC : C.Lawful) {h h' : Hom V I U} {o : OB I} {x : SDD V} (he : ∀ r, Ev env C h o x r ↔ Ev env C h' o x r) :
    evOf env C h o x = evOf env C h' o x := by
  by_cases hd : Def env C h o x
  · exact (evOf_eq hC ((he _).1 (hd.ev hC))).symm
  · have hd' : ¬ Def env C h' o x := fun ⟨r, e⟩ => hd ⟨r, (he r).2 e⟩
    unfold evOf
    rw [dif_neg (show ¬ ∃ r, Ev env C h o x r from hd), dif_neg (show ¬ ∃ r, Ev env C h' o x r from hd')]

theorem def_congr {h h' : Hom V I U} {o : OB I} {x : SDD V} (he : ∀ r, Ev env C h o x r ↔ Ev env C h' o x r) :
    Def env C h o x ↔ Def env C h' o x := exists_congr he

/-- Equal below a skipped level, equal above. -/
theorem Ev.skip_congr (hC : C.Lawful) {h h' : Hom V I U} {id : OId I} {nst nxt : OB I} {x : SDD V}
    (hs : h.skip env nxt.lvl id = true) (hs' : h'.skip env nxt.lvl id = true) (hx : Dom C (OB.node id nst nxt).ty x)
    (he : ∀ hd s, ArcOf C x hd s → ∀ r, Ev env C h nxt s r ↔ Ev env C h' nxt s r) (r : SDD V) :
    Ev env C h (.node id nst nxt) x r ↔ Ev env C h' (.node id nst nxt) x r := by
  rw [Ev.skip_iff hC hs hx, Ev.skip_iff hC hs' hx]
  have h1 : ∀ hd s, ArcOf C x hd s → evOf env C h nxt s = evOf env C h' nxt s := fun hd s ha => evOf_congr hC (he hd s ha)
  constructor
  · rintro ⟨a, b⟩
    exact ⟨fun hd s ha => (def_congr (he hd s ha)).1 (a hd s ha), b.congr h1⟩
  · rintro ⟨a, b⟩
    exact ⟨fun hd s ha => (def_congr (he hd s ha)).2 (a hd s ha), b.congr fun hd s ha => (h1 hd s ha).symm⟩

/-! ## Locals -/

/-- The set of paths of the result of a local. (Specification or proof device, not part of the code.) -/
def LocSet (C : Cfg V E) (y : Nat) (arcs : List (SDD V × SDD V)) (f : SDD V → SDD V) (p : Path E) : Prop :=
  ∃ n q, p = .hier y n q ∧ ∃ arc ∈ arcs, Mem C n (f arc.1) ∧ Mem C q arc.2

theorem exists_loc (hC : C.Lawful) {tn t : Ty} (htn : tn.IsShape) (ht : t.IsShape) (y : Nat) (arcs : List (SDD V × SDD V))
    (f : SDD V → SDD V) (hf : ∀ arc ∈ arcs, Dom C tn (f arc.1)) (ha : ∀ arc ∈ arcs, Dom C t arc.2) :
    ∃ r, Is C r (LocSet C y arcs f) := by
  have key : ∀ v s, Dom C tn v → Dom C t s → ∃ r, Dom C (.hier y tn t) r ∧
      ∀ p, Mem C p r ↔ ∃ n q, p = .hier y n q ∧ Mem C n v ∧ Mem C q s := by
    intro v s hv hs
    obtain ⟨h1, h2⟩ := mkNode1_hier (m := Plain (fun _ => []) V) (C := C) (rec := fun _ => pure .zero) (x := y) hv.wf hs.wf
    refine ⟨_, Is.dom (S := fun p => ∃ n q, p = .hier y n q ∧ Mem C n v ∧ Mem C q s) ⟨h1, h2⟩ ?_, h2⟩
    rintro p ⟨n, q, rfl, hn, hq⟩
    exact ⟨tn, t, by simp [Ty.hierNext], hv.pty n hn, hs.pty q hq⟩
  have hex : ∃ pr : SDD V × SDD V → SDD V, ∀ arc ∈ arcs, Dom C (.hier y tn t) (pr arc) ∧
      ∀ p, Mem C p (pr arc) ↔ ∃ n q, p = .hier y n q ∧ Mem C n (f arc.1) ∧ Mem C q arc.2 := by
    have : ∀ arc : SDD V × SDD V, ∃ r, arc ∈ arcs → Dom C (.hier y tn t) r ∧
        ∀ p, Mem C p r ↔ ∃ n q, p = .hier y n q ∧ Mem C n (f arc.1) ∧ Mem C q arc.2 := by
      intro arc
      by_cases hm : arc ∈ arcs
      · obtain ⟨r, hr⟩ := key _ _ (hf arc hm) (ha arc hm)
        exact ⟨r, fun _ => hr⟩
      · exact ⟨.zero, fun h => absurd h hm⟩
    choose pr hpr using this
    exact ⟨pr, hpr⟩
  obtain ⟨pr, hpr⟩ := hex
  obtain ⟨r, h1, h2⟩ := exists_union hC (t := .hier y tn t) ⟨htn, ht⟩ (arcs.map pr) (by
    intro x hx
    obtain ⟨arc, hm, rfl⟩ := List.mem_map.1 hx
    exact (hpr arc hm).1)
  refine ⟨r, h1.wf, fun p => ?_⟩
  rw [h2]
  constructor
  · rintro ⟨x, hx, hp⟩
    obtain ⟨arc, hm, rfl⟩ := List.mem_map.1 hx
    obtain ⟨n, q, rfl, hn, hq⟩ := ((hpr arc hm).2 p).1 hp
    exact ⟨n, q, rfl, arc, hm, hn, hq⟩
  · rintro ⟨n, q, rfl, arc, hm, hn, hq⟩
    exact ⟨pr arc, List.mem_map.2 ⟨arc, hm, rfl⟩, ((hpr arc hm).2 _).2 ⟨n, q, rfl, hn, hq⟩⟩

/-- A local at its target. -/
theorem Ev.loc_here (hC : C.Lawful) {h : Hom V I U} {id : OId I} {nst nxt : OB I} {arcs : List (SDD V × SDD V)} {r : SDD V}
    : Ev env C (.loc nxt.lvl h) (.node id nst nxt) (.hier nxt.lvl arcs) r ↔
      (∀ arc ∈ arcs, Def env C h nst arc.1) ∧ Is C r (LocSet C nxt.lvl arcs (evOf env C h nst)) := by
  have hh : Here env (.loc nxt.lvl h) (.node id nst nxt) (.hier nxt.lvl arcs) := ⟨rfl, by simp [Hom.skip]⟩
  constructor
  · intro e
    cases e with
    | skip _ _ hb => exact (hh.not_below hb).elim
    | loc f _ hf hr =>
      refine ⟨fun arc hm => ⟨_, hf arc hm⟩, hr.1, fun p => ?_⟩
      rw [hr.2]
      constructor
      · rintro ⟨n, q, rfl, arc, hm, hn, hq⟩
        exact ⟨n, q, rfl, arc, hm, (evOf_eq hC (hf arc hm)).symm ▸ hn, hq⟩
      · rintro ⟨n, q, rfl, arc, hm, hn, hq⟩
        exact ⟨n, q, rfl, arc, hm, evOf_eq hC (hf arc hm) ▸ hn, hq⟩
  · rintro ⟨h1, h2⟩
    exact .loc (evOf env C h nst) hh (fun arc hm => (h1 arc hm).ev hC) h2

theorem Def.loc_here (hC : C.Lawful) {h : Hom V I U} {id : OId I} {nst nxt : OB I} {arcs : List (SDD V × SDD V)} {tn : Ty}
    (ht : HTy env C sc nst h tn) (hx : Dom C (OB.node id nst nxt).ty (.hier nxt.lvl arcs)) :
    Def env C (.loc nxt.lvl h) (.node id nst nxt) (.hier nxt.lvl arcs) ↔ ∀ arc ∈ arcs, Def env C h nst arc.1 := by
  constructor
  · rintro ⟨r, e⟩; exact ((Ev.loc_here hC).1 e).1
  · intro h1
    rcases dom_cases hx with h | ⟨h, _⟩ | ⟨_, _, _, _, h, _⟩ | ⟨id', nst', nxt', arcs', h2, _, h3, _, h5, h6⟩
    · cases h
    · cases h
    · cases h
    · cases h2; cases h3
      obtain ⟨r, hr⟩ := exists_loc hC ht.shape (OB.ty_shape nxt) nxt.lvl arcs (evOf env C h nst)
        (fun arc hm => ((h1 arc hm).ev hC).dom ht (h5 arc hm)) h6
      exact ⟨r, (Ev.loc_here hC).2 ⟨h1, hr⟩⟩

/-- The cases of the SDDs of a hierarchical level. -/
theorem dom_hier {id : OId I} {nst nxt : OB I} {x : SDD V} (hn : nst ≠ .nil) (hx : Dom C (OB.node id nst nxt).ty x) :
    x = .zero ∨ ∃ arcs, x = .hier nxt.lvl arcs ∧ GoodArcs C (Mem C) arcs ∧
      (∀ arc ∈ arcs, Dom C nst.ty arc.1) ∧ ∀ arc ∈ arcs, Dom C nxt.ty arc.2 := by
  rcases dom_cases hx with h | ⟨h, _⟩ | ⟨_, _, _, h, _⟩ | ⟨id', nst', nxt', arcs', h2, _, h3, h4, h5, h6⟩
  · exact Or.inl h
  · cases h
  · cases h; exact absurd rfl hn
  · cases h2; exact Or.inr ⟨arcs', h3, h4, h5, h6⟩

/-- The identity applied to a valuation is the identity. -/
theorem Ev.loc_id (hC : C.Lawful) {x : Nat} (o : OB I) : ∀ {t : Ty} {s r : SDD V}, HTy env C sc o (.loc x .id) t →
    Dom C o.ty s → (Ev env C (.loc x .id) o s r ↔ Ev env C .id o s r) := by
  induction o with
  | nil =>
    intro t s r ht hs
    obtain ⟨_, _, _, he, _⟩ := ht.loc_cases
    cases he
  | node id nst nxt _ ih =>
    intro t s r ht hs
    obtain ⟨_, _, _, he, ⟨rfl, h1, tn, rfl, h2⟩ | ⟨h1, t', rfl, h2⟩⟩ := ht.loc_cases
    · cases he
      rcases dom_hier h1 hs with rfl | ⟨arcs, rfl, h3, h4, h5⟩
      · exact ⟨fun e => by rw [e.of_zero]; exact .zero _ _, fun e => by rw [e.of_zero]; exact .zero _ _⟩
      · have hset : Is C (.hier nxt.lvl arcs) (LocSet C nxt.lvl arcs (evOf env C .id nst)) := by
          refine ⟨hs.wf, fun p => ?_⟩
          cases p with
          | nil => simp [Mem, LocSet]
          | flat => simp [Mem, LocSet]
          | hier y n q =>
            simp only [Mem, LocSet, Path.hier.injEq]
            constructor
            · rintro ⟨rfl, arc, hm, hn, hq⟩
              exact ⟨n, q, ⟨rfl, rfl, rfl⟩, arc, hm, by rw [evOf_eq hC (.id _ _)]; exact hn, hq⟩
            · rintro ⟨_, _, ⟨rfl, rfl, rfl⟩, arc, hm, hn, hq⟩
              rw [evOf_eq hC (.id _ _)] at hn
              exact ⟨rfl, arc, hm, hn, hq⟩
        rw [Ev.loc_here hC]
        constructor
        · rintro ⟨_, h6⟩
          rw [h6.unique hC hset fun _ => Iff.rfl]
          exact .id _ _
        · intro e
          rw [e.of_id]
          exact ⟨fun arc _ => ⟨_, .id _ _⟩, hset⟩
    · cases he
      exact Ev.skip_congr hC (loc_skip h1) (by simp [Hom.skip]) hs (fun hd s ha r => ih h2 (ha.dom hs).1) r

/-! ## What a built homomorphism stands for -/

/-- The results of `k` are the sums (or the intersections) of the results of `hs`. For an intersection, when all of them have
a result. (Specification or proof device, not part of the code.) -/
def NEq (env : User V I U) (C : Cfg V E) (K : NAry) (k : Hom V I U) (hs : List (Hom V I U)) (o : OB I) (x : SDD V) : Prop :=
  match K with
  | .sum => ∀ r, Ev env C k o x r ↔ SumSpec env C hs o x r
  | .inter => (∀ h ∈ hs, Def env C h o x) → ∀ r, Ev env C k o x r ↔ InterSpec env C hs o x r

/-- `k` stands for the sum (or the intersection) of `hs`. (Specification or proof device, not part of the code.) -/
def NOK (env : User V I U) (C : Cfg V E) (sc : Scope I U) (K : NAry) (k : Hom V I U) (hs : List (Hom V I U)) : Prop :=
  ∀ o t, (∀ h ∈ hs, HTy env C sc o h t) → HTy env C sc o k t ∧ ∀ x, Dom C o.ty x → NEq env C K k hs o x

theorem SumSpec.def_iff (hC : C.Lawful) {hs : List (Hom V I U)} {o : OB I} {t : Ty} {x : SDD V} (ht : t.IsShape)
    (hty : ∀ h ∈ hs, HTy env C sc o h t) (hx : Dom C o.ty x) :
    (∃ r, SumSpec env C hs o x r) ↔ ∀ h ∈ hs, Def env C h o x :=
  ⟨fun ⟨_, h⟩ => h.1, fun h => (SumSpec.exists hC ht hty hx h)⟩

theorem InterSpec.exists (hC : C.Lawful) {hs : List (Hom V I U)} {o : OB I} {t : Ty} {x : SDD V} (ht : t.IsShape) (hne : hs ≠ [])
    (hty : ∀ h ∈ hs, HTy env C sc o h t) (hx : Dom C o.ty x) (hd : ∀ h ∈ hs, Def env C h o x) :
    ∃ r, InterSpec env C hs o x r := by
  obtain ⟨r, h1, h2⟩ := exists_inter hC ht (hs.map fun h => evOf env C h o x) (by
    intro y hy
    obtain ⟨h, hm, rfl⟩ := List.mem_map.1 hy
    exact ((hd h hm).ev hC).dom (hty h hm) hx)
  refine ⟨r, h1.wf, fun p => ?_⟩
  rw [h2]
  simp [hne]

theorem InterSpec.zero (hC : C.Lawful) {hs : List (Hom V I U)} (hne : hs ≠ []) {o : OB I} {r : SDD V} :
    InterSpec env C hs o .zero r ↔ r = .zero := by
  obtain ⟨g, hg⟩ := List.exists_mem_of_ne_nil _ hne
  have h0 : ∀ p, ¬ ∀ h ∈ hs, Mem C p (evOf env C h o .zero) := by
    intro p hp
    have := hp g hg
    rw [evOf_zero hC] at this
    exact not_mem_zero p this
  exact ⟨fun h => Is.eq_zero h h0, fun h => h ▸ Is.zero h0⟩

/-- An intersection is the intersection of the results of its operands. -/
theorem Ev.inter_iff' (hC : C.Lawful) {hs : List (Hom V I U)} {o : OB I} {t : Ty} {x r : SDD V} (hne : hs ≠ [])
    (hty : ∀ h ∈ hs, HTy env C sc o h t) (hx : Dom C o.ty x) (hd : ∀ h ∈ hs, Def env C h o x) :
    Ev env C (.inter hs) o x r ↔ InterSpec env C hs o x r := by
  obtain ⟨g, hg⟩ := List.exists_mem_of_ne_nil _ hne
  by_cases h0 : x = .zero
  · subst h0
    rw [InterSpec.zero hC hne]
    exact ⟨fun e => e.of_zero, fun e => by rw [e]; exact .zero _ _⟩
  · exact Ev.inter_iff hC o (hty g hg).shape hne hty hx h0 hd

theorem NOK.mk (hC : C.Lawful) {K : NAry} {hs : List (Hom V I U)} (hne : hs ≠ []) : NOK env C sc K (K.mk hs) hs := by
  intro o t hty
  obtain ⟨g, hg⟩ := List.exists_mem_of_ne_nil _ hne
  refine ⟨HTy.nary hne o hty, fun x hx => ?_⟩
  cases K with
  | sum => exact fun r => Ev.sum_iff hC o (hty g hg).shape hne hty hx
  | inter => exact fun hd r => Ev.inter_iff' hC hne hty hx hd

theorem NOK.single (hC : C.Lawful) {K : NAry} {h : Hom V I U} : NOK env C sc K h [h] := by
  intro o t hty
  refine ⟨hty h (by simp), fun x hx => ?_⟩
  have hdom : ∀ r, Ev env C h o x r → Dom C t r := fun r e => e.dom (hty h (by simp)) hx
  cases K with
  | sum =>
    intro r
    constructor
    · intro e
      refine ⟨by simpa using ⟨r, e⟩, (hdom r e).wf, fun p => ?_⟩
      simp [evOf_eq hC e]
    · rintro ⟨h1, h2⟩
      have h3 := (h1 h (by simp)).ev hC
      rw [h2.unique hC (r' := evOf env C h o x) (S' := fun p => Mem C p (evOf env C h o x)) ⟨(hdom _ h3).wf, fun _ => Iff.rfl⟩
        (by simp)]
      exact h3
  | inter =>
    intro hd r
    have h3 := (hd h (by simp)).ev hC
    constructor
    · intro e
      refine ⟨(hdom r e).wf, fun p => ?_⟩
      simp [evOf_eq hC e]
    · intro h2
      rw [h2.unique hC (r' := evOf env C h o x) (S' := fun p => Mem C p (evOf env C h o x)) ⟨(hdom _ h3).wf, fun _ => Iff.rfl⟩
        (by simp)]
      exact h3

theorem NOK.congr {K : NAry} {k : Hom V I U} {hs hs' : List (Hom V I U)} (h : NOK env C sc K k hs)
    (hm : ∀ g, g ∈ hs ↔ g ∈ hs') : NOK env C sc K k hs' := by
  intro o t hty
  obtain ⟨h1, h2⟩ := h o t fun g hg => hty g ((hm g).1 hg)
  refine ⟨h1, fun x hx => ?_⟩
  have h3 := h2 x hx
  cases K with
  | sum =>
    simp only [NEq, SumSpec, hm] at h3 ⊢
    exact h3
  | inter =>
    simp only [NEq, InterSpec, hm] at h3 ⊢
    exact h3

/-- Groups of operands. -/
theorem NOK.trans (hC : C.Lawful) {K : NAry} {k : Hom V I U} (T : List (Hom V I U × List (Hom V I U)))
    (hne : ∀ a ∈ T, a.2 ≠ []) (h : NOK env C sc K k (T.map Prod.fst)) (hT : ∀ a ∈ T, NOK env C sc K a.1 a.2) :
    NOK env C sc K k (T.flatMap Prod.snd) := by
  intro o t hty
  have hty2 : ∀ a ∈ T, ∀ h ∈ a.2, HTy env C sc o h t := fun a ha h hh => hty h (List.mem_flatMap.2 ⟨a, ha, hh⟩)
  have hty1 : ∀ a ∈ T, HTy env C sc o a.1 t := fun a ha => (hT a ha o t (hty2 a ha)).1
  obtain ⟨h1, h2⟩ := h o t fun g hg => by
    obtain ⟨a, ha, rfl⟩ := List.mem_map.1 hg
    exact hty1 a ha
  refine ⟨h1, fun x hx => ?_⟩
  have h3 := h2 x hx
  have h4 := fun a ha => (hT a ha o t (hty2 a ha)).2 x hx
  cases K with
  | sum =>
    simp only [NEq, SumSpec, List.mem_map, List.mem_flatMap] at h3 h4 ⊢
    have hdef : ∀ a ∈ T, Def env C a.1 o x ↔ ∀ h ∈ a.2, Def env C h o x := by
      intro a ha
      obtain ⟨g, hg⟩ := List.exists_mem_of_ne_nil _ (hne a ha)
      exact ⟨fun ⟨r, e⟩ => ((h4 a ha r).1 e).1, fun hd => by
        obtain ⟨r, hr⟩ := SumSpec.exists hC (hty2 a ha g hg).shape (hty2 a ha) hx hd
        exact ⟨r, (h4 a ha r).2 hr⟩⟩
    have hmem : ∀ a ∈ T, Def env C a.1 o x → ∀ p, Mem C p (evOf env C a.1 o x) ↔ ∃ h ∈ a.2, Mem C p (evOf env C h o x) :=
      fun a ha hd p => ((h4 a ha _).1 (hd.ev hC)).2.2 p
    intro r
    rw [h3]
    constructor
    · rintro ⟨g1, g2, g3⟩
      have g1' : ∀ a ∈ T, Def env C a.1 o x := fun a ha => g1 _ ⟨a, ha, rfl⟩
      refine ⟨?_, g2, fun p => ?_⟩
      · rintro h ⟨a, ha, hh⟩
        exact (hdef a ha).1 (g1' a ha) h hh
      · rw [g3]
        constructor
        · rintro ⟨_, ⟨a, ha, rfl⟩, hp⟩
          obtain ⟨h, hh, hp⟩ := (hmem a ha (g1' a ha) p).1 hp
          exact ⟨h, ⟨a, ha, hh⟩, hp⟩
        · rintro ⟨h, ⟨a, ha, hh⟩, hp⟩
          exact ⟨_, ⟨a, ha, rfl⟩, (hmem a ha (g1' a ha) p).2 ⟨h, hh, hp⟩⟩
    · rintro ⟨g1, g2, g3⟩
      have g1' : ∀ a ∈ T, Def env C a.1 o x := fun a ha => (hdef a ha).2 fun h hh => g1 h ⟨a, ha, hh⟩
      refine ⟨?_, g2, fun p => ?_⟩
      · rintro _ ⟨a, ha, rfl⟩; exact g1' a ha
      · rw [g3]
        constructor
        · rintro ⟨h, ⟨a, ha, hh⟩, hp⟩
          exact ⟨_, ⟨a, ha, rfl⟩, (hmem a ha (g1' a ha) p).2 ⟨h, hh, hp⟩⟩
        · rintro ⟨_, ⟨a, ha, rfl⟩, hp⟩
          obtain ⟨h, hh, hp⟩ := (hmem a ha (g1' a ha) p).1 hp
          exact ⟨h, ⟨a, ha, hh⟩, hp⟩
  | inter =>
    simp only [NEq, InterSpec, List.mem_map, List.mem_flatMap] at h3 h4 ⊢
    intro g1 r
    have hd2 : ∀ a ∈ T, ∀ h ∈ a.2, Def env C h o x := fun a ha h hh => g1 h ⟨a, ha, hh⟩
    have hdef : ∀ a ∈ T, Def env C a.1 o x := by
      intro a ha
      obtain ⟨g, hg⟩ := List.exists_mem_of_ne_nil _ (hne a ha)
      obtain ⟨r, hr⟩ := InterSpec.exists hC (hty2 a ha g hg).shape (hne a ha) (hty2 a ha) hx (hd2 a ha)
      exact ⟨r, (h4 a ha (hd2 a ha) r).2 hr⟩
    have hmem : ∀ a ∈ T, ∀ p, Mem C p (evOf env C a.1 o x) ↔ ∀ h ∈ a.2, Mem C p (evOf env C h o x) :=
      fun a ha p => ((h4 a ha (hd2 a ha) _).1 ((hdef a ha).ev hC)).2 p
    rw [h3 (by rintro _ ⟨a, ha, rfl⟩; exact hdef a ha)]
    have hset : ∀ p, (∀ h, (∃ a ∈ T, a.1 = h) → Mem C p (evOf env C h o x)) ↔
        ∀ h, (∃ a ∈ T, h ∈ a.2) → Mem C p (evOf env C h o x) := by
      intro p
      constructor
      · rintro hp h ⟨a, ha, hh⟩
        exact (hmem a ha p).1 (hp _ ⟨a, ha, rfl⟩) h hh
      · rintro hp _ ⟨a, ha, rfl⟩
        exact (hmem a ha p).2 fun h hh => hp h ⟨a, ha, hh⟩
    simp only [Is, hset]

/-- Locals of a same variable. -/
theorem NOK.loc (hC : C.Lawful) (hon : Honest env C) {K : NAry} {k : Hom V I U} {gs : List (Hom V I U)} (hne : gs ≠ [])
    (hsel : K = .inter → (∀ g ∈ gs, g.selector env = true) ∨ ∃ g1, ∀ g ∈ gs, g = g1) (h : NOK env C sc K k gs) (x : Nat) :
    NOK env C sc K (.loc x k) (gs.map (.loc x)) := by
  intro o
  obtain ⟨g0, hg0⟩ := List.exists_mem_of_ne_nil _ hne
  have hne' : gs.map (Hom.loc x) ≠ [] := by simpa using hne
  induction o with
  | nil =>
    intro t hty
    obtain ⟨_, _, _, he, _⟩ := (hty (.loc x g0) (List.mem_map_of_mem hg0)).loc_cases
    cases he
  | node id nst nxt _ ih =>
    intro t hty
    have hty' : ∀ g ∈ gs, HTy env C sc (.node id nst nxt) (.loc x g) t := fun g hg => hty _ (List.mem_map_of_mem hg)
    refine ⟨HTy.loc_of hne (fun nst tn hg => (h nst tn hg).1) _ hty', fun s hs => ?_⟩
    by_cases hx : x = nxt.lvl
    · subst hx
      obtain ⟨tn, hn, htn, rfl⟩ : ∃ tn, nst ≠ .nil ∧ (∀ g ∈ gs, HTy env C sc nst g tn) ∧ t = .hier nxt.lvl tn nxt.ty := by
        obtain ⟨_, _, _, he, ⟨_, h1, tn, rfl, h2⟩ | ⟨h1, _⟩⟩ := (hty' g0 hg0).loc_cases
        · cases he
          refine ⟨tn, h1, fun g hg => ?_, rfl⟩
          obtain ⟨_, _, _, he, ⟨_, _, tn', h4, h3⟩ | ⟨h1, _⟩⟩ := (hty' g hg).loc_cases
          · cases he; cases h4; exact h3
          · cases he; exact absurd rfl h1
        · cases he; exact absurd rfl h1
      obtain ⟨htk, hev⟩ := h nst tn htn
      rcases dom_hier hn hs with rfl | ⟨arcs, rfl, ha1, ha2, ha3⟩
      · cases K with
        | sum =>
          intro r
          rw [SumSpec.zero hC]
          exact ⟨fun e => e.of_zero, fun e => by rw [e]; exact .zero _ _⟩
        | inter =>
          intro _ r
          rw [InterSpec.zero hC hne']
          exact ⟨fun e => e.of_zero, fun e => by rw [e]; exact .zero _ _⟩
      · have hdl : ∀ g ∈ gs, Def env C (.loc nxt.lvl g) (.node id nst nxt) (.hier nxt.lvl arcs) ↔
            ∀ arc ∈ arcs, Def env C g nst arc.1 := fun g hg => Def.loc_here hC (htn g hg) hs
        have hml : ∀ g ∈ gs, Def env C (.loc nxt.lvl g) (.node id nst nxt) (.hier nxt.lvl arcs) → ∀ p,
            Mem C p (evOf env C (.loc nxt.lvl g) (.node id nst nxt) (.hier nxt.lvl arcs)) ↔
              LocSet C nxt.lvl arcs (evOf env C g nst) p := fun g hg hd p =>
          ((Ev.loc_here hC).1 (hd.ev hC)).2.2 p
        cases K with
        | sum =>
          intro r
          rw [Ev.loc_here hC]
          have hk : ∀ arc ∈ arcs, Def env C k nst arc.1 ↔ ∀ g ∈ gs, Def env C g nst arc.1 := by
            intro arc hm
            rw [← SumSpec.def_iff hC (htn g0 hg0).shape htn (ha2 arc hm)]
            exact exists_congr fun r => hev arc.1 (ha2 arc hm) r
          have hkm : ∀ arc ∈ arcs, Def env C k nst arc.1 → ∀ p, Mem C p (evOf env C k nst arc.1) ↔
              ∃ g ∈ gs, Mem C p (evOf env C g nst arc.1) := fun arc hm hd p =>
            ((hev arc.1 (ha2 arc hm) _).1 (hd.ev hC)).2.2 p
          have hdef : (∀ arc ∈ arcs, Def env C k nst arc.1) ↔
              ∀ g ∈ gs.map (Hom.loc nxt.lvl), Def env C g (.node id nst nxt) (.hier nxt.lvl arcs) := by
            constructor
            · intro hd g hg
              obtain ⟨g, hg1, rfl⟩ := List.mem_map.1 hg
              exact (hdl g hg1).2 fun arc hm => (hk arc hm).1 (hd arc hm) g hg1
            · intro hd arc hm
              exact (hk arc hm).2 fun g hg => (hdl g hg).1 (hd _ (List.mem_map_of_mem hg)) arc hm
          rw [SumSpec, ← hdef]
          refine and_congr_right fun hd => ?_
          have hset : ∀ p, LocSet C nxt.lvl arcs (evOf env C k nst) p ↔
              ∃ g ∈ gs.map (Hom.loc nxt.lvl), Mem C p (evOf env C g (.node id nst nxt) (.hier nxt.lvl arcs)) := by
            intro p
            constructor
            · rintro ⟨n, q, rfl, arc, hm, hp, hq⟩
              obtain ⟨g, hg, hp⟩ := (hkm arc hm (hd arc hm) n).1 hp
              exact ⟨_, List.mem_map_of_mem hg, (hml g hg (hdef.1 hd _ (List.mem_map_of_mem hg)) _).2 ⟨n, q, rfl, arc, hm, hp, hq⟩⟩
            · rintro ⟨g, hg, hp⟩
              have hdg := hdef.1 hd g hg
              obtain ⟨g, hg1, rfl⟩ := List.mem_map.1 hg
              obtain ⟨n, q, rfl, arc, hm, hp, hq⟩ := (hml g hg1 hdg _).1 hp
              exact ⟨n, q, rfl, arc, hm, (hkm arc hm (hd arc hm) n).2 ⟨g, hg1, hp⟩, hq⟩
          simp only [Is, hset]
        | inter =>
          intro hdall r
          have hdg : ∀ g ∈ gs, ∀ arc ∈ arcs, Def env C g nst arc.1 := fun g hg => (hdl g hg).1 (hdall _ (List.mem_map_of_mem hg))
          rw [Ev.loc_here hC]
          have hk : ∀ arc ∈ arcs, Def env C k nst arc.1 := by
            intro arc hm
            obtain ⟨r, hr⟩ := InterSpec.exists hC (htn g0 hg0).shape hne htn (ha2 arc hm) fun g hg => hdg g hg arc hm
            exact ⟨r, (hev arc.1 (ha2 arc hm) (fun g hg => hdg g hg arc hm) r).2 hr⟩
          have hkm : ∀ arc ∈ arcs, ∀ p, Mem C p (evOf env C k nst arc.1) ↔
              ∀ g ∈ gs, Mem C p (evOf env C g nst arc.1) := fun arc hm p =>
            ((hev arc.1 (ha2 arc hm) (fun g hg => hdg g hg arc hm) _).1 ((hk arc hm).ev hC)).2 p
          have hset : ∀ p, LocSet C nxt.lvl arcs (evOf env C k nst) p ↔
              ∀ g ∈ gs.map (Hom.loc nxt.lvl), Mem C p (evOf env C g (.node id nst nxt) (.hier nxt.lvl arcs)) := by
            intro p
            constructor
            · rintro ⟨n, q, rfl, arc, hm, hp, hq⟩ g hg
              obtain ⟨g, hg1, rfl⟩ := List.mem_map.1 hg
              exact (hml g hg1 (hdall _ (List.mem_map_of_mem hg1)) _).2 ⟨n, q, rfl, arc, hm, (hkm arc hm n).1 hp g hg1, hq⟩
            · intro hp
              have hp' : ∀ g ∈ gs, LocSet C nxt.lvl arcs (evOf env C g nst) p := fun g hg =>
                (hml g hg (hdall _ (List.mem_map_of_mem hg)) _).1 (hp _ (List.mem_map_of_mem hg))
              obtain ⟨n, q, rfl, arc, hm, hn0, hq⟩ := hp' g0 hg0
              refine ⟨n, q, rfl, arc, hm, (hkm arc hm n).2 fun g hg => ?_, hq⟩
              rcases hsel rfl with hsel | ⟨g1, hsel⟩
              swap
              · rw [hsel g hg, ← hsel g0 hg0]; exact hn0
              obtain ⟨n', q', he, arc', hm', hn', hq'⟩ := hp' g hg
              cases he
              have h1 : Mem C n arc.1 := ((hdg g0 hg0 arc hm).ev hC).selector hon (hsel g0 hg0) n hn0
              have h2 : Mem C n arc'.1 := ((hdg g hg arc' hm').ev hC).selector hon (hsel g hg) n hn'
              rw [ha1.unique hm hm' h1 h2]
              exact hn'
          simp only [InterSpec, Is, hset]
          exact ⟨fun h => h.2, fun h => ⟨hk, h⟩⟩
    · have hskl : ∀ g, (Hom.loc x g).skip env nxt.lvl id = true := fun g => loc_skip hx
      obtain ⟨t', rfl, _⟩ := (hty' g0 hg0).sk (hskl g0)
      have hty2 : ∀ g ∈ gs.map (Hom.loc x), HTy env C sc nxt g t' := by
        intro g hg
        obtain ⟨g, hg1, rfl⟩ := List.mem_map.1 hg
        exact (hty' g hg1).sk_lift (hskl g)
      have hsk : (K.mk (gs.map (Hom.loc x))).skip env nxt.lvl id = true := by
        rw [NAry.skip_iff]
        intro g hg
        obtain ⟨g, hg1, rfl⟩ := List.mem_map.1 hg
        exact hskl g
      have ih' := (ih t' hty2).2
      have hmk := (NOK.mk (env := env) (sc := sc) hC (K := K) hne' nxt t' hty2).2
      have hmk0 := (NOK.mk (env := env) (sc := sc) hC (K := K) hne' (.node id nst nxt) _ hty).2 s hs
      cases K with
      | sum =>
        intro r
        rw [← hmk0 r]
        exact Ev.skip_congr hC (hskl k) hsk hs (fun hd s' ha r => by
          rw [ih' s' (ha.dom hs).1 r, hmk s' (ha.dom hs).1 r]) r
      | inter =>
        intro hd r
        rw [← hmk0 hd r]
        refine Ev.skip_congr hC (hskl k) hsk hs (fun hd' s' ha r => ?_) r
        have hd2 : ∀ g ∈ gs.map (Hom.loc x), Def env C g nxt s' := by
          intro g hg
          have hgd := hd g hg
          obtain ⟨g', _, rfl⟩ := List.mem_map.1 hg
          exact (Def.skip_iff hC (hty2 _ hg) (hskl g') hs).1 hgd hd' s' ha
        rw [ih' s' (ha.dom hs).1 hd2 r, hmk s' (ha.dom hs).1 hd2 r]

theorem NOK.hloc (hC : C.Lawful) {K : NAry} {k : Hom V I U} {hs : List (Hom V I U)} {x : Nat}
    (h : NOK env C sc K (.loc x k) hs) : NOK env C sc K (hloc x k) hs := by
  by_cases hk : k = .id
  · subst hk
    rw [show Verif.hloc x (.id : Hom V I U) = .id from if_pos rfl]
    intro o t hty
    obtain ⟨h1, h2⟩ := h o t hty
    refine ⟨by rw [h1.loc_id]; exact .id o, fun s hs => ?_⟩
    have h3 := h2 s hs
    cases K with
    | sum => exact fun r => (Ev.loc_id hC o h1 hs).symm.trans (h3 r)
    | inter => exact fun hd r => (Ev.loc_id hC o h1 hs).symm.trans (h3 hd r)
  · rw [show Verif.hloc x k = .loc x k from if_neg hk]
    exact h

/-! ## The operands, in depth -/

mutual
/-- The operands once nested sums (or intersections) are flattened, including below locals. (Specification or proof device, not part of the code.) -/
def hdeep (k : NAry) : Hom V I U → List (Hom V I U)
  | .sum hs => match k with
    | .sum => hdeepAll k hs
    | .inter => [.sum hs]
  | .inter hs => match k with
    | .sum => [.inter hs]
    | .inter => hdeepAll k hs
  | .loc x h => (hdeep k h).map (.loc x)
  | .id => [.id]
  | .comp l r => [.comp l r]
  | .consF o v h => [.consF o v h]
  | .consH o v h => [.consH o v h]
  | .const s => [.const s]
  | .fix h => [.fix h]
  | .fn x u => [.fn x u]
  | .ite i t e => [.ite i t e]
  | .ind u => [.ind u]
  | .satFix x F G L => [.satFix x F G L]
  | .satInter x F G L => [.satInter x F G L]
  | .satSum x F G L => [.satSum x F G L]
/-- All the operands. (Specification or proof device, not part of the code.) -/
def hdeepAll (k : NAry) : List (Hom V I U) → List (Hom V I U)
  | [] => []
  | h :: hs => hdeep k h ++ hdeepAll k hs
end

mutual
/-- No sum and no intersection without operands (the library does not build any), apart from those inside other
homomorphisms than locals, fixpoints, sums and intersections. (Specification or proof device, not part of the code.) -/
def Hom.noEmpty : Hom V I U → Bool
  | .sum hs => !hs.isEmpty && noEmptyAll hs
  | .inter hs => !hs.isEmpty && noEmptyAll hs
  | .loc _ h => h.noEmpty
  | .fix h => h.noEmpty
  | _ => true
/-- The same for all the operands. (Specification or proof device, not part of the code.) -/
def noEmptyAll : List (Hom V I U) → Bool
  | [] => true
  | h :: hs => h.noEmpty && noEmptyAll hs
end

theorem noEmptyAll_iff {hs : List (Hom V I U)} : noEmptyAll hs = true ↔ ∀ h ∈ hs, h.noEmpty = true := by
  induction hs with
  | nil => simp [noEmptyAll]
  | cons h hs ih => simp [noEmptyAll, ih]

theorem noEmpty_mk {K : NAry} {hs : List (Hom V I U)} :
    (K.mk hs).noEmpty = true ↔ hs ≠ [] ∧ ∀ h ∈ hs, h.noEmpty = true := by
  cases K <;> simp [NAry.mk, Hom.noEmpty, noEmptyAll_iff]

theorem mem_hdeepAll {k : NAry} {hs : List (Hom V I U)} {g : Hom V I U} :
    g ∈ hdeepAll k hs ↔ ∃ h ∈ hs, g ∈ hdeep k h := by
  induction hs with
  | nil => simp [hdeepAll]
  | cons h hs ih => simp [hdeepAll, ih]

theorem hdeep_mk {K : NAry} {hs : List (Hom V I U)} : hdeep K (K.mk hs) = hdeepAll K hs := by
  cases K <;> simp [NAry.mk, hdeep]

theorem hflat_mk {K : NAry} {hs : List (Hom V I U)} : hflat K (K.mk hs) = hflatAll K hs := by
  cases K <;> simp [NAry.mk, hflat]

/-- The cases of an operand: nested, local, or other. -/
theorem nary_cases (K : NAry) (h : Hom V I U) : (∃ hs, h = K.mk hs) ∨ (∃ x g, h = .loc x g) ∨
    (hflat K h = [h] ∧ hdeep K h = [h] ∧ h.isLoc = false) := by
  cases h with
  | sum hs =>
    cases K with
    | sum => exact Or.inl ⟨hs, rfl⟩
    | inter => exact Or.inr (Or.inr (by simp [hflat, hdeep, Hom.isLoc]))
  | inter hs =>
    cases K with
    | sum => exact Or.inr (Or.inr (by simp [hflat, hdeep, Hom.isLoc]))
    | inter => exact Or.inl ⟨hs, rfl⟩
  | loc x h => exact Or.inr (Or.inl ⟨x, h, rfl⟩)
  | _ => exact Or.inr (Or.inr (by simp [hflat, hdeep, Hom.isLoc]))

omit [DecidableEq V] [DecidableEq I] [DecidableEq U] in
/-- Induction for the operands of sums (or intersections). -/
theorem nary_induct (K : NAry) {P : Hom V I U → Prop} (mk : ∀ hs, (∀ h ∈ hs, P h) → P (K.mk hs))
    (loc : ∀ x h, P h → P (.loc x h)) (other : ∀ h, hflat K h = [h] → hdeep K h = [h] → h.isLoc = false → P h) (h : Hom V I U) :
    P h := by
  induction h using Hom.induct with
  | sum hs ih =>
    cases K with
    | sum => exact mk hs ih
    | inter => exact other _ (by simp [hflat]) (by simp [hdeep]) rfl
  | inter hs ih =>
    cases K with
    | sum => exact other _ (by simp [hflat]) (by simp [hdeep]) rfl
    | inter => exact mk hs ih
  | loc x h ih => exact loc x h ih
  | _ => exact other _ (by simp [hflat]) (by simp [hdeep]) rfl

theorem mem_hdeep_flat {K : NAry} (h : Hom V I U) : ∀ g, g ∈ hdeep K h ↔ ∃ l ∈ hflat K h, g ∈ hdeep K l := by
  induction h using nary_induct K with
  | mk hs ih =>
    intro g
    rw [hdeep_mk, hflat_mk, mem_hdeepAll]
    constructor
    · rintro ⟨h, hm, hg⟩
      obtain ⟨l, hl, hg⟩ := (ih h hm g).1 hg
      exact ⟨l, mem_hflatAll.2 ⟨h, hm, hl⟩, hg⟩
    · rintro ⟨l, hl, hg⟩
      obtain ⟨h, hm, hl⟩ := mem_hflatAll.1 hl
      exact ⟨h, hm, (ih h hm g).2 ⟨l, hl, hg⟩⟩
  | loc x h => simp [hflat]
  | other h h1 => simp [h1]

/-- The flattened operands are local or other. -/
theorem hflat_leaf {K : NAry} (h : Hom V I U) : ∀ l ∈ hflat K h, l.isLoc = false → hdeep K l = [l] := by
  induction h using nary_induct K with
  | mk hs ih =>
    intro l hl
    rw [hflat_mk, mem_hflatAll] at hl
    obtain ⟨h, hm, hl⟩ := hl
    exact ih h hm l hl
  | loc x h =>
    intro l hl hi
    simp [hflat] at hl
    subst hl
    simp [Hom.isLoc] at hi
  | other h h1 h2 =>
    intro l hl _
    simp [h1] at hl
    subst hl
    exact h2

theorem hdeep_ne {K : NAry} (h : Hom V I U) : h.noEmpty = true → hdeep K h ≠ [] := by
  induction h using nary_induct K with
  | mk hs ih =>
    intro hn
    obtain ⟨h1, h2⟩ := noEmpty_mk.1 hn
    obtain ⟨g, hg⟩ := List.exists_mem_of_ne_nil _ h1
    obtain ⟨l, hl⟩ := List.exists_mem_of_ne_nil _ (ih g hg (h2 g hg))
    rw [hdeep_mk]
    exact List.ne_nil_of_mem (mem_hdeepAll.2 ⟨g, hg, hl⟩)
  | loc x h ih => intro hn; simpa [hdeep] using ih hn
  | other h h1 h2 => intro _; simp [h2]

theorem hflat_noEmpty {K : NAry} (h : Hom V I U) : h.noEmpty = true → ∀ l ∈ hflat K h, l.noEmpty = true := by
  induction h using nary_induct K with
  | mk hs ih =>
    intro hn l hl
    rw [hflat_mk, mem_hflatAll] at hl
    obtain ⟨h, hm, hl⟩ := hl
    exact ih h hm ((noEmpty_mk.1 hn).2 h hm) l hl
  | loc x h => intro hn l hl; simp [hflat] at hl; subst hl; exact hn
  | other h h1 h2 => intro hn l hl; simp [h1] at hl; subst hl; exact hn

theorem selector_mk {K : NAry} {hs : List (Hom V I U)} :
    (K.mk hs).selector env = true ↔ ∀ h ∈ hs, h.selector env = true := by
  cases K <;> simp [NAry.mk, Hom.selector, Hom.selectorAll_iff]

theorem hdeep_selector {K : NAry} (h : Hom V I U) : h.selector env = true → ∀ l ∈ hdeep K h, l.selector env = true := by
  induction h using nary_induct K with
  | mk hs ih =>
    intro hn l hl
    rw [hdeep_mk, mem_hdeepAll] at hl
    obtain ⟨h, hm, hl⟩ := hl
    exact ih h hm (selector_mk.1 hn h hm) l hl
  | loc x h ih =>
    intro hn l hl
    simp only [hdeep, List.mem_map] at hl
    obtain ⟨g, hg, rfl⟩ := hl
    exact ih hn g hg
  | other h h1 h2 => intro hn l hl; simp [h2] at hl; subst hl; exact hn

theorem hflat_selector {K : NAry} (h : Hom V I U) : h.selector env = true → ∀ l ∈ hflat K h, l.selector env = true := by
  induction h using nary_induct K with
  | mk hs ih =>
    intro hn l hl
    rw [hflat_mk, mem_hflatAll] at hl
    obtain ⟨h, hm, hl⟩ := hl
    exact ih h hm (selector_mk.1 hn h hm) l hl
  | loc x h ih => intro hn l hl; simp [hflat] at hl; subst hl; exact hn
  | other h h1 h2 => intro hn l hl; simp [h1] at hl; subst hl; exact hn

theorem HTy.deep {K : NAry} (h : Hom V I U) : ∀ {o : OB I} {t : Ty}, HTy env C sc o h t → ∀ l ∈ hdeep K h, HTy env C sc o l t := by
  induction h using nary_induct K with
  | mk hs ih =>
    intro o t ht l hl
    rw [hdeep_mk, mem_hdeepAll] at hl
    obtain ⟨h, hm, hl⟩ := hl
    exact ih h hm (ht.nary_inv h hm) l hl
  | loc x h ih =>
    intro o t ht l hl
    simp only [hdeep, List.mem_map] at hl
    obtain ⟨g, hg, rfl⟩ := hl
    exact ht.loc_mono fun nst tn hn => ih hn g hg
  | other h h1 h2 => intro o t ht l hl; simp [h2] at hl; subst hl; exact ht

theorem hdeep_not_mk {K : NAry} (h : Hom V I U) : ∀ l ∈ hdeep K h, ∀ hs, l ≠ K.mk hs := by
  induction h using Hom.induct with
  | sum gs ih =>
    intro l hl hs
    cases K with
    | sum =>
      rw [hdeep, mem_hdeepAll] at hl
      obtain ⟨h, hm, hl⟩ := hl
      exact ih h hm l hl hs
    | inter => simp [hdeep] at hl; subst hl; simp [NAry.mk]
  | inter gs ih =>
    intro l hl hs
    cases K with
    | inter =>
      rw [hdeep, mem_hdeepAll] at hl
      obtain ⟨h, hm, hl⟩ := hl
      exact ih h hm l hl hs
    | sum => simp [hdeep] at hl; subst hl; simp [NAry.mk]
  | loc x h =>
    intro l hl hs
    simp only [hdeep, List.mem_map] at hl
    obtain ⟨g, _, rfl⟩ := hl
    cases K <;> simp [NAry.mk]
  | _ =>
    intro l hl hs
    simp [hdeep] at hl
    subst hl
    cases K <;> simp [NAry.mk]

theorem hflat_of_hdeep {K : NAry} {h : Hom V I U} (hd : hdeep K h = [h]) : hflat K h = [h] := by
  rcases nary_cases K h with ⟨hs, rfl⟩ | ⟨x, g, rfl⟩ | ⟨h1, _⟩
  · exact absurd rfl (hdeep_not_mk (K.mk hs) (K.mk hs) (by rw [hd]; simp) hs)
  · simp [hflat]
  · exact h1

theorem hdeep_of_loc {K : NAry} {x : Nat} {g : Hom V I U} (hd : hdeep K (.loc x g) = [.loc x g]) : hdeep K g = [g] := by
  rw [hdeep] at hd
  match h : hdeep K g, hd with
  | [g'], hd => simp at hd; rw [hd]

/-- For intersections, the local operands are selectors, or not themselves intersections. (Specification or proof device, not part of the code.) -/
def LocSel (env : User V I U) (K : NAry) (h : Hom V I U) : Prop :=
  K = .inter → ∀ x g, .loc x g ∈ hflat K h → g.selector env = true ∨ hdeep K g = [g]

/-- For intersections, the local operands (those of nested intersections included) are selectors, but for those which are alone on their level and do not
contain an intersection. (Specification, not part of the code.) -/
def LocAlone (env : User V I U) (K : NAry) (hs : List (Hom V I U)) : Prop :=
  K = .inter → ∀ x g, .loc x g ∈ hflatAll K hs →
    g.selector env = true ∨ hdeep K g = [g] ∧ ∀ g', .loc x g' ∈ hflatAll K hs → g' = g

theorem LocAlone.of {K : NAry} {hs : List (Hom V I U)} (h : LocAlone env K hs) : ∀ g ∈ hs, LocSel env K g :=
  fun g hg hk x l hl => (h hk x l (mem_hflatAll.2 ⟨g, hg, hl⟩)).imp_right fun h => h.1

/-- A homomorphism stands for the sum (or the intersection) of its operands in depth. -/
theorem NOK.deep (hC : C.Lawful) (hon : Honest env C) {K : NAry} (h : Hom V I U) : h.noEmpty = true → LocSel env K h →
    NOK env C sc K h (hdeep K h) := by
  induction h using nary_induct K with
  | mk hs ih =>
    intro hn hl
    obtain ⟨h1, h2⟩ := noEmpty_mk.1 hn
    refine (NOK.trans hC (hs.map fun h => (h, hdeep K h)) ?_ ?_ ?_).congr ?_
    · intro a ha
      obtain ⟨h, hm, rfl⟩ := List.mem_map.1 ha
      exact hdeep_ne h (h2 h hm)
    · rw [List.map_map, show (Prod.fst ∘ fun h : Hom V I U => (h, hdeep K h)) = fun h => h from rfl, List.map_id']
      exact NOK.mk hC h1
    · intro a ha
      obtain ⟨h, hm, rfl⟩ := List.mem_map.1 ha
      refine ih h hm (h2 h hm) fun hk x g hl' => hl hk x g ?_
      rw [hflat_mk]
      exact mem_hflatAll.2 ⟨h, hm, hl'⟩
    · intro g
      rw [hdeep_mk, mem_hdeepAll]
      simp
  | loc x h ih =>
    intro hn hl
    have hsel : K = .inter → h.selector env = true ∨ hdeep K h = [h] := fun hk => hl hk x h (by simp [hflat])
    rw [hdeep]
    refine NOK.loc hC hon (hdeep_ne h hn) (fun hk => ?_) (ih hn fun hk x' g hl' => ?_) x
    · rcases hsel hk with h1 | h1
      · exact Or.inl (hdeep_selector h h1)
      · exact Or.inr ⟨h, by simp [h1]⟩
    · rcases hsel hk with h1 | h1
      · exact Or.inl (hflat_selector h h1 (.loc x' g) hl')
      · rw [hflat_of_hdeep h1, List.mem_singleton] at hl'
        subst hl'
        exact Or.inr (hdeep_of_loc h1)
  | other h h1 h2 =>
    intro _ _
    rw [h2]
    exact NOK.single hC

theorem NOK.fin (hC : C.Lawful) {K : NAry} {hs : List (Hom V I U)} (hne : hs ≠ []) : NOK env C sc K (K.fin hs) hs := by
  match hs, hne with
  | [h], _ => exact NOK.single hC
  | h :: h' :: hs, _ => exact NOK.mk hC (by simp)

/-- What is built stands for the operands. -/
theorem NOK.build (hC : C.Lawful) (hon : Honest env C) {K : NAry} {lt : Hom V I U → Hom V I U → Bool} (hlt : StrictTotal lt)
    {ord : List (Nat × List (Hom V I U)) → List (Nat × List (Hom V I U))} (hord : Iterates ord) :
    ∀ hs, hs ≠ [] → (∀ h ∈ hs, h.noEmpty = true) → LocAlone env K hs →
      NOK env C sc K (hnary K lt ord hs) (hdeepAll K hs) := by
  refine hnary_induct hlt hord (P := fun hs k => (∀ h ∈ hs, h.noEmpty = true) → LocAlone env K hs →
    NOK env C sc K k (hdeepAll K hs)) fun hs ops hne hops ih hn hl => ?_
  have hg := hvisitAll_good (k := K) hlt hs
  have hloc : ∀ g ∈ (hvisitAll K lt hs ⟨[], []⟩).locals, ∀ h ∈ g.2, h.noEmpty = true ∧ (K = .inter → h.selector env = true ∨ hdeep K h = [h] ∧ ∀ h' ∈ g.2, h' = h) := by
    intro g hgm h hh
    have h1 := ((hg.group g hgm).2 h).1 hh
    obtain ⟨h0, hm0, h2⟩ := mem_hflatAll.1 h1
    exact ⟨hflat_noEmpty h0 (hn h0 hm0) (.loc g.1 h) h2, fun hk => (hl hk g.1 h h1).imp_right fun h3 =>
      ⟨h3.1, fun h' hh' => h3.2 h' (((hg.group g hgm).2 h').1 hh')⟩⟩
  have hmem : ∀ g, g ∈ hdeepAll K hs ↔ ∃ l ∈ hflatAll K hs, g ∈ hdeep K l := by
    intro g
    rw [mem_hdeepAll]
    constructor
    · rintro ⟨h, hm, hg⟩
      obtain ⟨l, hl, hg⟩ := (mem_hdeep_flat h g).1 hg
      exact ⟨l, mem_hflatAll.2 ⟨h, hm, hl⟩, hg⟩
    · rintro ⟨l, hl, hg⟩
      obtain ⟨h, hm, hl⟩ := mem_hflatAll.1 hl
      exact ⟨h, hm, (mem_hdeep_flat h g).2 ⟨l, hl, hg⟩⟩
  have hops_ne : ops ≠ [] := by
    obtain ⟨h, hm⟩ := List.exists_mem_of_ne_nil _ hne
    obtain ⟨g, hgd⟩ := List.exists_mem_of_ne_nil _ (hdeep_ne (K := K) h (hn h hm))
    obtain ⟨l, hl, _⟩ := (hmem g).1 (mem_hdeepAll.2 ⟨h, hm, hgd⟩)
    cases hloc : l.isLoc with
    | false => exact List.ne_nil_of_mem ((hops l).2 (Or.inl ⟨hl, hloc⟩))
    | true =>
      cases l with
      | loc x l =>
        obtain ⟨gs, h1⟩ := hg.key x l hl
        exact List.ne_nil_of_mem ((hops _).2 (Or.inr ⟨_, h1, rfl⟩))
      | _ => simp [Hom.isLoc] at hloc
  let T : List (Hom V I U × List (Hom V I U)) := ((hflatAll K hs).filter fun h => !h.isLoc).map (fun h => (h, [h])) ++
    (hvisitAll K lt hs ⟨[], []⟩).locals.map fun g => (Verif.hloc g.1 (hnary K lt ord g.2), (hdeepAll K g.2).map (.loc g.1))
  have hT : ∀ a, a ∈ T ↔ (∃ h ∈ hflatAll K hs, h.isLoc = false ∧ a = (h, [h])) ∨
      ∃ g ∈ (hvisitAll K lt hs ⟨[], []⟩).locals,
        a = (Verif.hloc g.1 (hnary K lt ord g.2), (hdeepAll K g.2).map (.loc g.1)) := by
    intro a
    simp only [T, List.mem_append, List.mem_map, List.mem_filter, Bool.not_eq_true', eq_comm (b := a), and_assoc]
  have hne2 : ∀ g ∈ (hvisitAll K lt hs ⟨[], []⟩).locals, hdeepAll K g.2 ≠ [] := by
    intro g hgm
    obtain ⟨h, hm⟩ := List.exists_mem_of_ne_nil _ (hg.group g hgm).1
    obtain ⟨l, hl⟩ := List.exists_mem_of_ne_nil _ (hdeep_ne (K := K) h (hloc g hgm h hm).1)
    exact List.ne_nil_of_mem (mem_hdeepAll.2 ⟨h, hm, hl⟩)
  refine (NOK.trans hC T ?_ ((NOK.fin hC hops_ne).congr fun h => ?_) ?_).congr fun h => ?_
  · intro a ha
    rcases (hT a).1 ha with ⟨h, _, _, rfl⟩ | ⟨g, hgm, rfl⟩
    · simp
    · simpa using hne2 g hgm
  · rw [hops, List.mem_map]
    constructor
    · rintro (⟨h1, h2⟩ | ⟨g, hgm, rfl⟩)
      · exact ⟨_, (hT _).2 (Or.inl ⟨h, h1, h2, rfl⟩), rfl⟩
      · exact ⟨_, (hT _).2 (Or.inr ⟨g, hgm, rfl⟩), rfl⟩
    · rintro ⟨a, ha, rfl⟩
      rcases (hT a).1 ha with ⟨h, h1, h2, rfl⟩ | ⟨g, hgm, rfl⟩
      · exact Or.inl ⟨h1, h2⟩
      · exact Or.inr ⟨g, hgm, rfl⟩
  · intro a ha
    rcases (hT a).1 ha with ⟨h, _, _, rfl⟩ | ⟨g, hgm, rfl⟩
    · exact NOK.single hC
    · refine NOK.hloc hC (NOK.loc hC hon (hne2 g hgm) ?_ (ih g hgm (fun h hh => (hloc g hgm h hh).1) ?_) g.1)
      · intro hk
        by_cases hall : ∀ h ∈ g.2, h.selector env = true
        · refine Or.inl fun l hl => ?_
          obtain ⟨h, hm, hl⟩ := mem_hdeepAll.1 hl
          exact hdeep_selector h (hall h hm) l hl
        · push Not at hall
          obtain ⟨h, hm, hns⟩ := hall
          obtain ⟨h1, h2⟩ := ((hloc g hgm h hm).2 hk).resolve_left hns
          refine Or.inr ⟨h, fun l hl => ?_⟩
          obtain ⟨h', hm', hl⟩ := mem_hdeepAll.1 hl
          rw [h2 h' hm', h1] at hl
          simpa using hl
      · intro hk x l hl
        obtain ⟨h, hh, hl'⟩ := mem_hflatAll.1 hl
        rcases (hloc g hgm h hh).2 hk with h1 | ⟨h1, h2⟩
        · exact Or.inl (hflat_selector h h1 (.loc x l) hl')
        · have hf := hflat_of_hdeep h1
          rw [hf, List.mem_singleton] at hl'
          subst hl'
          refine Or.inr ⟨hdeep_of_loc h1, fun l' hl'' => ?_⟩
          obtain ⟨h', hh', hl''⟩ := mem_hflatAll.1 hl''
          rw [h2 h' hh', hf] at hl''
          simpa using hl''
  · rw [hmem, List.mem_flatMap]
    constructor
    · rintro ⟨a, ha, hm⟩
      rcases (hT a).1 ha with ⟨l, h1, h2, rfl⟩ | ⟨g, hgm, rfl⟩
      · obtain ⟨h0, hm0, h3⟩ := mem_hflatAll.1 h1
        exact ⟨l, h1, by rw [hflat_leaf h0 l h3 h2]; exact hm⟩
      · obtain ⟨l, hl, rfl⟩ := List.mem_map.1 hm
        obtain ⟨h, hh, hl⟩ := mem_hdeepAll.1 hl
        exact ⟨.loc g.1 h, ((hg.group g hgm).2 h).1 hh, by rw [hdeep]; exact List.mem_map_of_mem hl⟩
    · rintro ⟨l, hl, hm⟩
      cases hloc : l.isLoc with
      | false =>
        obtain ⟨h0, hm0, h3⟩ := mem_hflatAll.1 hl
        rw [hflat_leaf h0 l h3 hloc] at hm
        exact ⟨_, (hT _).2 (Or.inl ⟨l, hl, hloc, rfl⟩), hm⟩
      | true =>
        cases l with
        | loc x l =>
          obtain ⟨gs, h1⟩ := hg.key x l hl
          rw [hdeep] at hm
          obtain ⟨l', hl', rfl⟩ := List.mem_map.1 hm
          exact ⟨_, (hT _).2 (Or.inr ⟨_, h1, rfl⟩),
            List.mem_map_of_mem (mem_hdeepAll.2 ⟨l, ((hg.group _ h1).2 l).2 hl, hl'⟩)⟩
        | _ => simp [Hom.isLoc] at hloc

/-- The library does not build sums or intersections without operands. -/
theorem hnary_noEmpty {K : NAry} {lt : Hom V I U → Hom V I U → Bool} (hlt : StrictTotal lt)
    {ord : List (Nat × List (Hom V I U)) → List (Nat × List (Hom V I U))} (hord : Iterates ord) :
    ∀ hs, hs ≠ [] → (∀ h ∈ hs, h.noEmpty = true) → (hnary K lt ord hs).noEmpty = true := by
  refine hnary_induct hlt hord (P := fun hs k => (∀ h ∈ hs, h.noEmpty = true) → k.noEmpty = true)
    fun hs ops hne hops ih hn => ?_
  have hg := hvisitAll_good (k := K) hlt hs
  have h1 : ∀ h ∈ ops, h.noEmpty = true := by
    intro h hm
    rcases (hops h).1 hm with ⟨h1, _⟩ | ⟨g, hgm, rfl⟩
    · obtain ⟨h0, hm0, h2⟩ := mem_hflatAll.1 h1
      exact hflat_noEmpty h0 (hn h0 hm0) _ h2
    · have := ih g hgm fun h hh => by
        obtain ⟨h0, hm0, h2⟩ := mem_hflatAll.1 (((hg.group g hgm).2 h).1 hh)
        exact hflat_noEmpty h0 (hn h0 hm0) (.loc g.1 h) h2
      unfold hloc
      split
      · exact this
      · simpa [Hom.noEmpty] using this
  have h2 : ops ≠ [] := by
    obtain ⟨h, hm⟩ := List.exists_mem_of_ne_nil _ hne
    obtain ⟨g, hgd⟩ := List.exists_mem_of_ne_nil _ (hdeep_ne (K := K) h (hn h hm))
    obtain ⟨l, hl, _⟩ := (mem_hdeep_flat h g).1 hgd
    have hl := mem_hflatAll.2 ⟨h, hm, hl⟩
    cases hloc : l.isLoc with
    | false => exact List.ne_nil_of_mem ((hops l).2 (Or.inl ⟨hl, hloc⟩))
    | true =>
      cases l with
      | loc x l =>
        obtain ⟨gs, h1⟩ := hg.key x l hl
        exact List.ne_nil_of_mem ((hops _).2 (Or.inr ⟨_, h1, rfl⟩))
      | _ => simp [Hom.isLoc] at hloc
  match ops, h2 with
  | [h], _ => exact h1 h (by simp)
  | h :: h' :: ops, _ => exact noEmpty_mk.2 ⟨by simp, h1⟩

/-- A sum built by the library is the union of the results of the operands given. -/
theorem hsum_iff (hC : C.Lawful) (hon : Honest env C) {lt : Hom V I U → Hom V I U → Bool} (hlt : StrictTotal lt)
    {ord : List (Nat × List (Hom V I U)) → List (Nat × List (Hom V I U))} (hord : Iterates ord) {hs : List (Hom V I U)}
    (hne : hs ≠ []) (hn : ∀ h ∈ hs, h.noEmpty = true) {o : OB I} {t : Ty} (hty : ∀ h ∈ hs, HTy env C sc o h t) :
    HTy env C sc o (hnary .sum lt ord hs) t ∧
      ∀ x r, Dom C o.ty x → (Ev env C (hnary .sum lt ord hs) o x r ↔ SumSpec env C hs o x r) := by
  have hsel : LocAlone env .sum hs := fun hk => by cases hk
  have htd : ∀ l ∈ hdeepAll .sum hs, HTy env C sc o l t := by
    intro l hl
    obtain ⟨h, hm, hl⟩ := mem_hdeepAll.1 hl
    exact (hty h hm).deep h l hl
  obtain ⟨h1, h2⟩ := NOK.build hC hon hlt hord hs hne hn hsel o t htd
  refine ⟨h1, fun x r hx => ?_⟩
  have h3 : NOK env C sc .sum (.sum hs) (hdeepAll .sum hs) := by
    rw [← hdeep_mk]
    exact NOK.deep hC hon (NAry.mk .sum hs) (noEmpty_mk.2 ⟨hne, hn⟩) fun hk => by cases hk
  obtain ⟨g, hg⟩ := List.exists_mem_of_ne_nil _ hne
  rw [h2 x hx r, ← (h3 o t htd).2 x hx r]
  exact Ev.sum_iff hC o (hty g hg).shape hne hty hx

/-- An intersection built by the library, whose local operands are selectors or alone on their level, is the intersection of the results of the operands
given, when all of them (those of the nested intersections too) have a result. -/
theorem hinter_iff (hC : C.Lawful) (hon : Honest env C) {lt : Hom V I U → Hom V I U → Bool} (hlt : StrictTotal lt)
    {ord : List (Nat × List (Hom V I U)) → List (Nat × List (Hom V I U))} (hord : Iterates ord) {hs : List (Hom V I U)}
    (hne : hs ≠ []) (hn : ∀ h ∈ hs, h.noEmpty = true) (hsel : LocAlone env .inter hs) {o : OB I} {t : Ty}
    (hty : ∀ h ∈ hs, HTy env C sc o h t) :
    HTy env C sc o (hnary .inter lt ord hs) t ∧
      ∀ x, Dom C o.ty x → (∀ h ∈ hdeepAll .inter hs, Def env C h o x) → (∀ h ∈ hs, Def env C h o x) ∧
        ∀ r, Ev env C (hnary .inter lt ord hs) o x r ↔ InterSpec env C hs o x r := by
  have htd : ∀ l ∈ hdeepAll .inter hs, HTy env C sc o l t := by
    intro l hl
    obtain ⟨h, hm, hl⟩ := mem_hdeepAll.1 hl
    exact (hty h hm).deep h l hl
  obtain ⟨h1, h2⟩ := NOK.build hC hon hlt hord hs hne hn hsel o t htd
  refine ⟨h1, fun x hx hd => ?_⟩
  have hdef : ∀ h ∈ hs, Def env C h o x := by
    intro h hm
    have hd' : ∀ l ∈ hdeep .inter h, Def env C l o x := fun l hl => hd l (mem_hdeepAll.2 ⟨h, hm, hl⟩)
    have hty' : ∀ l ∈ hdeep .inter h, HTy env C sc o l t := (hty h hm).deep h
    obtain ⟨r, hr⟩ := InterSpec.exists hC (hty h hm).shape (hdeep_ne h (hn h hm)) hty' hx hd'
    exact ⟨r, ((NOK.deep hC hon h (hn h hm) (hsel.of h hm) o t hty').2 x hx hd' r).2 hr⟩
  refine ⟨hdef, fun r => ?_⟩
  have h3 : NOK env C sc .inter (.inter hs) (hdeepAll .inter hs) := by
    rw [← hdeep_mk]
    refine NOK.deep hC hon (NAry.mk .inter hs) (noEmpty_mk.2 ⟨hne, hn⟩) fun hk x l hl => ?_
    rw [hflat_mk] at hl
    exact (hsel hk x l hl).imp_right fun h => h.1
  rw [h2 x hx hd r, ← (h3 o t htd).2 x hx hd r]
  exact Ev.inter_iff' hC hne hty hx hdef

end Verif
