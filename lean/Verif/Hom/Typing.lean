import Verif.Hom.Ev
/-!
# When a homomorphism can be applied

`HTy sc o h t`: under the order `o`, the homomorphism `h` may be applied to any SDD of the shape of `o`, and its results have the
shape `t`.
-/

set_option autoImplicit false
set_option linter.unusedSectionVars false

namespace Verif

variable {V E I U : Type} [DecidableEq I]

/-- The orders and user's inductive homomorphisms in use. (Specification or proof device, not part of the code.) -/
structure Scope (I U : Type) where
  S : OB I → Prop
  A : U → Prop

/-- Orders are used with their parts. (Specification or proof device, not part of the code.) -/
def Scope.Closed (sc : Scope I U) : Prop := ∀ id nst nxt, sc.S (.node id nst nxt) → sc.S nst ∧ sc.S nxt

/-- No restriction. (Specification or proof device, not part of the code.) -/
def Scope.all : Scope I U := ⟨fun _ => True, fun _ => True⟩

/-- The shape of a node of the level `id` above `t`. (Specification or proof device, not part of the code.) -/
def liftTy (nst nxt : OB I) (t : Ty) : Ty :=
  match nst with
  | .nil => .flat nxt.lvl t
  | .node _ _ _ => .hier nxt.lvl nst.ty t

theorem liftTy_ty {id : OId I} {nst nxt : OB I} : liftTy nst nxt nxt.ty = (OB.node id nst nxt).ty := by
  cases nst <;> rfl

theorem liftTy_shape {nst nxt : OB I} {t : Ty} (h : t.IsShape) : (liftTy nst nxt t).IsShape := by
  cases nst with
  | nil => exact h
  | node a b c => exact ⟨OB.ty_shape _, h⟩

/-- The first level of the order, if any, is not skipped. (Specification or proof device, not part of the code.) -/
def Stop (env : User V I U) (h : Hom V I U) : OB I → Prop
  | .nil => True
  | .node id _ nxt => h.skip env nxt.lvl id = false

/-- Conditions of use. (Specification or proof device, not part of the code.) -/
inductive HTy (env : User V I U) (C : Cfg V E) (sc : Scope I U) : OB I → Hom V I U → Ty → Prop where
  | id (o : OB I) : HTy env C sc o .id o.ty
  | skip {id : OId I} {nst nxt : OB I} {h : Hom V I U} {t : Ty} : h ≠ .id → h.skip env nxt.lvl id = true →
      HTy env C sc nxt h t → HTy env C sc (.node id nst nxt) h (liftTy nst nxt t)
  | comp {o : OB I} {l r : Hom V I U} {t : Ty} : Stop env (.comp l r) o → HTy env C sc o r o.ty → HTy env C sc o l t →
      HTy env C sc o (.comp l r) t
  | consF {o : OB I} {id : OId I} {nst nxt : OB I} {v : V} {h : Hom V I U} {t : Ty} : sc.S nxt → nxt.ty = o.ty →
      HTy env C sc nxt h t → HTy env C sc o (.consF (.node id nst nxt) v h) (.flat nxt.lvl t)
  | consH {o : OB I} {id : OId I} {nst nxt : OB I} {v : SDD V} {h : Hom V I U} {tn t : Ty} : sc.S nxt → nxt.ty = o.ty →
      tn.IsShape → Dom C tn v → HTy env C sc nxt h t → HTy env C sc o (.consH (.node id nst nxt) v h) (.hier nxt.lvl tn t)
  | const {o : OB I} {s : SDD V} {t : Ty} : t.IsShape → Dom C t s → HTy env C sc o (.const s) t
  | fix {o : OB I} {h : Hom V I U} : Stop env (.fix h) o → HTy env C sc o h o.ty →
      HTy env C sc o (.fix h) o.ty
  | fnNil {x : Nat} {u : U} : HTy env C sc .nil (.fn x u) .nil
  | fn {id : OId I} {nxt : OB I} {u : U} : HTy env C sc (.node id .nil nxt) (.fn nxt.lvl u) (OB.node id .nil nxt).ty
  | ite {o : OB I} {i t e : Hom V I U} {ty : Ty} : Stop env (.ite i t e) o → i.selector env = true →
      HTy env C sc o i o.ty → HTy env C sc o t ty → HTy env C sc o e ty → HTy env C sc o (.ite i t e) ty
  | indNil {u : U} {t : Ty} : sc.A u → t.IsShape → Dom C t (env.indOne u) → HTy env C sc .nil (.ind u) t
  | indF {id : OId I} {nxt : OB I} {u : U} {t : Ty} : sc.A u → t.IsShape → Stop env (.ind u) (.node id .nil nxt) →
      (∀ v, (∃ a, C.vmem a v) → HTy env C sc nxt (env.indF u (.node id .nil nxt) v) t) →
      HTy env C sc (.node id .nil nxt) (.ind u) t
  | indH {id : OId I} {nst nxt : OB I} {u : U} {t : Ty} : sc.A u → t.IsShape → nst ≠ .nil →
      Stop env (.ind u) (.node id nst nxt) →
      (∀ v, Dom C nst.ty v → v ≠ .zero → HTy env C sc nxt (env.indH u (.node id nst nxt) v) t) →
      HTy env C sc (.node id nst nxt) (.ind u) t
  | inter {o : OB I} {hs : List (Hom V I U)} {t : Ty} : t.IsShape → Stop env (.inter hs) o →
      (∀ h ∈ hs, HTy env C sc o h t) → HTy env C sc o (.inter hs) t
  | loc {id : OId I} {nst nxt : OB I} {h : Hom V I U} {tn : Ty} : nst ≠ .nil → HTy env C sc nst h tn →
      HTy env C sc (.node id nst nxt) (.loc nxt.lvl h) (.hier nxt.lvl tn nxt.ty)
  | satFix {o : OB I} {x : Nat} {F : Hom V I U} {G : List (Hom V I U)} {L : Hom V I U} :
      Stop env (.satFix x F G L) o → HTy env C sc o F o.ty → HTy env C sc o L o.ty →
      (∀ g ∈ G, HTy env C sc o g o.ty) → HTy env C sc o (.satFix x F G L) o.ty
  | satInter {o : OB I} {x : Nat} {F G L : List (Hom V I U)} {t : Ty} : t.IsShape → Stop env (.satInter x F G L) o →
      (∀ h ∈ F ++ G ++ L, HTy env C sc o h t) → HTy env C sc o (.satInter x F G L) t
  | satSum {o : OB I} {x : Nat} {F G L : List (Hom V I U)} {t : Ty} : t.IsShape → Stop env (.satSum x F G L) o →
      (∀ h ∈ F ++ G ++ L, HTy env C sc o h t) → HTy env C sc o (.satSum x F G L) t
  | sum {o : OB I} {hs : List (Hom V I U)} {t : Ty} : t.IsShape → Stop env (.sum hs) o →
      (∀ h ∈ hs, HTy env C sc o h t) → HTy env C sc o (.sum hs) t

section
variable {env : User V I U} {C : Cfg V E} {sc : Scope I U}

theorem HTy.shape {o : OB I} {h : Hom V I U} {t : Ty} (ht : HTy env C sc o h t) : t.IsShape := by
  induction ht with
  | id o => exact OB.ty_shape o
  | skip _ _ _ ih => exact liftTy_shape ih
  | comp _ _ _ _ ih => exact ih
  | consF _ _ _ ih => exact ih
  | consH _ _ h _ _ ih => exact ⟨h, ih⟩
  | const h _ => exact h
  | fix => exact OB.ty_shape _
  | fnNil => trivial
  | fn => exact OB.ty_shape _
  | ite _ _ _ _ _ _ ih _ => exact ih
  | indNil _ h _ => exact h
  | indF _ h => exact h
  | indH _ h => exact h
  | inter h => exact h
  | loc _ _ ih => exact ⟨ih, OB.ty_shape _⟩
  | satFix => exact OB.ty_shape _
  | satInter h => exact h
  | satSum h => exact h
  | sum h => exact h

/-- What an order says of its SDDs. -/
theorem dom_cases {o : OB I} {x : SDD V} (h : Dom C o.ty x) :
    x = .zero ∨ (o = .nil ∧ x = .one) ∨
      (∃ id nxt arcs, o = .node id .nil nxt ∧ x = .flat nxt.lvl arcs ∧ GoodArcs C C.vmem arcs ∧
        ∀ arc ∈ arcs, Dom C nxt.ty arc.2) ∨
      (∃ id nst nxt arcs, o = .node id nst nxt ∧ nst ≠ .nil ∧ x = .hier nxt.lvl arcs ∧ GoodArcs C (Mem C) arcs ∧
        (∀ arc ∈ arcs, Dom C nst.ty arc.1) ∧ ∀ arc ∈ arcs, Dom C nxt.ty arc.2) := by
  cases o with
  | nil =>
    generalize hty : (OB.nil : OB I).ty = t at h
    cases h with
    | zero => exact Or.inl rfl
    | one => exact Or.inr (Or.inl ⟨rfl, rfl⟩)
    | flat _ _ _ _ h1 => subst hty; simp [OB.ty, Ty.flatNext] at h1
    | hier _ _ _ _ _ h1 => subst hty; simp [OB.ty, Ty.hierNext] at h1
  | node id nst nxt =>
    cases nst with
    | nil =>
      generalize hty : (OB.node id .nil nxt).ty = t at h
      cases h with
      | zero => exact Or.inl rfl
      | one _ h1 => subst hty; simp [OB.ty, Ty.hasOne] at h1
      | flat _ _ y arcs h1 h2 h3 =>
        subst hty
        simp only [OB.ty, Ty.flatNext, Option.ite_none_right_eq_some, Option.some.injEq] at h1
        obtain ⟨rfl, rfl⟩ := h1
        exact Or.inr (Or.inr (Or.inl ⟨id, nxt, arcs, rfl, rfl, h2, h3⟩))
      | hier _ _ _ _ _ h1 => subst hty; simp [OB.ty, Ty.hierNext] at h1
    | node a b c =>
      generalize hty : (OB.node id (.node a b c) nxt).ty = t at h
      cases h with
      | zero => exact Or.inl rfl
      | one _ h1 => subst hty; simp [OB.ty, Ty.hasOne] at h1
      | hier _ _ _ y arcs h1 h2 h3 h4 =>
        subst hty
        simp only [OB.ty, Ty.hierNext, Option.ite_none_right_eq_some, Option.some.injEq, Prod.mk.injEq] at h1
        obtain ⟨rfl, rfl, rfl⟩ := h1
        exact Or.inr (Or.inr (Or.inr ⟨id, _, nxt, arcs, rfl, by simp, rfl, h2, h3, h4⟩))
      | flat _ _ _ _ h1 => subst hty; simp [OB.ty, Ty.flatNext] at h1

/-- An SDD different from `|0|` has only one shape. -/
theorem Dom.ty_unique {t : Ty} {x : SDD V} (h : Dom C t x) : ∀ {t' : Ty}, Dom C t' x → t.IsShape → t'.IsShape →
    x ≠ .zero → t = t' := by
  induction h with
  | zero => intro t' _ _ _ h; exact absurd rfl h
  | one t h1 =>
    intro t' h' ht ht' _
    cases h' with
    | one _ h2 => cases t <;> cases t' <;> simp_all [Ty.hasOne, Ty.IsShape]
  | flat t t1 x arcs h1 h2 h3 ih =>
    intro t' h' ht ht' _
    obtain ⟨t1', g1, g2, g3⟩ := h'.flat_inv
    obtain ⟨arc, l, hl⟩ := List.exists_cons_of_ne_nil h2.ne
    have ha : arc ∈ arcs := by simp [hl]
    have key := ih arc ha (g3 arc ha)
    cases t with
    | flat y t =>
      cases t' with
      | flat y' t' =>
        simp [Ty.flatNext] at h1 g1
        obtain ⟨rfl, rfl⟩ := h1
        obtain ⟨rfl, rfl⟩ := g1
        rw [key ht ht' (h2.succNe arc ha)]
      | any => exact absurd ht' (by simp [Ty.IsShape])
      | nil => simp [Ty.flatNext] at g1
      | hier => simp [Ty.flatNext] at g1
    | any => exact absurd ht (by simp [Ty.IsShape])
    | nil => simp [Ty.flatNext] at h1
    | hier => simp [Ty.flatNext] at h1
  | hier t tn t1 x arcs h1 h2 h3 h4 ih1 ih2 =>
    intro t' h' ht ht' _
    obtain ⟨tn', t1', g1, g2, g3, g4⟩ := h'.hier_inv
    obtain ⟨arc, l, hl⟩ := List.exists_cons_of_ne_nil h2.ne
    have ha : arc ∈ arcs := by simp [hl]
    have key1 := ih1 arc ha (g3 arc ha)
    have key2 := ih2 arc ha (g4 arc ha)
    obtain ⟨p, hp⟩ := h2.valNe arc ha
    have hne : arc.1 ≠ .zero := fun h => not_mem_zero p (h ▸ hp)
    cases t with
    | hier y n t =>
      cases t' with
      | hier y' n' t' =>
        simp [Ty.hierNext] at h1 g1
        obtain ⟨rfl, rfl, rfl⟩ := h1
        obtain ⟨rfl, rfl, rfl⟩ := g1
        rw [key1 ht.1 ht'.1 hne, key2 ht.2 ht'.2 (h2.succNe arc ha)]
      | any => exact absurd ht' (by simp [Ty.IsShape])
      | nil => simp [Ty.hierNext] at g1
      | flat => simp [Ty.hierNext] at g1
    | any => exact absurd ht (by simp [Ty.IsShape])
    | nil => simp [Ty.hierNext] at h1
    | flat => simp [Ty.hierNext] at h1

theorem Stop.here {o : OB I} {h : Hom V I U} {x : SDD V} (hs : Stop env h o) (hx : Dom C o.ty x) (h0 : x ≠ .zero) :
    Here env h o x := by
  rcases dom_cases hx with rfl | ⟨rfl, rfl⟩ | ⟨id, nxt, arcs, rfl, rfl, _⟩ | ⟨id, nst, nxt, arcs, rfl, _, rfl, _⟩
  · exact absurd rfl h0
  · trivial
  · exact ⟨rfl, hs⟩
  · exact ⟨rfl, hs⟩

theorem Here.not_skip {id : OId I} {nst nxt : OB I} {h : Hom V I U} {x : SDD V} (hh : Here env h (.node id nst nxt) x)
    (hx : Dom C (OB.node id nst nxt).ty x) (hs : h.skip env nxt.lvl id = true) : False := by
  rcases dom_cases hx with rfl | ⟨h1, rfl⟩ | ⟨_, _, arcs, h1, rfl, _⟩ | ⟨_, _, _, arcs, h1, _, rfl, _⟩
  · simp [Here] at hh
  · cases h1
  · cases h1; exact absurd (hh.2.symm.trans hs) (by simp)
  · cases h1; exact absurd (hh.2.symm.trans hs) (by simp)

theorem Below.skip {id : OId I} {nxt : OB I} {h : Hom V I U} {x : SDD V} (hb : Below env h id nxt x) :
    h.skip env nxt.lvl id = true := by
  cases x <;> simp [Below] at hb
  · exact hb.2
  · exact hb.2

/-- The results have the expected shape. -/
theorem Is.dom {r : SDD V} {S : Path E → Prop} {t : Ty} (h : Is C r S) (hS : ∀ p, S p → PTy t p) : Dom C t r := by
  obtain ⟨⟨n, hn⟩, h⟩ := h
  exact hn.of_pty t fun p hp => hS p ((h p).1 hp)

/-- A skipped level: typing of the result. -/
theorem skip_dom {id : OId I} {nst nxt : OB I} {x r : SDD V} {f : SDD V → SDD V} {t' : Ty}
    (hx : Dom C (OB.node id nst nxt).ty x) (hf : ∀ hd s, ArcOf C x hd s → Dom C nxt.ty s → Dom C t' (f s))
    (hr : Is C r (fun p => ∃ hd s q, p = hd.cons q ∧ ArcOf C x hd s ∧ Mem C q (f s))) : Dom C (liftTy nst nxt t') r := by
  refine hr.dom ?_
  rintro p ⟨hd, s, q, rfl, ha, hq⟩
  rcases dom_cases hx with rfl | ⟨h1, rfl⟩ | ⟨id', nxt', arcs, h1, rfl, h2, h3⟩ |
    ⟨id', nst', nxt', arcs, h1, hn, rfl, h2, h3, h4⟩
  · cases hd <;> simp [ArcOf] at ha
  · cases h1
  · cases h1
    cases hd with
    | flat y a =>
      obtain ⟨rfl, v, hv, hav⟩ := ha
      exact ⟨t', by simp [liftTy, Ty.flatNext], (hf (.flat _ a) s ⟨rfl, v, hv, hav⟩ (h3 _ hv)).pty q hq⟩
    | hier => simp [ArcOf] at ha
  · cases h1
    cases hd with
    | flat => simp [ArcOf] at ha
    | hier y n =>
      obtain ⟨rfl, v, hv, hav⟩ := ha
      cases nst with
      | nil => exact absurd rfl hn
      | node a b c =>
        exact ⟨_, t', by simp [liftTy, Ty.hierNext], (h3 _ hv).pty n hav,
          (hf (.hier _ n) s ⟨rfl, v, hv, hav⟩ (h4 _ hv)).pty q hq⟩

theorem HTy.skip_inv {id : OId I} {nst nxt : OB I} {h : Hom V I U} {t : Ty} (ht : HTy env C sc (.node id nst nxt) h t)
    (hne : h ≠ .id) (hs : h.skip env nxt.lvl id = true) : ∃ t', t = liftTy nst nxt t' ∧ HTy env C sc nxt h t' := by
  cases ht with
  | id => exact absurd rfl hne
  | skip _ _ ht' => exact ⟨_, rfl, ht'⟩
  | comp h1 | fix h1 | ite h1 | indF _ _ h1 | indH _ _ _ h1 | inter _ h1 | satFix h1 | satInter _ h1 | satSum _ h1
  | sum _ h1 => exact absurd (h1.symm.trans hs) (by simp)
  | consF => simp [Hom.skip] at hs
  | consH => simp [Hom.skip] at hs
  | const => simp [Hom.skip] at hs
  | fn => simp [Hom.skip] at hs
  | loc => simp [Hom.skip] at hs

/-- The results have the announced shape. -/
theorem Ev.dom {h : Hom V I U} {o : OB I} {x r : SDD V} (e : Ev env C h o x r) : ∀ {t : Ty}, HTy env C sc o h t →
    Dom C o.ty x → Dom C t r := by
  induction e with
  | zero => intros; exact .zero _
  | id o x => intro t ht hx; cases ht with
    | id => exact hx
    | skip h => exact absurd rfl h
  | @skip h id nst nxt x r f hne hb hf hr ih =>
    intro t ht hx
    obtain ⟨t', rfl, ht'⟩ := ht.skip_inv hne hb.skip
    exact skip_dom hx (fun hd s ha hs => ih hd s ha ht' hs) hr
  | comp hh _ _ ih1 ih2 =>
    intro t ht hx
    cases ht with
    | skip _ h1 => exact (hh.not_skip hx h1).elim
    | comp _ h1 h2 => exact ih2 h2 (ih1 h1 hx)
  | consF hh _ hr ih =>
    intro t ht hx
    cases ht with
    | skip _ h1 => exact (hh.not_skip hx h1).elim
    | consF h0 h1 h2 =>
      refine hr.dom ?_
      rintro p ⟨a, q, rfl, _, hq⟩
      exact ⟨_, by simp [Ty.flatNext], (ih h2 (h1 ▸ hx)).pty q hq⟩
  | consH hh _ hr ih =>
    intro t ht hx
    cases ht with
    | skip _ h1 => exact (hh.not_skip hx h1).elim
    | consH h0 h1 _ hv h2 =>
      refine hr.dom ?_
      rintro p ⟨a, q, rfl, ha, hq⟩
      exact ⟨_, _, by simp [Ty.hierNext], hv.pty a ha, (ih h2 (h1 ▸ hx)).pty q hq⟩
  | const hh =>
    intro t ht hx
    cases ht with
    | skip _ h1 => exact (hh.not_skip hx h1).elim
    | const _ h => exact h
  | fixDone hh _ ih =>
    intro t ht hx
    cases ht with
    | skip _ h1 => exact (hh.not_skip hx h1).elim
    | fix => exact hx
  | fixStep hh _ hne _ ih1 ih2 =>
    intro t ht hx
    cases ht with
    | skip _ h1 => exact (hh.not_skip hx h1).elim
    | fix hs h => exact ih2 (.fix hs h) (ih1 h hx)
  | fnOne =>
    intro t ht hx
    rcases dom_cases hx with h | ⟨rfl, _⟩ | ⟨_, _, _, _, h, _⟩ | ⟨_, _, _, _, _, _, h, _⟩
    · cases h
    · cases ht with
      | fnNil => exact hx
    · cases h
    · cases h
  | fn hh hr =>
    intro t ht hx
    cases ht with
    | skip _ h1 => exact (hh.not_skip hx h1).elim
    | fnNil =>
      rcases dom_cases hx with h | ⟨_, h⟩ | ⟨_, _, _, h, _⟩ | ⟨_, _, _, _, h, _⟩ <;> cases h
    | fn =>
      refine hr.dom ?_
      rintro p ⟨b, q, rfl, arc, ha, _, hq⟩
      obtain ⟨t', h1, h2, h3⟩ := hx.flat_inv
      exact ⟨t', h1, (h3 arc ha).pty q hq⟩
  | ite hsel hh _ hd _ _ hr ih1 ih2 ih3 =>
    intro t ht hx
    cases ht with
    | skip _ h1 => exact (hh.not_skip hx h1).elim
    | ite _ _ h1 h2 h3 =>
      refine hr.dom ?_
      rintro p (hp | hp)
      · exact (ih2 h2 (ih1 h1 hx)).pty p hp
      · exact (ih3 h3 (hd.dom fun p hp => hx.pty p hp.1)).pty p hp
  | indOne =>
    intro t ht hx
    rcases dom_cases hx with h | ⟨rfl, _⟩ | ⟨_, _, _, _, h, _⟩ | ⟨_, _, _, _, _, _, h, _⟩
    · cases h
    · cases ht with
      | indNil _ _ h => exact h
    · cases h
    · cases h
  | indF f hh _ hr ih =>
    intro t ht hx
    cases ht with
    | skip _ h1 => exact (hh.not_skip hx h1).elim
    | indF _ _ _ h =>
      refine hr.dom ?_
      rintro p ⟨arc, ha, hp⟩
      obtain ⟨t', h1, h2, h3⟩ := hx.flat_inv
      simp [OB.ty, Ty.flatNext] at h1
      exact (ih arc ha (h arc.1 (h2.valNe arc ha)) (h1.2 ▸ h3 arc ha)).pty p hp
    | indH _ _ hn =>
      rcases dom_cases hx with h | ⟨h, _⟩ | ⟨_, _, _, h, _⟩ | ⟨_, _, _, _, _, _, h, _⟩
      · cases h
      · cases h
      · cases h; exact absurd rfl hn
      · cases h
  | indH f hh _ hr ih =>
    intro t ht hx
    cases ht with
    | skip _ h1 => exact (hh.not_skip hx h1).elim
    | indF _ _ _ h =>
      rcases dom_cases hx with h | ⟨h, _⟩ | ⟨_, _, _, _, h, _⟩ | ⟨_, _, _, _, h, hn, _⟩
      · cases h
      · cases h
      · cases h
      · cases h; exact absurd rfl hn
    | indH _ _ hn _ h =>
      refine hr.dom ?_
      rintro p ⟨arc, ha, hp⟩
      rcases dom_cases hx with h' | ⟨h', _⟩ | ⟨_, _, _, _, h', _⟩ | ⟨_, _, _, _, h', _, h'', g1, g2, g3⟩
      · cases h'
      · cases h'
      · cases h'
      · cases h'; cases h''
        obtain ⟨n, hn⟩ := g1.valNe arc ha
        exact (ih arc ha (h arc.1 (g2 arc ha) (fun h => not_mem_zero n (h ▸ hn))) (g3 arc ha)).pty p hp
  | inter f hh _ hr ih =>
    intro t ht hx
    cases ht with
    | skip _ h1 => exact (hh.not_skip hx h1).elim
    | inter _ _ h =>
      refine hr.dom ?_
      rintro p ⟨hne, hp⟩
      obtain ⟨h', hm⟩ := List.exists_mem_of_ne_nil _ hne
      exact (ih h' hm (h h' hm) hx).pty p (hp h' hm)
  | interZero => intros; exact .zero _
  | loc f hh _ hr ih =>
    intro t ht hx
    cases ht with
    | skip _ h1 => exact (hh.not_skip hx h1).elim
    | loc hn h =>
      refine hr.dom ?_
      rintro p ⟨n, q, rfl, arc, ha, hp, hq⟩
      rcases dom_cases hx with h' | ⟨h', _⟩ | ⟨_, _, _, _, h', _⟩ | ⟨_, _, _, _, h', _, h'', g1, g2, g3⟩
      · cases h'
      · cases h'
      · cases h'
      · cases h'; cases h''
        exact ⟨_, _, by simp [Ty.hierNext], (ih arc ha h (g2 arc ha)).pty n hp, (g3 arc ha).pty q hq⟩
  | satDone c d hh =>
    intro t ht hx
    cases ht with
    | skip _ h1 => exact (hh.not_skip hx h1).elim
    | satFix => exact hx
  | @satStep _ _ G _ o1 _ _ _ c d hh _ _ _ hc hl _ ih1 ih2 ih3 ih4 =>
    intro t ht hx
    cases ht with
    | skip _ h1 => exact (hh.not_skip hx h1).elim
    | satFix hs hF hL hG =>
      have key : ∀ i, i ≤ G.length → Dom C o1.ty (c i) := by
        intro i
        induction i with
        | zero => exact fun _ => ih2 hL (ih1 hF hx)
        | succ i ihi =>
          intro hi
          have h1 := ihi (by omega)
          refine (hc i hi).dom ?_
          rintro p (hp | hp)
          · exact h1.pty p hp
          · exact (ih3 i hi (hG _ (List.getElem_mem hi)) h1).pty p hp
      exact ih4 (.satFix hs hF hL hG) (key _ le_rfl)
  | satInter f hh _ hr ih =>
    intro t ht hx
    cases ht with
    | skip _ h1 => exact (hh.not_skip hx h1).elim
    | satInter _ _ h =>
      refine hr.dom ?_
      rintro p ⟨hne, hp⟩
      obtain ⟨h', hm⟩ := List.exists_mem_of_ne_nil _ hne
      exact (ih h' hm (h h' hm) hx).pty p (hp h' hm)
  | satSum f hh _ hr ih =>
    intro t ht hx
    cases ht with
    | skip _ h1 => exact (hh.not_skip hx h1).elim
    | satSum _ _ h =>
      refine hr.dom ?_
      rintro p ⟨h', hm, hp⟩
      exact (ih h' hm (h h' hm) hx).pty p hp
  | sum f hh _ hr ih =>
    intro t ht hx
    cases ht with
    | skip _ h1 => exact (hh.not_skip hx h1).elim
    | sum _ _ h =>
      refine hr.dom ?_
      rintro p ⟨h', hm, hp⟩
      exact (ih h' hm (h h' hm) hx).pty p hp

end
end Verif
