import Verif.Hom.Laws
import Mathlib.Logic.Relation
/-!
# Homomorphisms as relations on paths

`HRel o h t R`: under the order `o`, the homomorphism `h` turns each path `p` into the paths `p'` such that `R p p'`; results have
the shape `t`.  Such homomorphisms are those built from additive user's functions, and whose fixpoints contain the identity (or
are selectors).
-/

set_option autoImplicit false
set_option linter.unusedSectionVars false

namespace Verif

open Relation (ReflTransGen)

variable {V E I U : Type} [DecidableEq I]

/-- Relations on paths. (Specification or proof device, not part of the code.) -/
abbrev PRel (E : Type) : Type := Path E → Path E → Prop

/-- The first step is kept, the rest is related. (Specification or proof device, not part of the code.) -/
def liftRel (R : PRel E) : PRel E := fun p p' => ∃ hd q q', p = Head.cons hd q ∧ p' = Head.cons hd q' ∧ R q q'

/-- A relation which only removes paths of a shape. (Specification or proof device, not part of the code.) -/
def SubIdOn (t : Ty) (R : PRel E) : Prop := ∀ p, PTy t p → ∀ p', R p p' → p' = p

/-- A relation which keeps the paths of a shape. (Specification or proof device, not part of the code.) -/
def ReflOn (t : Ty) (R : PRel E) : Prop := ∀ p, PTy t p → R p p

/-- The relation of a homomorphism. (Specification or proof device, not part of the code.) -/
inductive HRel (env : User V I U) (C : Cfg V E) (sc : Scope I U) : OB I → Hom V I U → Ty → PRel E → Prop where
  | id (o : OB I) : HRel env C sc o .id o.ty fun p p' => p' = p
  /-- A skipped level is unchanged. -/
  | skip {id : OId I} {nst nxt : OB I} {h : Hom V I U} {t : Ty} {R : PRel E} : h ≠ .id → h.skip env nxt.lvl id = true →
      HRel env C sc nxt h t R → HRel env C sc (.node id nst nxt) h (liftTy nst nxt t) (liftRel R)
  | comp {o : OB I} {l r : Hom V I U} {t : Ty} {R R' : PRel E} : Stop env (.comp l r) o → HRel env C sc o r o.ty R →
      HRel env C sc o l t R' → HRel env C sc o (.comp l r) t fun p p' => ∃ q, R p q ∧ R' q p'
  | consF {o : OB I} {id : OId I} {nst nxt : OB I} {v : V} {h : Hom V I U} {t : Ty} {R : PRel E} : sc.S nxt →
      nxt.ty = o.ty →
      HRel env C sc nxt h t R →
      HRel env C sc o (.consF (.node id nst nxt) v h) (.flat nxt.lvl t) fun p p' =>
        ∃ a q, p' = .flat nxt.lvl a q ∧ C.vmem a v ∧ R p q
  | consH {o : OB I} {id : OId I} {nst nxt : OB I} {v : SDD V} {h : Hom V I U} {tn t : Ty} {R : PRel E} : sc.S nxt →
      nxt.ty = o.ty →
      tn.IsShape → Dom C tn v → HRel env C sc nxt h t R →
      HRel env C sc o (.consH (.node id nst nxt) v h) (.hier nxt.lvl tn t) fun p p' =>
        ∃ n q, p' = .hier nxt.lvl n q ∧ Mem C n v ∧ R p q
  | const {o : OB I} {s : SDD V} {t : Ty} : t.IsShape → Dom C t s → HRel env C sc o (.const s) t fun _ p' => Mem C p' s
  /-- The paths reachable by any number of steps. -/
  | fix {o : OB I} {h : Hom V I U} {R : PRel E} : Stop env (.fix h) o → HRel env C sc o h o.ty R → ReflOn o.ty R →
      HRel env C sc o (.fix h) o.ty (ReflTransGen R)
  | fixSel {o : OB I} {h : Hom V I U} {R : PRel E} : Stop env (.fix h) o → HRel env C sc o h o.ty R → SubIdOn o.ty R →
      HRel env C sc o (.fix h) o.ty R
  | fnNil {x : Nat} {u : U} : HRel env C sc .nil (.fn x u) .nil fun p p' => p' = p
  /-- The user's function is additive: `f a b` if it turns the value `a` into `b` (among others). -/
  | fn {id : OId I} {nxt : OB I} {u : U} (f : E → E → Prop) :
      (∀ v, (∃ a, C.vmem a v) → ∀ b, C.vmem b (env.fn u v) ↔ ∃ a, C.vmem a v ∧ f a b) →
      HRel env C sc (.node id .nil nxt) (.fn nxt.lvl u) (OB.node id .nil nxt).ty fun p p' =>
        ∃ a b q, p = .flat nxt.lvl a q ∧ p' = .flat nxt.lvl b q ∧ f a b
  | ite {o : OB I} {i t e : Hom V I U} {ty : Ty} {Ri Rt Re : PRel E} : Stop env (.ite i t e) o → i.selector env = true →
      HRel env C sc o i o.ty Ri → SubIdOn o.ty Ri → HRel env C sc o t ty Rt → HRel env C sc o e ty Re →
      HRel env C sc o (.ite i t e) ty fun p p' => (Ri p p ∧ Rt p p') ∨ (¬ Ri p p ∧ Re p p')
  | indNil {u : U} {t : Ty} : sc.A u → t.IsShape → Dom C t (env.indOne u) →
      HRel env C sc .nil (.ind u) t fun _ p' => Mem C p' (env.indOne u)
  /-- The user's inductive is additive: `T a` is the relation, on the rest of the paths, for the value `a`. -/
  | indF {id : OId I} {nxt : OB I} {u : U} {t : Ty} (T : E → PRel E) : sc.A u → t.IsShape → Stop env (.ind u) (.node id .nil nxt) →
      (∀ a q p', PTy nxt.ty q → T a q p' → PTy t p') →
      (∀ v, (∃ a, C.vmem a v) → HRel env C sc nxt (env.indF u (.node id .nil nxt) v) t fun q p' => ∃ a, C.vmem a v ∧ T a q p') →
      HRel env C sc (.node id .nil nxt) (.ind u) t fun p p' => ∃ a q, p = .flat nxt.lvl a q ∧ T a q p'
  | indH {id : OId I} {nst nxt : OB I} {u : U} {t : Ty} (T : Path E → PRel E) : sc.A u → t.IsShape → nst ≠ .nil →
      Stop env (.ind u) (.node id nst nxt) → (∀ n q p', PTy nst.ty n → PTy nxt.ty q → T n q p' → PTy t p') →
      (∀ v, Dom C nst.ty v → v ≠ .zero →
        HRel env C sc nxt (env.indH u (.node id nst nxt) v) t fun q p' => ∃ n, Mem C n v ∧ T n q p') →
      HRel env C sc (.node id nst nxt) (.ind u) t fun p p' => ∃ n q, p = .hier nxt.lvl n q ∧ T n q p'
  | inter {o : OB I} {hs : List (Hom V I U)} {t : Ty} (R : Hom V I U → PRel E) : t.IsShape → hs ≠ [] → Stop env (.inter hs) o →
      (∀ h ∈ hs, HRel env C sc o h t (R h)) → (∀ h ∈ hs, SubIdOn o.ty (R h)) →
      HRel env C sc o (.inter hs) t fun p p' => ∀ h ∈ hs, R h p p'
  | loc {id : OId I} {nst nxt : OB I} {h : Hom V I U} {tn : Ty} {R : PRel E} : nst ≠ .nil → HRel env C sc nst h tn R →
      HRel env C sc (.node id nst nxt) (.loc nxt.lvl h) (.hier nxt.lvl tn nxt.ty) fun p p' =>
        ∃ n n' q, p = .hier nxt.lvl n q ∧ p' = .hier nxt.lvl n' q ∧ R n n'
  | satFix {o : OB I} {x : Nat} {F : Hom V I U} {G : List (Hom V I U)} {L : Hom V I U} {RF RL : PRel E}
      (R : Hom V I U → PRel E) : Stop env (.satFix x F G L) o → HRel env C sc o F o.ty RF → ReflOn o.ty RF →
      HRel env C sc o L o.ty RL → ReflOn o.ty RL → (∀ g ∈ G, HRel env C sc o g o.ty (R g)) →
      HRel env C sc o (.satFix x F G L) o.ty (ReflTransGen fun p p' => RF p p' ∨ RL p p' ∨ ∃ g ∈ G, R g p p')
  | satInter {o : OB I} {x : Nat} {F G L : List (Hom V I U)} {t : Ty} (R : Hom V I U → PRel E) : t.IsShape →
      F ++ G ++ L ≠ [] → Stop env (.satInter x F G L) o → (∀ h ∈ F ++ G ++ L, HRel env C sc o h t (R h)) →
      (∀ h ∈ F ++ G ++ L, SubIdOn o.ty (R h)) →
      HRel env C sc o (.satInter x F G L) t fun p p' => ∀ h ∈ F ++ G ++ L, R h p p'
  | satSum {o : OB I} {x : Nat} {F G L : List (Hom V I U)} {t : Ty} (R : Hom V I U → PRel E) : t.IsShape →
      Stop env (.satSum x F G L) o → (∀ h ∈ F ++ G ++ L, HRel env C sc o h t (R h)) →
      HRel env C sc o (.satSum x F G L) t fun p p' => ∃ h ∈ F ++ G ++ L, R h p p'
  | sum {o : OB I} {hs : List (Hom V I U)} {t : Ty} (R : Hom V I U → PRel E) : t.IsShape → Stop env (.sum hs) o →
      (∀ h ∈ hs, HRel env C sc o h t (R h)) → HRel env C sc o (.sum hs) t fun p p' => ∃ h ∈ hs, R h p p'

section
variable [DecidableEq V] [DecidableEq U] {env : User V I U} {C : Cfg V E} {sc : Scope I U}

/-- A homomorphism with a relation may be applied. -/
theorem HRel.hty {o : OB I} {h : Hom V I U} {t : Ty} {R : PRel E} (hr : HRel env C sc o h t R) :
    HTy env C sc o h t := by
  induction hr with
  | id o => exact .id o
  | skip h1 h2 _ ih => exact .skip h1 h2 ih
  | comp h1 _ _ ih1 ih2 => exact .comp h1 ih1 ih2
  | consF h0 h1 _ ih => exact .consF h0 h1 ih
  | consH h0 h1 h2 h3 _ ih => exact .consH h0 h1 h2 h3 ih
  | const h1 h2 => exact .const h1 h2
  | fix h1 _ _ ih => exact .fix h1 ih
  | fixSel h1 _ _ ih => exact .fix h1 ih
  | fnNil => exact .fnNil
  | fn => exact .fn
  | ite h1 h2 _ _ _ _ ih1 ih2 ih3 => exact .ite h1 h2 ih1 ih2 ih3
  | indNil h0 h1 h2 => exact .indNil h0 h1 h2
  | indF T h0 h1 h2 _ _ ih => exact .indF h0 h1 h2 ih
  | indH T h0 h1 h2 h3 _ _ ih => exact .indH h0 h1 h2 h3 ih
  | inter R h1 _ h2 _ _ ih => exact .inter h1 h2 ih
  | loc h1 _ ih => exact .loc h1 ih
  | satFix R h1 _ _ _ _ _ ih1 ih2 ih3 => exact .satFix h1 ih1 ih2 ih3
  | satInter R h1 _ h2 _ _ ih => exact .satInter h1 h2 ih
  | satSum R h1 h2 _ ih => exact .satSum h1 h2 ih
  | sum R h1 h2 _ ih => exact .sum h1 h2 ih

/-- The paths of the result are the images of the paths of the operand. -/
theorem HRel.image {o : OB I} {h : Hom V I U} {t : Ty} {R : PRel E} (hr : HRel env C sc o h t R) :
    ∀ {x r : SDD V}, Dom C o.ty x → Ev env C h o x r → ∀ p', Mem C p' r ↔ ∃ p, Mem C p x ∧ R p p' := by
  induction hr with
  | id o =>
    intro x r _ e p'
    cases e.of_id
    constructor
    · intro h; exact ⟨p', h, rfl⟩
    · rintro ⟨p, h, rfl⟩; exact h
  | @skip id nst nxt h t R hne hsk hr ih =>
    intro x r hx e p'
    by_cases h0 : x = .zero
    · subst h0; cases e.of_zero; simp [not_mem_zero]
    cases e with
    | zero => exact absurd rfl h0
    | id => exact absurd rfl hne
    | skip f _ hb hf hr' =>
      rw [hr'.2]
      constructor
      · rintro ⟨hd, s, q, rfl, ha, hq⟩
        obtain ⟨q0, h1, h2⟩ := (ih (ha.dom hx).1 (hf hd s ha) q).1 hq
        exact ⟨hd.cons q0, mem_cons_iff.2 ⟨s, ha, h1⟩, hd, q0, q, rfl, rfl, h2⟩
      · rintro ⟨p, hp, hd, q, q', rfl, rfl, h2⟩
        obtain ⟨s, ha, h1⟩ := mem_cons_iff.1 hp
        exact ⟨hd, s, q', rfl, ha, (ih (ha.dom hx).1 (hf hd s ha) q').2 ⟨q, h1, h2⟩⟩
    | fnOne | indOne => rcases dom_cases hx with h | ⟨h, _⟩ | ⟨_, _, _, _, h, _⟩ | ⟨_, _, _, _, _, _, h, _⟩ <;> cases h
    | comp hh | consF hh | consH hh | const hh | fixDone hh | fixStep hh | fn hh | ite _ hh | indF _ hh | indH _ hh
    | inter _ hh | interZero _ _ _ hh | loc _ hh | satDone _ _ hh | satStep _ _ hh | satInter _ hh | satSum _ hh | sum _ hh =>
      exact (hh.not_skip hx hsk).elim
  | @comp o l r t R R' hst h1 h2 ih1 ih2 =>
    intro x z hx e p'
    by_cases h0 : x = .zero
    · subst h0; cases e.of_zero; simp [not_mem_zero]
    have hh := hst.here hx h0
    cases e with
    | zero => exact absurd rfl h0
    | skip _ _ hb => exact (hh.not_below hb).elim
    | comp _ e1 e2 =>
      rw [ih2 (e1.dom h1.hty hx) e2]
      constructor
      · rintro ⟨q, hq, h⟩
        obtain ⟨p, hp, h'⟩ := (ih1 hx e1 q).1 hq
        exact ⟨p, hp, q, h', h⟩
      · rintro ⟨p, hp, q, h', h⟩
        exact ⟨q, (ih1 hx e1 q).2 ⟨p, hp, h'⟩, h⟩
  | @consF o id nst nxt v h t R _ hty hr ih =>
    intro x z hx e p'
    by_cases h0 : x = .zero
    · subst h0; cases e.of_zero; simp [not_mem_zero]
    cases e with
    | zero => exact absurd rfl h0
    | skip _ _ hb => have := hb.skip; simp [Hom.skip] at this
    | consF _ e1 hz =>
      rw [hz.2]
      constructor
      · rintro ⟨a, q, rfl, ha, hq⟩
        obtain ⟨p, hp, h⟩ := (ih (hty ▸ hx) e1 q).1 hq
        exact ⟨p, hp, a, q, rfl, ha, h⟩
      · rintro ⟨p, hp, a, q, rfl, ha, h⟩
        exact ⟨a, q, rfl, ha, (ih (hty ▸ hx) e1 q).2 ⟨p, hp, h⟩⟩
  | @consH o id nst nxt v h tn t R _ hty _ _ hr ih =>
    intro x z hx e p'
    by_cases h0 : x = .zero
    · subst h0; cases e.of_zero; simp [not_mem_zero]
    cases e with
    | zero => exact absurd rfl h0
    | skip _ _ hb => have := hb.skip; simp [Hom.skip] at this
    | consH _ e1 hz =>
      rw [hz.2]
      constructor
      · rintro ⟨a, q, rfl, ha, hq⟩
        obtain ⟨p, hp, h⟩ := (ih (hty ▸ hx) e1 q).1 hq
        exact ⟨p, hp, a, q, rfl, ha, h⟩
      · rintro ⟨p, hp, a, q, rfl, ha, h⟩
        exact ⟨a, q, rfl, ha, (ih (hty ▸ hx) e1 q).2 ⟨p, hp, h⟩⟩
  | @const o s t _ _ =>
    intro x z hx e p'
    by_cases h0 : x = .zero
    · subst h0; cases e.of_zero; simp [not_mem_zero]
    cases e with
    | zero => exact absurd rfl h0
    | skip _ _ hb => have := hb.skip; simp [Hom.skip] at this
    | const =>
      constructor
      · intro h; obtain ⟨p, hp⟩ := hx.exists_mem h0; exact ⟨p, hp, h⟩
      · rintro ⟨_, _, h⟩; exact h
  | @fix o h R hst hr hrefl ih =>
    intro x z hx e
    generalize hh' : Hom.fix h = g at e
    generalize ho' : o = o' at e
    induction e with
    | fixDone hh e1 ih' =>
      cases hh'; subst ho'
      intro p'
      constructor
      · intro h; exact ⟨p', h, .refl⟩
      · rintro ⟨p, hp, hR⟩
        induction hR with
        | refl => exact hp
        | tail _ h2 ih2 => exact (ih hx e1 _).2 ⟨_, ih2, h2⟩
    | @fixStep _ _ x y z hh e1 hne e2 _ ih' =>
      cases hh'; subst ho'
      intro p'
      rw [ih' (e1.dom hr.hty hx) rfl rfl p']
      constructor
      · rintro ⟨q, hq, hR⟩
        obtain ⟨p, hp, h⟩ := (ih hx e1 q).1 hq
        exact ⟨p, hp, .head h hR⟩
      · rintro ⟨p, hp, hR⟩
        exact ⟨p, (ih hx e1 p).2 ⟨p, hp, hrefl p (hx.pty p hp)⟩, hR⟩
    | zero => simp [not_mem_zero]
    | skip f hne hb =>
      subst hh'; subst ho'
      exact ((hst.here hx hb.ne_zero).not_below hb).elim
    | _ => cases hh'
  | @fixSel o h R hst hr hsub ih =>
    intro x z hx e
    have idem : ∀ {x y : SDD V}, Dom C o.ty x → Ev env C h o x y → ∀ p', Mem C p' y ↔ Mem C p' x ∧ R p' p' := by
      intro x y hx e p'
      rw [ih hx e]
      constructor
      · rintro ⟨p, h1, h2⟩; cases hsub _ (hx.pty p h1) _ h2; exact ⟨h1, h2⟩
      · rintro ⟨h1, h2⟩; exact ⟨p', h1, h2⟩
    generalize hh' : Hom.fix h = g at e
    generalize ho' : o = o' at e
    induction e with
    | fixDone hh e1 ih' =>
      cases hh'; subst ho'
      exact ih hx e1
    | @fixStep _ _ x y z hh e1 hne e2 _ ih' =>
      cases hh'; subst ho'
      intro p'
      have hy := e1.dom hr.hty hx
      rw [ih' hy rfl rfl p']
      constructor
      · rintro ⟨q, hq, hR⟩
        exact ⟨q, ((idem hx e1 q).1 hq).1, hR⟩
      · rintro ⟨p, hp, hR⟩
        cases hsub _ (hx.pty p hp) _ hR
        exact ⟨p', (idem hx e1 p').2 ⟨hp, hR⟩, hR⟩
    | zero => simp [not_mem_zero]
    | skip f hne hb =>
      subst hh'; subst ho'
      exact ((hst.here hx hb.ne_zero).not_below hb).elim
    | _ => cases hh'
  | fnNil =>
    intro x z hx e p'
    rcases dom_cases hx with rfl | ⟨_, rfl⟩ | ⟨_, _, _, h, _⟩ | ⟨_, _, _, _, h, _⟩
    · cases e.of_zero; simp [not_mem_zero]
    · cases e with
      | fnOne =>
        constructor
        · intro h; exact ⟨p', h, rfl⟩
        · rintro ⟨p, h, rfl⟩; exact h
    · cases h
    · cases h
  | @fn id nxt u f hf =>
    intro x z hx e p'
    rcases dom_cases hx with rfl | ⟨h, _⟩ | ⟨id', nxt', arcs, h1, rfl, hg, _⟩ | ⟨_, _, _, _, h, h', _⟩
    · cases e.of_zero; simp [not_mem_zero]
    · cases h
    · cases h1
      cases e with
      | skip _ _ hb => have := hb.skip; simp [Hom.skip] at this
      | fn _ hz =>
        rw [hz.2]
        constructor
        · rintro ⟨b, q, rfl, arc, harc, hb, hq⟩
          obtain ⟨a, ha, hab⟩ := (hf arc.1 (hg.valNe arc harc) b).1 hb
          exact ⟨.flat nxt.lvl a q, ⟨rfl, arc, harc, ha, hq⟩, a, b, q, rfl, rfl, hab⟩
        · rintro ⟨p, hp, a, b, q, rfl, rfl, hab⟩
          obtain ⟨_, arc, harc, ha, hq⟩ := hp
          exact ⟨b, q, rfl, arc, harc, (hf arc.1 ⟨a, ha⟩ b).2 ⟨a, ha, hab⟩, hq⟩
    · cases h; exact absurd rfl h'
  | @ite o i t e ty Ri Rt Re hst hsel hi hsub h1 h2 ihi iht ihe =>
    intro x z hx ev p'
    by_cases h0 : x = .zero
    · subst h0; cases ev.of_zero; simp [not_mem_zero]
    have hh := hst.here hx h0
    cases ev with
    | zero => exact absurd rfl h0
    | skip _ _ hb => exact (hh.not_below hb).elim
    | @ite _ _ _ _ _ y d a b _ _ _ e1 hd e2 e3 hz =>
      have hy := e1.dom hi.hty hx
      have hdd : Dom C o.ty d := hd.dom fun p hp => hx.pty p hp.1
      have key : ∀ p, Mem C p y ↔ Mem C p x ∧ Ri p p := by
        intro p
        rw [ihi hx e1]
        constructor
        · rintro ⟨q, h1, h2⟩; cases hsub _ (hx.pty q h1) _ h2; exact ⟨h1, h2⟩
        · rintro ⟨h1, h2⟩; exact ⟨p, h1, h2⟩
      rw [hz.2]
      change Mem C p' a ∨ Mem C p' b ↔ _
      rw [iht hy e2, ihe hdd e3]
      constructor
      · rintro (⟨p, hp, h⟩ | ⟨p, hp, h⟩)
        · exact ⟨p, ((key p).1 hp).1, Or.inl ⟨((key p).1 hp).2, h⟩⟩
        · rw [hd.2, key] at hp
          exact ⟨p, hp.1, Or.inr ⟨fun h' => hp.2 ⟨hp.1, h'⟩, h⟩⟩
      · rintro ⟨p, hp, ⟨h', h⟩ | ⟨h', h⟩⟩
        · exact Or.inl ⟨p, (key p).2 ⟨hp, h'⟩, h⟩
        · exact Or.inr ⟨p, (hd.2 p).2 ⟨hp, fun h'' => h' ((key p).1 h'').2⟩, h⟩
  | indNil _ _ _ =>
    intro x z hx e p'
    rcases dom_cases hx with rfl | ⟨_, rfl⟩ | ⟨_, _, _, h, _⟩ | ⟨_, _, _, _, h, _⟩
    · cases e.of_zero; simp [not_mem_zero]
    · cases e with
      | indOne =>
        constructor
        · intro h; exact ⟨.nil, rfl, h⟩
        · rintro ⟨_, _, h⟩; exact h
    · cases h
    · cases h
  | @indF id nxt u t T _ _ hst _ hr ih =>
    intro x z hx e p'
    rcases dom_cases hx with rfl | ⟨h, _⟩ | ⟨id', nxt', arcs, h1, rfl, hg, hs⟩ | ⟨_, _, _, _, h, h', _⟩
    · cases e.of_zero; simp [not_mem_zero]
    · cases h
    · cases h1
      cases e with
      | skip _ _ hb => exact ((hst.here hx hb.ne_zero).not_below hb).elim
      | indF f _ hf hz =>
        rw [hz.2]
        constructor
        · rintro ⟨arc, harc, hp⟩
          obtain ⟨q, hq, a, ha, hT⟩ := (ih arc.1 (hg.valNe arc harc) (hs arc harc) (hf arc harc) p').1 hp
          exact ⟨.flat nxt.lvl a q, ⟨rfl, arc, harc, ha, hq⟩, a, q, rfl, hT⟩
        · rintro ⟨p, hp, a, q, rfl, hT⟩
          obtain ⟨_, arc, harc, ha, hq⟩ := hp
          exact ⟨arc, harc, (ih arc.1 ⟨a, ha⟩ (hs arc harc) (hf arc harc) p').2 ⟨q, hq, a, ha, hT⟩⟩
    · cases h; exact absurd rfl h'
  | @indH id nst nxt u t T _ _ hne hst _ hr ih =>
    intro x z hx e p'
    rcases dom_cases hx with rfl | ⟨h, _⟩ | ⟨id', nxt', arcs, h1, _⟩ | ⟨_, _, _, arcs, h, h', rfl, hg, hn, hs⟩
    · cases e.of_zero; simp [not_mem_zero]
    · cases h
    · cases h1; exact absurd rfl hne
    · cases h
      cases e with
      | skip _ _ hb => exact ((hst.here hx hb.ne_zero).not_below hb).elim
      | indH f _ hf hz =>
        have hn0 : ∀ arc ∈ arcs, arc.1 ≠ .zero := by
          intro arc harc h0
          obtain ⟨n, hn⟩ := hg.valNe arc harc
          rw [h0] at hn
          exact not_mem_zero n hn
        rw [hz.2]
        constructor
        · rintro ⟨arc, harc, hp⟩
          obtain ⟨q, hq, a, ha, hT⟩ := (ih arc.1 (hn arc harc) (hn0 arc harc) (hs arc harc) (hf arc harc) p').1 hp
          exact ⟨.hier nxt.lvl a q, ⟨rfl, arc, harc, ha, hq⟩, a, q, rfl, hT⟩
        · rintro ⟨p, hp, a, q, rfl, hT⟩
          obtain ⟨_, arc, harc, ha, hq⟩ := hp
          exact ⟨arc, harc, (ih arc.1 (hn arc harc) (hn0 arc harc) (hs arc harc) (hf arc harc) p').2 ⟨q, hq, a, ha, hT⟩⟩
  | @inter o hs t R _ hne hst hr hsub ih =>
    intro x z hx e p'
    by_cases h0 : x = .zero
    · subst h0; cases e.of_zero; simp [not_mem_zero]
    have hh := hst.here hx h0
    generalize hg' : Hom.inter hs = g at e
    cases e with
    | zero => exact absurd rfl h0
    | skip _ _ hb => subst hg'; exact (hh.not_below hb).elim
    | inter f _ hf hz =>
      cases hg'
      rw [hz.2]
      constructor
      · rintro ⟨_, h⟩
        obtain ⟨g, l, rfl⟩ := List.exists_cons_of_ne_nil hne
        refine ⟨p', ?_, fun h' hh' => ?_⟩
        · obtain ⟨p, hp, hR⟩ := (ih g (by simp) hx (hf g (by simp)) p').1 (h g (by simp))
          cases hsub g (by simp) _ (hx.pty p hp) _ hR; exact hp
        · obtain ⟨p, hp, hR⟩ := (ih h' hh' hx (hf h' hh') p').1 (h h' hh')
          cases hsub h' hh' _ (hx.pty p hp) _ hR; exact hR
      · rintro ⟨p, hp, h⟩
        exact ⟨hne, fun h' hh' => (ih h' hh' hx (hf h' hh') p').2 ⟨p, hp, h h' hh'⟩⟩
    | @interZero _ _ h pre post f _ _ e0 =>
      cases hg'
      have hm : h ∈ pre ++ h :: post := by simp
      refine ⟨fun h => absurd h (not_mem_zero _), ?_⟩
      rintro ⟨p, hp, hR⟩
      exact (ih h hm hx e0 p').2 ⟨p, hp, hR h hm⟩
    | _ => cases hg'
  | @loc id nst nxt h tn R hne hr ih =>
    intro x z hx e p'
    rcases dom_cases hx with rfl | ⟨h, _⟩ | ⟨id', nxt', arcs, h1, _⟩ | ⟨_, _, _, arcs, h, h', rfl, hg, hn, hs⟩
    · cases e.of_zero; simp [not_mem_zero]
    · cases h
    · cases h1; exact absurd rfl hne
    · cases h
      cases e with
      | skip _ _ hb => have := hb.skip; simp [Hom.skip] at this
      | loc f _ hf hz =>
        rw [hz.2]
        constructor
        · rintro ⟨n, q, rfl, arc, harc, hp, hq⟩
          obtain ⟨n0, hn0, hR⟩ := (ih (hn arc harc) (hf arc harc) n).1 hp
          exact ⟨.hier nxt.lvl n0 q, ⟨rfl, arc, harc, hn0, hq⟩, n0, n, q, rfl, rfl, hR⟩
        · rintro ⟨p, hp, n0, n, q, rfl, rfl, hR⟩
          obtain ⟨_, arc, harc, ha, hq⟩ := hp
          exact ⟨n, q, rfl, arc, harc, (ih (hn arc harc) (hf arc harc) n).2 ⟨n0, ha, hR⟩, hq⟩
  | @satFix o x F G L RF RL R hst hF hFr hL hLr hG ihF ihL ihG =>
    intro s z hx e
    -- what a chain does
    have chain : ∀ {s a r : SDD V}, Dom C o.ty s → Ev env C F o s a → ∀ c d : Nat → SDD V, Ev env C L o a (c 0) →
        (∀ i, (hi : i < G.length) → Ev env C G[i] o (c i) (d i)) →
        (∀ i, i < G.length → Is C (c (i + 1)) (fun p => Mem C p (c i) ∨ Mem C p (d i))) → Dom C o.ty (c G.length) ∧
        (∀ p, Mem C p s → Mem C p (c G.length)) ∧
        (∀ p p', Mem C p s → (RF p p' ∨ RL p p' ∨ ∃ g ∈ G, R g p p') → Mem C p' (c G.length)) ∧
        ∀ p', Mem C p' (c G.length) → ∃ p, Mem C p s ∧
          ReflTransGen (fun p p' => RF p p' ∨ RL p p' ∨ ∃ g ∈ G, R g p p') p p' := by
      intro s a r hx e1 c d e2 hc hc'
      have ha := e1.dom hF.hty hx
      have h0 := e2.dom hL.hty ha
      have hdom : ∀ i, i ≤ G.length → Dom C o.ty (c i) := by
        intro i
        induction i with
        | zero => intro _; exact h0
        | succ i ih =>
          intro hi
          have hci := ih (by omega)
          have hdi := (hc i (by omega)).dom (hG _ (List.getElem_mem _)).hty hci
          refine (hc' i (by omega)).dom ?_
          rintro p (hp | hp)
          · exact hci.pty p hp
          · exact hdi.pty p hp
      have hinc : ∀ i, i ≤ G.length → ∀ j, j ≤ i → ∀ p, Mem C p (c j) → Mem C p (c i) := by
        intro i
        induction i with
        | zero => intro _ j hj p hp; cases (by omega : j = 0); exact hp
        | succ i ih =>
          intro hi j hj p hp
          rcases Nat.lt_or_ge j (i + 1) with hj' | hj'
          · exact ((hc' i (by omega)).2 p).2 (Or.inl (ih (by omega) j (by omega) p hp))
          · cases (by omega : j = i + 1); exact hp
      have hsa : ∀ p, Mem C p s → Mem C p a := fun p hp => (ihF hx e1 p).2 ⟨p, hp, hFr p (hx.pty p hp)⟩
      have hac : ∀ p, Mem C p a → Mem C p (c 0) := fun p hp => (ihL ha e2 p).2 ⟨p, hp, hLr p (ha.pty p hp)⟩
      refine ⟨hdom _ (le_refl _), fun p hp => hinc _ (le_refl _) 0 (by omega) p (hac p (hsa p hp)), ?_, ?_⟩
      · rintro p p' hp (h | h | ⟨g, hg, h⟩)
        · exact hinc _ (le_refl _) 0 (by omega) p' (hac p' ((ihF hx e1 p').2 ⟨p, hp, h⟩))
        · exact hinc _ (le_refl _) 0 (by omega) p' ((ihL ha e2 p').2 ⟨p, hsa p hp, h⟩)
        · obtain ⟨i, hi, rfl⟩ := List.getElem_of_mem hg
          refine hinc _ (le_refl _) (i + 1) (by omega) p' (((hc' i hi).2 p').2 (Or.inr ?_))
          exact (ihG _ hg (hdom i (by omega)) (hc i hi) p').2 ⟨p, hinc i (by omega) 0 (by omega) p (hac p (hsa p hp)), h⟩
      · have h0' : ∀ p', Mem C p' (c 0) → ∃ p, Mem C p s ∧
            ReflTransGen (fun p p' => RF p p' ∨ RL p p' ∨ ∃ g ∈ G, R g p p') p p' := by
          intro p' hp'
          obtain ⟨q, hq, h⟩ := (ihL ha e2 p').1 hp'
          obtain ⟨p, hp, h'⟩ := (ihF hx e1 q).1 hq
          exact ⟨p, hp, .tail (.single (Or.inl h')) (Or.inr (Or.inl h))⟩
        have : ∀ i, i ≤ G.length → ∀ p', Mem C p' (c i) → ∃ p, Mem C p s ∧
            ReflTransGen (fun p p' => RF p p' ∨ RL p p' ∨ ∃ g ∈ G, R g p p') p p' := by
          intro i
          induction i with
          | zero => intro _; exact h0'
          | succ i ih =>
            intro hi p' hp'
            rcases ((hc' i (by omega)).2 p').1 hp' with h | h
            · exact ih (by omega) p' h
            · obtain ⟨q, hq, h⟩ := (ihG _ (List.getElem_mem _) (hdom i (by omega)) (hc i (by omega)) p').1 h
              obtain ⟨p, hp, h'⟩ := ih (by omega) q hq
              exact ⟨p, hp, .tail h' (Or.inr (Or.inr ⟨_, List.getElem_mem _, h⟩))⟩
        exact this _ (le_refl _)
    generalize hh' : Hom.satFix x F G L = g at e
    generalize ho' : o = o' at e
    induction e with
    | satDone c d hh e1 e2 hc hc' heq =>
      cases hh'; subst ho'
      obtain ⟨_, _, h2, _⟩ := chain (r := .zero) hx e1 c d e2 hc hc'
      intro p'
      constructor
      · intro h; exact ⟨p', h, .refl⟩
      · rintro ⟨p, hp, hR⟩
        induction hR with
        | refl => exact hp
        | tail _ h ih2 => rw [← heq]; exact h2 _ _ ih2 h
    | @satStep _ _ _ _ _ s a r c d hh e1 e2 hc hc' hne e3 _ _ _ ih' =>
      cases hh'; subst ho'
      obtain ⟨h0, h1, h2, h3⟩ := chain (r := .zero) hx e1 c d e2 hc hc'
      intro p'
      rw [ih' h0 rfl rfl p']
      constructor
      · rintro ⟨q, hq, hR⟩
        obtain ⟨p, hp, h⟩ := h3 q hq
        exact ⟨p, hp, h.trans hR⟩
      · rintro ⟨p, hp, hR⟩
        exact ⟨p, h1 p hp, hR⟩
    | zero => simp [not_mem_zero]
    | skip f hne hb =>
      subst hh'; subst ho'
      exact ((hst.here hx hb.ne_zero).not_below hb).elim
    | _ => cases hh'
  | @satInter o x F G L t R _ hne hst hr hsub ih =>
    intro s z hx e p'
    by_cases h0 : s = .zero
    · subst h0; cases e.of_zero; simp [not_mem_zero]
    have hh := hst.here hx h0
    cases e with
    | zero => exact absurd rfl h0
    | skip _ _ hb => exact (hh.not_below hb).elim
    | satInter f _ hf hz =>
      rw [hz.2]
      constructor
      · rintro ⟨_, h⟩
        obtain ⟨g, l, hgl⟩ := List.exists_cons_of_ne_nil hne
        have hg : g ∈ F ++ G ++ L := by rw [hgl]; simp
        refine ⟨p', ?_, fun h' hh' => ?_⟩
        · obtain ⟨p, hp, hR⟩ := (ih g hg hx (hf g hg) p').1 (h g hg)
          cases hsub g hg _ (hx.pty p hp) _ hR; exact hp
        · obtain ⟨p, hp, hR⟩ := (ih h' hh' hx (hf h' hh') p').1 (h h' hh')
          cases hsub h' hh' _ (hx.pty p hp) _ hR; exact hR
      · rintro ⟨p, hp, h⟩
        exact ⟨hne, fun h' hh' => (ih h' hh' hx (hf h' hh') p').2 ⟨p, hp, h h' hh'⟩⟩
  | @satSum o x F G L t R _ hst hr ih =>
    intro s z hx e p'
    by_cases h0 : s = .zero
    · subst h0; cases e.of_zero; simp [not_mem_zero]
    have hh := hst.here hx h0
    cases e with
    | zero => exact absurd rfl h0
    | skip _ _ hb => exact (hh.not_below hb).elim
    | satSum f _ hf hz =>
      rw [hz.2]
      constructor
      · rintro ⟨h, hm, hp⟩
        obtain ⟨p, hp, hR⟩ := (ih h hm hx (hf h hm) p').1 hp
        exact ⟨p, hp, h, hm, hR⟩
      · rintro ⟨p, hp, h, hm, hR⟩
        exact ⟨h, hm, (ih h hm hx (hf h hm) p').2 ⟨p, hp, hR⟩⟩
  | @sum o hs t R _ hst hr ih =>
    intro s z hx e p'
    by_cases h0 : s = .zero
    · subst h0; cases e.of_zero; simp [not_mem_zero]
    have hh := hst.here hx h0
    cases e with
    | zero => exact absurd rfl h0
    | skip _ _ hb => exact (hh.not_below hb).elim
    | sum f _ hf hz =>
      rw [hz.2]
      constructor
      · rintro ⟨h, hm, hp⟩
        obtain ⟨p, hp, hR⟩ := (ih h hm hx (hf h hm) p').1 hp
        exact ⟨p, hp, h, hm, hR⟩
      · rintro ⟨p, hp, h, hm, hR⟩
        exact ⟨h, hm, (ih h hm hx (hf h hm) p').2 ⟨p, hp, hR⟩⟩

end
end Verif
