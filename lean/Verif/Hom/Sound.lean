import Verif.Hom.Loops
/-!
# Correctness of the evaluation of homomorphisms, for any monad
-/

set_option autoImplicit false
set_option linter.unusedSectionVars false

namespace Verif

variable {V E I U : Type} {m : Type → Type} [DecidableEq V] [DecidableEq I] [DecidableEq U] [DDMonad V m]

open Classical in
/-- The result of an application, if any. (Specification or proof device, not part of the code.) -/
noncomputable def evOf (env : User V I U) (C : Cfg V E) (h : Hom V I U) (o : OB I) (x : SDD V) : SDD V :=
  if e : ∃ r, Ev env C h o x r then e.choose else .zero

variable {env : User V I U} {C : Cfg V E} {sc : Scope I U}

theorem evOf_eq (hC : C.Lawful) {h : Hom V I U} {o : OB I} {x r : SDD V} (e : Ev env C h o x r) : evOf env C h o x = r := by
  have hex : ∃ r, Ev env C h o x r := ⟨r, e⟩
  unfold evOf
  rw [dif_pos hex]
  exact hex.choose_spec.det hC e

/-- One iteration of a saturation fixpoint. (Specification or proof device, not part of the code.) -/
def Round (env : User V I U) (C : Cfg V E) (o : OB I) (F : Hom V I U) (G : List (Hom V I U)) (L : Hom V I U)
    (s r : SDD V) : Prop :=
  ∃ a b : SDD V, Ev env C F o s a ∧ Ev env C L o a b ∧ Chain env C o G b r

theorem Round.det (hC : C.Lawful) {o : OB I} {F : Hom V I U} {G : List (Hom V I U)} {L : Hom V I U} {s r r' : SDD V}
    (h : Round env C o F G L s r) (h' : Round env C o F G L s r') : r = r' := by
  obtain ⟨a, b, e1, e2, h⟩ := h
  obtain ⟨a', b', e1', e2', h'⟩ := h'
  obtain rfl := e1.det hC e1'
  obtain rfl := e2.det hC e2'
  exact h.det hC h'

/-- The applications made by one step of the evaluation of `h` on `x` under the order `o`. (Specification or proof device, not part of the code.) -/
inductive HCall (env : User V I U) (C : Cfg V E) : OB I → Hom V I U → SDD V → OB I → Hom V I U → SDD V → Prop where
  | skip {id : OId I} {nst nxt : OB I} {h : Hom V I U} {x s : SDD V} (hd : Head E) : h ≠ .id →
      h.skip env nxt.lvl id = true → ArcOf C x hd s → HCall env C (.node id nst nxt) h x nxt h s
  | compR {o : OB I} {l r : Hom V I U} {x : SDD V} : Stop env (.comp l r) o → HCall env C o (.comp l r) x o r x
  | compL {o : OB I} {l r : Hom V I U} {x y : SDD V} : Stop env (.comp l r) o → Ev env C r o x y →
      HCall env C o (.comp l r) x o l y
  | consF {o : OB I} {id : OId I} {nst nxt : OB I} {v : V} {h : Hom V I U} {x : SDD V} :
      HCall env C o (.consF (.node id nst nxt) v h) x nxt h x
  | consH {o : OB I} {id : OId I} {nst nxt : OB I} {v : SDD V} {h : Hom V I U} {x : SDD V} :
      HCall env C o (.consH (.node id nst nxt) v h) x nxt h x
  | fix {o : OB I} {h : Hom V I U} {x y : SDD V} : Stop env (.fix h) o → Reach (Ev env C h o) x y →
      HCall env C o (.fix h) x o h y
  | iteI {o : OB I} {i t e : Hom V I U} {x : SDD V} : Stop env (.ite i t e) o → HCall env C o (.ite i t e) x o i x
  | iteT {o : OB I} {i t e : Hom V I U} {x y : SDD V} : Stop env (.ite i t e) o → Ev env C i o x y →
      HCall env C o (.ite i t e) x o t y
  | iteE {o : OB I} {i t e : Hom V I U} {x y d : SDD V} : Stop env (.ite i t e) o → Ev env C i o x y →
      Is C d (fun p => Mem C p x ∧ ¬ Mem C p y) → HCall env C o (.ite i t e) x o e d
  | indF {id : OId I} {nxt : OB I} {u : U} {y : Nat} {arcs : List (V × SDD V)} (arc : V × SDD V) :
      Stop env (.ind u) (.node id .nil nxt) → arc ∈ arcs →
      HCall env C (.node id .nil nxt) (.ind u) (.flat y arcs) nxt (env.indF u (.node id .nil nxt) arc.1) arc.2
  | indH {id : OId I} {nst nxt : OB I} {u : U} {y : Nat} {arcs : List (SDD V × SDD V)} (arc : SDD V × SDD V) :
      Stop env (.ind u) (.node id nst nxt) → nst ≠ .nil → arc ∈ arcs →
      HCall env C (.node id nst nxt) (.ind u) (.hier y arcs) nxt (env.indH u (.node id nst nxt) arc.1) arc.2
  | inter {o : OB I} {x : SDD V} (pre : List (Hom V I U)) (h : Hom V I U) (post : List (Hom V I U)) :
      Stop env (.inter (pre ++ h :: post)) o → (∀ k ∈ pre, ∃ r, Ev env C k o x r ∧ r ≠ .zero) →
      HCall env C o (.inter (pre ++ h :: post)) x o h x
  | loc {id : OId I} {nst nxt : OB I} {h : Hom V I U} {y : Nat} {arcs : List (SDD V × SDD V)} (arc : SDD V × SDD V) :
      arc ∈ arcs → HCall env C (.node id nst nxt) (.loc nxt.lvl h) (.hier y arcs) nst h arc.1
  | satF {o : OB I} {x : Nat} {F : Hom V I U} {G : List (Hom V I U)} {L : Hom V I U} {s s' : SDD V} :
      Stop env (.satFix x F G L) o → Reach (Round env C o F G L) s s' → HCall env C o (.satFix x F G L) s o F s'
  | satL {o : OB I} {x : Nat} {F : Hom V I U} {G : List (Hom V I U)} {L : Hom V I U} {s s' a : SDD V} :
      Stop env (.satFix x F G L) o → Reach (Round env C o F G L) s s' → Ev env C F o s' a →
      HCall env C o (.satFix x F G L) s o L a
  | satG {o : OB I} {x : Nat} {F : Hom V I U} {G : List (Hom V I U)} {L g : Hom V I U} {s s' a b z : SDD V} :
      Stop env (.satFix x F G L) o → Reach (Round env C o F G L) s s' → Ev env C F o s' a → Ev env C L o a b →
      ChainCall env C o G b g z → HCall env C o (.satFix x F G L) s o g z
  | satInter {o : OB I} {x : Nat} {F G L : List (Hom V I U)} {h : Hom V I U} {s : SDD V} :
      Stop env (.satInter x F G L) o → h ∈ F ++ G ++ L → HCall env C o (.satInter x F G L) s o h s
  | satSum {o : OB I} {x : Nat} {F G L : List (Hom V I U)} {h : Hom V I U} {s : SDD V} :
      Stop env (.satSum x F G L) o → h ∈ F ++ G ++ L → HCall env C o (.satSum x F G L) s o h s
  | sum {o : OB I} {hs : List (Hom V I U)} {h : Hom V I U} {x : SDD V} : Stop env (.sum hs) o → h ∈ hs →
      HCall env C o (.sum hs) x o h x

theorem Chain.of_zero' {o : OB I} {G : List (Hom V I U)} {s r : SDD V} (h : Chain env C o G s r) (hs : s = .zero) :
    r = .zero := by
  induction h with
  | nil => exact hs
  | cons he hi _ ih =>
    subst hs
    have h1 := he.of_zero
    refine ih ?_
    obtain ⟨⟨k, hk⟩, hm⟩ := hi
    refine hk.zero_iff.2 fun p hp => ?_
    have := (hm p).1 hp
    rw [h1] at this
    rcases this with h | h <;> exact not_mem_zero p h

theorem Chain.of_zero {o : OB I} {G : List (Hom V I U)} {r : SDD V} (h : Chain env C o G .zero r) : r = .zero :=
  h.of_zero' rfl

theorem Chain.dom {o : OB I} {G : List (Hom V I U)} {s r : SDD V} (h : Chain env C o G s r)
    (hG : ∀ g ∈ G, HTy env C sc o g o.ty) (hs : Dom C o.ty s) : Dom C o.ty r := by
  induction h with
  | nil => exact hs
  | cons he hi _ ih =>
    refine ih (fun g hg => hG g (by simp [hg])) (hi.dom ?_)
    rintro p (hp | hp)
    · exact hs.pty p hp
    · exact (he.dom (hG _ (by simp)) hs).pty p hp

theorem ChainCall.dom {o : OB I} {G : List (Hom V I U)} {s : SDD V} {g : Hom V I U} {z : SDD V}
    (h : ChainCall env C o G s g z) (hG : ∀ g ∈ G, HTy env C sc o g o.ty) (hs : Dom C o.ty s) : g ∈ G ∧ Dom C o.ty z := by
  induction h with
  | here => exact ⟨by simp, hs⟩
  | there he hi _ ih =>
    have := ih (fun g hg => hG g (by simp [hg])) (hi.dom ?_)
    · exact ⟨by simp [this.1], this.2⟩
    · rintro p (hp | hp)
      · exact hs.pty p hp
      · exact (he.dom (hG _ (by simp)) hs).pty p hp

theorem Reach.dom {β : Type} {R : β → β → Prop} {D : β → Prop} (hR : ∀ x y, D x → R x y → D y) {x y : β} (h : Reach R x y)
    (hx : D x) : D y := by
  induction h with
  | refl => exact hx
  | head h1 _ _ ih => exact ih (hR _ _ hx h1)

theorem Round.dom {o : OB I} {F : Hom V I U} {G : List (Hom V I U)} {L : Hom V I U} (h1 : HTy env C sc o F o.ty)
    (h2 : HTy env C sc o L o.ty) (h3 : ∀ g ∈ G, HTy env C sc o g o.ty) {s r : SDD V} (hs : Dom C o.ty s)
    (h : Round env C o F G L s r) : Dom C o.ty r := by
  obtain ⟨a, b, e1, e2, hc⟩ := h
  exact hc.dom h3 (e2.dom h2 (e1.dom h1 hs))

/-- What is applied is typed. -/
theorem HTy.call (hcl : sc.Closed) {o o' : OB I} {h h' : Hom V I U} {x x' : SDD V} {t : Ty} (ht : HTy env C sc o h t)
    (hs : HCall env C o h x o' h' x') (hS : sc.S o) (hx : Dom C o.ty x) :
    sc.S o' ∧ (∃ t', HTy env C sc o' h' t') ∧ Dom C o'.ty x' := by
  cases ht with
  | id => cases hs with
    | skip _ h => exact absurd rfl h
  | @skip id nst nxt _ _ h1 h2 h3 =>
    cases hs with
    | skip hd _ _ ha =>
      refine ⟨(hcl _ _ _ hS).2, ⟨_, h3⟩, ?_⟩
      rcases dom_cases hx with rfl | ⟨h', rfl⟩ | ⟨_, _, arcs, h', rfl, g1, g2⟩ | ⟨_, _, _, arcs, h', hn, rfl, g1, g2, g3⟩
      · cases hd <;> simp [ArcOf] at ha
      · cases h'
      · cases h'
        cases hd with
        | flat => obtain ⟨_, v, hv, _⟩ := ha; exact g2 _ hv
        | hier => simp [ArcOf] at ha
      · cases h'
        cases hd with
        | hier => obtain ⟨_, v, hv, _⟩ := ha; exact g3 _ hv
        | flat => simp [ArcOf] at ha
    | loc => simp [Hom.skip] at h2
    | consF => simp [Hom.skip] at h2
    | consH => simp [Hom.skip] at h2
    | compL h | compR h | fix h | iteI h | iteT h | iteE h | indF v h | indH v h | inter _ _ _ h | satF h | satL h | satG h
    | satInter h | satSum h | sum h => exact absurd (h2.symm.trans h) (by simp)
  | comp h1 h2 h3 =>
    cases hs with
    | skip _ _ h => exact absurd (h1.symm.trans h) (by simp)
    | compL _ e => exact ⟨hS, ⟨_, h3⟩, e.dom h2 hx⟩
    | compR => exact ⟨hS, ⟨_, h2⟩, hx⟩
  | consF h1 h2 h3 =>
    cases hs with
    | skip _ _ h => simp [Hom.skip] at h
    | consF => exact ⟨h1, ⟨_, h3⟩, h2 ▸ hx⟩
  | consH h1 h2 h3 h4 h5 =>
    cases hs with
    | skip _ _ h => simp [Hom.skip] at h
    | consH => exact ⟨h1, ⟨_, h5⟩, h2 ▸ hx⟩
  | const h1 h2 =>
    cases hs with
    | skip _ _ h => simp [Hom.skip] at h
  | fix h1 h3 =>
    cases hs with
    | skip _ _ h => exact absurd (h1.symm.trans h) (by simp)
    | fix _ hr => exact ⟨hS, ⟨_, h3⟩, hr.dom (fun x y hx e => e.dom h3 hx) hx⟩
  | fnNil => cases hs
  | fn =>
    cases hs with
    | skip _ _ h => simp [Hom.skip] at h
  | ite h1 h2 h3 h4 h5 =>
    cases hs with
    | skip _ _ h => exact absurd (h1.symm.trans h) (by simp)
    | iteI => exact ⟨hS, ⟨_, h3⟩, hx⟩
    | iteT _ e => exact ⟨hS, ⟨_, h4⟩, e.dom h3 hx⟩
    | iteE _ _ hd => exact ⟨hS, ⟨_, h5⟩, hd.dom fun p hp => hx.pty p hp.1⟩
  | indNil => cases hs
  | indF h1 h2 h3 h4 =>
    cases hs with
    | skip _ _ h => exact absurd (h3.symm.trans h) (by simp)
    | indF arc _ ha =>
      rcases dom_cases hx with h' | ⟨h', _⟩ | ⟨_, _, arcs, h', h'', g1, g2⟩ | ⟨_, _, _, arcs, _, hn, h', _⟩
      · cases h'
      · cases h'
      · cases h'; cases h''
        exact ⟨(hcl _ _ _ hS).2, ⟨_, h4 _ (g1.valNe arc ha)⟩, g2 arc ha⟩
      · cases h'
    | indH _ _ h => exact absurd rfl h
  | indH h1 h2 h3 h4 h5 =>
    cases hs with
    | skip _ _ h => exact absurd (h4.symm.trans h) (by simp)
    | indF => exact absurd rfl h3
    | indH arc _ _ ha =>
      rcases dom_cases hx with h' | ⟨h', _⟩ | ⟨_, _, arcs, _, h', _⟩ | ⟨_, _, _, arcs, h', hn, h'', g1, g2, g3⟩
      · cases h'
      · cases h'
      · cases h'
      · cases h'; cases h''
        obtain ⟨q, hq⟩ := g1.valNe arc ha
        exact ⟨(hcl _ _ _ hS).2, ⟨_, h5 _ (g2 arc ha) fun h => not_mem_zero q (h ▸ hq)⟩, g3 arc ha⟩
  | inter h1 h2 h3 =>
    cases hs with
    | skip _ _ h => exact absurd (h2.symm.trans h) (by simp)
    | inter pre k post _ hm => exact ⟨hS, ⟨_, h3 _ (by simp)⟩, hx⟩
  | loc h1 h2 =>
    cases hs with
    | skip _ _ h => simp [Hom.skip] at h
    | loc arc ha =>
      rcases dom_cases hx with h' | ⟨h', _⟩ | ⟨_, _, arcs, _, h', _⟩ | ⟨_, _, _, arcs, h', hn, h'', g1, g2, g3⟩
      · cases h'
      · cases h'
      · cases h'
      · cases h'; cases h''
        exact ⟨(hcl _ _ _ hS).1, ⟨_, h2⟩, g2 arc ha⟩
  | satFix h1 h3 h4 h5 =>
    cases hs with
    | skip _ _ h => exact absurd (h1.symm.trans h) (by simp)
    | satF _ hr => exact ⟨hS, ⟨_, h3⟩, hr.dom (fun x y hx hR => hR.dom h3 h4 h5 hx) hx⟩
    | satL _ hr e => exact ⟨hS, ⟨_, h4⟩, e.dom h3 (hr.dom (fun x y hx hR => hR.dom h3 h4 h5 hx) hx)⟩
    | satG _ hr e e' hc =>
      have := hc.dom h5 (e'.dom h4 (e.dom h3 (hr.dom (fun x y hx hR => hR.dom h3 h4 h5 hx) hx)))
      exact ⟨hS, ⟨_, h5 _ this.1⟩, this.2⟩
  | satInter h1 h2 h3 =>
    cases hs with
    | skip _ _ h => exact absurd (h2.symm.trans h) (by simp)
    | satInter _ hm => exact ⟨hS, ⟨_, h3 _ hm⟩, hx⟩
  | satSum h1 h2 h3 =>
    cases hs with
    | skip _ _ h => exact absurd (h2.symm.trans h) (by simp)
    | satSum _ hm => exact ⟨hS, ⟨_, h3 _ hm⟩, hx⟩
  | sum h1 h2 h3 =>
    cases hs with
    | skip _ _ h => exact absurd (h2.symm.trans h) (by simp)
    | sum _ hm => exact ⟨hS, ⟨_, h3 _ hm⟩, hx⟩

/-- A bound on the number of iterations of a fixpoint. (Specification or proof device, not part of the code.) -/
def Bounded (env : User V I U) (C : Cfg V E) (n : Nat) (o : OB I) : Hom V I U → SDD V → Prop
  | .fix h, x => Stop env (.fix h) o → IterN (Ev env C h o) x n
  | .satFix y F G L, x => Stop env (.satFix y F G L) o → IterN (Round env C o F G L) x n
  | _, _ => True

variable {L : Logic V m}

/-- Everything about a result. -/
theorem call_full (hC : C.Lawful) {rec : Hom V I U → OB I → SDD V → m (SDD V)} {o : OB I} {h : Hom V I U} {t : Ty}
    {x : SDD V} (hr : L.Sat (rec h o x) fun r => Ev env C h o x r) (ht : HTy env C sc o h t) (hx : Dom C o.ty x) :
    L.Sat (rec h o x) fun r => Dom C t r ∧ r = evOf env C h o x ∧ Ev env C h o x (evOf env C h o x) :=
  L.mono' hr fun _ e => ⟨e.dom ht hx, (evOf_eq hC e).symm, (evOf_eq hC e).symm ▸ e⟩

theorem mkNode1_flat_dom (hC : C.Lawful) {x : Nat} {v : V} {s : SDD V} {t : Ty} (hs : Dom C t s) :
    Dom C (.flat x t) (mkNode1 (m := m) (flatKind C) x v s) := by
  refine Is.dom (mkNode1_flat hC hs.wf) ?_
  rintro p ⟨a, q, rfl, _, hq⟩
  exact ⟨t, by simp [Ty.flatNext], hs.pty q hq⟩

theorem mkNode1_hier_dom {dd : Op V → m (SDD V)} {x : Nat} {v s : SDD V} {tn t : Ty} (hv : Dom C tn v) (hs : Dom C t s) :
    Dom C (.hier x tn t) (mkNode1 (hierKind C dd) x v s) := by
  refine Is.dom (mkNode1_hier hv.wf hs.wf) ?_
  rintro p ⟨a, q, rfl, ha, hq⟩
  exact ⟨tn, t, by simp [Ty.hierNext], hv.pty a ha, hs.pty q hq⟩

/-- One step of the evaluation is right when the applications it makes are right. -/
theorem homEval_sat (hC : C.Lawful) (hov : C.limit = none ∨ L.allow .overflow) (hon : Honest env C)
    {dd : Op V → m (SDD V)} (hdd : ∀ t : Ty, t.IsShape → RecOK C L t dd) {n : Nat}
    {rec : Hom V I U → OB I → SDD V → m (SDD V)} {o : OB I} {h : Hom V I U} {t : Ty} (ht : HTy env C sc o h t)
    (hne : h ≠ .id) {x : SDD V}
    (hrec : ∀ o' h' x', HCall env C o h x o' h' x' → L.Sat (rec h' o' x') fun r => Ev env C h' o' x' r)
    (hfu : L.allow .fuel ∨ Bounded env C n o h x) (hx : Dom C o.ty x) (h0 : x ≠ .zero) :
    L.Sat (homEval env C dd n rec h o x) fun r => Ev env C h o x r := by
  -- a skipped level
  by_cases hsk : ∃ id nst nxt, o = .node id nst nxt ∧ h.skip env nxt.lvl id = true
  · obtain ⟨id, nst, nxt, rfl, hs⟩ := hsk
    obtain ⟨t', rfl, ht'⟩ := ht.skip_inv hne hs
    have hr := fun hd s hd' => hrec nxt h s (.skip hd hne hs hd')
    rcases dom_cases hx with rfl | ⟨h1, _⟩ | ⟨_, _, arcs, h1, rfl, h2, h3⟩ | ⟨_, _, _, arcs, h1, hn, rfl, h2, h3, h4⟩
    · exact absurd rfl h0
    · cases h1
    · cases h1
      rw [homEval]
      simp only [ne_eq, not_true_eq_false, if_false, hs, if_true]
      have hk := flatKind_ok (L := L) (G := fun _ => True) hC (t := .flat nxt.lvl t') (t' := t') (x := nxt.lvl) (by simp [Ty.flatNext])
      refine L.mono' (skipNode_sat hC hov hk h2 (fun _ _ => trivial) (g := evOf env C h nxt)
        (Q := fun s => Ev env C h nxt s (evOf env C h nxt s)) fun arc ha => ?_) ?_
      · obtain ⟨a, hav⟩ := h2.valNe arc ha
        exact call_full hC (hr (.flat _ a) arc.2 ⟨rfl, arc.1, ha, hav⟩) ht' (h3 arc ha)
      rintro r ⟨hd, hm, hQ⟩
      refine .skip (evOf env C h nxt) hne ⟨rfl, hs⟩ ?_ ⟨hd.wf, fun p => ?_⟩
      · rintro hd s ha
        cases hd with
        | flat y a => obtain ⟨_, v, hv, _⟩ := ha; exact hQ _ hv
        | hier => simp [ArcOf] at ha
      · rw [hm]
        constructor
        · rintro ⟨a, q, rfl, arc, ha, hav, hq⟩
          exact ⟨.flat _ a, arc.2, q, rfl, ⟨rfl, arc.1, ha, hav⟩, hq⟩
        · rintro ⟨hd, s, q, rfl, ha, hq⟩
          cases hd with
          | flat y a => obtain ⟨rfl, v, hv, hav⟩ := ha; exact ⟨a, q, rfl, (v, s), hv, hav, hq⟩
          | hier => simp [ArcOf] at ha
    · cases h1
      rw [homEval]
      simp only [ne_eq, not_true_eq_false, if_false, hs, if_true]
      have hk := hierKind_ok (L := L) (G := fun _ => True) hC (t := .hier nxt.lvl nst.ty t') (tn := nst.ty) (t' := t') (x := nxt.lvl)
        (by simp [Ty.hierNext]) (hdd nst.ty (OB.ty_shape _))
      refine L.mono' (skipNode_sat hC hov hk h2 h3 (g := evOf env C h nxt)
        (Q := fun s => Ev env C h nxt s (evOf env C h nxt s)) fun arc ha => ?_) ?_
      · obtain ⟨a, hav⟩ := h2.valNe arc ha
        exact call_full hC (hr (.hier _ a) arc.2 ⟨rfl, arc.1, ha, hav⟩) ht' (h4 arc ha)
      rintro r ⟨hd, hm, hQ⟩
      refine .skip (evOf env C h nxt) hne ⟨rfl, hs⟩ ?_ ⟨hd.wf, fun p => ?_⟩
      · rintro hd s ha
        cases hd with
        | hier y a => obtain ⟨_, v, hv, _⟩ := ha; exact hQ _ hv
        | flat => simp [ArcOf] at ha
      · rw [hm]
        constructor
        · rintro ⟨a, q, rfl, arc, ha, hav, hq⟩
          exact ⟨.hier _ a, arc.2, q, rfl, ⟨rfl, arc.1, ha, hav⟩, hq⟩
        · rintro ⟨hd, s, q, rfl, ha, hq⟩
          cases hd with
          | hier y a => obtain ⟨rfl, v, hv, hav⟩ := ha; exact ⟨a, q, rfl, (v, s), hv, hav, hq⟩
          | flat => simp [ArcOf] at ha
  -- an evaluated level
  have hst : Stop env h o := by
    cases o with
    | nil => trivial
    | node id nst nxt =>
      rw [Stop, ← Bool.not_eq_true]
      exact fun hs => hsk ⟨id, nst, nxt, rfl, hs⟩
  have hh : Here env h o x := hst.here hx h0
  have heq : homEval env C dd n rec h o x = homWork env C dd n rec h o x := by
    rcases dom_cases hx with rfl | ⟨rfl, rfl⟩ | ⟨_, _, arcs, rfl, rfl, _⟩ | ⟨_, _, _, arcs, rfl, hn, rfl, _⟩
    · exact absurd rfl h0
    · rfl
    · rw [homEval]
      simp only [ne_eq, not_true_eq_false, if_false]
      rw [if_neg]
      rw [hh.2]; simp
    · rw [homEval]
      simp only [ne_eq, not_true_eq_false, if_false]
      rw [if_neg]
      rw [hh.2]; simp
  rw [heq]
  cases ht with
  | id => exact absurd rfl hne
  | skip _ h2 => exact absurd (hst.symm.trans h2) (by simp)
  | comp _ h2 h3 =>
    rw [homWork]
    refine L.bind' (hrec _ _ _ (.compR hst)) fun y ey => ?_
    refine L.mono' (hrec _ _ _ (.compL hst ey)) fun z ez => .comp hh ey ez
  | consF h1 h2 h3 =>
    rw [homWork]
    refine L.bind' (hrec _ _ _ .consF) fun y ey => ?_
    exact L.pure' (.consF hh ey (mkNode1_flat hC (ey.dom h3 (h2 ▸ hx)).wf))
  | consH h1 h2 h3 h4 h5 =>
    rw [homWork]
    refine L.bind' (hrec _ _ _ .consH) fun y ey => ?_
    exact L.pure' (.consH hh ey (mkNode1_hier h4.wf (ey.dom h5 (h2 ▸ hx)).wf))
  | const h1 h2 => exact L.pure' (.const hh)
  | @fix _ h' _ h3 =>
    rw [homWork]
    refine L.mono' (fixLoop_sat (D := Dom C o.ty) (R := Ev env C h' o) (fun _ _ _ e e' => e.det hC e') n x hx
      (fun y hr hy => L.mono' (hrec _ _ _ (.fix hst hr)) fun z ez => ⟨ez.dom h3 hy, ez⟩) (hfu.imp _root_.id fun h => h hst)) ?_
    · rintro r ⟨-, hit⟩
      clear hh heq h0 hfu hrec
      induction hit with
      | @done x e =>
        by_cases h0 : x = .zero
        · subst h0; exact .zero _ _
        · exact .fixDone (hst.here hx h0) e
      | @step x y r e hxy hit ih =>
        have h0 : x ≠ .zero := by rintro rfl; exact hxy e.of_zero
        exact .fixStep (hst.here hx h0) e hxy (ih (e.dom h3 hx))
  | fnNil =>
    rcases dom_cases hx with rfl | ⟨_, rfl⟩ | ⟨_, _, _, h1, _⟩ | ⟨_, _, _, _, h1, _⟩
    · exact absurd rfl h0
    · exact L.pure' .fnOne
    · cases h1
    · cases h1
  | @fn id nxt u =>
    rcases dom_cases hx with rfl | ⟨h1, _⟩ | ⟨_, _, arcs, h1, rfl, h2, h3⟩ | ⟨_, _, _, arcs, h1, hn, _⟩
    · exact absurd rfl h0
    · cases h1
    · cases h1
      rw [homWork]
      refine L.bind' (L.ord' arcs) ?_
      intro arcs' hp
      split
      · rename_i hsel
        rw [fnAlpha_eq hC _ hp h2.sorted]
        have hk := flatKind_ok (L := L) (G := fun _ => True) hC (t := .flat nxt.lvl nxt.ty) (t' := nxt.ty) (x := nxt.lvl) (by simp [Ty.flatNext])
        have hmem : ∀ b : V × SDD V, b ∈ (arcs.filter fun a => !C.visEmpty (env.fn u a.1)).map (fun a => (env.fn u a.1, a.2)) ↔
            ∃ a ∈ arcs, C.visEmpty (env.fn u a.1) = false ∧ b = (env.fn u a.1, a.2) := by
          intro b
          simp only [List.mem_map, List.mem_filter, Bool.not_eq_true', and_assoc]
          exact exists_congr fun a => and_congr_right fun _ => and_congr_right fun _ => eq_comm
        have hmk := mkNode_sat (x := nxt.lvl) hC hk hov
          (arcs := (arcs.filter fun a => !C.visEmpty (env.fn u a.1)).map (fun a => (env.fn u a.1, a.2))) ⟨?_, ?_, ?_, ?_, ?_⟩ ?_
        · refine L.mono' hmk ?_
          rintro r ⟨hr, hm⟩
          refine .fn hh ⟨hr.wf, fun p => ?_⟩
          rw [hm]
          constructor
          · rintro ⟨a, q, rfl, b, hb, hab, hq⟩
            obtain ⟨arc, ha, _, rfl⟩ := (hmem b).1 hb
            exact ⟨a, q, rfl, arc, ha, hab, hq⟩
          · rintro ⟨b, q, rfl, arc, ha, hb, hq⟩
            refine ⟨b, q, rfl, _, (hmem _).2 ⟨arc, ha, ?_, rfl⟩, hb, hq⟩
            rw [← Bool.not_eq_true, hC.isEmpty_iff]
            exact fun h => h b hb
        · rw [List.pairwise_map]
          exact h2.sorted.filter _
        · intro b hb
          obtain ⟨a, ha, _, rfl⟩ := (hmem b).1 hb
          exact h3 a ha
        · intro b hb
          obtain ⟨a, ha, _, rfl⟩ := (hmem b).1 hb
          exact h2.succNe a ha
        · intros; trivial
        · intro b hb
          obtain ⟨a, ha, hz, rfl⟩ := (hmem b).1 hb
          by_contra hc
          rw [not_exists] at hc
          rw [← Bool.not_eq_true, hC.isEmpty_iff] at hz
          exact hz hc
        · intro a b hb c hc hab hac
          obtain ⟨b', hb', _, rfl⟩ := (hmem b).1 hb
          obtain ⟨c', hc', _, rfl⟩ := (hmem c).1 hc
          by_cases hbc : b' = c'
          · rw [hbc]
          · exfalso
            have hdis : ∀ e, ¬ (C.vmem e b'.1 ∧ C.vmem e c'.1) := fun e he => hbc (h2.unique hb' hc' he.1 he.2)
            rw [Bool.or_eq_true] at hsel
            rcases hsel with hsel | hsel
            · exact hdis a ⟨hon.fnSel u hsel _ _ hab, hon.fnSel u hsel _ _ hac⟩
            · exact hon.fnShift u hsel _ _ hdis a ⟨hab, hac⟩
      · refine L.mono' (opSum_sat hC (hdd _ (OB.ty_shape (OB.node id .nil nxt))) ?_) ?_
        · intro y hy
          rw [List.mem_map] at hy
          obtain ⟨arc, ha, rfl⟩ := hy
          have ha := hp.mem_iff.1 ha
          exact mkNode1_flat_dom hC (h3 arc ha)
        · rintro r ⟨hr, hm⟩
          refine .fn hh ⟨hr.wf, fun p => ?_⟩
          rw [hm]
          constructor
          · rintro ⟨y, hy, hyp⟩
            rw [List.mem_map] at hy
            obtain ⟨arc, ha, rfl⟩ := hy
            have ha := hp.mem_iff.1 ha
            obtain ⟨a, q, rfl, h4, h5⟩ := ((mkNode1_flat hC (h3 arc ha).wf).2 p).1 hyp
            exact ⟨a, q, rfl, arc, ha, h4, h5⟩
          · rintro ⟨a, q, rfl, arc, ha, h4, h5⟩
            exact ⟨_, List.mem_map.2 ⟨arc, hp.mem_iff.2 ha, rfl⟩, ((mkNode1_flat hC (h3 arc ha).wf).2 _).2 ⟨a, q, rfl, h4, h5⟩⟩
    · cases h1; exact absurd rfl hn
  | ite _ h2 h3 h4 h5 =>
    rw [homWork]
    refine L.bind' (hrec _ _ _ (.iteI hst)) fun y ey => ?_
    refine L.bind' (hrec _ _ _ (.iteT hst ey)) fun a ea => ?_
    refine L.bind' (ddDiff_sat (hdd _ (OB.ty_shape o)) hx (ey.dom h3 hx)) ?_
    rintro d ⟨hd, hdm⟩
    refine L.bind' (hrec _ _ _ (.iteE hst ey ⟨hd.wf, hdm⟩)) fun b eb => ?_
    refine L.mono' (opSum_sat hC (hdd _ (HTy.shape h4)) (xs := [a, b]) ?_) ?_
    · simp [ea.dom h4 (ey.dom h3 hx), eb.dom h5 hd]
    · rintro r ⟨hr, hm⟩
      exact .ite h2 hh ey ⟨hd.wf, hdm⟩ ea eb ⟨hr.wf, by simpa using hm⟩
  | indNil h1 h2 h3 =>
    rcases dom_cases hx with rfl | ⟨_, rfl⟩ | ⟨_, _, _, h1, _⟩ | ⟨_, _, _, _, h1, _⟩
    · exact absurd rfl h0
    · exact L.pure' .indOne
    · cases h1
    · cases h1
  | @indF id nxt u _ h1 h2 _ h4 =>
    rcases dom_cases hx with rfl | ⟨h', _⟩ | ⟨_, _, arcs, h', rfl, g1, g2⟩ | ⟨_, _, _, arcs, h', hn, _⟩
    · exact absurd rfl h0
    · cases h'
    · cases h'
      rw [homWork]
      refine L.bind' (L.ord' arcs) ?_
      intro arcs' hp
      have key := indArcs_sat (L := L) (f := fun v s => rec (env.indF u (.node id .nil nxt) v) nxt s)
        (g := fun arc => evOf env C (env.indF u (.node id .nil nxt) arc.1) nxt arc.2)
        (Q := fun arc => Dom C t (evOf env C (env.indF u (.node id .nil nxt) arc.1) nxt arc.2) ∧
          Ev env C (env.indF u (.node id .nil nxt) arc.1) nxt arc.2
          (evOf env C (env.indF u (.node id .nil nxt) arc.1) nxt arc.2)) arcs' ?_
      · refine L.bind' key ?_
        rintro rs ⟨rfl, hQ⟩
        simp only [hp.mem_iff] at hQ
        refine L.mono' (opSum_sat hC (hdd _ h2) (xs := arcs'.map _) ?_) ?_
        · intro y hy
          rw [List.mem_map] at hy
          obtain ⟨arc, ha, rfl⟩ := hy
          have ha := hp.mem_iff.1 ha
          exact (hQ arc ha).1
        · rintro r ⟨hr, hm⟩
          refine .indF _ hh (fun arc ha => (hQ arc ha).2) ⟨hr.wf, fun p => ?_⟩
          rw [hm]; simp [hp.mem_iff]
      · intro arc ha
        have ha := hp.mem_iff.1 ha
        have hv := g1.valNe arc ha
        exact L.mono' (call_full hC (hrec _ _ _ (.indF arc hst ha)) (h4 arc.1 hv) (g2 arc ha)) fun r hr =>
          ⟨hr.2.1, hr.2.1 ▸ hr.1, hr.2.2⟩
    · cases h'; exact absurd rfl hn
  | @indH id nst nxt u _ h1 h2 h3 _ h5 =>
    rcases dom_cases hx with rfl | ⟨h', _⟩ | ⟨_, _, arcs, h', _⟩ | ⟨_, _, _, arcs, h', hn, rfl, g1, g2, g3⟩
    · exact absurd rfl h0
    · cases h'
    · cases h'; exact absurd rfl h3
    · cases h'
      rw [homWork]
      refine L.bind' (L.ord' arcs) ?_
      intro arcs' hp
      have key := indArcs_sat (L := L) (f := fun v s => rec (env.indH u (.node id nst nxt) v) nxt s)
        (g := fun arc => evOf env C (env.indH u (.node id nst nxt) arc.1) nxt arc.2)
        (Q := fun arc => Dom C t (evOf env C (env.indH u (.node id nst nxt) arc.1) nxt arc.2) ∧
          Ev env C (env.indH u (.node id nst nxt) arc.1) nxt arc.2
          (evOf env C (env.indH u (.node id nst nxt) arc.1) nxt arc.2)) arcs' ?_
      · refine L.bind' key ?_
        rintro rs ⟨rfl, hQ⟩
        simp only [hp.mem_iff] at hQ
        refine L.mono' (opSum_sat hC (hdd _ h2) (xs := arcs'.map _) ?_) ?_
        · intro y hy
          rw [List.mem_map] at hy
          obtain ⟨arc, ha, rfl⟩ := hy
          have ha := hp.mem_iff.1 ha
          exact (hQ arc ha).1
        · rintro r ⟨hr, hm⟩
          refine .indH _ hh (fun arc ha => (hQ arc ha).2) ⟨hr.wf, fun p => ?_⟩
          rw [hm]; simp [hp.mem_iff]
      · intro arc ha
        have ha := hp.mem_iff.1 ha
        obtain ⟨q, hq⟩ := g1.valNe arc ha
        have hv : arc.1 ≠ .zero := fun h => not_mem_zero q (h ▸ hq)
        exact L.mono' (call_full hC (hrec _ _ _ (.indH arc hst h3 ha)) (h5 arc.1 (g2 arc ha) hv) (g3 arc ha))
          fun r hr => ⟨hr.2.1, hr.2.1 ▸ hr.1, hr.2.2⟩
  | @inter _ hs _ h1 _ h3 =>
    rw [homWork]
    refine L.mono' (applyInter_sat hC (hdd _ h1) (g := fun h => evOf env C h o x)
      (Q := fun h => Ev env C h o x (evOf env C h o x)) hs
      (fun pre h post hhs hpre => ?_) [] (by simp)) ?_
    · subst hhs
      exact call_full hC (hrec _ _ _ (.inter pre h post hst fun k hk => ⟨_, hpre k hk⟩)) (h3 h (by simp)) hx
    rintro r (⟨pre, h, post, rfl, hpre, hz, hQ, rfl⟩ | ⟨hQ, hr, hm⟩)
    · rw [hz] at hQ
      exact .interZero pre post (fun h => evOf env C h o x) hh hpre hQ
    · refine .inter (fun h => evOf env C h o x) hh hQ ⟨hr.wf, fun p => ?_⟩
      rw [hm]; simp
  | @loc id nst nxt h' tn h1 h2 =>
    rcases dom_cases hx with rfl | ⟨h', _⟩ | ⟨_, _, arcs, h', _⟩ | ⟨_, _, _, arcs, h', hn, rfl, g1, g2, g3⟩
    · exact absurd rfl h0
    · cases h'
    · cases h'; exact absurd rfl h1
    · cases h'
      rw [homWork]
      refine L.bind' (L.ord' arcs) ?_
      intro arcs' hp
      have hk := hierKind_ok (L := L) (G := fun _ => True) hC (t := .hier nxt.lvl tn nxt.ty) (tn := tn) (t' := nxt.ty) (x := nxt.lvl)
        (by simp [Ty.hierNext]) (hdd tn (HTy.shape h2))
      have hcall : ∀ arc ∈ arcs, L.Sat (rec h' nst arc.1) fun r => Dom C tn r ∧ r = evOf env C h' nst arc.1 ∧
          (Dom C tn (evOf env C h' nst arc.1) ∧ Ev env C h' nst arc.1 (evOf env C h' nst arc.1)) := fun arc ha =>
        L.mono' (call_full hC (hrec _ _ _ (.loc arc ha)) h2 (g2 arc ha)) fun r hr => ⟨hr.1, hr.2.1, hr.2.1 ▸ hr.1, hr.2.2⟩
      split
      · rename_i hsel
        refine L.bind' (locSquare_sat hC hk arcs' (fun arc ha => ⟨g3 arc (hp.mem_iff.1 ha), g1.succNe arc (hp.mem_iff.1 ha)⟩)
          (g := evOf env C h' nst) (Q := fun v => Dom C tn (evOf env C h' nst v) ∧ Ev env C h' nst v (evOf env C h' nst v))
          (fun arc ha => hcall arc (hp.mem_iff.1 ha)) [] SuOK.nil) ?_
        simp only [hp.mem_iff]
        rintro su ⟨k1, k2, k3⟩
        have k2 : ∀ a s, SuMem (Mem C) su a s ↔ ∃ arc ∈ arcs, Mem C a (evOf env C h' nst arc.1) ∧ s = arc.2 := by
          intro a s; rw [k2]; simp [SuMem]
        refine L.mono' (finish_sat hC hk hov k1 (fun _ _ => trivial) ?_) ?_
        · intro a s s' hs hs'
          rw [k2] at hs hs'
          obtain ⟨b, hb, hab, rfl⟩ := hs
          obtain ⟨c, hc, hac, rfl⟩ := hs'
          rw [g1.unique hb hc ((k3 b hb).2.selector hon hsel a hab) ((k3 c hc).2.selector hon hsel a hac)]
        · rintro r ⟨hr, hm⟩
          refine .loc _ hh (fun arc ha => (k3 arc ha).2) ⟨hr.wf, fun p => ?_⟩
          rw [hm]
          constructor
          · rintro ⟨a, q, rfl, s, hs, hq⟩
            obtain ⟨arc, ha, haa, rfl⟩ := (k2 a s).1 hs
            exact ⟨a, q, rfl, arc, ha, haa, hq⟩
          · rintro ⟨a, q, rfl, arc, ha, haa, hq⟩
            exact ⟨a, q, rfl, arc.2, (k2 a arc.2).2 ⟨arc, ha, haa, rfl⟩, hq⟩
      · refine L.bind' (locSum_sat (L := L) (C := C) (dd := dd) (x := nxt.lvl) (f := rec h' nst) (g := evOf env C h' nst)
          (Q := fun v => Dom C tn (evOf env C h' nst v) ∧ Ev env C h' nst v (evOf env C h' nst v)) arcs'
          fun arc ha => L.mono' (hcall arc (hp.mem_iff.1 ha)) fun r hr => hr.2) ?_
        rintro rs ⟨rfl, hQ⟩
        simp only [hp.mem_iff] at hQ
        refine L.mono' (opSum_sat hC (hdd (.hier nxt.lvl tn nxt.ty) ⟨HTy.shape h2, OB.ty_shape _⟩) ?_) ?_
        · intro y hy
          rw [List.mem_map] at hy
          obtain ⟨arc, ha, rfl⟩ := hy
          have ha := hp.mem_iff.1 ha
          exact mkNode1_hier_dom (hQ arc ha).1 (g3 arc ha)
        · rintro r ⟨hr, hm⟩
          refine .loc _ hh (fun arc ha => (hQ arc ha).2) ⟨hr.wf, fun p => ?_⟩
          rw [hm]
          constructor
          · rintro ⟨y, hy, hyp⟩
            rw [List.mem_map] at hy
            obtain ⟨arc, ha, rfl⟩ := hy
            have ha := hp.mem_iff.1 ha
            obtain ⟨a, q, rfl, h4, h5⟩ := ((mkNode1_hier (hQ arc ha).1.wf (g3 arc ha).wf).2 p).1 hyp
            exact ⟨a, q, rfl, arc, ha, h4, h5⟩
          · rintro ⟨a, q, rfl, arc, ha, h4, h5⟩
            exact ⟨_, List.mem_map.2 ⟨arc, hp.mem_iff.2 ha, rfl⟩,
              ((mkNode1_hier (hQ arc ha).1.wf (g3 arc ha).wf).2 _).2 ⟨a, q, rfl, h4, h5⟩⟩
  | @satFix _ y F G L' _ h3 h4 h5 =>
    rw [homWork]
    have hround : ∀ s, Reach (Round env C o F G L') x s → Dom C o.ty s →
        L.Sat (satRound C dd rec o F G L' s) fun r => Dom C o.ty r ∧ Round env C o F G L' s r := by
      intro s hr hs
      unfold satRound
      refine L.bind' (hrec _ _ _ (.satF hst hr)) fun a ea => ?_
      refine L.bind' (hrec _ _ _ (.satL hst hr ea)) fun b eb => ?_
      refine L.mono' (chain_sat (env := env) hC (hdd _ (OB.ty_shape o)) G b (eb.dom h4 (ea.dom h3 hs)) (fun g z hc hg hz =>
        L.mono' (hrec _ _ _ (.satG hst hr ea eb hc)) fun w ew => ⟨ew.dom (h5 g hg) hz, ew⟩)) ?_
      rintro r ⟨hr, hc⟩
      exact ⟨hr, a, b, ea, eb, hc⟩
    refine L.mono' (fixLoop_sat (D := Dom C o.ty) (R := Round env C o F G L') (fun _ _ _ e e' => e.det hC e') n x hx
      hround (hfu.imp _root_.id fun h => h hst)) ?_
    · rintro r ⟨-, hit⟩
      clear hh heq h0 hfu hrec hround
      induction hit with
      | @done x e =>
        by_cases h0 : x = .zero
        · subst h0; exact .zero _ _
        · obtain ⟨a, b, ea, eb, hc⟩ := e
          obtain ⟨c, d, rfl, hl, hE, hI⟩ := Chain.iff.1 hc
          exact .satDone c d (hst.here hx h0) ea eb hE hI hl
      | @step x y r e hxy hit ih =>
        have hy := e.dom h3 h4 h5 hx
        obtain ⟨a, b, ea, eb, hc⟩ := e
        have h0 : x ≠ .zero := by
          rintro rfl
          obtain rfl := ea.of_zero
          obtain rfl := eb.of_zero
          exact hxy hc.of_zero
        obtain ⟨c, d, rfl, rfl, hE, hI⟩ := Chain.iff.1 hc
        exact .satStep c d (hst.here hx h0) ea eb hE hI hxy (ih hy)
  | @satInter _ y F G L' _ h1 _ h3 =>
    rw [homWork]
    refine L.bind' (applyAll_sat (L := L) (g := fun h => evOf env C h o x)
      (Q := fun h => Dom C t (evOf env C h o x) ∧ Ev env C h o x (evOf env C h o x)) (F ++ G ++ L') fun h hm => L.mono'
      (call_full hC (hrec _ _ _ (.satInter hst hm)) (h3 h hm) hx) fun r hr => ⟨hr.2.1, hr.2.1 ▸ hr.1, hr.2.2⟩) ?_
    rintro rs ⟨rfl, hQ⟩
    refine L.mono' (opInter_sat hC (hdd _ h1) (xs := (F ++ G ++ L').map _) ?_) ?_
    · intro y hy
      rw [List.mem_map] at hy
      obtain ⟨h, hm, rfl⟩ := hy
      exact (hQ h hm).1
    · rintro r ⟨hr, hm⟩
      refine .satInter (fun h => evOf env C h o x) hh (fun h hm => (hQ h hm).2) ⟨hr.wf, fun p => ?_⟩
      rw [hm]
      simp only [ne_eq, List.map_eq_nil_iff, List.mem_map, forall_exists_index, and_imp, forall_apply_eq_imp_iff₂]
  | @satSum _ y F G L' _ h1 _ h3 =>
    rw [homWork]
    refine L.bind' (applyAll_sat (L := L) (g := fun h => evOf env C h o x)
      (Q := fun h => Dom C t (evOf env C h o x) ∧ Ev env C h o x (evOf env C h o x)) (F ++ G ++ L') fun h hm => L.mono'
      (call_full hC (hrec _ _ _ (.satSum hst hm)) (h3 h hm) hx) fun r hr => ⟨hr.2.1, hr.2.1 ▸ hr.1, hr.2.2⟩) ?_
    rintro rs ⟨rfl, hQ⟩
    refine L.mono' (opSum_sat hC (hdd _ h1) (xs := (F ++ G ++ L').map _) ?_) ?_
    · intro y hy
      rw [List.mem_map] at hy
      obtain ⟨h, hm, rfl⟩ := hy
      exact (hQ h hm).1
    · rintro r ⟨hr, hm⟩
      refine .satSum (fun h => evOf env C h o x) hh (fun h hm => (hQ h hm).2) ⟨hr.wf, fun p => ?_⟩
      rw [hm]
      simp only [List.mem_map, exists_exists_and_eq_and]
  | @sum _ hs _ h1 _ h3 =>
    rw [homWork]
    refine L.bind' (applyAll_sat (L := L) (g := fun h => evOf env C h o x)
      (Q := fun h => Dom C t (evOf env C h o x) ∧ Ev env C h o x (evOf env C h o x)) hs fun h hm => L.mono'
      (call_full hC (hrec _ _ _ (.sum hst hm)) (h3 h hm) hx) fun r hr => ⟨hr.2.1, hr.2.1 ▸ hr.1, hr.2.2⟩) ?_
    rintro rs ⟨rfl, hQ⟩
    refine L.mono' (opSum_sat hC (hdd _ h1) (xs := hs.map _) ?_) ?_
    · intro y hy
      rw [List.mem_map] at hy
      obtain ⟨h, hm, rfl⟩ := hy
      exact (hQ h hm).1
    · rintro r ⟨hr, hm⟩
      refine .sum (fun h => evOf env C h o x) hh (fun h hm => (hQ h hm).2) ⟨hr.wf, fun p => ?_⟩
      rw [hm]
      simp only [List.mem_map, exists_exists_and_eq_and]

end Verif
