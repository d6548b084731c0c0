import Verif.Hom.Eval
/-!
# Meaning of homomorphisms on sets of paths

`Ev h o x r`: the application of `h` to `x` under the order `o` has the result `r`.  It is defined by rules on sets of paths,
without reference to the operations on SDDs (sums, square unions, ...) nor to caches.
-/

set_option autoImplicit false
set_option linter.unusedSectionVars false

namespace Verif

variable {V E I U : Type}

/-- The first step of a path. (Specification or proof device, not part of the code.) -/
inductive Head (E : Type) : Type where
  | flat (x : Nat) (a : E)
  | hier (x : Nat) (n : Path E)

/-- A path from its first step. (Specification or proof device, not part of the code.) -/
def Head.cons : Head E → Path E → Path E
  | .flat x a, q => .flat x a q
  | .hier x n, q => .hier x n q

theorem Head.cons_inj {h h' : Head E} {q q' : Path E} (e : h.cons q = h'.cons q') : h = h' ∧ q = q' := by
  cases h <;> cases h' <;> simp_all [Head.cons]

theorem Head.cons_ne_nil {h : Head E} {q : Path E} : h.cons q ≠ .nil := by cases h <;> simp [Head.cons]

/-- The arcs of a node: `ArcOf C x hd s` if the step `hd` leads from `x` to `s`. (Specification or proof device, not part of the code.) -/
def ArcOf (C : Cfg V E) : SDD V → Head E → SDD V → Prop
  | .flat y arcs, .flat x a, s => x = y ∧ ∃ v, (v, s) ∈ arcs ∧ C.vmem a v
  | .hier y arcs, .hier x n, s => x = y ∧ ∃ v, (v, s) ∈ arcs ∧ Mem C n v
  | _, _, _ => False

theorem mem_cons_iff {C : Cfg V E} {x : SDD V} {hd : Head E} {q : Path E} :
    Mem C (hd.cons q) x ↔ ∃ s, ArcOf C x hd s ∧ Mem C q s := by
  cases hd with
  | flat y a =>
    cases x with
    | flat z arcs =>
      simp only [Head.cons, Mem, ArcOf]
      constructor
      · rintro ⟨rfl, arc, h1, h2, h3⟩; exact ⟨arc.2, ⟨rfl, arc.1, h1, h2⟩, h3⟩
      · rintro ⟨s, ⟨rfl, v, h1, h2⟩, h3⟩; exact ⟨rfl, (v, s), h1, h2, h3⟩
    | _ => simp [Head.cons, Mem, ArcOf]
  | hier y a =>
    cases x with
    | hier z arcs =>
      simp only [Head.cons, Mem, ArcOf]
      constructor
      · rintro ⟨rfl, arc, h1, h2, h3⟩; exact ⟨arc.2, ⟨rfl, arc.1, h1, h2⟩, h3⟩
      · rintro ⟨s, ⟨rfl, v, h1, h2⟩, h3⟩; exact ⟨rfl, (v, s), h1, h2, h3⟩
    | _ => simp [Head.cons, Mem, ArcOf]

theorem Path.cases_head (p : Path E) : p = .nil ∨ ∃ (hd : Head E) (q : Path E), p = hd.cons q := by
  cases p with
  | nil => exact Or.inl rfl
  | flat x a q => exact Or.inr ⟨.flat x a, q, rfl⟩
  | hier x n q => exact Or.inr ⟨.hier x n, q, rfl⟩

/-- `r` is the canonical SDD of the set of paths `S`. (Specification or proof device, not part of the code.) -/
def Is (C : Cfg V E) (r : SDD V) (S : Path E → Prop) : Prop := WF C r ∧ ∀ p, Mem C p r ↔ S p

theorem Is.unique {C : Cfg V E} (hC : C.Lawful) {r r' : SDD V} {S S' : Path E → Prop} (h : Is C r S) (h' : Is C r' S')
    (hS : ∀ p, S p ↔ S' p) : r = r' :=
  canonical_ext hC h.1 h'.1 fun p => by rw [h.2, h'.2, hS]

/-- The homomorphism is evaluated at the first level of the order: it does not skip it, or the operand is `|1|`.
(Specification or proof device, not part of the code.) -/
def Here (env : User V I U) (h : Hom V I U) : OB I → SDD V → Prop
  | _, .zero => False
  | _, .one => True
  | .node id _ nxt, .flat y _ => y = nxt.lvl ∧ h.skip env nxt.lvl id = false
  | .node id _ nxt, .hier y _ => y = nxt.lvl ∧ h.skip env nxt.lvl id = false
  | .nil, _ => False

/-- The homomorphism skips the first level `id` of an order, `nxt` being the rest of the order.
(Specification or proof device, not part of the code.) -/
def Below (env : User V I U) (h : Hom V I U) (id : OId I) (nxt : OB I) : SDD V → Prop
  | .flat y _ => y = nxt.lvl ∧ h.skip env nxt.lvl id = true
  | .hier y _ => y = nxt.lvl ∧ h.skip env nxt.lvl id = true
  | _ => False

theorem Here.not_below {env : User V I U} {h : Hom V I U} {id : OId I} {nst nxt : OB I} {x : SDD V}
    (h1 : Here env h (.node id nst nxt) x) (h2 : Below env h id nxt x) : False := by
  cases x <;> simp_all [Here, Below]

theorem Here.ne_zero {env : User V I U} {h : Hom V I U} {o : OB I} {x : SDD V} (h1 : Here env h o x) : x ≠ .zero := by
  rintro rfl; cases o <;> simp [Here] at h1

theorem Below.ne_zero {env : User V I U} {h : Hom V I U} {id : OId I} {nxt : OB I} {x : SDD V}
    (h1 : Below env h id nxt x) : x ≠ .zero := by
  rintro rfl; simp [Below] at h1

/-- The meaning of homomorphisms. (Specification or proof device, not part of the code.) -/
inductive Ev (env : User V I U) (C : Cfg V E) : Hom V I U → OB I → SDD V → SDD V → Prop where
  /-- Nothing comes from nothing. -/
  | zero (h : Hom V I U) (o : OB I) : Ev env C h o .zero .zero
  | id (o : OB I) (x : SDD V) : Ev env C .id o x x
  /-- A skipped level: the homomorphism is applied to the successors, the rest is unchanged. -/
  | skip {h : Hom V I U} {id : OId I} {nst nxt : OB I} {x r : SDD V} (f : SDD V → SDD V) : h ≠ .id →
      Below env h id nxt x → (∀ hd s, ArcOf C x hd s → Ev env C h nxt s (f s)) →
      Is C r (fun p => ∃ hd s q, p = hd.cons q ∧ ArcOf C x hd s ∧ Mem C q (f s)) → Ev env C h (.node id nst nxt) x r
  | comp {l r : Hom V I U} {o : OB I} {x y z : SDD V} : Here env (.comp l r) o x → Ev env C r o x y → Ev env C l o y z →
      Ev env C (.comp l r) o x z
  /-- The valuation is added in front of the paths of the result of `h`, evaluated with the order of the `cons`. -/
  | consF {h : Hom V I U} {o : OB I} {id : OId I} {nst nxt : OB I} {v : V} {x y r : SDD V} :
      Here env (.consF (.node id nst nxt) v h) o x → Ev env C h nxt x y →
      Is C r (fun p => ∃ a q, p = .flat nxt.lvl a q ∧ C.vmem a v ∧ Mem C q y) →
      Ev env C (.consF (.node id nst nxt) v h) o x r
  | consH {h : Hom V I U} {o : OB I} {id : OId I} {nst nxt : OB I} {v : SDD V} {x y r : SDD V} :
      Here env (.consH (.node id nst nxt) v h) o x → Ev env C h nxt x y →
      Is C r (fun p => ∃ n q, p = .hier nxt.lvl n q ∧ Mem C n v ∧ Mem C q y) →
      Ev env C (.consH (.node id nst nxt) v h) o x r
  | const {s : SDD V} {o : OB I} {x : SDD V} : Here env (.const s) o x → Ev env C (.const s) o x s
  /-- The iteration stops as soon as nothing changes. -/
  | fixDone {h : Hom V I U} {o : OB I} {x : SDD V} : Here env (.fix h) o x → Ev env C h o x x → Ev env C (.fix h) o x x
  | fixStep {h : Hom V I U} {o : OB I} {x y r : SDD V} : Here env (.fix h) o x → Ev env C h o x y → y ≠ x →
      Ev env C (.fix h) o y r → Ev env C (.fix h) o x r
  | fnOne {x : Nat} {u : U} {o : OB I} : Ev env C (.fn x u) o .one .one
  /-- The user's function is applied to the valuation of each arc. -/
  | fn {x : Nat} {u : U} {o : OB I} {y : Nat} {arcs : List (V × SDD V)} {r : SDD V} : Here env (.fn x u) o (.flat y arcs) →
      Is C r (fun p => ∃ b q, p = .flat y b q ∧ ∃ arc ∈ arcs, C.vmem b (env.fn u arc.1) ∧ Mem C q arc.2) →
      Ev env C (.fn x u) o (.flat y arcs) r
  /-- `then(if(x)) ∪ else(x \ if(x))`; the predicate is a selector (otherwise the construction throws). -/
  | ite {i t e : Hom V I U} {o : OB I} {x y d a b r : SDD V} : i.selector env = true → Here env (.ite i t e) o x → Ev env C i o x y →
      Is C d (fun p => Mem C p x ∧ ¬ Mem C p y) → Ev env C t o y a → Ev env C e o d b →
      Is C r (fun p => Mem C p a ∨ Mem C p b) → Ev env C (.ite i t e) o x r
  | indOne {u : U} {o : OB I} : Ev env C (.ind u) o .one (env.indOne u)
  /-- The homomorphism given by the user for each valuation is applied to the corresponding successor. -/
  | indF {u : U} {id : OId I} {nst nxt : OB I} {y : Nat} {arcs : List (V × SDD V)} {r : SDD V} (f : V × SDD V → SDD V) :
      Here env (.ind u) (.node id nst nxt) (.flat y arcs) →
      (∀ arc ∈ arcs, Ev env C (env.indF u (.node id nst nxt) arc.1) nxt arc.2 (f arc)) →
      Is C r (fun p => ∃ arc ∈ arcs, Mem C p (f arc)) → Ev env C (.ind u) (.node id nst nxt) (.flat y arcs) r
  | indH {u : U} {id : OId I} {nst nxt : OB I} {y : Nat} {arcs : List (SDD V × SDD V)} {r : SDD V}
      (f : SDD V × SDD V → SDD V) : Here env (.ind u) (.node id nst nxt) (.hier y arcs) →
      (∀ arc ∈ arcs, Ev env C (env.indH u (.node id nst nxt) arc.1) nxt arc.2 (f arc)) →
      Is C r (fun p => ∃ arc ∈ arcs, Mem C p (f arc)) → Ev env C (.ind u) (.node id nst nxt) (.hier y arcs) r
  /-- The intersection of the results; the other operands are not evaluated when a result is empty. -/
  | inter {hs : List (Hom V I U)} {o : OB I} {x r : SDD V} (f : Hom V I U → SDD V) : Here env (.inter hs) o x →
      (∀ h ∈ hs, Ev env C h o x (f h)) → Is C r (fun p => hs ≠ [] ∧ ∀ h ∈ hs, Mem C p (f h)) → Ev env C (.inter hs) o x r
  | interZero {o : OB I} {x : SDD V} {h : Hom V I U} (pre post : List (Hom V I U)) (f : Hom V I U → SDD V) :
      Here env (.inter (pre ++ h :: post)) o x → (∀ g ∈ pre, Ev env C g o x (f g)) → Ev env C h o x .zero →
      Ev env C (.inter (pre ++ h :: post)) o x .zero
  /-- `h` is applied to the valuation of each arc. -/
  | loc {x : Nat} {h : Hom V I U} {id : OId I} {nst nxt : OB I} {y : Nat} {arcs : List (SDD V × SDD V)} {r : SDD V}
      (f : SDD V → SDD V) : Here env (.loc x h) (.node id nst nxt) (.hier y arcs) →
      (∀ arc ∈ arcs, Ev env C h nst arc.1 (f arc.1)) →
      Is C r (fun p => ∃ n q, p = .hier y n q ∧ ∃ arc ∈ arcs, Mem C n (f arc.1) ∧ Mem C q arc.2) →
      Ev env C (.loc x h) (.node id nst nxt) (.hier y arcs) r
  /-- One round of a saturation: `F`, then `L`, then `s ↦ s ∪ g(s)` for each `g` of `G`. -/
  | satDone {x : Nat} {F : Hom V I U} {G : List (Hom V I U)} {L : Hom V I U} {o : OB I} {s a : SDD V} (c d : Nat → SDD V) :
      Here env (.satFix x F G L) o s → Ev env C F o s a → Ev env C L o a (c 0) →
      (∀ i, (hi : i < G.length) → Ev env C G[i] o (c i) (d i)) →
      (∀ i, i < G.length → Is C (c (i + 1)) (fun p => Mem C p (c i) ∨ Mem C p (d i))) → c G.length = s →
      Ev env C (.satFix x F G L) o s s
  | satStep {x : Nat} {F : Hom V I U} {G : List (Hom V I U)} {L : Hom V I U} {o : OB I} {s a r : SDD V} (c d : Nat → SDD V) :
      Here env (.satFix x F G L) o s → Ev env C F o s a → Ev env C L o a (c 0) →
      (∀ i, (hi : i < G.length) → Ev env C G[i] o (c i) (d i)) →
      (∀ i, i < G.length → Is C (c (i + 1)) (fun p => Mem C p (c i) ∨ Mem C p (d i))) → c G.length ≠ s →
      Ev env C (.satFix x F G L) o (c G.length) r → Ev env C (.satFix x F G L) o s r
  | satInter {x : Nat} {F G L : List (Hom V I U)} {o : OB I} {s r : SDD V} (f : Hom V I U → SDD V) :
      Here env (.satInter x F G L) o s → (∀ h ∈ F ++ G ++ L, Ev env C h o s (f h)) →
      Is C r (fun p => F ++ G ++ L ≠ [] ∧ ∀ h ∈ F ++ G ++ L, Mem C p (f h)) → Ev env C (.satInter x F G L) o s r
  | satSum {x : Nat} {F G L : List (Hom V I U)} {o : OB I} {s r : SDD V} (f : Hom V I U → SDD V) :
      Here env (.satSum x F G L) o s → (∀ h ∈ F ++ G ++ L, Ev env C h o s (f h)) →
      Is C r (fun p => ∃ h ∈ F ++ G ++ L, Mem C p (f h)) → Ev env C (.satSum x F G L) o s r
  | sum {hs : List (Hom V I U)} {o : OB I} {x r : SDD V} (f : Hom V I U → SDD V) : Here env (.sum hs) o x →
      (∀ h ∈ hs, Ev env C h o x (f h)) → Is C r (fun p => ∃ h ∈ hs, Mem C p (f h)) → Ev env C (.sum hs) o x r

section
variable {env : User V I U} {C : Cfg V E}

theorem Ev.of_zero {h : Hom V I U} {o : OB I} {r : SDD V} (e : Ev env C h o .zero r) : r = .zero := by
  generalize hx : SDD.zero = x at e
  cases e with
  | zero => rfl
  | id => rfl
  | skip f _ hb => subst hx; exact absurd rfl hb.ne_zero
  | fnOne => cases hx
  | indOne => cases hx
  | fn => cases hx
  | indF => cases hx
  | indH => cases hx
  | loc => cases hx
  | comp hh | consF hh | consH hh | const hh | fixDone hh | fixStep hh | ite _ hh | inter f hh | interZero _ _ _ hh
  | satDone c d hh | satStep c d hh | satInter f hh | satSum f hh | sum f hh => subst hx; exact absurd rfl hh.ne_zero

theorem Ev.of_id {o : OB I} {x r : SDD V} (e : Ev env C .id o x r) : r = x := by
  cases e with
  | zero => rfl
  | id => rfl
  | skip f hne => exact absurd rfl hne

/-- The result of an application is unique. -/
theorem Ev.det (hC : C.Lawful) {h : Hom V I U} {o : OB I} {x r r' : SDD V} (e : Ev env C h o x r) (e' : Ev env C h o x r') :
    r = r' := by
  induction e generalizing r' with
  | zero => exact e'.of_zero.symm
  | id => exact e'.of_id.symm
  | skip f hne hb hf hr ih =>
    cases e' with
    | zero => exact absurd rfl hb.ne_zero
    | id => exact absurd rfl hne
    | skip f' _ _ hf' hr' =>
      refine hr.unique hC hr' fun p => ?_
      constructor
      · rintro ⟨hd, s, q, rfl, ha, hq⟩
        exact ⟨hd, s, q, rfl, ha, ih hd s ha (hf' hd s ha) ▸ hq⟩
      · rintro ⟨hd, s, q, rfl, ha, hq⟩
        exact ⟨hd, s, q, rfl, ha, (ih hd s ha (hf' hd s ha)).symm ▸ hq⟩
    | fnOne | indOne => simp [Below] at hb
    | comp hh | consF hh | consH hh | const hh | fixDone hh | fixStep hh | fn hh | ite _ hh | indF _ hh | indH _ hh
    | inter _ hh | interZero _ _ _ hh | loc _ hh | satDone _ _ hh | satStep _ _ hh | satInter _ hh | satSum _ hh | sum _ hh =>
      exact (hh.not_below hb).elim
  | comp hh _ _ ih1 ih2 =>
    cases e' with
    | zero => exact absurd rfl hh.ne_zero
    | skip _ _ hb => exact (hh.not_below hb).elim
    | comp _ h1 h2 =>
      cases ih1 h1
      exact ih2 h2
  | consF hh _ hr ih =>
    cases e' with
    | zero => exact absurd rfl hh.ne_zero
    | skip _ _ hb => exact (hh.not_below hb).elim
    | consF _ h1 hr' =>
      cases ih h1
      exact hr.unique hC hr' fun p => Iff.rfl
  | consH hh _ hr ih =>
    cases e' with
    | zero => exact absurd rfl hh.ne_zero
    | skip _ _ hb => exact (hh.not_below hb).elim
    | consH _ h1 hr' =>
      cases ih h1
      exact hr.unique hC hr' fun p => Iff.rfl
  | const hh =>
    cases e' with
    | zero => exact absurd rfl hh.ne_zero
    | skip _ _ hb => exact (hh.not_below hb).elim
    | const => rfl
  | fixDone hh _ ih =>
    cases e' with
    | zero => exact absurd rfl hh.ne_zero
    | skip _ _ hb => exact (hh.not_below hb).elim
    | fixDone => rfl
    | fixStep _ h1 h2 => exact absurd (ih h1).symm h2
  | fixStep hh _ hne _ ih1 ih2 =>
    cases e' with
    | zero => exact absurd rfl hh.ne_zero
    | skip _ _ hb => exact (hh.not_below hb).elim
    | fixDone _ h1 => exact absurd (ih1 h1) hne
    | fixStep _ h1 h2 h3 =>
      cases ih1 h1
      exact ih2 h3
  | fnOne =>
    cases e' with
    | skip _ _ hb => simp [Below] at hb
    | fnOne => rfl
  | fn hh hr =>
    cases e' with
    | skip _ _ hb => exact (hh.not_below hb).elim
    | fn _ hr' => exact hr.unique hC hr' fun p => Iff.rfl
  | ite hi hh _ hd _ _ hr ih1 ih2 ih3 =>
    cases e' with
    | zero => exact absurd rfl hh.ne_zero
    | skip _ _ hb => exact (hh.not_below hb).elim
    | ite _ _ h1 hd' h2 h3 hr' =>
      cases ih1 h1
      cases hd.unique hC hd' fun p => Iff.rfl
      cases ih2 h2
      cases ih3 h3
      exact hr.unique hC hr' fun p => Iff.rfl
  | indOne =>
    cases e' with
    | skip _ _ hb => simp [Below] at hb
    | indOne => rfl
  | indF f hh _ hr ih =>
    cases e' with
    | skip _ _ hb => exact (hh.not_below hb).elim
    | indF f' _ h1 hr' =>
      refine hr.unique hC hr' fun p => ?_
      constructor
      · rintro ⟨arc, ha, hp⟩; exact ⟨arc, ha, ih arc ha (h1 arc ha) ▸ hp⟩
      · rintro ⟨arc, ha, hp⟩; exact ⟨arc, ha, (ih arc ha (h1 arc ha)).symm ▸ hp⟩
  | indH f hh _ hr ih =>
    cases e' with
    | skip _ _ hb => exact (hh.not_below hb).elim
    | indH f' _ h1 hr' =>
      refine hr.unique hC hr' fun p => ?_
      constructor
      · rintro ⟨arc, ha, hp⟩; exact ⟨arc, ha, ih arc ha (h1 arc ha) ▸ hp⟩
      · rintro ⟨arc, ha, hp⟩; exact ⟨arc, ha, (ih arc ha (h1 arc ha)).symm ▸ hp⟩
  | inter f hh _ hr ih =>
    cases e' with
    | zero => exact absurd rfl hh.ne_zero
    | skip _ _ hb => exact (hh.not_below hb).elim
    | inter f' _ h1 hr' =>
      refine hr.unique hC hr' fun p => and_congr_right fun _ => forall₂_congr fun h hm => ?_
      rw [ih h hm (h1 h hm)]
    | @interZero _ _ h pre post _ _ _ h1 =>
      obtain ⟨n, hn⟩ := hr.1
      refine hn.zero_iff.2 fun p hp => ?_
      have := ((hr.2 p).1 hp).2 h (by simp)
      rw [ih h (by simp) h1] at this
      exact not_mem_zero p this
  | @interZero _ _ h pre post f hh _ _ _ ih =>
    generalize hhs : pre ++ h :: post = hs at e' hh
    have hm : h ∈ hs := by simp [← hhs]
    cases e' with
    | zero => rfl
    | skip _ _ hb => exact (hh.not_below hb).elim
    | inter f' _ h1 hr' =>
      obtain ⟨n, hn⟩ := hr'.1
      refine (hn.zero_iff.2 fun p hp => ?_).symm
      have := ((hr'.2 p).1 hp).2 _ hm
      rw [← ih (h1 _ hm)] at this
      exact not_mem_zero p this
    | interZero => rfl
  | loc f hh _ hr ih =>
    cases e' with
    | skip _ _ hb => exact (hh.not_below hb).elim
    | loc f' _ h1 hr' =>
      refine hr.unique hC hr' fun p => ?_
      constructor
      · rintro ⟨n, q, rfl, arc, ha, hn, hq⟩; exact ⟨n, q, rfl, arc, ha, ih arc ha (h1 arc ha) ▸ hn, hq⟩
      · rintro ⟨n, q, rfl, arc, ha, hn, hq⟩; exact ⟨n, q, rfl, arc, ha, (ih arc ha (h1 arc ha)).symm ▸ hn, hq⟩
  | @satDone _ _ G _ _ _ _ c d hh _ _ _ hc hl ih1 ih2 ih3 =>
    cases e' with
    | zero => exact absurd rfl hh.ne_zero
    | skip _ _ hb => exact (hh.not_below hb).elim
    | satDone => rfl
    | satStep c' d' _ h1 h2 h3 hc' hl' =>
      exfalso
      cases ih1 h1
      have key : ∀ i, i ≤ G.length → c i = c' i := by
        intro i
        induction i with
        | zero => intro _; exact ih2 h2
        | succ i ihi =>
          intro hi
          have e1 := ihi (by omega)
          refine (hc i hi).unique hC (hc' i hi) fun p => ?_
          have e2 := ih3 i hi (r' := d' i) (e1 ▸ h3 i hi)
          rw [e1, e2]
      exact hl' ((key _ le_rfl) ▸ hl)
  | @satStep _ _ G _ _ _ _ _ c d hh _ _ _ hc hl _ ih1 ih2 ih3 ih4 =>
    cases e' with
    | zero => exact absurd rfl hh.ne_zero
    | skip _ _ hb => exact (hh.not_below hb).elim
    | satDone c' d' _ h1 h2 h3 hc' hl' =>
      exfalso
      cases ih1 h1
      have key : ∀ i, i ≤ G.length → c i = c' i := by
        intro i
        induction i with
        | zero => intro _; exact ih2 h2
        | succ i ihi =>
          intro hi
          have e1 := ihi (by omega)
          refine (hc i hi).unique hC (hc' i hi) fun p => ?_
          have e2 := ih3 i hi (r' := d' i) (e1 ▸ h3 i hi)
          rw [e1, e2]
      exact hl ((key _ le_rfl) ▸ hl')
    | satStep c' d' _ h1 h2 h3 hc' hl' h4 =>
      cases ih1 h1
      have key : ∀ i, i ≤ G.length → c i = c' i := by
        intro i
        induction i with
        | zero => intro _; exact ih2 h2
        | succ i ihi =>
          intro hi
          have e1 := ihi (by omega)
          refine (hc i hi).unique hC (hc' i hi) fun p => ?_
          have e2 := ih3 i hi (r' := d' i) (e1 ▸ h3 i hi)
          rw [e1, e2]
      exact ih4 ((key _ le_rfl) ▸ h4)
  | satInter f hh _ hr ih =>
    cases e' with
    | zero => exact absurd rfl hh.ne_zero
    | skip _ _ hb => exact (hh.not_below hb).elim
    | satInter f' _ h1 hr' =>
      refine hr.unique hC hr' fun p => and_congr_right fun _ => forall₂_congr fun h hm => ?_
      rw [ih h hm (h1 h hm)]
  | satSum f hh _ hr ih =>
    cases e' with
    | zero => exact absurd rfl hh.ne_zero
    | skip _ _ hb => exact (hh.not_below hb).elim
    | satSum f' _ h1 hr' =>
      refine hr.unique hC hr' fun p => exists_congr fun h => and_congr_right fun hm => ?_
      rw [ih h hm (h1 h hm)]
  | sum f hh _ hr ih =>
    cases e' with
    | zero => exact absurd rfl hh.ne_zero
    | skip _ _ hb => exact (hh.not_below hb).elim
    | sum f' _ h1 hr' =>
      refine hr.unique hC hr' fun p => exists_congr fun h => and_congr_right fun hm => ?_
      rw [ih h hm (h1 h hm)]

/-- What a user promises: a function or inductive declared as a selector only removes values or paths, a function declared as a
shifter maps disjoint sets of values to disjoint sets of values. (Specification or proof device, not part of the code.) -/
structure Honest (env : User V I U) (C : Cfg V E) : Prop where
  fnSel : ∀ u, env.fnSel u = true → ∀ v b, C.vmem b (env.fn u v) → C.vmem b v
  fnShift : ∀ u, env.fnShift u = true → ∀ v w, (∀ a, ¬ (C.vmem a v ∧ C.vmem a w)) →
    ∀ b, ¬ (C.vmem b (env.fn u v) ∧ C.vmem b (env.fn u w))
  indSel : ∀ u, env.indSel u = true → ∀ o x r, Ev env C (.ind u) o x r → ∀ p, Mem C p r → Mem C p x

/-- A selector only removes paths. -/
theorem Ev.selector (hon : Honest env C) {h : Hom V I U} {o : OB I} {x r : SDD V} (e : Ev env C h o x r)
    (hsel : h.selector env = true) : ∀ p, Mem C p r → Mem C p x := by
  induction e with
  | zero => exact fun p hp => hp
  | id => exact fun p hp => hp
  | skip f hne hb hf hr ih =>
    intro p hp
    obtain ⟨hd, s, q, rfl, ha, hq⟩ := (hr.2 p).1 hp
    exact mem_cons_iff.2 ⟨s, ha, ih hd s ha hsel q hq⟩
  | comp hh _ _ ih1 ih2 =>
    simp [Hom.selector] at hsel
    exact fun p hp => ih1 hsel.2 p (ih2 hsel.1 p hp)
  | consF => simp [Hom.selector] at hsel
  | consH => simp [Hom.selector] at hsel
  | const => simp [Hom.selector] at hsel
  | fixDone => exact fun p hp => hp
  | fixStep hh _ hne _ ih1 ih2 => exact fun p hp => ih1 hsel p (ih2 hsel p hp)
  | fnOne => exact fun p hp => hp
  | fn hh hr =>
    intro p hp
    obtain ⟨b, q, rfl, arc, ha, hb, hq⟩ := (hr.2 p).1 hp
    exact ⟨rfl, arc, ha, hon.fnSel _ hsel _ _ hb, hq⟩
  | ite hi hh _ hd _ _ hr ih1 ih2 ih3 =>
    intro p hp
    simp [Hom.selector] at hsel
    rcases (hr.2 p).1 hp with hp | hp
    · exact ih1 hi p (ih2 hsel.2 p hp)
    · exact ((hd.2 p).1 (ih3 hsel.1 p hp)).1
  | indOne => exact hon.indSel _ hsel _ _ _ (.indOne (o := .nil))
  | indF f hh h1 hr ih => exact hon.indSel _ hsel _ _ _ (.indF f hh h1 hr)
  | indH f hh h1 hr ih => exact hon.indSel _ hsel _ _ _ (.indH f hh h1 hr)
  | inter f hh _ hr ih =>
    intro p hp
    obtain ⟨hne, hall⟩ := (hr.2 p).1 hp
    obtain ⟨h, hm⟩ := List.exists_mem_of_ne_nil _ hne
    exact ih h hm (Hom.selectorAll_iff.1 hsel h hm) p (hall h hm)
  | interZero => exact fun p hp => absurd hp (not_mem_zero p)
  | loc f hh _ hr ih =>
    intro p hp
    obtain ⟨n, q, rfl, arc, ha, hn, hq⟩ := (hr.2 p).1 hp
    exact ⟨rfl, arc, ha, ih arc ha hsel n hn, hq⟩
  | satDone => exact fun p hp => hp
  | @satStep _ _ G _ _ _ _ _ c d hh _ _ _ hc hl _ ih1 ih2 ih3 ih4 =>
    intro p hp
    have hs := hsel
    simp only [Hom.selector, Bool.and_eq_true, Hom.selectorAll_iff] at hs
    have key : ∀ i, i ≤ G.length → ∀ p, Mem C p (c i) → Mem C p (c 0) := by
      intro i
      induction i with
      | zero => exact fun _ p hp => hp
      | succ i ihi =>
        intro hi p hp
        rcases ((hc i hi).2 p).1 hp with hp | hp
        · exact ihi (by omega) p hp
        · exact ihi (by omega) p (ih3 i hi (hs.2 _ (List.getElem_mem hi)) p hp)
    exact ih1 hs.1.1 p (ih2 hs.1.2 p (key _ le_rfl p (ih4 hsel p hp)))
  | satInter f hh _ hr ih =>
    intro p hp
    obtain ⟨hne, hall⟩ := (hr.2 p).1 hp
    obtain ⟨h, hm⟩ := List.exists_mem_of_ne_nil _ hne
    have hs := hsel
    simp only [Hom.selector, Bool.and_eq_true, Hom.selectorAll_iff] at hs
    refine ih h hm ?_ p (hall h hm)
    simp only [List.mem_append] at hm
    rcases hm with (hm | hm) | hm
    · exact hs.1.1 h hm
    · exact hs.2 h hm
    · exact hs.1.2 h hm
  | satSum f hh _ hr ih =>
    intro p hp
    obtain ⟨h, hm, hp⟩ := (hr.2 p).1 hp
    have hs := hsel
    simp only [Hom.selector, Bool.and_eq_true, Hom.selectorAll_iff] at hs
    refine ih h hm ?_ p hp
    simp only [List.mem_append] at hm
    rcases hm with (hm | hm) | hm
    · exact hs.1.1 h hm
    · exact hs.2 h hm
    · exact hs.1.2 h hm
  | sum f hh _ hr ih =>
    intro p hp
    obtain ⟨h, hm, hp⟩ := (hr.2 p).1 hp
    exact ih h hm (Hom.selectorAll_iff.1 hsel h hm) p hp

end
end Verif
