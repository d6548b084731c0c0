import Verif.Hom.RelBuild
import Verif.Hom.Built
/-!
# Compositions whose left operand only is path by path

`composition(a, b)` does `b` then `a` as soon as `a` is path by path: nothing is asked of `b`.
-/

set_option autoImplicit false
set_option linter.unusedSectionVars false

namespace Verif

variable {V E I U : Type} [DecidableEq V] [DecidableEq I] [DecidableEq U] {env : User V I U} {C : Cfg V E} {sc : Scope I U}

/-- The results of `k` are the images by `R` of the results of `b`. (Specification or proof device, not part of the code.) -/
def Then (env : User V I U) (C : Cfg V E) (o : OB I) (b : Hom V I U) (R : PRel E) (k : Hom V I U) : Prop :=
  ∀ x y r, Dom C o.ty x → Ev env C b o x y → Ev env C k o x r → ∀ p', Mem C p' r ↔ ∃ p, Mem C p y ∧ R p p'

theorem Then.congr {o : OB I} {b k : Hom V I U} {R R' : PRel E} (hb : HTy env C sc o b o.ty) (h : Then env C o b R k) (hR : REq o.ty R R') :
    Then env C o b R' k := by
  intro x y r hx ey er p'
  rw [h x y r hx ey er p']
  exact exists_congr fun p => and_congr_right fun hp => hR p ((ey.dom hb hx).pty p hp) p'

/-- What follows in sequence. -/
theorem Then.comp (hC : C.Lawful) {o : OB I} {b a k : Hom V I U} {t : Ty} {R R' : PRel E} (hk : HTy env C sc o k o.ty) (h : Then env C o b R k)
    (ha : Rl env C sc o a t R') : Then env C o b (relComp R R') (.comp a k) := by
  intro x y r hx ey er p'
  obtain ⟨w, e1, e2⟩ := (Ev.comp_iff hC o hk ha.hty hx).1 er
  rw [ha.image (e1.dom hk hx) e2]
  constructor
  · rintro ⟨q, hq, h1⟩
    obtain ⟨p, hp, h2⟩ := (h x y w hx ey e1 q).1 hq
    exact ⟨p, hp, q, h2, h1⟩
  · rintro ⟨p, hp, q, h2, h1⟩
    exact ⟨q, (h x y w hx ey e1 q).2 ⟨p, hp, h2⟩, h1⟩

/-- What precedes. -/
theorem Then.after (hC : C.Lawful) {o : OB I} {b c k : Hom V I U} {t : Ty} {R : PRel E} (hc : HTy env C sc o c o.ty) (hb : HTy env C sc o b o.ty)
    (hk : HTy env C sc o k t) (h : Then env C o b R k) : Then env C o (.comp b c) R (.comp k c) := by
  intro x y r hx ey er p'
  obtain ⟨v, e1, e2⟩ := (Ev.comp_iff hC o hc hb hx).1 ey
  obtain ⟨w, e3, e4⟩ := (Ev.comp_iff hC o hc hk hx).1 er
  cases e1.det hC e3
  exact h v y r (e1.dom hc hx) e2 e4 p'

theorem Then.plain (hC : C.Lawful) {o : OB I} {b a : Hom V I U} {t : Ty} {R : PRel E} (hb : HTy env C sc o b o.ty) (ha : Rl env C sc o a t R) :
    Then env C o b R (.comp a b) := by
  intro x y r hx ey er p'
  obtain ⟨w, e1, e2⟩ := (Ev.comp_iff hC o hb ha.hty hx).1 er
  cases e1.det hC ey
  exact ha.image (e1.dom hb hx) e2 p'

theorem HTy.hloc_of {x : Nat} {h : Hom V I U} {o : OB I} {t : Ty} (ht : HTy env C sc o (.loc x h) t) : HTy env C sc o (hloc x h) t := by
  unfold hloc
  split
  · rename_i h1; subst h1
    rw [ht.loc_id]; exact .id _
  · exact ht

/-- Locals of the same variable may be composed inside when the left one is path by path. -/
theorem Then.loc (hC : C.Lawful) {x : Nat} {a b k : Hom V I U}
    (hk : ∀ {o : OB I} {t : Ty} {R : PRel E}, HTy env C sc o b o.ty → Rl env C sc o a t R → HTy env C sc o k t ∧ Then env C o b R k)
    (o : OB I) : ∀ {t : Ty} {R : PRel E}, HTy env C sc o (.loc x b) o.ty → Rl env C sc o (.loc x a) t R →
      HTy env C sc o (.loc x k) t ∧ Then env C o (.loc x b) R (.loc x k) := by
  induction o with
  | nil =>
    intro t R h
    obtain ⟨_, _, _, he, _⟩ := h.loc_cases
    cases he
  | node id nst nxt _ ih =>
    intro t R h h'
    obtain ⟨_, _, _, he, ⟨hx, h1, tn, ht, h2⟩ | ⟨hx, t1, ht, h2⟩⟩ := h.loc_cases
    · cases he
      obtain ⟨_, _, _, he', ⟨_, h5, tn', R2, ht', h6, h7⟩ | ⟨hx', _⟩⟩ := h'.loc_inv
      · cases he'
        subst hx
        have ht0 := ht
        rw [hier_ty h1] at ht
        cases ht
        subst ht'
        obtain ⟨k1, k2⟩ := hk h2 h6
        refine ⟨.loc h1 k1, Then.congr h (R := locRel nxt.lvl R2) ?_ h7.symm⟩
        intro s y r hs ey er p'
        rcases dom_hier h1 hs with rfl | ⟨arcs, rfl, hg, hd1, hd2⟩
        · rw [ey.of_zero, er.of_zero]
          simp [not_mem_zero]
        · obtain ⟨d1, i1⟩ := (Ev.loc_here hC).1 ey
          obtain ⟨d2, i2⟩ := (Ev.loc_here hC).1 er
          rw [i2.2]
          have key : ∀ arc ∈ arcs, ∀ n', Mem C n' (evOf env C k nst arc.1) ↔ ∃ n, Mem C n (evOf env C b nst arc.1) ∧ R2 n n' :=
            fun arc harc n' => k2 arc.1 _ _ (hd1 arc harc) ((d1 arc harc).ev hC) ((d2 arc harc).ev hC) n'
          constructor
          · rintro ⟨n', q, rfl, arc, harc, hn', hq⟩
            obtain ⟨n, hn, hr⟩ := (key arc harc n').1 hn'
            exact ⟨.hier nxt.lvl n q, (i1.2 _).2 ⟨n, q, rfl, arc, harc, hn, hq⟩, n, n', q, rfl, rfl, hr⟩
          · rintro ⟨p, hp, n, n', q, rfl, rfl, hr⟩
            obtain ⟨n1, q1, he, arc, harc, hn, hq⟩ := (i1.2 _).1 hp
            cases he
            exact ⟨n', q, rfl, arc, harc, (key arc harc n').2 ⟨n, hn, hr⟩, hq⟩
      · cases he'
        exact absurd hx hx'
    · cases he
      rw [← liftTy_ty] at ht
      cases liftTy_inj ht
      obtain ⟨_, _, _, he', ⟨hx', _⟩ | ⟨_, t2, R2, ht', h6, h7⟩⟩ := h'.loc_inv
      · cases he'
        exact absurd hx' hx
      · cases he'
        subst ht'
        obtain ⟨k1, k2⟩ := ih h2 h6
        refine ⟨k1.above (loc_skip hx), Then.congr h (R := liftRel R2) ?_ h7.symm⟩
        intro s y r hs ey er p'
        obtain ⟨d1, i1⟩ := (Ev.skip_iff hC (loc_skip hx) hs).1 ey
        obtain ⟨d2, i2⟩ := (Ev.skip_iff hC (loc_skip hx) hs).1 er
        rw [i2.2]
        have key : ∀ hd u, ArcOf C s hd u → ∀ q', Mem C q' (evOf env C (.loc x k) nxt u) ↔ ∃ q, Mem C q (evOf env C (.loc x b) nxt u) ∧ R2 q q' :=
          fun hd u hu q' => k2 u _ _ (hu.dom hs).1 ((d1 hd u hu).ev hC) ((d2 hd u hu).ev hC) q'
        constructor
        · rintro ⟨hd, u, q', rfl, hu, hq'⟩
          obtain ⟨q, hq, hr⟩ := (key hd u hu q').1 hq'
          exact ⟨hd.cons q, (i1.2 _).2 ⟨hd, u, q, rfl, hu, hq⟩, hd, q, q', rfl, rfl, hr⟩
        · rintro ⟨p, hp, hd, q, q', rfl, rfl, hr⟩
          obtain ⟨hd1, u, q1, he, hu, hq⟩ := (i1.2 _).1 hp
          obtain ⟨rfl, rfl⟩ := Head.cons_inj he
          exact ⟨hd, u, q', rfl, hu, (key hd u hu q').2 ⟨q, hq, hr⟩⟩

theorem Then.hloc (hC : C.Lawful) {x : Nat} {b k : Hom V I U} {o : OB I} {t : Ty} {R : PRel E} (ht : HTy env C sc o (.loc x k) t)
    (h : Then env C o b R (.loc x k)) : Then env C o b R (hloc x k) := by
  unfold Verif.hloc
  split
  · rename_i h1; subst h1
    exact fun s y r hs ey er => h s y r hs ey ((Ev.loc_id hC o ht hs).2 er)
  · exact h

theorem Then.hcompGen (hC : C.Lawful) {a b : Hom V I U} {o : OB I} {t : Ty} {R : PRel E} (hb : HTy env C sc o b o.ty)
    (ha : Rl env C sc o a t R) : Then env C o b R (hcompGen a b) := by
  unfold Verif.hcompGen
  split
  · rename_i h; subst h
    obtain ⟨rfl, h1⟩ := ha.id_inv
    intro x y r hx ey er p'
    cases ey.det hC er
    constructor
    · intro hp; exact ⟨p', hp, (h1 p' ((ey.dom hb hx).pty p' hp) p').2 rfl⟩
    · rintro ⟨p, hp, hr⟩; cases (h1 p ((ey.dom hb hx).pty p hp) p').1 hr; exact hp
  · split
    · rename_i h; subst h
      intro x y r hx ey er p'
      cases ey.of_id
      exact ha.image hx er p'
    · exact Then.plain hC hb ha

theorem Then.hcompLoc (hC : C.Lawful) {x : Nat} {a : Hom V I U} {rec : Hom V I U → Hom V I U}
    (hk : ∀ b, ∀ {o : OB I} {t : Ty} {R : PRel E}, HTy env C sc o b o.ty → Rl env C sc o a t R → HTy env C sc o (rec b) t ∧ Then env C o b R (rec b))
    (b : Hom V I U) : ∀ {o : OB I} {t : Ty} {R : PRel E}, HTy env C sc o b o.ty → Rl env C sc o (.loc x a) t R →
      HTy env C sc o (hcompLoc x a rec b) t ∧ Then env C o b R (hcompLoc x a rec b) := by
  induction b using Hom.induct with
  | loc y b =>
    intro o t R hb ha
    unfold Verif.hcompLoc
    split
    · rename_i h; subst h
      obtain ⟨k1, k2⟩ := Then.loc hC (hk b) o hb ha
      exact ⟨k1.hloc_of, k2.hloc hC k1⟩
    · exact ⟨HTy.comp_of o hb ha.hty, Then.plain hC hb ha⟩
  | comp r1 r2 ih1 ih2 =>
    intro o t R hb ha
    obtain ⟨h1, h2⟩ := hb.comp_inv
    unfold Verif.hcompLoc
    obtain ⟨k1, k2⟩ := ih1 h2 ha
    exact ⟨HTy.comp_of o h1 k1, k2.after hC h1 h2 k1⟩
  | _ =>
    intro o t R hb ha
    simp only [Verif.hcompLoc]
    exact ⟨HTy.hcompGen_of hb ha.hty, Then.hcompGen hC hb ha⟩

/-- `composition(a, b)` does `b` then `a` when `a` is path by path. -/
theorem Then.hcomp (hC : C.Lawful) (a : Hom V I U) : ∀ (b : Hom V I U) {o : OB I} {t : Ty} {R : PRel E}, HTy env C sc o b o.ty →
    Rl env C sc o a t R → HTy env C sc o (hcomp a b) t ∧ Then env C o b R (hcomp a b) := by
  induction a using Hom.induct with
  | loc x a ih =>
    intro b o t R hb ha
    unfold Verif.hcomp
    exact Then.hcompLoc hC (fun b => ih b) b hb ha
  | comp l1 l2 ih1 ih2 =>
    intro b o t R hb ha
    obtain ⟨R1, R2, h1, h2, h3⟩ := Rl.comp_inv o ha
    cases b with
    | loc y b =>
      simp only [Verif.hcomp]
      obtain ⟨k1, k2⟩ := ih2 _ hb h1
      exact ⟨HTy.comp_of o k1 h2.hty, (k2.comp hC k1 h2).congr hb h3.symm⟩
    | comp r1 r2 =>
      obtain ⟨h4, h5⟩ := hb.comp_inv
      simp only [Verif.hcomp]
      obtain ⟨k1, k2⟩ := ih2 _ h5 h1
      have h6 := HTy.comp_of o h4 k1
      exact ⟨HTy.comp_of o h6 h2.hty, ((k2.after hC h4 h5 k1).comp hC h6 h2).congr hb h3.symm⟩
    | _ => simp only [Verif.hcomp]; exact ⟨HTy.hcompGen_of hb ha.hty, Then.hcompGen hC hb ha⟩
  | _ =>
    intro b o t R hb ha
    cases b <;> simp only [Verif.hcomp] <;> exact ⟨HTy.hcompGen_of hb ha.hty, Then.hcompGen hC hb ha⟩

end Verif
