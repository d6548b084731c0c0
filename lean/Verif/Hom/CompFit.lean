import Verif.Hom.CompLeft
/-!
# Compositions which regroup a local that is path by path

`composition(a, b)` does `b` then `a` as soon as the local which is regrouped, if there is one, is path by path: nothing is asked of the other parts of `a`.
-/

set_option autoImplicit false
set_option linter.unusedSectionVars false

namespace Verif

variable {V E I U : Type} [DecidableEq V] [DecidableEq I] [DecidableEq U] {env : User V I U} {C : Cfg V E} {sc : Scope I U}

/-- The rightmost part of a sequence of compositions, which is applied first. (Specification, not part of the code.) -/
def Hom.right : Hom V I U → Hom V I U
  | .comp _ r => r.right
  | h => h

/-- The leftmost part of a sequence of compositions, which is applied last. (Specification, not part of the code.) -/
def Hom.left : Hom V I U → Hom V I U
  | .comp l _ => l.left
  | h => h

/-- The results of `k` are those of `a` on the results of `b`. (Specification or proof device, not part of the code.) -/
def Seq (env : User V I U) (C : Cfg V E) (o : OB I) (a b k : Hom V I U) : Prop :=
  ∀ x y z r, Dom C o.ty x → Ev env C b o x y → Ev env C a o y z → Ev env C k o x r → r = z

theorem Seq.plain (hC : C.Lawful) {o : OB I} {a b : Hom V I U} {t : Ty} (hb : HTy env C sc o b o.ty) (ha : HTy env C sc o a t) :
    Seq env C o a b (.comp a b) := by
  intro x y z r hx ey ez er
  obtain ⟨w, e1, e2⟩ := (Ev.comp_iff hC o hb ha hx).1 er
  cases e1.det hC ey
  exact e2.det hC ez

theorem Seq.hcompGen (hC : C.Lawful) {o : OB I} {a b : Hom V I U} {t : Ty} (hb : HTy env C sc o b o.ty) (ha : HTy env C sc o a t) :
    Seq env C o a b (hcompGen a b) := by
  unfold Verif.hcompGen
  split
  · rename_i h; subst h
    intro x y z r hx ey ez er
    cases ez.of_id
    exact er.det hC ey
  · split
    · rename_i h; subst h
      intro x y z r hx ey ez er
      cases ey.of_id
      exact er.det hC ez
    · exact Seq.plain hC hb ha

theorem Seq.after (hC : C.Lawful) {o : OB I} {a b c k : Hom V I U} {t : Ty} (hc : HTy env C sc o c o.ty) (hb : HTy env C sc o b o.ty)
    (hk : HTy env C sc o k t) (h : Seq env C o a b k) : Seq env C o a (.comp b c) (.comp k c) := by
  intro x y z r hx ey ez er
  obtain ⟨v, e1, e2⟩ := (Ev.comp_iff hC o hc hb hx).1 ey
  obtain ⟨w, e3, e4⟩ := (Ev.comp_iff hC o hc hk hx).1 er
  cases e1.det hC e3
  exact h v y z r (e1.dom hc hx) e2 ez e4

theorem Seq.before (hC : C.Lawful) {o : OB I} {l a b k : Hom V I U} {t : Ty} (hb : HTy env C sc o b o.ty) (ha : HTy env C sc o a o.ty) (hl : HTy env C sc o l t)
    (hk : HTy env C sc o k o.ty) (h : Seq env C o a b k) : Seq env C o (.comp l a) b (.comp l k) := by
  intro x y z r hx ey ez er
  obtain ⟨v, e1, e2⟩ := (Ev.comp_iff hC o ha hl (ey.dom hb hx)).1 ez
  obtain ⟨w, e3, e4⟩ := (Ev.comp_iff hC o hk hl hx).1 er
  cases h x y v w hx ey e1 e3
  exact e4.det hC e2

theorem Then.seq (hC : C.Lawful) {o : OB I} {a b k : Hom V I U} {t : Ty} {R : PRel E} (hb : HTy env C sc o b o.ty) (ha : Rl env C sc o a t R)
    (hk : HTy env C sc o k t) (h : Then env C o b R k) : Seq env C o a b k := by
  intro x y z r hx ey ez er
  refine canonical_ext hC (er.dom hk hx).wf (ez.dom ha.hty (ey.dom hb hx)).wf fun p => ?_
  rw [h x y r hx ey er p, ha.image (ey.dom hb hx) ez]

/-- The local which `composition(a, b)` regroups, if there is one, is path by path. (Specification, not part of the code.) -/
def CompFit (env : User V I U) (C : Cfg V E) (sc : Scope I U) (o : OB I) (a b : Hom V I U) : Prop :=
  ∀ x a' b', a.right = .loc x a' → b.left = .loc x b' → ∀ t, HTy env C sc o (.loc x a') t → ∃ R, Rl env C sc o (.loc x a') t R

theorem Seq.hcompLoc (hC : C.Lawful) {x : Nat} {a : Hom V I U} (b : Hom V I U) : ∀ {o : OB I} {t : Ty}, HTy env C sc o b o.ty →
    HTy env C sc o (.loc x a) t → CompFit env C sc o (.loc x a) b →
      HTy env C sc o (hcompLoc x a (hcomp a) b) t ∧ Seq env C o (.loc x a) b (hcompLoc x a (hcomp a) b) := by
  induction b using Hom.induct with
  | loc y b =>
    intro o t hb ha hf
    by_cases h : x = y
    · subst h
      obtain ⟨R, hR⟩ := hf x a b rfl rfl t ha
      obtain ⟨k1, k2⟩ := Then.hcomp hC (.loc x a) (.loc x b) hb hR
      rw [Verif.hcomp] at k1 k2
      exact ⟨k1, k2.seq hC hb hR k1⟩
    · unfold Verif.hcompLoc
      rw [if_neg h]
      exact ⟨HTy.comp_of o hb ha, Seq.plain hC hb ha⟩
  | comp r1 r2 ih1 ih2 =>
    intro o t hb ha hf
    obtain ⟨h1, h2⟩ := hb.comp_inv
    unfold Verif.hcompLoc
    obtain ⟨k1, k2⟩ := ih1 h2 ha hf
    exact ⟨HTy.comp_of o h1 k1, k2.after hC h1 h2 k1⟩
  | _ =>
    intro o t hb ha hf
    simp only [Verif.hcompLoc]
    exact ⟨HTy.hcompGen_of hb ha, Seq.hcompGen hC hb ha⟩

/-- `composition(a, b)` does `b` then `a` when the local which is regrouped is path by path. -/
theorem Seq.hcomp (hC : C.Lawful) (a : Hom V I U) : ∀ (b : Hom V I U) {o : OB I} {t : Ty}, HTy env C sc o b o.ty → HTy env C sc o a t →
    CompFit env C sc o a b → HTy env C sc o (hcomp a b) t ∧ Seq env C o a b (hcomp a b) := by
  induction a using Hom.induct with
  | loc x a ih =>
    intro b o t hb ha hf
    rw [Verif.hcomp]
    exact Seq.hcompLoc hC b hb ha hf
  | comp l1 l2 ih1 ih2 =>
    intro b o t hb ha hf
    obtain ⟨h1, h2⟩ := ha.comp_inv
    cases b with
    | loc y b =>
      simp only [Verif.hcomp]
      obtain ⟨k1, k2⟩ := ih2 _ hb h1 hf
      exact ⟨HTy.comp_of o k1 h2, k2.before hC hb h1 h2 k1⟩
    | comp r1 r2 =>
      obtain ⟨h4, h5⟩ := hb.comp_inv
      simp only [Verif.hcomp]
      obtain ⟨k1, k2⟩ := ih2 _ h5 h1 hf
      have h6 := HTy.comp_of o h4 k1
      exact ⟨HTy.comp_of o h6 h2, (k2.after hC h4 h5 k1).before hC hb h1 h2 h6⟩
    | _ => simp only [Verif.hcomp]; exact ⟨HTy.hcompGen_of hb ha, Seq.hcompGen hC hb ha⟩
  | _ =>
    intro b o t hb ha hf
    cases b <;> simp only [Verif.hcomp] <;> exact ⟨HTy.hcompGen_of hb ha, Seq.hcompGen hC hb ha⟩

/-! ## No local is regrouped -/

/-- `k` does `b` then `a`, and is defined when they are. (Specification or proof device, not part of the code.) -/
def SeqIff (env : User V I U) (C : Cfg V E) (o : OB I) (a b k : Hom V I U) : Prop :=
  ∀ x z, Dom C o.ty x → (Ev env C k o x z ↔ ∃ y, Ev env C b o x y ∧ Ev env C a o y z)

theorem SeqIff.plain (hC : C.Lawful) {o : OB I} {a b : Hom V I U} {t : Ty} (hb : HTy env C sc o b o.ty) (ha : HTy env C sc o a t) :
    SeqIff env C o a b (.comp a b) := fun _ _ hx => Ev.comp_iff hC o hb ha hx

theorem SeqIff.hcompGen (hC : C.Lawful) {o : OB I} {a b : Hom V I U} {t : Ty} (hb : HTy env C sc o b o.ty) (ha : HTy env C sc o a t) :
    SeqIff env C o a b (hcompGen a b) := by
  unfold Verif.hcompGen
  split
  · rename_i h; subst h
    exact fun x z _ => ⟨fun e => ⟨z, e, .id _ _⟩, fun ⟨y, h1, h2⟩ => by rw [h2.of_id]; exact h1⟩
  · split
    · rename_i h; subst h
      exact fun x z _ => ⟨fun e => ⟨x, .id _ _, e⟩, fun ⟨y, h1, h2⟩ => by rwa [h1.of_id] at h2⟩
    · exact SeqIff.plain hC hb ha

theorem SeqIff.after (hC : C.Lawful) {o : OB I} {a b c k : Hom V I U} {t : Ty} (hc : HTy env C sc o c o.ty) (hb : HTy env C sc o b o.ty)
    (hk : HTy env C sc o k t) (h : SeqIff env C o a b k) : SeqIff env C o a (.comp b c) (.comp k c) := by
  intro x z hx
  rw [Ev.comp_iff hC o hc hk hx]
  constructor
  · rintro ⟨v, e1, e2⟩
    obtain ⟨y, e3, e4⟩ := (h v z (e1.dom hc hx)).1 e2
    exact ⟨y, (Ev.comp_iff hC o hc hb hx).2 ⟨v, e1, e3⟩, e4⟩
  · rintro ⟨y, e1, e2⟩
    obtain ⟨v, e3, e4⟩ := (Ev.comp_iff hC o hc hb hx).1 e1
    exact ⟨v, e3, (h v z (e3.dom hc hx)).2 ⟨y, e4, e2⟩⟩

theorem SeqIff.before (hC : C.Lawful) {o : OB I} {l a b k : Hom V I U} {t : Ty} (hb : HTy env C sc o b o.ty) (ha : HTy env C sc o a o.ty)
    (hl : HTy env C sc o l t) (hk : HTy env C sc o k o.ty) (h : SeqIff env C o a b k) : SeqIff env C o (.comp l a) b (.comp l k) := by
  intro x z hx
  rw [Ev.comp_iff hC o hk hl hx]
  constructor
  · rintro ⟨v, e1, e2⟩
    obtain ⟨y, e3, e4⟩ := (h x v hx).1 e1
    exact ⟨y, e3, (Ev.comp_iff hC o ha hl (e3.dom hb hx)).2 ⟨v, e4, e2⟩⟩
  · rintro ⟨y, e1, e2⟩
    obtain ⟨v, e3, e4⟩ := (Ev.comp_iff hC o ha hl (e1.dom hb hx)).1 e2
    exact ⟨v, (h x v hx).2 ⟨y, e1, e3⟩, e4⟩

/-- `composition(a, b)` regroups no local. (Specification, not part of the code.) -/
def NoMeet (a b : Hom V I U) : Prop := ∀ x a' b', a.right = .loc x a' → b.left ≠ .loc x b'

theorem SeqIff.hcompLoc (hC : C.Lawful) {x : Nat} {a : Hom V I U} (b : Hom V I U) : ∀ {o : OB I} {t : Ty}, HTy env C sc o b o.ty →
    HTy env C sc o (.loc x a) t → NoMeet (.loc x a) b →
      HTy env C sc o (hcompLoc x a (hcomp a) b) t ∧ SeqIff env C o (.loc x a) b (hcompLoc x a (hcomp a) b) := by
  induction b using Hom.induct with
  | loc y b =>
    intro o t hb ha hf
    unfold Verif.hcompLoc
    rw [if_neg (by rintro rfl; exact hf x a b rfl rfl)]
    exact ⟨HTy.comp_of o hb ha, SeqIff.plain hC hb ha⟩
  | comp r1 r2 ih1 ih2 =>
    intro o t hb ha hf
    obtain ⟨h1, h2⟩ := hb.comp_inv
    unfold Verif.hcompLoc
    obtain ⟨k1, k2⟩ := ih1 h2 ha hf
    exact ⟨HTy.comp_of o h1 k1, k2.after hC h1 h2 k1⟩
  | _ =>
    intro o t hb ha hf
    simp only [Verif.hcompLoc]
    exact ⟨HTy.hcompGen_of hb ha, SeqIff.hcompGen hC hb ha⟩

/-- `composition(a, b)` does `b` then `a`, and is defined when they are, when no local is regrouped. -/
theorem SeqIff.hcomp (hC : C.Lawful) (a : Hom V I U) : ∀ (b : Hom V I U) {o : OB I} {t : Ty}, HTy env C sc o b o.ty → HTy env C sc o a t →
    NoMeet a b → HTy env C sc o (hcomp a b) t ∧ SeqIff env C o a b (hcomp a b) := by
  induction a using Hom.induct with
  | loc x a ih =>
    intro b o t hb ha hf
    rw [Verif.hcomp]
    exact SeqIff.hcompLoc hC b hb ha hf
  | comp l1 l2 ih1 ih2 =>
    intro b o t hb ha hf
    obtain ⟨h1, h2⟩ := ha.comp_inv
    cases b with
    | loc y b =>
      simp only [Verif.hcomp]
      obtain ⟨k1, k2⟩ := ih2 _ hb h1 hf
      exact ⟨HTy.comp_of o k1 h2, k2.before hC hb h1 h2 k1⟩
    | comp r1 r2 =>
      obtain ⟨h4, h5⟩ := hb.comp_inv
      simp only [Verif.hcomp]
      obtain ⟨k1, k2⟩ := ih2 _ h5 h1 hf
      have h6 := HTy.comp_of o h4 k1
      exact ⟨HTy.comp_of o h6 h2, (k2.after hC h4 h5 k1).before hC hb h1 h2 h6⟩
    | _ => simp only [Verif.hcomp]; exact ⟨HTy.hcompGen_of hb ha, SeqIff.hcompGen hC hb ha⟩
  | _ =>
    intro b o t hb ha hf
    cases b <;> simp only [Verif.hcomp] <;> exact ⟨HTy.hcompGen_of hb ha, SeqIff.hcompGen hC hb ha⟩

end Verif
