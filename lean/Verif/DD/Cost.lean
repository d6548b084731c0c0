import Verif.DD.Stats
import Mathlib.Data.List.ProdSigma
/-!
# The size of the results of operations on SDDs without hierarchy

The nodes of the result of an operation are determined by a choice of one node (or nothing) in each operand.
-/

set_option autoImplicit false
set_option linter.unusedSectionVars false

namespace Verif

/-- A type without hierarchical level. (Specification or proof device, not part of the code.) -/
def Ty.Flat : Ty → Prop
  | .nil => True
  | .flat _ t => t.Flat
  | _ => False

/-- One element of each list, in all possible ways. (Specification or proof device, not part of the code.) -/
def choices {α : Type} : List (List α) → List (List α)
  | [] => [[]]
  | l :: ls => l.flatMap fun a => (choices ls).map (a :: ·)

theorem mem_choices {α : Type} {ls : List (List α)} : ∀ {as : List α}, as ∈ choices ls ↔ List.Forall₂ (fun a l => a ∈ l) as ls := by
  induction ls with
  | nil => intro as; simp [choices]
  | cons l ls ih =>
    intro as
    simp only [choices, List.mem_flatMap, List.mem_map]
    constructor
    · rintro ⟨a, ha, bs, hb, rfl⟩
      exact .cons ha (ih.1 hb)
    · intro h
      cases h with
      | cons ha hb => exact ⟨_, ha, _, ih.2 hb, rfl⟩

theorem length_choices {α : Type} (ls : List (List α)) : (choices ls).length = (ls.map List.length).prod := by
  induction ls with
  | nil => rfl
  | cons l ls ih => simp [choices, List.length_flatMap, ih]

/-- Different elements with different choices are not more than the choices. -/
theorem length_le_choices {α β : Type} {lr : List β} {ls : List (List α)} (hn : lr.Nodup) (f : β → List α)
    (hf : ∀ b ∈ lr, List.Forall₂ (fun a l => a ∈ l) (f b) ls) (hi : ∀ b ∈ lr, ∀ c ∈ lr, f b = f c → b = c) :
    lr.length ≤ (ls.map List.length).prod := by
  rw [← length_choices, ← List.length_map (f := f)]
  have hm : (lr.map f).Nodup := List.Pairwise.map f (R := fun b c => b ≠ c ∧ b ∈ lr ∧ c ∈ lr) (fun b c h e => h.1 (hi b h.2.1 c h.2.2 e))
    (hn.imp_of_mem fun hb hc h => ⟨h, hb, hc⟩)
  refine (hm.subperm fun x hx => ?_).length_le
  obtain ⟨b, hb, rfl⟩ := List.mem_map.1 hx
  exact mem_choices.2 (hf b hb)

section
variable {V E : Type} {C : Cfg V E} [DecidableEq V]

theorem Ty.Flat.shape {t : Ty} (h : t.Flat) : t.IsShape := by
  induction t with
  | any => exact h.elim
  | nil => trivial
  | flat x t ih => exact ih h
  | hier => exact h.elim

theorem Dom.not_hier {t : Ty} (ht : t.Flat) {x : Nat} {arcs : List (SDD V × SDD V)} (h : Dom C t (.hier x arcs)) : False := by
  obtain ⟨tn, t', h1, -⟩ := h.hier_inv
  cases t <;> simp_all [Ty.hierNext, Ty.Flat]

/-- What is left of an SDD after one flat level. -/
theorem Dom.residual {t t' : Ty} {x : Nat} (h1 : t.flatNext x = some t') {s : SDD V} (h : Dom C t s) (a : E) :
    ∃ b, (b = .zero ∨ Sub b s) ∧ Dom C t' b ∧ ∀ p, Mem C p b ↔ Mem C (.flat x a p) s := by
  cases h with
  | zero => exact ⟨.zero, .inl rfl, .zero _, fun p => by simp [not_mem_zero]⟩
  | one _ h2 => exact ⟨.zero, .inl rfl, .zero _, fun p => by simp [not_mem_zero, Mem]⟩
  | flat _ t2 y arcs h2 h3 h4 =>
    by_cases hy : y = x
    · subst hy
      rw [h1] at h2; cases h2
      by_cases he : ∃ arc ∈ arcs, C.vmem a arc.1
      · obtain ⟨arc, ha, hv⟩ := he
        refine ⟨arc.2, .inr (.flat y arcs arc ha .refl), h4 arc ha, fun p => ?_⟩
        constructor
        · intro hp; exact ⟨rfl, arc, ha, hv, hp⟩
        · rintro ⟨-, arc', ha', hv', hp⟩
          have := h3.unique ha ha' hv hv'
          subst this; exact hp
      · refine ⟨.zero, .inl rfl, .zero _, fun p => ?_⟩
        constructor
        · intro hp; exact absurd hp (not_mem_zero p)
        · rintro ⟨-, arc', ha', hv', hp⟩
          exact absurd ⟨arc', ha', hv'⟩ he
    · refine ⟨.zero, .inl rfl, .zero _, fun p => ?_⟩
      constructor
      · intro hp; exact absurd hp (not_mem_zero p)
      · rintro ⟨rfl, -⟩; exact absurd rfl hy
  | hier _ tn t2 y arcs h2 =>
    refine ⟨.zero, .inl rfl, .zero _, fun p => ?_⟩
    constructor
    · intro hp; exact absurd hp (not_mem_zero p)
    · intro h; exact h.elim

/-- The SDDs below the result of an operation which is done path by path are obtained by the same operation from SDDs below the
operands, at the same level. -/
theorem sub_result {t : Ty} (ht : t.Flat) {r : SDD V} (hr : Dom C t r) {xs : List (SDD V)} (hx : ∀ x ∈ xs, Dom C t x)
    (F : List Prop → Prop) (hF : ∀ p, Mem C p r ↔ F (xs.map (Mem C p))) {a : SDD V} (ha : Sub a r) :
    ∃ (t' : Ty) (bs : List (SDD V)), t'.Flat ∧ Dom C t' a ∧ List.Forall₂ (fun b x => (b = .zero ∨ Sub b x) ∧ Dom C t' b) bs xs ∧
      ∀ p, Mem C p a ↔ F (bs.map (Mem C p)) := by
  induction ha generalizing t xs with
  | refl =>
    refine ⟨t, xs, ht, hr, ?_, hF⟩
    rw [List.forall₂_same]
    exact fun x h => ⟨.inr .refl, hx x h⟩
  | flat x arcs arc h1 h2 ih =>
    obtain ⟨t', ht', hg, hd⟩ := hr.flat_inv
    have ht2 : t'.Flat := by
      cases t with
      | flat y t => simp [Ty.flatNext] at ht'; obtain ⟨_, rfl⟩ := ht'; exact ht
      | _ => simp_all [Ty.flatNext, Ty.Flat]
    obtain ⟨e, he⟩ := hg.valNe arc h1
    have hres : ∃ bs : List (SDD V), List.Forall₂ (fun b x' => (b = .zero ∨ Sub b x') ∧ Dom C t' b ∧
        ∀ p, Mem C p b ↔ Mem C (.flat x e p) x') bs xs := by
      clear hF ih
      induction xs with
      | nil => exact ⟨[], .nil⟩
      | cons y xs ihx =>
        obtain ⟨bs, hbs⟩ := ihx fun z hz => hx z (by simp [hz])
        obtain ⟨b, hb⟩ := (hx y (by simp)).residual ht' e
        exact ⟨b :: bs, .cons hb hbs⟩
    obtain ⟨bs, hbs⟩ := hres
    have hmap : ∀ p, bs.map (Mem C p) = xs.map (Mem C (.flat x e p)) := by
      intro p
      clear hF ih hx
      induction hbs with
      | nil => rfl
      | cons h _ ih2 => rw [List.map_cons, List.map_cons, ih2, propext (h.2.2 p)]
    obtain ⟨t2, cs, k1, k2, k3, k4⟩ := ih ht2 (hd arc h1) (xs := bs) (by
        intro b hb
        obtain ⟨i, hi, rfl⟩ := List.getElem_of_mem hb
        have hi' : i < xs.length := by rw [← hbs.length_eq]; exact hi
        exact ((List.forall₂_iff_get.1 hbs).2 i hi hi').2.1)
      (by
        intro p
        rw [hmap, ← hF]
        constructor
        · intro hp; exact ⟨rfl, arc, h1, he, hp⟩
        · rintro ⟨-, arc', ha', hv', hp⟩
          have := hg.unique h1 ha' he hv'
          subst this; exact hp)
    refine ⟨t2, cs, k1, k2, ?_, k4⟩
    clear hF ih hmap k4 hx
    induction hbs generalizing cs with
    | nil => cases k3; exact .nil
    | cons h _ ih2 =>
      cases k3 with
      | cons g1 g2 =>
        refine .cons ⟨?_, g1.2⟩ (ih2 _ g2)
        rcases g1.1 with g | g
        · exact .inl g
        · rcases h.1 with h | h
          · subst h; cases g; exact .inl rfl
          · exact .inr (g.trans h)
  | hierVal x arcs => exact (hr.not_hier ht).elim
  | hierSucc x arcs => exact (hr.not_hier ht).elim

/-- `l` has all the nodes of `x`. (Specification or proof device, not part of the code.) -/
def HasNodes (l : List (SDD V)) (x : SDD V) : Prop := ∀ a, Sub a x → (a.isFlat || a.isHier) = true → a ∈ l

/-- The number of nodes of the result of an operation done path by path. -/
theorem result_size (hC : C.Lawful) {t : Ty} (ht : t.Flat) {r : SDD V} (hr : Dom C t r) {xs : List (SDD V)} (hx : ∀ x ∈ xs, Dom C t x)
    (F : List Prop → Prop) (hF : ∀ p, Mem C p r ↔ F (xs.map (Mem C p)))
    {ls : List (List (SDD V))} (hls : List.Forall₂ HasNodes ls xs)
    {lr : List (SDD V)} (hlr : ∀ a ∈ lr, Sub a r ∧ (a.isFlat || a.isHier) = true) :
    ∃ f : SDD V → List (SDD V), (∀ a ∈ lr, List.Forall₂ (fun b l => b ∈ .zero :: l) (f a) ls ∧ ∀ p, Mem C p a ↔ F ((f a).map (Mem C p))) ∧
      ∀ a ∈ lr, ∀ b ∈ lr, f a = f b → a = b := by
  have key : ∀ a ∈ lr, ∃ bs : List (SDD V), WF C a ∧ List.Forall₂ (fun b l => b ∈ .zero :: l) bs ls ∧
      ∀ p, Mem C p a ↔ F (bs.map (Mem C p)) := by
    intro a ha
    obtain ⟨hs, hk⟩ := hlr a ha
    obtain ⟨t', bs, k1, k2, k3, k4⟩ := sub_result ht hr hx F hF hs
    refine ⟨bs, k2.wf, ?_, k4⟩
    have hflat : ∃ y t2, t' = .flat y t2 := by
      cases a with
      | zero => simp [SDD.isFlat, SDD.isHier] at hk
      | one => simp [SDD.isFlat, SDD.isHier] at hk
      | flat y arcs =>
        obtain ⟨t2, h2, -⟩ := k2.flat_inv
        cases t' <;> simp_all [Ty.flatNext, Ty.Flat]
      | hier y arcs => exact (k2.not_hier k1).elim
    obtain ⟨y, t2, rfl⟩ := hflat
    clear k4 hF hx
    induction hls generalizing bs with
    | nil => cases k3; exact .nil
    | cons h _ ih =>
      cases k3 with
      | @cons b _ bs2 _ g1 g2 =>
        refine .cons ?_ (ih _ g2)
        rcases g1.1 with rfl | g
        · simp
        · have gd := g1.2
          cases b with
          | zero => simp
          | one => cases gd with | one _ h => simp [Ty.hasOne] at h
          | flat z arcs => exact List.mem_cons_of_mem _ (h _ g rfl)
          | hier z arcs => exact (gd.not_hier k1).elim
  classical
  refine ⟨fun a => if h : a ∈ lr then (key a h).choose else [], ?_, ?_⟩
  · intro a ha
    simp only [ha, dite_true]
    exact (key a ha).choose_spec.2
  · intro a ha b hb hab
    simp only [ha, hb, dite_true] at hab
    refine canonical_ext hC (key a ha).choose_spec.1 (key b hb).choose_spec.1 fun p => ?_
    rw [(key a ha).choose_spec.2.2 p, (key b hb).choose_spec.2.2 p, hab]

end
end Verif
