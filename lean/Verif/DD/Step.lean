import Verif.DD.Kinds
/-!
# Correctness of one evaluation step, for any monad
-/

set_option autoImplicit false
set_option linter.unusedSectionVars false

namespace Verif

section
variable {V E : Type} {C : Cfg V E}

/-- The paths of a type. (Specification or proof device, not part of the code.) -/
def PTy : Ty → Path E → Prop
  | t, .nil => t.hasOne
  | t, .flat x _ p => ∃ t', t.flatNext x = some t' ∧ PTy t' p
  | t, .hier x n p => ∃ tn t', t.hierNext x = some (tn, t') ∧ PTy tn n ∧ PTy t' p

theorem Dom.pty {t : Ty} {s : SDD V} (h : Dom C t s) : ∀ p, Mem C p s → PTy t p := by
  induction h with
  | zero t => intro p hp; exact absurd hp (not_mem_zero p)
  | one t ht =>
    intro p hp
    cases p with
    | nil => exact ht
    | flat => simp [Mem] at hp
    | hier => simp [Mem] at hp
  | flat t t' x arcs h1 h2 h3 ih =>
    intro p hp
    cases p with
    | nil => simp [Mem] at hp
    | flat y a q =>
      obtain ⟨rfl, arc, ha, _, hq⟩ := hp
      exact ⟨t', h1, ih arc ha q hq⟩
    | hier => simp [Mem] at hp
  | hier t tn t' x arcs h1 h2 h3 h4 ih1 ih2 =>
    intro p hp
    cases p with
    | nil => simp [Mem] at hp
    | flat => simp [Mem] at hp
    | hier y n q =>
      obtain ⟨rfl, arc, ha, hn, hq⟩ := hp
      exact ⟨tn, t', h1, ih1 arc ha n hn, ih2 arc ha q hq⟩

/-- A canonical SDD has a type as soon as its paths have it. -/
theorem Dom.of_pty {t0 : Ty} {s : SDD V} (h : Dom C t0 s) :
    ∀ t : Ty, (∀ p, Mem C p s → PTy t p) → Dom C t s := by
  induction h with
  | zero t => intro t _; exact .zero t
  | one t ht => intro t hp; exact .one t (hp .nil rfl)
  | flat t0 t' x arcs h1 h2 h3 ih =>
    intro t hp
    have key : ∀ arc ∈ arcs, ∃ t1, t.flatNext x = some t1 ∧ ∀ q, Mem C q arc.2 → PTy t1 q := by
      intro arc ha
      obtain ⟨a, hav⟩ := h2.valNe arc ha
      obtain ⟨q0, hq0⟩ := (h3 arc ha).exists_mem (h2.succNe arc ha)
      obtain ⟨t1, ht1, _⟩ := hp (.flat x a q0) ⟨rfl, arc, ha, hav, hq0⟩
      refine ⟨t1, ht1, fun q hq => ?_⟩
      obtain ⟨t2, ht2, h⟩ := hp (.flat x a q) ⟨rfl, arc, ha, hav, hq⟩
      rw [ht1] at ht2; cases ht2
      exact h
    obtain ⟨arc0, l, hl⟩ := List.exists_cons_of_ne_nil h2.ne
    obtain ⟨t1, ht1, _⟩ := key arc0 (by simp [hl])
    refine .flat t t1 x arcs ht1 h2 fun arc ha => ?_
    obtain ⟨t2, ht2, h⟩ := key arc ha
    rw [ht1] at ht2; cases ht2
    exact ih arc ha t1 h
  | hier t0 tn0 t0' x arcs h1 h2 h3 h4 ih1 ih2 =>
    intro t hp
    have key : ∀ arc ∈ arcs, ∃ tn t1, t.hierNext x = some (tn, t1) ∧
        (∀ q, Mem C q arc.1 → PTy tn q) ∧ (∀ q, Mem C q arc.2 → PTy t1 q) := by
      intro arc ha
      obtain ⟨n0, hn0⟩ := h2.valNe arc ha
      obtain ⟨q0, hq0⟩ := (h4 arc ha).exists_mem (h2.succNe arc ha)
      obtain ⟨tn, t1, ht1, _⟩ := hp (.hier x n0 q0) ⟨rfl, arc, ha, hn0, hq0⟩
      refine ⟨tn, t1, ht1, fun n hn => ?_, fun q hq => ?_⟩
      · obtain ⟨tn2, t2, ht2, h, _⟩ := hp (.hier x n q0) ⟨rfl, arc, ha, hn, hq0⟩
        rw [ht1] at ht2; cases ht2
        exact h
      · obtain ⟨tn2, t2, ht2, _, h⟩ := hp (.hier x n0 q) ⟨rfl, arc, ha, hn0, hq⟩
        rw [ht1] at ht2; cases ht2
        exact h
    obtain ⟨arc0, l, hl⟩ := List.exists_cons_of_ne_nil h2.ne
    obtain ⟨tn, t1, ht1, _⟩ := key arc0 (by simp [hl])
    refine .hier t tn t1 x arcs ht1 h2 (fun arc ha => ?_) fun arc ha => ?_
    · obtain ⟨tn2, t2, ht2, h, _⟩ := key arc ha
      rw [ht1] at ht2; cases ht2
      exact ih1 arc ha tn h
    · obtain ⟨tn2, t2, ht2, _, h⟩ := key arc ha
      rw [ht1] at ht2; cases ht2
      exact ih2 arc ha t1 h

/-- The result of an operation has the type of its operands. -/
theorem OpSpec.dom {t : Ty} {op : Op V} {r : SDD V} (hop : OpOK C t op) (hr : WF C r)
    (h : OpSpec C op r) : Dom C t r := by
  obtain ⟨n, hn⟩ := hr
  refine hn.of_pty t fun p hp => ?_
  cases op with
  | sum xs =>
    obtain ⟨x, hx, hxp⟩ := (h p).1 hp
    exact (hop.1.dom x hx).pty p hxp
  | inter xs =>
    obtain ⟨h1, h2⟩ := hop
    match xs, h1, h2, h with
    | x :: l, h1, h2, h => exact (h1.dom x (by simp)).pty p ((h p).1 hp x (by simp))
  | diff l r' => exact hop.1.pty p ((h p).1 hp).1

theorem OpOK.to_any {t : Ty} {op : Op V} (h : OpOK C t op) {n : Nat} (hn : t.depth ≤ n) :
    OpOK C (.any n) op := by
  cases op with
  | sum xs => exact ⟨⟨h.1.sorted, fun x hx => (h.1.dom x hx).to_any n hn, h.1.ne⟩, h.2⟩
  | inter xs => exact ⟨⟨h.1.sorted, fun x hx => (h.1.dom x hx).to_any n hn, h.1.ne⟩, h.2⟩
  | diff l r => exact ⟨h.1.to_any n hn, h.2.1.to_any n hn, h.2.2⟩

theorem OpSpec.unique (hC : C.Lawful) {op : Op V} {r r' : SDD V} (hr : WF C r) (hr' : WF C r')
    (h : OpSpec C op r) (h' : OpSpec C op r') : r = r' := by
  refine canonical_ext hC hr hr' fun p => ?_
  cases op <;> rw [h p, h' p]

/-- Two SDDs of the same shape, different from `|0|`, are compatible. -/
theorem compatible_of_shape {t : Ty} (ht : t.IsShape) {s s' : SDD V} (h : Dom C t s)
    (h' : Dom C t s') (hs : s ≠ .zero) (hs' : s' ≠ .zero) : compatible s s' = true := by
  cases t with
  | any n => exact absurd ht (by simp [Ty.IsShape])
  | nil =>
    cases h with
    | zero => exact absurd rfl hs
    | one =>
      cases h' with
      | zero => exact absurd rfl hs'
      | one => rfl
      | flat _ _ _ _ h1 => simp [Ty.flatNext] at h1
      | hier _ _ _ _ _ h1 => simp [Ty.hierNext] at h1
    | flat _ _ _ _ h1 => simp [Ty.flatNext] at h1
    | hier _ _ _ _ _ h1 => simp [Ty.hierNext] at h1
  | flat x t =>
    cases h with
    | zero => exact absurd rfl hs
    | one _ h1 => exact absurd h1 (by simp [Ty.hasOne])
    | flat _ _ y _ h1 =>
      cases h' with
      | zero => exact absurd rfl hs'
      | one _ h1 => exact absurd h1 (by simp [Ty.hasOne])
      | flat _ _ z _ h2 =>
        simp [Ty.flatNext] at h1 h2
        simp [compatible, ← h1.1, ← h2.1]
      | hier _ _ _ _ _ h1 => simp [Ty.hierNext] at h1
    | hier _ _ _ _ _ h1 => simp [Ty.hierNext] at h1
  | hier x n t =>
    cases h with
    | zero => exact absurd rfl hs
    | one _ h1 => exact absurd h1 (by simp [Ty.hasOne])
    | flat _ _ _ _ h1 => simp [Ty.flatNext] at h1
    | hier _ _ _ y _ h1 =>
      cases h' with
      | zero => exact absurd rfl hs'
      | one _ h1 => exact absurd h1 (by simp [Ty.hasOne])
      | flat _ _ _ _ h1 => simp [Ty.flatNext] at h1
      | hier _ _ _ z _ h2 =>
        simp [Ty.hierNext] at h1 h2
        simp [compatible, ← h1.1, ← h2.1]

theorem ne_of_BGood {D : SDD V → Prop} {xs : List (SDD V)} (h : BGood SDD.isZero C.lt D xs)
    {x : SDD V} (hx : x ∈ xs) : x ≠ .zero := by
  intro h0
  have := h.ne x hx
  rw [← isZero_iff, this] at h0
  exact absurd h0 (by simp)

variable {m : Type → Type} [DecidableEq V] [DDMonad V m] {L : Logic V m}

/-- The operands of a sum or of an intersection, in any order. (Specification or proof device, not part of the code.) -/
structure OperandsOK (C : Cfg V E) (t : Ty) (xs : List (SDD V)) : Prop where
  dom : ∀ x ∈ xs, Dom C t x
  ne : ∀ x ∈ xs, x ≠ .zero
  diff : xs.Pairwise fun x y => x ≠ y
  len : 2 ≤ xs.length

theorem OperandsOK.of_perm (hC : C.Lawful) {t : Ty} {xs xs' : List (SDD V)} (h : BGood SDD.isZero C.lt (Dom C t) xs)
    (hl : 2 ≤ xs.length) (hp : xs'.Perm xs) : OperandsOK C t xs' where
  dom x hx := h.dom x (hp.mem_iff.1 hx)
  ne x hx := ne_of_BGood h (hp.mem_iff.1 hx)
  diff := (hp.pairwise_iff fun {_ _} h => Ne.symm h).2 (h.sorted.imp fun h => hC.lt_st.ne_of h)
  len := by rw [hp.length_eq]; exact hl

/-- Two paths beginning with a level of the same kind and variable. (Specification or proof device, not part of the code.) -/
def SameHead : Path E → Path E → Prop
  | .nil, .nil => True
  | .flat x _ _, .flat y _ _ => x = y
  | .hier x _ _, .hier y _ _ => x = y
  | _, _ => False

/-- SDDs whose paths have the same head are compatible. -/
theorem compatible_of_head {t : Ty} {s s' : SDD V} (h : Dom C t s) (h' : Dom C t s') (hs : s ≠ .zero)
    (hs' : s' ≠ .zero) (hh : ∀ p q, Mem C p s → Mem C q s' → SameHead p q) : compatible s s' = true := by
  obtain ⟨p, hp⟩ := h.exists_mem hs
  obtain ⟨q, hq⟩ := h'.exists_mem hs'
  have := hh p q hp hq
  cases s <;> cases s' <;> cases p <;> cases q <;> simp_all [Mem, SameHead, compatible]

/-- The exceptions `Top` which may be raised by operations on SDDs of type `t`: the operands carried by the exception are in
canonical form, different from `|0|`, and incompatible. (Specification or proof device, not part of the code.) -/
def TopOK (C : Cfg V E) (allow : Err V → Prop) (R : Path E → Path E → Prop) (S : Path E → Prop) (t : Ty) : Prop :=
  ∀ l r, Dom C t l → Dom C t r → SelfIn C R S l → SelfIn C R S r → l ≠ .zero → r ≠ .zero →
    compatible l r ≠ true → allow (.top l r)

theorem TopOK.of_shape {allow : Err V → Prop} {R : Path E → Path E → Prop} {S : Path E → Prop} {t : Ty} (h : t.IsShape) :
    TopOK C allow R S t := fun _ _ hl hr _ _ hl0 hr0 hc => absurd (compatible_of_shape h hl hr hl0 hr0) hc

theorem TopOK.of_head {allow : Err V → Prop} {R : Path E → Path E → Prop} {S : Path E → Prop} {t : Ty}
    (h : ∀ p q, S p → S q → SameHead p q) : TopOK C allow R S t := fun _ _ hl hr hls hrs hl0 hr0 hc =>
  absurd (compatible_of_head hl hr hl0 hr0 fun p q hp hq => h p q (hls.sub p hp) (hrs.sub q hq)) hc

/-- One step of evaluation is right when the recursive calls on smaller types are right: operands whose paths are
in `S` and related by `R` inside each operand. -/
theorem step_satS (hC : C.Lawful) {t : Ty} {rec : Op V → m (SDD V)} {R : Path E → Path E → Prop} (hR : PathRel R)
    {S : Path E → Prop} {B : Nat → Prop} (hB : Cap B S)
    (htop : TopOK C L.allow R S t)
    (hov : C.limit = none ∨ L.allow .overflow)
    (hflat : ∀ x t', t.flatNext x = some t' → ∀ a, RecS C L R (fun q => S (.flat x a q)) B t' rec)
    (hhier : ∀ x tn t', t.hierNext x = some (tn, t') → RecS C L R (fun n => ∃ q, S (.hier x n q)) B tn rec ∧
      ∀ n, RecS C L R (fun q => S (.hier x n q)) B t' rec)
    {op : Op V} (hop : OpOK C t op) (hself : ∀ x ∈ op.operands, SelfIn C R S x) (hsm : op.Small B) :
    L.Sat (step C rec op) fun r => Dom C t r ∧ OpSpec C op r ∧ OpCoh C R op := by
  -- a terminal is never compatible with a different SDD
  have hterm : ∀ {x y : SDD V}, Dom C t x → Dom C t y → x ≠ .zero → y ≠ .zero → x ≠ y →
      SelfIn C R S x → SelfIn C R S y →
      (x = .one ∨ y = .one) → L.allow (.top x y) := by
    intro x y hx hy hx0 hy0 hxy hxs hys h1
    refine htop x y hx hy hxs hys hx0 hy0 ?_
    rcases h1 with rfl | rfl
    · cases y <;> simp [compatible] at hxy ⊢
    · cases x <;> simp [compatible] at hxy ⊢
  have hcomp : ∀ {x : SDD V} {xs : List (SDD V)}, OperandsOK C t (x :: xs) →
      (∀ y ∈ x :: xs, SelfIn C R S y) →
      ∀ y ∈ xs, compatible x y ≠ true → L.allow (.top x y) := by
    intro x xs h hs y hy
    exact htop x y (h.dom x (by simp)) (h.dom y (by simp [hy])) (hs x (by simp)) (hs y (by simp [hy]))
      (h.ne x (by simp)) (h.ne y (by simp [hy]))
  have hinter : ∀ {xs : List (SDD V)}, PrefixRel C R xs → OpCoh C R (.inter xs) := fun {xs} h =>
    ⟨xs, fun _ => Iff.rfl, fun ys z zs he hne p q hp hq => have := h ys z zs he hne p q hp hq; ⟨this, hR.symm _ _ this⟩⟩
  cases op with
  | sum xs0 =>
    refine L.bind' (L.ord' xs0) ?_
    intro xs hp
    have hb := OperandsOK.of_perm hC hop.1 hop.2 hp
    have hself : ∀ z ∈ xs, SelfIn C R S z := fun z hz => hself z (hp.mem_iff.1 hz)
    have hsm : ∀ n, n ≤ xs.length → B n := fun n hn => hB.down n _ (hp.length_eq ▸ hn) hsm
    refine L.mono' (P := fun r => Dom C t r ∧ OpSpec C (.sum xs) r ∧ OpCoh C R (.sum xs)) ?_ fun r hr => ⟨hr.1, ?_, ?_⟩
    rotate_left
    · simpa only [OpSpec, hp.mem_iff] using hr.2.1
    · simpa only [OpCoh, hp.mem_iff, hp.length_eq] using hr.2.2
    clear hp
    match xs, hb, hself, hsm with
    | [], hb, _, _ => exact absurd hb.len (by simp)
    | [x], hb, _, _ => exact absurd hb.len (by simp)
    | head :: y :: ys, hb, hself, hsm =>
      change ∀ z ∈ head :: y :: ys, SelfIn C R S z at hself
      have hd0 := hb.dom head (by simp)
      have hd : ∀ z ∈ y :: ys, Dom C t z := fun z hz => hb.dom z (List.mem_cons_of_mem _ hz)
      have hh0 := hb.ne head (List.mem_cons_self)
      match head, hd0, hb, hh0, hself with
      | .zero, _, _, hh0, _ => exact absurd rfl hh0
      | .one, hd0, hb, hh0, hself =>
        have hlt := hb.diff
        rw [List.pairwise_cons] at hlt
        refine L.raise' (hterm hd0 (hd y (by simp)) hh0 (hb.ne y (by simp))
          (hlt.1 y (by simp)) (hself _ (by simp)) (hself _ (by simp)) (Or.inl rfl))
      | .flat x arcs, hd0, hb, hh0, hself =>
        obtain ⟨t', ht', -, -⟩ := Dom.flat_inv hd0
        rw [sumStep]
        cases hf : C.fast with
        | true =>
          rw [if_pos rfl]
          exact fastWork_sat hC hf ht' hR hov (hflat x t' ht') _ (hcomp hb hself) hd0 hd hself hsm
        | false =>
          rw [if_neg (by simp)]
          exact sumWork_sat hC (flatKind_s hC hR ht') flatKind_view hov (hflat x t' ht') _
            (hcomp hb hself) hd0 hd hself hsm
      | .hier x arcs, hd0, hb, hh0, hself =>
        obtain ⟨tn, t', ht', -, -, -⟩ := Dom.hier_inv hd0
        obtain ⟨hn, ht⟩ := hhier x tn t' ht'
        rw [sumStep]
        exact sumWork_sat hC (hierKind_s hC hR ht' hn hB) hierKind_view hov ht _ (hcomp hb hself) hd0 hd hself hsm
  | inter xs0 =>
    refine L.bind' (L.ord' xs0) ?_
    intro xs hp
    have hb := OperandsOK.of_perm hC hop.1 hop.2 hp
    have hself : ∀ z ∈ xs, SelfIn C R S z := fun z hz => hself z (hp.mem_iff.1 hz)
    refine L.mono' (P := fun r => Dom C t r ∧ OpSpec C (.inter xs) r ∧ OpCoh C R (.inter xs)) ?_ fun r hr => ⟨hr.1, ?_, ?_⟩
    rotate_left
    · simpa only [OpSpec, hp.mem_iff] using hr.2.1
    · exact hr.2.2.of_mem fun _ => hp.mem_iff
    clear hp
    match xs, hb, hself with
    | [], hb, _ => exact absurd hb.len (by simp)
    | [x], hb, _ => exact absurd hb.len (by simp)
    | head :: y :: ys, hb, hself =>
      change ∀ z ∈ head :: y :: ys, SelfIn C R S z at hself
      have hd0 := hb.dom head (by simp)
      have hd : ∀ z ∈ y :: ys, Dom C t z := fun z hz => hb.dom z (List.mem_cons_of_mem _ hz)
      have hh0 := hb.ne head (List.mem_cons_self)
      match head, hd0, hb, hh0, hself with
      | .zero, _, _, hh0, _ => exact absurd rfl hh0
      | .one, hd0, hb, hh0, hself =>
        have hlt := hb.diff
        rw [List.pairwise_cons] at hlt
        refine L.raise' (hterm hd0 (hd y (by simp)) hh0 (hb.ne y (by simp))
          (hlt.1 y (by simp)) (hself _ (by simp)) (hself _ (by simp)) (Or.inl rfl))
      | .flat x arcs, hd0, hb, hh0, hself =>
        obtain ⟨t', ht', -, -⟩ := Dom.flat_inv hd0
        rw [interStep]
        refine L.mono' (interWork_sat hC (flatKind_s hC hR ht') flatKind_view hov (hflat x t' ht') hB.le_two (y :: ys) arcs
          ?_ hd0 hd hself) fun r hr => ⟨hr.1, hr.2.1, hinter hr.2.2⟩
        exact fun arcs z hz h1 h2 => htop _ z h1 (hd z hz) h2 (hself z (List.mem_cons_of_mem _ hz)) (by simp [flatKind])
          (hb.ne z (List.mem_cons_of_mem _ hz))
      | .hier x arcs, hd0, hb, hh0, hself =>
        obtain ⟨tn, t', ht', -, -, -⟩ := Dom.hier_inv hd0
        obtain ⟨hn, ht⟩ := hhier x tn t' ht'
        rw [interStep]
        refine L.mono' (interWork_sat hC (hierKind_s hC hR ht' hn hB) hierKind_view hov ht hB.le_two (y :: ys) arcs
          ?_ hd0 hd hself) fun r hr => ⟨hr.1, hr.2.1, hinter hr.2.2⟩
        exact fun arcs z hz h1 h2 => htop _ z h1 (hd z hz) h2 (hself z (List.mem_cons_of_mem _ hz)) (by simp [hierKind])
          (hb.ne z (List.mem_cons_of_mem _ hz))
  | diff l r =>
    obtain ⟨hl, hr, hl0, hr0, hne⟩ := hop
    have hls : SelfIn C R S l := hself l (by simp [Op.operands])
    have hrs : SelfIn C R S r := hself r (by simp [Op.operands])
    clear hself
    match l, r, hl, hr, hl0, hr0, hne, hls, hrs with
    | .zero, _, _, _, hl0, _, _, _, _ => exact absurd rfl hl0
    | .one, .zero, _, _, _, hr0, _, _, _ => exact absurd rfl hr0
    | .flat _ _, .zero, _, _, _, hr0, _, _, _ => exact absurd rfl hr0
    | .hier _ _, .zero, _, _, _, hr0, _, _, _ => exact absurd rfl hr0
    | .one, .one, _, _, _, _, hne, _, _ => exact absurd rfl hne
    | .one, .flat _ _, hl, hr, hl0, hr0, hne, hls, hrs =>
      exact L.raise' (hterm hl hr hl0 hr0 hne hls hrs (Or.inl rfl))
    | .one, .hier _ _, hl, hr, hl0, hr0, hne, hls, hrs =>
      exact L.raise' (hterm hl hr hl0 hr0 hne hls hrs (Or.inl rfl))
    | .flat _ _, .one, hl, hr, hl0, hr0, hne, hls, hrs =>
      exact L.raise' (hterm hl hr hl0 hr0 hne hls hrs (Or.inr rfl))
    | .hier _ _, .one, hl, hr, hl0, hr0, hne, hls, hrs =>
      exact L.raise' (hterm hl hr hl0 hr0 hne hls hrs (Or.inr rfl))
    | .flat _ _, .hier _ _, hl, hr, hl0, hr0, hne, hls, hrs =>
      exact L.raise' (htop _ _ hl hr hls hrs hl0 hr0 (by simp [compatible]))
    | .hier _ _, .flat _ _, hl, hr, hl0, hr0, hne, hls, hrs =>
      exact L.raise' (htop _ _ hl hr hls hrs hl0 hr0 (by simp [compatible]))
    | .flat x a, .flat y b, hl, hr, hl0, hr0, hne, hls, hrs =>
      obtain ⟨t', ht', -, -⟩ := Dom.flat_inv hl
      rw [step, diffStep]
      refine diffWork_sat hC (flatKind_s hC hR ht') hov (hflat x t' ht') ?_ hl hr hls hrs
      by_cases hxy : x = y
      · exact Or.inr hxy
      · exact Or.inl (htop _ _ hl hr hls hrs hl0 hr0 (by simpa [compatible, flatKind] using hxy))
    | .hier x a, .hier y b, hl, hr, hl0, hr0, hne, hls, hrs =>
      obtain ⟨tn, t', ht', -, -, -⟩ := Dom.hier_inv hl
      obtain ⟨hn, ht⟩ := hhier x tn t' ht'
      rw [step, diffStep]
      refine diffWork_sat hC (hierKind_s hC hR ht' hn hB) hov ht ?_ hl hr hls hrs
      by_cases hxy : x = y
      · exact Or.inr hxy
      · exact Or.inl (htop _ _ hl hr hls hrs hl0 hr0 (by simpa [compatible, hierKind] using hxy))

/-- One step of evaluation is right when the recursive calls on smaller types are right. -/
theorem step_sat (hC : C.Lawful) {t : Ty} {rec : Op V → m (SDD V)}
    (htop : TopOK C L.allow (fun _ _ => True) (fun _ => True) t)
    (hov : C.limit = none ∨ L.allow .overflow)
    (hflat : ∀ x t', t.flatNext x = some t' → RecOK C L t' rec)
    (hhier : ∀ x tn t', t.hierNext x = some (tn, t') → RecOK C L tn rec ∧ RecOK C L t' rec)
    {op : Op V} (hop : OpOK C t op) :
    L.Sat (step C rec op) fun r => Dom C t r ∧ OpSpec C op r := by
  refine L.mono' (step_satS (S := fun _ => True) hC PathRel.trivial (Cap.trivial _) htop hov
    (fun x t' h _ => (hflat x t' h).toS) (fun x tn t' h => ⟨?_, fun _ => (hhier x tn t' h).2.toS⟩) hop
    (fun x _ => SelfIn.trivial x) op.small_true) fun _ h => ⟨h.1, h.2.1⟩
  have heq : (fun _ : Path E => ∃ _ : Path E, True) = fun _ => True := by
    funext n
    exact propext ⟨fun _ => trivial, fun _ => ⟨n, trivial⟩⟩
  rw [heq]
  exact (hhier x tn t' h).1.toS

end
end Verif
