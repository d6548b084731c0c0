import Verif.DD.InterDiffCorrect
/-!
# The two kinds of valuations: values and SDDs
-/

set_option autoImplicit false
set_option linter.unusedSectionVars false

namespace Verif

section
variable {V E : Type} {m : Type → Type} [DecidableEq V] [DDMonad V m]
variable {C : Cfg V E} {L : Logic V m} {B : Nat → Prop}

theorem mem_foldl_vsum (hC : C.Lawful) (a : E) (xs : List V) : ∀ x : V,
    C.vmem a (xs.foldl C.vsum x) ↔ C.vmem a x ∨ ∃ v ∈ xs, C.vmem a v := by
  induction xs with
  | nil => simp
  | cons y xs ih =>
    intro x
    rw [List.foldl_cons, ih, hC.mem_sum]
    simp [or_assoc]

theorem mem_valSum (hC : C.Lawful) (a : E) (xs : List V) :
    C.vmem a (valSum C xs) ↔ ∃ v ∈ xs, C.vmem a v := by
  cases xs with
  | nil => simp [valSum, hC.mem_empty]
  | cons x xs => simp [valSum, mem_foldl_vsum hC]

theorem mem_valInterLoop (hC : C.Lawful) (a : E) (xs : List V) : ∀ x : V,
    C.vmem a (valInterLoop C x xs) ↔ C.vmem a x ∧ ∀ v ∈ xs, C.vmem a v := by
  induction xs with
  | nil => simp [valInterLoop]
  | cons y xs ih =>
    intro x
    rw [valInterLoop]
    split
    · rename_i h
      rw [hC.isEmpty_iff] at h
      simp [h a]
    · rw [ih, hC.mem_inter]
      simp [and_assoc]

theorem valInter2 (hC : C.Lawful) (a : E) (v w : V) {set : List V}
    (hp : set.Perm (interAdd C.visEmpty C.vlt (interAdd C.visEmpty C.vlt {} v) w).set) {z : Bool} :
    C.vmem a (valInter C { hasZero := z, set := set }) ↔ C.vmem a v ∧ C.vmem a w := by
  have hb := foldl_interAdd (isEmpty := C.visEmpty) (D := fun _ => True) hC.vlt_st [v, w] {}
    (by simp) BGood.nil (by simp)
  simp only [List.foldl_cons, List.foldl_nil] at hb
  generalize interAdd C.visEmpty C.vlt (interAdd C.visEmpty C.vlt {} v) w = b at hb hp
  obtain ⟨b1, b2, b3, b4⟩ := hb
  cases hz : b.hasZero with
  | true =>
    rw [b1 hz, List.perm_nil] at hp
    subst hp
    rw [valInter]
    rw [hz] at b3
    simp only [true_iff] at b3
    simp only [hC.mem_empty, false_iff, not_and]
    intro h1 h2
    rcases b3 with h | ⟨x, hx, hx'⟩
    · simp at h
    · rw [hC.isEmpty_iff] at hx'
      simp at hx
      rcases hx with rfl | rfl
      · exact hx' a h1
      · exact hx' a h2
  | false =>
    have b4 := b4 hz
    simp at b4
    unfold valInter
    split
    · rename_i hs
      simp only at hs
      have := (b4 v).2 (Or.inl rfl)
      rw [← hp.mem_iff] at this
      simp [hs] at this
    · rename_i x xs hs
      simp only at hs
      rw [mem_valInterLoop hC]
      have : (C.vmem a x ∧ ∀ v ∈ xs, C.vmem a v) ↔ ∀ v ∈ b.set, C.vmem a v := by
        simp only [← hp.mem_iff, hs]
        simp
      rw [this]
      simp [b4]

theorem flatKind_ok (hC : C.Lawful) {t t' : Ty} {x : Nat} {G : List V → Prop} (ht : t.flatNext x = some t') :
    KindOK C L t t' x (flatKind C : Kind V m V) C.vmem (fun _ => True) (fun a q => .flat x a q) G where
  lt_st := hC.vlt_st
  ext v w _ _ h := hC.ext v w h
  isEmpty_iff v _ := hC.isEmpty_iff v
  sum l _ _ := L.bind' (L.ord' l) fun l' hp => L.pure' ⟨trivial, fun a => by rw [mem_valSum hC]; simp [hp.mem_iff]⟩
  node_dom arcs h _ h2 := Dom.flat t t' x arcs ht h h2
  node_mem arcs p := by
    cases p with
    | nil => simp [Mem, flatKind]
    | flat y a q =>
      simp only [Mem, flatKind, Path.flat.injEq]
      constructor
      · rintro ⟨rfl, h⟩; exact ⟨a, q, ⟨rfl, rfl, rfl⟩, h⟩
      · rintro ⟨a', q', ⟨rfl, rfl, rfl⟩, h⟩; exact ⟨rfl, h⟩
    | hier y n q => simp [Mem, flatKind]
  cons_inj a q a' q' h := by simpa using h

theorem hierKind_ok (hC : C.Lawful) {t tn t' : Ty} {x : Nat} {G : List (SDD V) → Prop} (ht : t.hierNext x = some (tn, t'))
    {rec : Op V → m (SDD V)} (hrec : RecOK C L tn rec) :
    KindOK C L t t' x (hierKind C rec) (Mem C) (Dom C tn) (fun n q => .hier x n q) G where
  lt_st := hC.lt_st
  ext v w hv hw h := canonical_ext hC hv.wf hw.wf h
  isEmpty_iff v hv := hv.isZero_iff
  sum l h _ := ddSum_sat hrec h
  node_dom arcs h h1 h2 := Dom.hier t tn t' x arcs ht h h1 h2
  node_mem arcs p := by
    cases p with
    | nil => simp [Mem, hierKind]
    | flat y a q => simp [Mem, hierKind]
    | hier y n q =>
      simp only [Mem, hierKind, Path.hier.injEq]
      constructor
      · rintro ⟨rfl, h⟩; exact ⟨n, q, ⟨rfl, rfl, rfl⟩, h⟩
      · rintro ⟨a', q', ⟨rfl, rfl, rfl⟩, h⟩; exact ⟨rfl, h⟩
  cons_inj a q a' q' h := by simpa using h

/-- A relation between paths which only compares what follows equal elements. (Specification or proof device, not part of the code.) -/
structure PathRel (R : Path E → Path E → Prop) : Prop where
  flat : ∀ x a q b q', R (.flat x a q) (.flat x b q') ↔ (a = b → R q q')
  hier : ∀ x n q m q', R (.hier x n q) (.hier x m q') ↔ R n m ∧ (n = m → R q q')
  symm : ∀ p q, R p q → R q p

theorem PathRel.trivial : PathRel (fun _ _ : Path E => True) := ⟨by simp, by simp, by simp⟩

/-- `B` is a bound on numbers of operands: it holds of at least two operands, and of as many operands as there are different nested paths at
the first level of the paths of `S`. (Specification or proof device, not part of the code.) -/
structure Cap (B : Nat → Prop) (S : Path E → Prop) : Prop where
  down : ∀ n k, n ≤ k → B k → B n
  two : B 2
  few : ∀ x (l : List (Path E)), l.Nodup → (∀ n ∈ l, ∃ q, S (.hier x n q)) → B l.length

theorem Cap.trivial (S : Path E → Prop) : Cap (fun _ => True) S := ⟨fun _ _ _ _ => True.intro, True.intro, fun _ _ _ _ => True.intro⟩

theorem Cap.le_two {S : Path E → Prop} (h : Cap B S) : ∀ n, n ≤ 2 → B n := fun n hn => h.down n 2 hn h.two

/-- SDDs without common path, different from `|0|`: there are at least as many paths. -/
theorem VDisj.paths {l : List (SDD V)} (hn : l.Nodup) (h : VDisj (Mem C) l) (hne : ∀ v ∈ l, ∃ p, Mem C p v) :
    ∃ l' : List (Path E), l'.Nodup ∧ l'.length = l.length ∧ ∀ p ∈ l', ∃ v ∈ l, Mem C p v := by
  induction l with
  | nil => exact ⟨[], by simp⟩
  | cons v l ih =>
    rw [List.nodup_cons] at hn
    obtain ⟨l', h1, h2, h3⟩ := ih hn.2 (fun u hu w hw => h u (by simp [hu]) w (by simp [hw])) fun u hu => hne u (by simp [hu])
    obtain ⟨p, hp⟩ := hne v (by simp)
    refine ⟨p :: l', List.nodup_cons.2 ⟨fun hm => ?_, h1⟩, by simp [h2], fun q hq => ?_⟩
    · obtain ⟨w, hw, hpw⟩ := h3 p hm
      exact hn.1 (h v (by simp) w (by simp [hw]) p hp hpw ▸ hw)
    · rcases List.mem_cons.1 hq with rfl | hq
      · exact ⟨v, by simp, hp⟩
      · obtain ⟨w, hw, hqw⟩ := h3 q hq
        exact ⟨w, by simp [hw], hqw⟩

theorem flatKind_s (hC : C.Lawful) {R : Path E → Path E → Prop} (hR : PathRel R) {S : Path E → Prop} {t t' : Ty}
    {x : Nat} (ht : t.flatNext x = some t') :
    KindS C L R S t t' x (flatKind C : Kind V m V) C.vmem (fun _ => True) (fun _ _ => True)
      (fun a q => .flat x a q) where
  toKindOK := flatKind_ok hC ht
  inter2 v w _ _ := L.bind' (L.ord' _) fun set hp =>
    L.pure' ⟨True.intro, fun a => valInter2 hC a v w hp, fun _ _ _ _ => True.intro⟩
  diff v w _ _ := L.pure' ⟨True.intro, fun a => hC.mem_diff a v w⟩
  node_inv arcs h _ := by
    obtain ⟨t'', h1, h2, h3⟩ := Dom.flat_inv h
    rw [ht] at h1
    cases h1
    exact ⟨h2, fun _ _ => True.intro, h3⟩
  rel_cons a q b q' := by simp [hR.flat]
  symm _ _ _ := True.intro

theorem hierKind_s (hC : C.Lawful) {R : Path E → Path E → Prop} (hR : PathRel R) {S : Path E → Prop} {t tn t' : Ty}
    {x : Nat} (ht : t.hierNext x = some (tn, t')) {rec : Op V → m (SDD V)}
    (hrec : RecS C L R (fun n => ∃ q, S (.hier x n q)) B tn rec) (hB : Cap B S) :
    KindS C L R S t t' x (hierKind C rec) (Mem C)
      (fun v => Dom C tn v ∧ SelfIn C R (fun n => ∃ q, S (.hier x n q)) v) R (fun n q => .hier x n q) where
  lt_st := hC.lt_st
  ext v w hv hw h := canonical_ext hC hv.1.wf hw.1.wf h
  isEmpty_iff v hv := hv.1.isZero_iff
  inter2 v w hv hw := by
    refine L.mono' (opInter2_satS hC hrec hv.1 hw.1 hv.2 hw.2 hB.le_two) ?_
    rintro r ⟨h1, h2, h3⟩
    exact ⟨⟨h1, hv.2.mono fun p hp => ((h2 p).1 hp).1⟩, h2, h3⟩
  diff v w hv hw := by
    refine L.mono' (ddDiff_satS hrec hv.1 hw.1 hv.2 hw.2) ?_
    rintro r ⟨h1, h2, -⟩
    exact ⟨⟨h1, hv.2.mono fun p hp => ((h2 p).1 hp).1⟩, h2⟩
  sum l h hd := by
    have hlen : B l.length := by
      obtain ⟨l', h1, h2, h3⟩ := hd.paths (h.sorted.imp fun h => hC.lt_st.ne_of h) fun v hv => (h.dom v hv).1.exists_mem (by
        intro h0
        have : v.isZero = false := h.ne v hv
        rw [← isZero_iff, this] at h0
        exact absurd h0 (by simp))
      rw [← h2]
      refine hB.few x l' h1 fun n hn => ?_
      obtain ⟨v, hv, hnv⟩ := h3 n hn
      exact (h.dom v hv).2.sub n hnv
    refine L.mono' (ddSum_satS hrec ⟨h.sorted, fun v hv => (h.dom v hv).1, h.ne⟩ (fun v hv => (h.dom v hv).2) hlen) ?_
    rintro r ⟨h1, h2, h3⟩
    refine ⟨⟨h1, fun p q hp hq => ?_, fun p hp => ?_⟩, h2⟩
    · obtain ⟨v, hv, hp⟩ := (h2 p).1 hp
      obtain ⟨w, hw, hq⟩ := (h2 q).1 hq
      exact h3 v hv w hw p q hp hq
    · obtain ⟨v, hv, hp⟩ := (h2 p).1 hp
      exact (h.dom v hv).2.sub p hp
  node_dom arcs h h1 h2 := Dom.hier t tn t' x arcs ht h (fun arc ha => (h1 arc ha).1) h2
  node_mem arcs p := by
    cases p with
    | nil => simp [Mem, hierKind]
    | flat y a q => simp [Mem, hierKind]
    | hier y n q =>
      simp only [Mem, hierKind, Path.hier.injEq]
      constructor
      · rintro ⟨rfl, h⟩; exact ⟨n, q, ⟨rfl, rfl, rfl⟩, h⟩
      · rintro ⟨a', q', ⟨rfl, rfl, rfl⟩, h⟩; exact ⟨rfl, h⟩
  node_inv arcs h hs := by
    obtain ⟨tn', t'', h1, h2, h3, h4⟩ := Dom.hier_inv h
    rw [ht] at h1
    cases h1
    refine ⟨h2, fun arc ha => ⟨h3 arc ha, fun p q hp hq => ?_, fun p hp => ?_⟩, h4⟩
    · obtain ⟨r, hr⟩ := (h4 arc ha).exists_mem (h2.succNe arc ha)
      exact ((hR.hier x p r q r).1 (hs.self _ _ ⟨rfl, arc, ha, hp, hr⟩ ⟨rfl, arc, ha, hq, hr⟩)).1
    · obtain ⟨r, hr⟩ := (h4 arc ha).exists_mem (h2.succNe arc ha)
      exact ⟨r, hs.sub _ ⟨rfl, arc, ha, hp, hr⟩⟩
  cons_inj a q a' q' h := by simpa using h
  rel_cons a q b q' := hR.hier x a q b q'
  symm := hR.symm

theorem flatKind_view : ViewOK (flatKind C : Kind V m V) where
  view_node _ _ := rfl
  compat x arcs s h := by
    cases s <;> simp [compatible, flatKind] at h
    exact ⟨_, by simp [flatKind, h]; rfl⟩

theorem hierKind_view {rec : Op V → m (SDD V)} : ViewOK (hierKind C rec) where
  view_node _ _ := rfl
  compat x arcs s h := by
    cases s <;> simp [compatible, hierKind] at h
    exact ⟨_, by simp [hierKind, h]; rfl⟩

/-! ## The linear sum of flat nodes -/

/-- `value_to_succ`: the element `a` goes to `s`. (Specification or proof device, not part of the code.) -/
def FG (map : List (E × List (SDD V))) (a : E) (s : SDD V) : Prop := ∃ S, (a, S) ∈ map ∧ s ∈ S

/-- A well-formed `value_to_succ`. (Specification or proof device, not part of the code.) -/
structure FastOK (C : Cfg V E) (t' : Ty) (map : List (E × List (SDD V))) : Prop where
  sorted : map.Pairwise fun a b => C.elt a.1 b.1 = true
  succs : ∀ e ∈ map, BGood SDD.isZero C.lt (Dom C t') e.2
  succsNe : ∀ e ∈ map, e.2 ≠ []

variable {t t' : Ty} {x : Nat}

theorem fastArc_ok (hC : C.Lawful) {succ : SDD V} (hs : Dom C t' succ) (hs0 : succ ≠ .zero)
    (vals : List E) : ∀ map, FastOK C t' map → FastOK C t' (fastArc C succ vals map) ∧
      ∀ a s, FG (fastArc C succ vals map) a s ↔ FG map a s ∨ (a ∈ vals ∧ s = succ) := by
  have hz : SDD.isZero succ = false := by
    rw [← Bool.not_eq_true, isZero_iff]; exact hs0
  unfold fastArc
  induction vals with
  | nil => intro map h; simpa using h
  | cons v vals ih =>
    intro map h
    rw [List.foldl_cons]
    have hm := mem_upsert hC.elt_st v (sumAdd SDD.isZero C.lt [] succ)
      (fun b => sumAdd SDD.isZero C.lt b succ) map h.sorted
    have h1 : FastOK C t' (upsert C.elt v (sumAdd SDD.isZero C.lt [] succ)
        (fun b => sumAdd SDD.isZero C.lt b succ) map) := by
      refine ⟨upsert_sorted hC.elt_st _ _ _ _ h.sorted, ?_, ?_⟩
      · rintro ⟨w, b⟩ he
        rw [hm] at he
        rcases he with ⟨rfl, ⟨b', hb', rfl⟩ | ⟨_, rfl⟩⟩ | ⟨_, he⟩
        · exact (h.succs _ hb').add hC.lt_st hs
        · exact BGood.nil.add hC.lt_st hs
        · exact h.succs _ he
      · rintro ⟨w, b⟩ he
        rw [hm] at he
        rcases he with ⟨rfl, ⟨b', hb', rfl⟩ | ⟨_, rfl⟩⟩ | ⟨_, he⟩
        · exact sumAdd_ne_nil hz
        · exact sumAdd_ne_nil hz
        · exact h.succsNe _ he
    obtain ⟨k1, k2⟩ := ih _ h1
    refine ⟨k1, fun a s => ?_⟩
    rw [k2]
    have : FG (upsert C.elt v (sumAdd SDD.isZero C.lt [] succ)
        (fun b => sumAdd SDD.isZero C.lt b succ) map) a s ↔ FG map a s ∨ (a = v ∧ s = succ) := by
      unfold FG
      constructor
      · rintro ⟨S, hS, hsS⟩
        rw [hm] at hS
        rcases hS with ⟨rfl, ⟨b', hb', rfl⟩ | ⟨_, rfl⟩⟩ | ⟨_, he⟩
        · rw [mem_sumAdd hC.lt_st] at hsS
          rcases hsS with ⟨rfl, _⟩ | hsS
          · exact Or.inr ⟨rfl, rfl⟩
          · exact Or.inl ⟨b', hb', hsS⟩
        · rw [mem_sumAdd hC.lt_st] at hsS
          rcases hsS with ⟨rfl, _⟩ | hsS
          · exact Or.inr ⟨rfl, rfl⟩
          · simp at hsS
        · exact Or.inl ⟨S, he, hsS⟩
      · rintro (⟨S, hS, hsS⟩ | ⟨rfl, rfl⟩)
        · by_cases hav : a = v
          · subst hav
            exact ⟨_, (hm _ _).2 (Or.inl ⟨rfl, Or.inl ⟨S, hS, rfl⟩⟩),
              (mem_sumAdd hC.lt_st).2 (Or.inr hsS)⟩
          · exact ⟨S, (hm _ _).2 (Or.inr ⟨hav, hS⟩), hsS⟩
        · by_cases hex : ∃ b, (a, b) ∈ map
          · obtain ⟨b, hb⟩ := hex
            exact ⟨_, (hm _ _).2 (Or.inl ⟨rfl, Or.inl ⟨b, hb, rfl⟩⟩),
              (mem_sumAdd hC.lt_st).2 (Or.inl ⟨rfl, hz⟩)⟩
          · rw [not_exists] at hex
            exact ⟨_, (hm _ _).2 (Or.inl ⟨rfl, Or.inr ⟨hex, rfl⟩⟩),
              (mem_sumAdd hC.lt_st).2 (Or.inl ⟨rfl, hz⟩)⟩
    rw [this, List.mem_cons]
    tauto

theorem fastArcs_ok (hC : C.Lawful) (arcs : List (V × SDD V)) :
    (∀ arc ∈ arcs, Dom C t' arc.2) → (∀ arc ∈ arcs, arc.2 ≠ .zero) →
    ∀ map, FastOK C t' map →
      FastOK C t' (arcs.foldl (fun map a => fastArc C a.2 (C.velems a.1) map) map) ∧
      ∀ a s, FG (arcs.foldl (fun map a => fastArc C a.2 (C.velems a.1) map) map) a s ↔
        FG map a s ∨ ArcRel C.vmem arcs a s := by
  induction arcs with
  | nil => intro _ _ map h; simpa [ArcRel] using h
  | cons arc arcs ih =>
    intro h1 h2 map h
    rw [List.foldl_cons]
    obtain ⟨k1, k2⟩ := fastArc_ok hC (h1 arc (by simp)) (h2 arc (by simp)) (C.velems arc.1) map h
    obtain ⟨l1, l2⟩ := ih (fun arc ha => h1 arc (by simp [ha])) (fun arc ha => h2 arc (by simp [ha]))
      _ k1
    refine ⟨l1, fun a s => ?_⟩
    rw [l2, k2, hC.mem_elems]
    unfold ArcRel
    simp only [List.mem_cons, exists_eq_or_imp, or_assoc, eq_comm (a := s)]

theorem fastOperands_sat (hC : C.Lawful) (ht : t.flatNext x = some t') {arcs0 : List (V × SDD V)}
    (xs : List (SDD V))
    (htop : ∀ y ∈ xs, compatible (.flat x arcs0) y ≠ true → L.allow (.top (.flat x arcs0) y)) :
    (∀ y ∈ xs, Dom C t y) → ∀ map, FastOK C t' map →
    L.Sat (fastOperands C (.flat x arcs0) xs map) fun map' => FastOK C t' map' ∧
      (∀ a s, FG map' a s ↔ FG map a s ∨ NodeRel (flatKind C : Kind V m V) C.vmem x xs a s) ∧
      ∀ y ∈ xs, ∃ arcs, y = .flat x arcs := by
  induction xs with
  | nil =>
    intro _ map h
    unfold fastOperands
    exact L.pure' ⟨h, fun a s => by simp [NodeRel], by simp⟩
  | cons y ys ih =>
    intro hdom map h
    have ih := ih (fun y hy => htop y (by simp [hy])) (fun y hy => hdom y (by simp [hy]))
    unfold fastOperands
    by_cases hc : compatible (.flat x arcs0) y = true
    · rw [if_pos hc]
      obtain ⟨arcs, rfl⟩ := (flatKind_view (C := C) (m := m)).compat x arcs0 y hc
      obtain ⟨g1, -, g3⟩ := (flatKind_s (L := L) hC PathRel.trivial ht).node_inv arcs (hdom _ (by simp))
        (SelfIn.trivial _)
      change L.Sat (DDMonad.ord arcs >>= fun arcs => fastOperands C (.flat x arcs0) ys
        (arcs.foldl (fun map a => fastArc C a.2 (C.velems a.1) map) map)) _
      refine L.bind' (L.ord' arcs) ?_
      intro arcs1 hp
      obtain ⟨k1, k2⟩ := fastArcs_ok hC arcs1 (fun a ha => g3 a (hp.mem_iff.1 ha))
        (fun a ha => g1.succNe a (hp.mem_iff.1 ha)) map h
      have hrel : ∀ a s, ArcRel C.vmem arcs1 a s ↔ ArcRel C.vmem arcs a s := by
        intro a s
        simp [ArcRel, hp.mem_iff]
      simp only [hrel] at k2
      refine L.mono' (ih _ k1) ?_
      rintro map' ⟨l1, l2, l3⟩
      refine ⟨l1, fun a s => ?_, ?_⟩
      · rw [l2, k2]
        unfold NodeRel
        constructor
        · rintro ((h | h) | ⟨arcs', h1, h2⟩)
          · exact Or.inl h
          · exact Or.inr ⟨arcs, by simp, h⟩
          · exact Or.inr ⟨arcs', by simp [h1], h2⟩
        · rintro (h | ⟨arcs', h1, h2⟩)
          · exact Or.inl (Or.inl h)
          · rw [List.mem_cons] at h1
            rcases h1 with h1 | h1
            · simp [flatKind] at h1
              subst h1
              exact Or.inl (Or.inr h2)
            · exact Or.inr ⟨arcs', h1, h2⟩
      · intro y hy
        rw [List.mem_cons] at hy
        rcases hy with rfl | hy
        · exact ⟨arcs, rfl⟩
        · exact l3 y hy
    · rw [if_neg hc]
      exact L.raise' (htop y (by simp) hc)

/-- `succ_to_value`. (Specification or proof device, not part of the code.) -/
def FSu (su : List (SDD V × List E)) (a : E) (s : SDD V) : Prop := ∃ l, (s, l) ∈ su ∧ a ∈ l

/-- A well-formed `succ_to_value`. (Specification or proof device, not part of the code.) -/
structure FSuOK (C : Cfg V E) (t' : Ty) (su : List (SDD V × List E)) : Prop where
  sorted : su.Pairwise fun a b => C.lt a.1 b.1 = true
  dom : ∀ e ∈ su, Dom C t' e.1
  succNe : ∀ e ∈ su, e.1 ≠ .zero
  valsNe : ∀ e ∈ su, e.2 ≠ []

theorem fastSquare_sat (hC : C.Lawful) {rec : Op V → m (SDD V)} {Q : List (SDD V) → Prop}
    (map : List (E × List (SDD V))) :
    (∀ e ∈ map, BGood SDD.isZero C.lt (Dom C t') e.2) → (∀ e ∈ map, e.2 ≠ []) →
    (∀ e ∈ map, L.Sat (ddSum rec e.2) fun r => Dom C t' r ∧ (∀ p, Mem C p r ↔ ∃ x ∈ e.2, Mem C p x) ∧ Q e.2) →
    ∀ su, FSuOK C t' su → L.Sat (fastSquare C rec map su) fun su' => FSuOK C t' su' ∧
      (∀ a s, FSu su' a s ↔ FSu su a s ∨ ∃ S, (a, S) ∈ map ∧ IsSum C t' S s) ∧
      ∀ e ∈ map, (∃ s, IsSum C t' e.2 s) ∧ Q e.2 := by
  induction map with
  | nil =>
    intro _ _ _ su hsu
    unfold fastSquare
    exact L.pure' ⟨hsu, fun a s => by simp, by simp⟩
  | cons e map ih =>
    obtain ⟨v, succs⟩ := e
    intro h1 h2 hrec su hsu
    have ih := ih (fun e he => h1 e (by simp [he])) (fun e he => h2 e (by simp [he]))
      (fun e he => hrec e (by simp [he]))
    unfold fastSquare
    refine L.bind' (hrec (v, succs) (by simp)) ?_
    rintro s ⟨hs1, hs2, hs3⟩
    have hsum : IsSum C t' succs s := ⟨hs1, hs2⟩
    have hs0 : s ≠ .zero := by
      obtain ⟨y, l, hl⟩ := List.exists_cons_of_ne_nil (h2 (v, succs) (by simp))
      simp only at hl
      have hy := (h1 (v, succs) (by simp)).ne y (by simp [hl])
      have hyd := (h1 (v, succs) (by simp)).dom y (by simp [hl])
      obtain ⟨p, hp⟩ := hyd.exists_mem (by
        intro h; rw [← isZero_iff, hy] at h; exact absurd h (by simp))
      rintro rfl
      exact not_mem_zero p ((hs2 p).2 ⟨y, by simp [hl], hp⟩)
    have hm := mem_upsert hC.lt_st s [v] (fun b => b ++ [v]) su hsu.sorted
    refine L.mono' (ih _ ⟨upsert_sorted hC.lt_st _ _ _ _ hsu.sorted, ?_, ?_, ?_⟩) ?_
    · rintro ⟨s', b⟩ he
      rw [hm] at he
      rcases he with ⟨rfl, _⟩ | ⟨_, he⟩
      · exact hs1
      · exact hsu.dom _ he
    · rintro ⟨s', b⟩ he
      rw [hm] at he
      rcases he with ⟨rfl, _⟩ | ⟨_, he⟩
      · exact hs0
      · exact hsu.succNe _ he
    · rintro ⟨s', b⟩ he
      rw [hm] at he
      rcases he with ⟨rfl, ⟨b', hb', rfl⟩ | ⟨_, rfl⟩⟩ | ⟨_, he⟩
      · simp
      · simp
      · exact hsu.valsNe _ he
    · rintro su' ⟨k1, k2, k3⟩
      refine ⟨k1, fun a s' => ?_, ?_⟩
      · rw [k2]
        have : FSu (upsert C.lt s [v] (fun b => b ++ [v]) su) a s' ↔
            FSu su a s' ∨ (s' = s ∧ a = v) := by
          unfold FSu
          constructor
          · rintro ⟨l, hl, hal⟩
            rw [hm] at hl
            rcases hl with ⟨rfl, ⟨b', hb', rfl⟩ | ⟨_, rfl⟩⟩ | ⟨_, he⟩
            · simp at hal
              rcases hal with hal | rfl
              · exact Or.inl ⟨b', hb', hal⟩
              · exact Or.inr ⟨rfl, rfl⟩
            · simp at hal
              exact Or.inr ⟨rfl, hal⟩
            · exact Or.inl ⟨l, he, hal⟩
          · rintro (⟨l, hl, hal⟩ | ⟨rfl, rfl⟩)
            · by_cases hss : s' = s
              · subst hss
                exact ⟨_, (hm _ _).2 (Or.inl ⟨rfl, Or.inl ⟨l, hl, rfl⟩⟩), by simp [hal]⟩
              · exact ⟨l, (hm _ _).2 (Or.inr ⟨hss, hl⟩), hal⟩
            · by_cases hex : ∃ b, (s', b) ∈ su
              · obtain ⟨b, hb⟩ := hex
                exact ⟨_, (hm _ _).2 (Or.inl ⟨rfl, Or.inl ⟨b, hb, rfl⟩⟩), by simp⟩
              · rw [not_exists] at hex
                exact ⟨_, (hm _ _).2 (Or.inl ⟨rfl, Or.inr ⟨hex, rfl⟩⟩), by simp⟩
        rw [this]
        constructor
        · rintro ((h | ⟨rfl, rfl⟩) | ⟨S, hS, hS'⟩)
          · exact Or.inl h
          · exact Or.inr ⟨succs, by simp, hsum⟩
          · exact Or.inr ⟨S, by simp [hS], hS'⟩
        · rintro (h | ⟨S, hS, hS'⟩)
          · exact Or.inl (Or.inl h)
          · rw [List.mem_cons] at hS
            rcases hS with hS | hS
            · cases hS
              exact Or.inl (Or.inr ⟨hS'.unique hC hsum, rfl⟩)
            · exact Or.inr ⟨S, hS, hS'⟩
      · intro e he
        rw [List.mem_cons] at he
        rcases he with rfl | he
        · exact ⟨⟨s, hsum⟩, hs3⟩
        · exact k3 e he

theorem fastAlpha_eq (hC : C.Lawful) {su su' : List (SDD V × List E)} (hp : su'.Perm su)
    (hs : su.Pairwise (fun a b => C.lt a.1 b.1 = true)) :
    su'.foldl (fun arcs e => alphaAdd C arcs (C.vbuild e.2) e.1) [] = su.map fun e => (C.vbuild e.2, e.1) := by
  rw [← alphaAdd_foldl_eq hC (hp.map fun e => (C.vbuild e.2, e.1)) (by rw [List.pairwise_map]; exact hs),
    List.foldl_map]

/-- The linear sum of flat nodes. -/
theorem fastWork_sat (hC : C.Lawful) (hfast : C.fast = true) (ht : t.flatNext x = some t')
    {R : Path E → Path E → Prop} (hR : PathRel R) {S : Path E → Prop}
    (hov : C.limit = none ∨ L.allow .overflow) {rec : Op V → m (SDD V)}
    (hrec : ∀ a, RecS C L R (fun q => S (.flat x a q)) B t' rec)
    {arcs0 : List (V × SDD V)} (xs : List (SDD V))
    (htop : ∀ y ∈ xs, compatible (.flat x arcs0) y ≠ true → L.allow (.top (.flat x arcs0) y))
    (hdom0 : Dom C t (.flat x arcs0)) (hdom : ∀ y ∈ xs, Dom C t y)
    (hself : ∀ y ∈ SDD.flat x arcs0 :: xs, SelfIn C R S y) (hB : ∀ n, n ≤ (SDD.flat x arcs0 :: xs).length → B n) :
    L.Sat (fastWork C rec x (.flat x arcs0 :: xs)) fun r => Dom C t r ∧
      (∀ p, Mem C p r ↔ ∃ y ∈ SDD.flat x arcs0 :: xs, Mem C p y) ∧
      ∀ y ∈ SDD.flat x arcs0 :: xs, ∀ z ∈ SDD.flat x arcs0 :: xs, Coh C R y z := by
  unfold fastWork
  simp only
  have hk := flatKind_s (m := m) (L := L) (S := S) hC hR ht
  have hdom' : ∀ y ∈ SDD.flat x arcs0 :: xs, Dom C t y := by
    intro y hy
    rw [List.mem_cons] at hy
    rcases hy with rfl | hy
    · exact hdom0
    · exact hdom y hy
  refine L.bind' (fastOperands_sat hC ht (arcs0 := arcs0) (.flat x arcs0 :: xs) ?_ ?_ []
    ⟨by simp, by simp, by simp⟩) ?_
  · intro y hy
    rw [List.mem_cons] at hy
    rcases hy with rfl | hy
    · simp [compatible]
    · exact htop y hy
  · exact hdom'
  · rintro map ⟨m1, m2, m3⟩
    have m2 : ∀ a s, FG map a s ↔ NodeRel (flatKind C : Kind V m V) C.vmem x
        (.flat x arcs0 :: xs) a s := by
      intro a s; rw [m2]; simp [FG]
    refine L.bind' (fastSquare_sat (Q := fun T => ∀ y ∈ T, ∀ z ∈ T, Coh C R y z) hC map m1.succs m1.succsNe
      (fun e he => ddSum_satS (hrec e.1) (m1.succs e he) (fun s hs => ?_) (hB _ ?_)) []
      ⟨by simp, by simp, by simp, by simp⟩) ?_
    rotate_left
    · refine length_le_of_class (r := fun s y => ∃ arcs, y = SDD.flat x arcs ∧ ArcRel C.vmem arcs e.1 s)
        ((m1.succs e he).sorted.imp fun h => hC.lt_st.ne_of h) (fun s hs => ?_) ?_
      · obtain ⟨arcs, h4, h5⟩ := (m2 e.1 s).1 ⟨e.2, he, hs⟩
        exact ⟨_, h4, arcs, rfl, h5⟩
      · rintro s s' y hy ⟨arcs, rfl, arc, h4, h5, rfl⟩ ⟨arcs', h6, arc', h7, h8, rfl⟩
        cases h6
        rw [(hk.node_inv arcs (hdom' _ hy) (hself _ hy)).1.unique h4 h7 h5 h8]
    rotate_right
    · obtain ⟨arcs, h4, arc, h5, h6, rfl⟩ := (m2 e.1 s).1 ⟨e.2, he, hs⟩
      exact (hk.arcs_in (arcs := arcs) (hdom' _ h4) (hself _ h4)).2 arc h5 e.1 h6
    rintro su ⟨k1, k2, k3⟩
    have k2 : ∀ a s, FSu su a s ↔ ∃ S, (a, S) ∈ map ∧ IsSum C t' S s := by
      intro a s; rw [k2]; simp [FSu]
    refine L.bind' (L.ord' su) ?_
    intro su' hp
    rw [fastAlpha_eq hC hp k1.sorted]
    have hin : ∀ a s, (∃ arc ∈ su.map (fun e => (C.vbuild e.2, e.1)), C.vmem a arc.1 ∧ arc.2 = s) ↔
        FSu su a s := by
      intro a s
      unfold FSu
      constructor
      · rintro ⟨arc, harc, ha, rfl⟩
        rw [List.mem_map] at harc
        obtain ⟨e, he, rfl⟩ := harc
        exact ⟨e.2, he, (hC.mem_build hfast _ _).1 ha⟩
      · rintro ⟨l, hl, ha⟩
        exact ⟨(C.vbuild l, s), List.mem_map.2 ⟨(s, l), hl, rfl⟩,
          (hC.mem_build hfast _ _).2 ha, rfl⟩
    have hfun : ∀ a s s', FSu su a s → FSu su a s' → s = s' := by
      intro a s s' h1 h2
      rw [k2] at h1 h2
      obtain ⟨S, hS, h1⟩ := h1
      obtain ⟨S', hS', h2⟩ := h2
      have : (a, S) = (a, S') := by
        by_contra hne
        have := pairwise_of_mem (r := fun b c : E × List (SDD V) => b.1 ≠ c.1)
          (fun x y h => Ne.symm h) (m1.sorted.imp fun h => hC.elt_st.ne_of h) hS hS' hne
        exact this rfl
      cases this
      exact h1.unique hC h2
    have hmk := mkNode_sat (x := x) hC hk.toKindOK hov (arcs := su.map (fun e => (C.vbuild e.2, e.1)))
      ⟨?_, ?_, ?_, fun _ _ => trivial, ?_⟩ ?_
    · refine L.mono' hmk ?_
      rintro r ⟨hr1, hr2⟩
      refine ⟨hr1, fun p => ?_, fun y hy z hz p p' hp hp' => ?_⟩
      rotate_right
      · obtain ⟨arcs, rfl⟩ := m3 y hy
        obtain ⟨arcs', rfl⟩ := m3 z hz
        obtain ⟨a, q, rfl, arc, h1, h2, h3⟩ := (hk.node_mem arcs p).1 hp
        obtain ⟨b, q', rfl, arc', h1', h2', h3'⟩ := (hk.node_mem arcs' p').1 hp'
        refine (hk.rel_cons _ _ _ _).2 ⟨True.intro, ?_⟩
        rintro rfl
        obtain ⟨T, hT, hs⟩ := (m2 a arc.2).2 ⟨arcs, hy, arc, h1, h2, rfl⟩
        obtain ⟨T', hT', hs'⟩ := (m2 a arc'.2).2 ⟨arcs', hz, arc', h1', h2', rfl⟩
        have : (a, T) = (a, T') := by
          by_contra hne
          exact pairwise_of_mem (r := fun b c : E × List (SDD V) => b.1 ≠ c.1)
            (fun x y h => Ne.symm h) (m1.sorted.imp fun h => hC.elt_st.ne_of h) hT hT' hne rfl
        cases this
        exact (k3 _ hT).2 _ hs _ hs' q q' h3 h3'
      rw [hr2]
      constructor
      · rintro ⟨a, q, rfl, arc, harc, ha, hq⟩
        have := (hin a arc.2).1 ⟨arc, harc, ha, rfl⟩
        rw [k2] at this
        obtain ⟨S, hS, hsum⟩ := this
        obtain ⟨s, hs, hqs⟩ := (hsum.mem q).1 hq
        obtain ⟨arcs, h1, arc', h2, h3, rfl⟩ := (m2 a s).1 ⟨S, hS, hs⟩
        exact ⟨.flat x arcs, h1, (hk.node_mem arcs _).2 ⟨a, q, rfl, arc', h2, h3, hqs⟩⟩
      · rintro ⟨y, hy, hp⟩
        obtain ⟨arcs, rfl⟩ := m3 y hy
        obtain ⟨a, q, rfl, arc, h1, h2, h3⟩ := (hk.node_mem arcs p).1 hp
        obtain ⟨S, hS, hs⟩ := (m2 a arc.2).2 ⟨arcs, hy, arc, h1, h2, rfl⟩
        obtain ⟨⟨s, hsum⟩, -⟩ := k3 _ hS
        obtain ⟨arc', ha1, ha2, rfl⟩ := (hin a s).2 ((k2 a s).2 ⟨S, hS, hsum⟩)
        exact ⟨a, q, rfl, arc', ha1, ha2, (hsum.mem q).2 ⟨_, hs, h3⟩⟩
    · rw [List.pairwise_map]
      exact k1.sorted
    · intro e he
      rw [List.mem_map] at he
      obtain ⟨e, he, rfl⟩ := he
      exact k1.dom e he
    · intro e he
      rw [List.mem_map] at he
      obtain ⟨e, he, rfl⟩ := he
      exact k1.succNe e he
    · intro e he
      rw [List.mem_map] at he
      obtain ⟨e, he, rfl⟩ := he
      obtain ⟨a, l, hl⟩ := List.exists_cons_of_ne_nil (k1.valsNe e he)
      exact ⟨a, (hC.mem_build hfast _ _).2 (by simp [hl])⟩
    · intro a b hb c hc hab hac
      exact hfun a _ _ ((hin a b.2).1 ⟨b, hb, hab, rfl⟩) ((hin a c.2).1 ⟨c, hc, hac, rfl⟩)

end
end Verif
