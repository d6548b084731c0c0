import Verif.DD.SumCorrect
/-!
# Correctness of the intersection and of the difference
-/

set_option autoImplicit false
set_option linter.unusedSectionVars false

namespace Verif

section
variable {V E : Type} {m : Type → Type} [DecidableEq V] [DDMonad V m] {A α : Type} [DecidableEq α]
variable {C : Cfg V E} {L : Logic V m} {t t' : Ty} {x : Nat} {k : Kind V m α}
  {memV : A → α → Prop} {D : α → Prop} {cons : A → Path E → Path E} {rec : Op V → m (SDD V)}
  {R : Path E → Path E → Prop} {S : Path E → Prop} {K : A → A → Prop} {B : Nat → Prop}

/-- `s` is the non-empty intersection of two successors. (Specification or proof device, not part of the code.) -/
structure IsInter (C : Cfg V E) (t' : Ty) (s1 s2 s : SDD V) : Prop where
  dom : Dom C t' s
  ne : s ≠ .zero
  mem : ∀ p, Mem C p s ↔ Mem C p s1 ∧ Mem C p s2

theorem IsInter.unique (hC : C.Lawful) {s1 s2 s s' : SDD V}
    (h : IsInter C t' s1 s2 s) (h' : IsInter C t' s1 s2 s') : s = s' :=
  canonical_ext hC h.dom.wf h'.dom.wf fun p => by rw [h.mem, h'.mem]

/-- `s` is the non-empty difference of two successors. (Specification or proof device, not part of the code.) -/
structure IsDiff (C : Cfg V E) (t' : Ty) (s1 s2 s : SDD V) : Prop where
  dom : Dom C t' s
  ne : s ≠ .zero
  mem : ∀ p, Mem C p s ↔ Mem C p s1 ∧ ¬ Mem C p s2

theorem IsDiff.unique (hC : C.Lawful) {s1 s2 s s' : SDD V}
    (h : IsDiff C t' s1 s2 s) (h' : IsDiff C t' s1 s2 s') : s = s' :=
  canonical_ext hC h.dom.wf h'.dom.wf fun p => by rw [h.mem, h'.mem]

theorem interArc_sat (hC : C.Lawful) (hk : KindS C L R S t t' x k memV D K cons)
    {Q : SDD V → SDD V → Prop} {lval : α} {lsucc : SDD V} (hl1 : D lval)
    (rhs : List (α × SDD V)) :
    (∀ arc ∈ rhs, D arc.1) →
    (∀ r ∈ rhs, ∀ a, memV a lval → memV a r.1 →
      L.Sat (ddInter rec (interAdd SDD.isZero C.lt (interAdd SDD.isZero C.lt {} lsucc) r.2)) fun s =>
        Dom C t' s ∧ (∀ p, Mem C p s ↔ Mem C p lsucc ∧ Mem C p r.2) ∧ Q lsucc r.2) →
    ∀ su, SuOK C t' k D su →
    L.Sat (interArc C k rec lval lsucc rhs su) fun su' => SuOK C t' k D su' ∧
      (∀ a s, SuMem memV su' a s → SuMem memV su a s ∨
        ∃ r ∈ rhs, memV a lval ∧ memV a r.1 ∧ IsInter C t' lsucc r.2 s) ∧
      (∀ a s, SuMem memV su a s → SuMem memV su' a s) ∧
      (∀ r ∈ rhs, ∀ a, memV a lval → memV a r.1 → (∃ p, Mem C p lsucc ∧ Mem C p r.2) →
        ∃ s, SuMem memV su' a s ∧ IsInter C t' lsucc r.2 s) ∧
      (∀ r ∈ rhs, (∀ a b, memV a lval → memV b r.1 → K a b) ∧
        ∀ a, memV a lval → memV a r.1 → Q lsucc r.2) ∧
      (SuDisj memV su → (rhs.Pairwise fun b c => ∀ a, ¬ (memV a b.1 ∧ memV a c.1)) →
        (∀ a s, SuMem memV su a s → memV a lval → ∀ r ∈ rhs, ¬ memV a r.1) → SuDisj memV su') := by
  induction rhs with
  | nil =>
    intro _ _ su hsu
    unfold interArc
    exact L.pure' ⟨hsu, fun a s h => Or.inl h, fun a s h => h, by simp, by simp, fun h _ _ => h⟩
  | cons arc rhs ih =>
    obtain ⟨rval, rsucc⟩ := arc
    intro h1 h2 su hsu
    have ih := ih (fun arc ha => h1 arc (by simp [ha])) (fun arc ha => h2 arc (by simp [ha]))
    have hr1 : D rval := h1 (rval, rsucc) (by simp)
    unfold interArc
    refine L.bind' (hk.inter2 lval rval hl1 hr1) ?_
    rintro v ⟨hv1, hv2, hv3⟩
    split
    · rename_i hve
      rw [hk.isEmpty_iff _ hv1] at hve
      refine L.mono' (ih su hsu) ?_
      rintro su' ⟨k1, k2, k3, k4, k5, k6⟩
      refine ⟨k1, fun a s h => ?_, k3, ?_, ?_, fun h3 h4 h5 =>
        k6 h3 (List.pairwise_cons.1 h4).2 fun a s hm ha r hr => h5 a s hm ha r (by simp [hr])⟩
      rotate_right
      · intro r hr
        rw [List.mem_cons] at hr
        rcases hr with rfl | hr
        · exact ⟨hv3, fun a ha1 ha2 => absurd ((hv2 a).2 ⟨ha1, ha2⟩) (hve a)⟩
        · exact k5 r hr
      · rcases k2 a s h with h | ⟨r, hr, h⟩
        · exact Or.inl h
        · exact Or.inr ⟨r, by simp [hr], h⟩
      · intro r hr a ha1 ha2 hp
        rw [List.mem_cons] at hr
        rcases hr with rfl | hr
        · exact absurd ((hv2 a).2 ⟨ha1, ha2⟩) (hve a)
        · exact k4 r hr a ha1 ha2 hp
    · rename_i hve
      rw [Bool.not_eq_true] at hve
      obtain ⟨a0, ha0⟩ := (hk.isEmpty_false hv1).1 hve
      refine L.bind' (h2 (rval, rsucc) (by simp) a0 ((hv2 a0).1 ha0).1 ((hv2 a0).1 ha0).2) ?_
      rintro s ⟨hs1, hs2, hs3⟩
      simp only at hs2 hs3
      split
      · rename_i hse
        rw [isZero_iff] at hse
        refine L.mono' (ih su hsu) ?_
        rintro su' ⟨k1, k2, k3, k4, k5, k6⟩
        refine ⟨k1, fun a s h => ?_, k3, ?_, ?_, fun h3 h4 h5 =>
          k6 h3 (List.pairwise_cons.1 h4).2 fun a s hm ha r hr => h5 a s hm ha r (by simp [hr])⟩
        rotate_right
        · intro r hr
          rw [List.mem_cons] at hr
          rcases hr with rfl | hr
          · exact ⟨hv3, fun _ _ _ => hs3⟩
          · exact k5 r hr
        · rcases k2 a s h with h | ⟨r, hr, h⟩
          · exact Or.inl h
          · exact Or.inr ⟨r, by simp [hr], h⟩
        · intro r hr a ha1 ha2 hp
          rw [List.mem_cons] at hr
          rcases hr with rfl | hr
          · obtain ⟨p, hp⟩ := hp
            have := (hs2 p).2 hp
            rw [hse] at this
            exact absurd this (not_mem_zero p)
          · exact k4 r hr a ha1 ha2 hp
      · rename_i hse
        rw [isZero_iff] at hse
        refine L.mono' (ih (suAdd C k su s v) (hsu.add hC hk.toKindOK hs1 hse hv1 hve)) ?_
        rintro su' ⟨k1, k2, k3, k4, k5, k6⟩
        have hadd := suMem_add (s := s) hC hk.toKindOK hsu hve
        refine ⟨k1, fun a s' h => ?_, fun a s' h => ?_, ?_, ?_, fun h3 h4 h5 => ?_⟩
        rotate_right
        · rw [List.pairwise_cons] at h4
          refine k6 (h3.add hC hk.toKindOK hsu fun a ha hm =>
            h5 a s hm ((hv2 a).1 ha).1 (rval, rsucc) (by simp) ((hv2 a).1 ha).2) h4.2 fun a s' hm ha r hr har => ?_
          rw [hadd] at hm
          rcases hm with hm | ⟨_, hm⟩
          · exact h5 a s' hm ha r (by simp [hr]) har
          · exact h4.1 r hr a ⟨((hv2 a).1 hm).2, har⟩
        rotate_right
        · intro r hr
          rw [List.mem_cons] at hr
          rcases hr with rfl | hr
          · exact ⟨hv3, fun _ _ _ => hs3⟩
          · exact k5 r hr
        · rcases k2 a s' h with h | ⟨r, hr, h⟩
          · rw [hadd] at h
            rcases h with h | ⟨rfl, h⟩
            · exact Or.inl h
            · obtain ⟨h3, h4⟩ := (hv2 a).1 h
              exact Or.inr ⟨(rval, rsucc), by simp, h3, h4, hs1, hse, hs2⟩
          · exact Or.inr ⟨r, by simp [hr], h⟩
        · exact k3 a s' ((hadd a s').2 (Or.inl h))
        · intro r hr a ha1 ha2 hp
          rw [List.mem_cons] at hr
          rcases hr with rfl | hr
          · exact ⟨s, k3 a s ((hadd a s).2 (Or.inr ⟨rfl, (hv2 a).2 ⟨ha1, ha2⟩⟩)), hs1, hse, hs2⟩
          · exact k4 r hr a ha1 ha2 hp

theorem interArcs_sat (hC : C.Lawful) (hk : KindS C L R S t t' x k memV D K cons)
    {Q : SDD V → SDD V → Prop} {rhs : List (α × SDD V)}
    (hr1 : ∀ arc ∈ rhs, D arc.1) (lhs : List (α × SDD V)) :
    (∀ arc ∈ lhs, D arc.1) →
    (∀ l ∈ lhs, ∀ r ∈ rhs, ∀ a, memV a l.1 → memV a r.1 →
      L.Sat (ddInter rec (interAdd SDD.isZero C.lt (interAdd SDD.isZero C.lt {} l.2) r.2)) fun s =>
        Dom C t' s ∧ (∀ p, Mem C p s ↔ Mem C p l.2 ∧ Mem C p r.2) ∧ Q l.2 r.2) →
    ∀ su, SuOK C t' k D su →
    L.Sat (interArcs C k rec rhs lhs su) fun su' => SuOK C t' k D su' ∧
      (∀ a s, SuMem memV su' a s → SuMem memV su a s ∨
        ∃ l ∈ lhs, ∃ r ∈ rhs, memV a l.1 ∧ memV a r.1 ∧ IsInter C t' l.2 r.2 s) ∧
      (∀ a s, SuMem memV su a s → SuMem memV su' a s) ∧
      (∀ l ∈ lhs, ∀ r ∈ rhs, ∀ a, memV a l.1 → memV a r.1 → (∃ p, Mem C p l.2 ∧ Mem C p r.2) →
        ∃ s, SuMem memV su' a s ∧ IsInter C t' l.2 r.2 s) ∧
      (∀ l ∈ lhs, ∀ r ∈ rhs, (∀ a b, memV a l.1 → memV b r.1 → K a b) ∧
        ∀ a, memV a l.1 → memV a r.1 → Q l.2 r.2) ∧
      (SuDisj memV su → (lhs.Pairwise fun b c => ∀ a, ¬ (memV a b.1 ∧ memV a c.1)) →
        (rhs.Pairwise fun b c => ∀ a, ¬ (memV a b.1 ∧ memV a c.1)) →
        (∀ a s, SuMem memV su a s → ∀ l ∈ lhs, memV a l.1 → ∀ r ∈ rhs, ¬ memV a r.1) → SuDisj memV su') := by
  induction lhs with
  | nil =>
    intro _ _ su hsu
    unfold interArcs
    exact L.pure' ⟨hsu, fun a s h => Or.inl h, fun a s h => h, by simp, by simp, fun h _ _ _ => h⟩
  | cons arc lhs ih =>
    obtain ⟨lval, lsucc⟩ := arc
    intro h1 h2 su hsu
    have ih := ih (fun arc ha => h1 arc (by simp [ha])) (fun arc ha => h2 arc (by simp [ha]))
    unfold interArcs
    refine L.bind' (interArc_sat hC hk (h1 (lval, lsucc) (by simp)) rhs hr1
      (h2 (lval, lsucc) (by simp)) su hsu) ?_
    rintro su1 ⟨k1, k2, k3, k4, k5, k6⟩
    refine L.mono' (ih su1 k1) ?_
    rintro su' ⟨l1, l2, l3, l4, l5, l6⟩
    refine ⟨l1, fun a s h => ?_, fun a s h => l3 a s (k3 a s h), ?_, ?_, fun h3 h4 h5 h6 => ?_⟩
    rotate_right
    · rw [List.pairwise_cons] at h4
      refine l6 (k6 h3 h5 fun a s hm ha => h6 a s hm (lval, lsucc) (by simp) ha) h4.2 h5 fun a s hm l hl ha r hr har => ?_
      rcases k2 a s hm with hm | ⟨_, _, hm, _⟩
      · exact h6 a s hm l (by simp [hl]) ha r hr har
      · exact h4.1 l hl a ⟨hm, ha⟩
    rotate_right
    · intro l hl
      rw [List.mem_cons] at hl
      rcases hl with rfl | hl
      · exact k5
      · exact l5 l hl
    · rcases l2 a s h with h | ⟨l, hl, r, hr, h⟩
      · rcases k2 a s h with h | ⟨r, hr, h⟩
        · exact Or.inl h
        · exact Or.inr ⟨(lval, lsucc), by simp, r, hr, h⟩
      · exact Or.inr ⟨l, by simp [hl], r, hr, h⟩
    · intro l hl r hr a ha1 ha2 hp
      rw [List.mem_cons] at hl
      rcases hl with rfl | hl
      · obtain ⟨s, hs, hs'⟩ := k4 r hr a ha1 ha2 hp
        exact ⟨s, l3 a s hs, hs'⟩
      · exact l4 l hl r hr a ha1 ha2 hp

/-- The intersection of two nodes of the same kind and variable. -/
theorem interWork_sat (hC : C.Lawful) (hk : KindS C L R S t t' x k memV D K cons) (hv : ViewOK k)
    (hov : C.limit = none ∨ L.allow .overflow)
    (hrec : ∀ a, RecS C L R (fun q => S (cons a q)) B t' rec) (hB : ∀ n, n ≤ 2 → B n) (xs : List (SDD V)) :
    ∀ (arcs0 : List (α × SDD V)),
    (∀ arcs, ∀ y ∈ xs, Dom C t (k.node x arcs) → SelfIn C R S (k.node x arcs) →
      compatible (k.node x arcs) y ≠ true → L.allow (.top (k.node x arcs) y)) →
    Dom C t (k.node x arcs0) → (∀ y ∈ xs, Dom C t y) →
    (∀ y ∈ k.node x arcs0 :: xs, SelfIn C R S y) →
    L.Sat (interWork C k rec x (k.node x arcs0) xs) fun r => Dom C t r ∧
      (∀ p, Mem C p r ↔ ∀ y ∈ k.node x arcs0 :: xs, Mem C p y) ∧
      PrefixRel C R (k.node x arcs0 :: xs) := by
  induction xs with
  | nil =>
    intro arcs0 _ h _ _
    unfold interWork
    exact L.pure' ⟨h, fun p => by simp, .one _⟩
  | cons y ys ih =>
    intro arcs0 htop h0 hdom hself
    unfold interWork
    by_cases hc : compatible (k.node x arcs0) y = true
    · rw [if_pos hc]
      obtain ⟨arcs, rfl⟩ := hv.compat _ _ _ hc
      rw [hv.view_node, hv.view_node]
      simp only
      obtain ⟨g1, g2, g3⟩ := hk.node_inv arcs0 h0 (hself _ (by simp))
      obtain ⟨g1', g2', g3'⟩ := hk.node_inv arcs (hdom _ (by simp)) (hself _ (by simp))
      obtain ⟨-, g5⟩ := hk.arcs_in h0 (hself _ (by simp))
      obtain ⟨-, g5'⟩ := hk.arcs_in (arcs := arcs) (hdom _ (by simp)) (hself _ (by simp))
      refine L.bind' (L.ord' arcs0) ?_
      intro lhs hp1
      refine L.bind' (L.ord' arcs) ?_
      intro rhs hp2
      refine L.bind' (interArcs_sat (Q := Coh C R) hC hk (fun r hr => g2' r (hp2.mem_iff.1 hr)) lhs
        (fun l hl => g2 l (hp1.mem_iff.1 hl)) (fun l hl r hr a ha hb =>
          opInter2_satS hC (hrec a) (g3 l (hp1.mem_iff.1 hl)) (g3' r (hp2.mem_iff.1 hr)) (g5 l (hp1.mem_iff.1 hl) a ha)
            (g5' r (hp2.mem_iff.1 hr) a hb) hB) [] SuOK.nil) ?_
      simp only [hp1.mem_iff, hp2.mem_iff]
      rintro su ⟨k1, k2, _, k4, k5, k6⟩
      have hcoh : Coh C R (k.node x arcs0) (k.node x arcs) := by
        intro p p' hp hp'
        obtain ⟨a, q, rfl, l, hl, hal, hql⟩ := (hk.node_mem _ _).1 hp
        obtain ⟨b, q', rfl, r, hr, hbr, hqr⟩ := (hk.node_mem _ _).1 hp'
        refine (hk.rel_cons _ _ _ _).2 ⟨(k5 l hl r hr).1 a b hal hbr, ?_⟩
        rintro rfl
        exact (k5 l hl r hr).2 a hal hbr q q' hql hqr
      have k2 : ∀ a s, SuMem memV su a s →
          ∃ l ∈ arcs0, ∃ r ∈ arcs, memV a l.1 ∧ memV a r.1 ∧ IsInter C t' l.2 r.2 s := by
        intro a s h
        rcases k2 a s h with h | h
        · simp [SuMem] at h
        · exact h
      have hmem : ∀ p, (Mem C p (k.node x arcs0) ∧ Mem C p (k.node x arcs)) ↔
          ∃ a q, p = cons a q ∧ ∃ s, SuMem memV su a s ∧ Mem C q s := by
        intro p
        rw [hk.node_mem, hk.node_mem]
        constructor
        · rintro ⟨⟨a, q, rfl, l, hl, hal, hql⟩, ⟨a', q', heq, r, hr, har, hqr⟩⟩
          obtain ⟨rfl, rfl⟩ := hk.cons_inj _ _ _ _ heq
          obtain ⟨s, hs1, hs2⟩ := k4 l hl r hr a hal har ⟨q, hql, hqr⟩
          exact ⟨a, q, rfl, s, hs1, (hs2.mem q).2 ⟨hql, hqr⟩⟩
        · rintro ⟨a, q, rfl, s, hs, hq⟩
          obtain ⟨l, hl, r, hr, hal, har, hi⟩ := k2 a s hs
          obtain ⟨hql, hqr⟩ := (hi.mem q).1 hq
          exact ⟨⟨a, q, rfl, l, hl, hal, hql⟩, ⟨a, q, rfl, r, hr, har, hqr⟩⟩
      by_cases hsu : su = []
      · rw [hsu, if_pos (by simp)]
        refine L.pure' ⟨.zero _, fun p => ?_, PrefixRel.cons hcoh (.zero ys) fun p h1 h2 => ?_⟩
        rotate_left
        · obtain ⟨a, q, _, s, hs, _⟩ := (hmem p).1 ⟨h1, h2⟩
          rw [hsu] at hs
          simp [SuMem] at hs
        constructor
        · intro hp; exact absurd hp (not_mem_zero p)
        · intro hp
          have := (hmem p).1 ⟨hp _ (by simp), hp _ (by simp)⟩
          rw [hsu] at this
          obtain ⟨a, q, _, s, hs, _⟩ := this
          simp [SuMem] at hs
      · rw [if_neg (by simpa using hsu)]
        have hfun : ∀ a s s', SuMem memV su a s → SuMem memV su a s' → s = s' := by
          intro a s s' h1 h2
          obtain ⟨l, hl, r, hr, hal, har, hi⟩ := k2 a s h1
          obtain ⟨l', hl', r', hr', hal', har', hi'⟩ := k2 a s' h2
          have := g1.unique hl hl' hal hal'
          subst this
          have := g1'.unique hr hr' har har'
          subst this
          exact hi.unique hC hi'
        refine L.bind' (suEnd_sat hC hk.toKindOK k1 (k6 .nil (g1.disj_perm hp1) (g1'.disj_perm hp2) (by simp [SuMem]))) ?_
        rintro alpha ⟨h1, h2, h3⟩
        have hane : alpha ≠ [] := by
          intro ha
          rw [ha] at h3
          simp at h3
          exact hsu (by simpa using h3.symm)
        have hmk : L.Sat (mkNode C k.node x alpha : m (SDD V)) fun r => r = k.node x alpha ∧
            Dom C t r := by
          have hg : GoodArcs C memV alpha := by
            refine ⟨hane, h1.valNe, h1.succNe, ?_, h1.sorted⟩
            have hs := h1.sorted
            rw [List.pairwise_iff_forall_sublist] at hs ⊢
            intro b c hbc a hab
            have hm := hbc.subset
            have heq := hfun a _ _ ((h2 a b.2).1 ⟨b, hm (by simp), hab.1, rfl⟩)
              ((h2 a c.2).1 ⟨c, hm (by simp), hab.2, rfl⟩)
            have := hs hbc
            rw [heq, hC.lt_st.irrefl] at this
            exact absurd this (by simp)
          unfold mkNode
          rw [if_neg (by simpa using hane)]
          split
          · rename_i hl
            rcases hov with hov | hov
            · rw [hov] at hl; simp [tooMany] at hl
            · exact L.raise' hov
          · exact L.pure' ⟨rfl, hk.node_dom alpha hg h1.vals h1.dom⟩
        refine L.bind' hmk ?_
        rintro res ⟨rfl, hres⟩
        have hal : ∀ p, Mem C p (k.node x alpha) ↔
            (Mem C p (k.node x arcs0) ∧ Mem C p (k.node x arcs)) := by
          intro p
          rw [hmem, hk.node_mem]
          constructor
          · rintro ⟨a, q, rfl, arc, ha, hm, hq⟩
            exact ⟨a, q, rfl, arc.2, (h2 a _).1 ⟨arc, ha, hm, rfl⟩, hq⟩
          · rintro ⟨a, q, rfl, s, hs, hq⟩
            obtain ⟨arc, ha, hm, rfl⟩ := (h2 a s).2 hs
            exact ⟨a, q, rfl, arc, ha, hm, hq⟩
        refine L.mono' (ih alpha (fun arcs y hy => htop arcs y (by simp [hy])) hres
          (fun y hy => hdom y (by simp [hy])) ?_) ?_
        · intro z hz
          rw [List.mem_cons] at hz
          rcases hz with rfl | hz
          · exact (hself _ (by simp)).mono fun p hp => ((hal p).1 hp).1
          · exact hself z (by simp [hz])
        rintro r ⟨hr1, hr2, hr3⟩
        refine ⟨hr1, fun p => ?_, PrefixRel.cons hcoh hr3 fun p h1 h2 => (hal p).2 ⟨h1, h2⟩⟩
        rw [hr2]
        simp only [List.mem_cons, forall_eq_or_imp, hal p, and_assoc]
    · rw [if_neg hc]
      exact L.raise' (htop arcs0 y (by simp) h0 (hself _ (by simp)) hc)

theorem diffFirst_sat (hC : C.Lawful) (hk : KindS C L R S t t' x k memV D K cons)
    {un : α} (hun : D un) (lhs : List (α × SDD V)) :
    (∀ arc ∈ lhs, D arc.1) → (∀ arc ∈ lhs, Dom C t' arc.2) → (∀ arc ∈ lhs, arc.2 ≠ .zero) →
    ∀ su, SuOK C t' k D su →
    L.Sat (diffFirst C k un lhs su) fun su' => SuOK C t' k D su' ∧
      (∀ a s, SuMem memV su' a s ↔ SuMem memV su a s ∨
        ∃ l ∈ lhs, memV a l.1 ∧ ¬ memV a un ∧ s = l.2) ∧
      (SuDisj memV su → (lhs.Pairwise fun b c => ∀ a, ¬ (memV a b.1 ∧ memV a c.1)) →
        (∀ a s, SuMem memV su a s → ∀ l ∈ lhs, memV a l.1 → memV a un) → SuDisj memV su') := by
  induction lhs with
  | nil =>
    intro _ _ _ su hsu
    unfold diffFirst
    exact L.pure' ⟨hsu, fun a s => by simp, fun h _ _ => h⟩
  | cons arc lhs ih =>
    obtain ⟨val, succ⟩ := arc
    intro h1 h2 h3 su hsu
    have ih := ih (fun arc ha => h1 arc (by simp [ha])) (fun arc ha => h2 arc (by simp [ha]))
      (fun arc ha => h3 arc (by simp [ha]))
    unfold diffFirst
    refine L.bind' (hk.diff val un (h1 (val, succ) (by simp)) hun) ?_
    rintro v ⟨hv1, hv2⟩
    split
    · rename_i hve
      rw [hk.isEmpty_iff _ hv1] at hve
      refine L.mono' (ih su hsu) ?_
      rintro su' ⟨k1, k2, k3⟩
      refine ⟨k1, fun a s => ?_, fun h4 h5 h6 =>
        k3 h4 (List.pairwise_cons.1 h5).2 fun a s hm l hl => h6 a s hm l (by simp [hl])⟩
      rw [k2]
      constructor
      · rintro (h | ⟨l, hl, h⟩)
        · exact Or.inl h
        · exact Or.inr ⟨l, by simp [hl], h⟩
      · rintro (h | ⟨l, hl, h⟩)
        · exact Or.inl h
        · rw [List.mem_cons] at hl
          rcases hl with rfl | hl
          · exact absurd ((hv2 a).2 ⟨h.1, h.2.1⟩) (hve a)
          · exact Or.inr ⟨l, hl, h⟩
    · rename_i hve
      rw [Bool.not_eq_true] at hve
      refine L.mono' (ih _ (hsu.add hC hk.toKindOK (h2 (val, succ) (by simp)) (h3 (val, succ) (by simp))
        hv1 hve)) ?_
      rintro su' ⟨k1, k2, k3⟩
      refine ⟨k1, fun a s => ?_, fun h4 h5 h6 => ?_⟩
      rotate_left
      · rw [List.pairwise_cons] at h5
        refine k3 (h4.add hC hk.toKindOK hsu fun a ha hm =>
          ((hv2 a).1 ha).2 (h6 a succ hm (val, succ) (by simp) ((hv2 a).1 ha).1)) h5.2 fun a s hm l hl ha => ?_
        rw [suMem_add hC hk.toKindOK hsu hve] at hm
        rcases hm with hm | ⟨_, hm⟩
        · exact h6 a s hm l (by simp [hl]) ha
        · exact absurd ⟨((hv2 a).1 hm).1, ha⟩ (h5.1 l hl a)
      rw [k2, suMem_add hC hk.toKindOK hsu hve]
      constructor
      · rintro ((h | ⟨rfl, h⟩) | ⟨l, hl, h⟩)
        · exact Or.inl h
        · obtain ⟨h4, h5⟩ := (hv2 a).1 h
          exact Or.inr ⟨(val, s), by simp, h4, h5, rfl⟩
        · exact Or.inr ⟨l, by simp [hl], h⟩
      · rintro (h | ⟨l, hl, h⟩)
        · exact Or.inl (Or.inl h)
        · rw [List.mem_cons] at hl
          rcases hl with rfl | hl
          · exact Or.inl (Or.inr ⟨h.2.2, (hv2 a).2 ⟨h.1, h.2.1⟩⟩)
          · exact Or.inr ⟨l, hl, h⟩

theorem diffArc_sat (hC : C.Lawful) (hk : KindS C L R S t t' x k memV D K cons)
    {Q : SDD V → SDD V → Prop} {lval : α} {lsucc : SDD V} (hl1 : D lval)
    (rhs : List (α × SDD V)) :
    (∀ arc ∈ rhs, D arc.1) →
    (∀ r ∈ rhs, ∀ a, memV a lval → memV a r.1 →
      L.Sat (ddDiff rec lsucc r.2) fun s =>
        Dom C t' s ∧ (∀ p, Mem C p s ↔ Mem C p lsucc ∧ ¬ Mem C p r.2) ∧ Q lsucc r.2) →
    ∀ su, SuOK C t' k D su →
    L.Sat (diffArc C k rec lval lsucc rhs su) fun su' => SuOK C t' k D su' ∧
      (∀ a s, SuMem memV su' a s → SuMem memV su a s ∨
        ∃ r ∈ rhs, memV a lval ∧ memV a r.1 ∧ IsDiff C t' lsucc r.2 s) ∧
      (∀ a s, SuMem memV su a s → SuMem memV su' a s) ∧
      (∀ r ∈ rhs, ∀ a, memV a lval → memV a r.1 → (∃ p, Mem C p lsucc ∧ ¬ Mem C p r.2) →
        ∃ s, SuMem memV su' a s ∧ IsDiff C t' lsucc r.2 s) ∧
      (∀ r ∈ rhs, (∀ a b, memV a lval → memV b r.1 → K a b) ∧
        ∀ a, memV a lval → memV a r.1 → Q lsucc r.2) ∧
      (SuDisj memV su → (rhs.Pairwise fun b c => ∀ a, ¬ (memV a b.1 ∧ memV a c.1)) →
        (∀ a s, SuMem memV su a s → memV a lval → ∀ r ∈ rhs, ¬ memV a r.1) → SuDisj memV su') := by
  induction rhs with
  | nil =>
    intro _ _ su hsu
    unfold diffArc
    exact L.pure' ⟨hsu, fun a s h => Or.inl h, fun a s h => h, by simp, by simp, fun h _ _ => h⟩
  | cons arc rhs ih =>
    obtain ⟨rval, rsucc⟩ := arc
    intro h1 h2 su hsu
    have ih := ih (fun arc ha => h1 arc (by simp [ha])) (fun arc ha => h2 arc (by simp [ha]))
    have hr1 : D rval := h1 (rval, rsucc) (by simp)
    unfold diffArc
    refine L.bind' (hk.inter2 lval rval hl1 hr1) ?_
    rintro v ⟨hv1, hv2, hv3⟩
    split
    · rename_i hve
      rw [hk.isEmpty_iff _ hv1] at hve
      refine L.mono' (ih su hsu) ?_
      rintro su' ⟨k1, k2, k3, k4, k5, k6⟩
      refine ⟨k1, fun a s h => ?_, k3, ?_, ?_, fun h3 h4 h5 =>
        k6 h3 (List.pairwise_cons.1 h4).2 fun a s hm ha r hr => h5 a s hm ha r (by simp [hr])⟩
      rotate_right
      · intro r hr
        rw [List.mem_cons] at hr
        rcases hr with rfl | hr
        · exact ⟨hv3, fun a ha1 ha2 => absurd ((hv2 a).2 ⟨ha1, ha2⟩) (hve a)⟩
        · exact k5 r hr
      · rcases k2 a s h with h | ⟨r, hr, h⟩
        · exact Or.inl h
        · exact Or.inr ⟨r, by simp [hr], h⟩
      · intro r hr a ha1 ha2 hp
        rw [List.mem_cons] at hr
        rcases hr with rfl | hr
        · exact absurd ((hv2 a).2 ⟨ha1, ha2⟩) (hve a)
        · exact k4 r hr a ha1 ha2 hp
    · rename_i hve
      rw [Bool.not_eq_true] at hve
      obtain ⟨a0, ha0⟩ := (hk.isEmpty_false hv1).1 hve
      refine L.bind' (h2 (rval, rsucc) (by simp) a0 ((hv2 a0).1 ha0).1 ((hv2 a0).1 ha0).2) ?_
      rintro s ⟨hs1, hs2, hs3⟩
      simp only at hs2 hs3
      split
      · rename_i hse
        rw [isZero_iff] at hse
        refine L.mono' (ih su hsu) ?_
        rintro su' ⟨k1, k2, k3, k4, k5, k6⟩
        refine ⟨k1, fun a s h => ?_, k3, ?_, ?_, fun h3 h4 h5 =>
          k6 h3 (List.pairwise_cons.1 h4).2 fun a s hm ha r hr => h5 a s hm ha r (by simp [hr])⟩
        rotate_right
        · intro r hr
          rw [List.mem_cons] at hr
          rcases hr with rfl | hr
          · exact ⟨hv3, fun _ _ _ => hs3⟩
          · exact k5 r hr
        · rcases k2 a s h with h | ⟨r, hr, h⟩
          · exact Or.inl h
          · exact Or.inr ⟨r, by simp [hr], h⟩
        · intro r hr a ha1 ha2 hp
          rw [List.mem_cons] at hr
          rcases hr with rfl | hr
          · obtain ⟨p, hp⟩ := hp
            have := (hs2 p).2 hp
            rw [hse] at this
            exact absurd this (not_mem_zero p)
          · exact k4 r hr a ha1 ha2 hp
      · rename_i hse
        rw [isZero_iff] at hse
        refine L.mono' (ih (suAdd C k su s v) (hsu.add hC hk.toKindOK hs1 hse hv1 hve)) ?_
        rintro su' ⟨k1, k2, k3, k4, k5, k6⟩
        have hadd := suMem_add (s := s) hC hk.toKindOK hsu hve
        refine ⟨k1, fun a s' h => ?_, fun a s' h => ?_, ?_, ?_, fun h3 h4 h5 => ?_⟩
        rotate_right
        · rw [List.pairwise_cons] at h4
          refine k6 (h3.add hC hk.toKindOK hsu fun a ha hm =>
            h5 a s hm ((hv2 a).1 ha).1 (rval, rsucc) (by simp) ((hv2 a).1 ha).2) h4.2 fun a s' hm ha r hr har => ?_
          rw [hadd] at hm
          rcases hm with hm | ⟨_, hm⟩
          · exact h5 a s' hm ha r (by simp [hr]) har
          · exact h4.1 r hr a ⟨((hv2 a).1 hm).2, har⟩
        rotate_right
        · intro r hr
          rw [List.mem_cons] at hr
          rcases hr with rfl | hr
          · exact ⟨hv3, fun _ _ _ => hs3⟩
          · exact k5 r hr
        · rcases k2 a s' h with h | ⟨r, hr, h⟩
          · rw [hadd] at h
            rcases h with h | ⟨rfl, h⟩
            · exact Or.inl h
            · obtain ⟨h3, h4⟩ := (hv2 a).1 h
              exact Or.inr ⟨(rval, rsucc), by simp, h3, h4, hs1, hse, hs2⟩
          · exact Or.inr ⟨r, by simp [hr], h⟩
        · exact k3 a s' ((hadd a s').2 (Or.inl h))
        · intro r hr a ha1 ha2 hp
          rw [List.mem_cons] at hr
          rcases hr with rfl | hr
          · exact ⟨s, k3 a s ((hadd a s).2 (Or.inr ⟨rfl, (hv2 a).2 ⟨ha1, ha2⟩⟩)), hs1, hse, hs2⟩
          · exact k4 r hr a ha1 ha2 hp

theorem diffArcs_sat (hC : C.Lawful) (hk : KindS C L R S t t' x k memV D K cons)
    {Q : SDD V → SDD V → Prop} {rhs : List (α × SDD V)}
    (hr1 : ∀ arc ∈ rhs, D arc.1) (lhs : List (α × SDD V)) :
    (∀ arc ∈ lhs, D arc.1) →
    (∀ l ∈ lhs, ∀ r ∈ rhs, ∀ a, memV a l.1 → memV a r.1 →
      L.Sat (ddDiff rec l.2 r.2) fun s =>
        Dom C t' s ∧ (∀ p, Mem C p s ↔ Mem C p l.2 ∧ ¬ Mem C p r.2) ∧ Q l.2 r.2) →
    ∀ su, SuOK C t' k D su →
    L.Sat (diffArcs C k rec rhs lhs su) fun su' => SuOK C t' k D su' ∧
      (∀ a s, SuMem memV su' a s → SuMem memV su a s ∨
        ∃ l ∈ lhs, ∃ r ∈ rhs, memV a l.1 ∧ memV a r.1 ∧ IsDiff C t' l.2 r.2 s) ∧
      (∀ a s, SuMem memV su a s → SuMem memV su' a s) ∧
      (∀ l ∈ lhs, ∀ r ∈ rhs, ∀ a, memV a l.1 → memV a r.1 → (∃ p, Mem C p l.2 ∧ ¬ Mem C p r.2) →
        ∃ s, SuMem memV su' a s ∧ IsDiff C t' l.2 r.2 s) ∧
      (∀ l ∈ lhs, ∀ r ∈ rhs, (∀ a b, memV a l.1 → memV b r.1 → K a b) ∧
        ∀ a, memV a l.1 → memV a r.1 → Q l.2 r.2) ∧
      (SuDisj memV su → (lhs.Pairwise fun b c => ∀ a, ¬ (memV a b.1 ∧ memV a c.1)) →
        (rhs.Pairwise fun b c => ∀ a, ¬ (memV a b.1 ∧ memV a c.1)) →
        (∀ a s, SuMem memV su a s → ∀ l ∈ lhs, memV a l.1 → ∀ r ∈ rhs, ¬ memV a r.1) → SuDisj memV su') := by
  induction lhs with
  | nil =>
    intro _ _ su hsu
    unfold diffArcs
    exact L.pure' ⟨hsu, fun a s h => Or.inl h, fun a s h => h, by simp, by simp, fun h _ _ _ => h⟩
  | cons arc lhs ih =>
    obtain ⟨lval, lsucc⟩ := arc
    intro h1 h2 su hsu
    have ih := ih (fun arc ha => h1 arc (by simp [ha])) (fun arc ha => h2 arc (by simp [ha]))
    unfold diffArcs
    refine L.bind' (diffArc_sat hC hk (h1 (lval, lsucc) (by simp)) rhs hr1
      (h2 (lval, lsucc) (by simp)) su hsu) ?_
    rintro su1 ⟨k1, k2, k3, k4, k5, k6⟩
    refine L.mono' (ih su1 k1) ?_
    rintro su' ⟨l1, l2, l3, l4, l5, l6⟩
    refine ⟨l1, fun a s h => ?_, fun a s h => l3 a s (k3 a s h), ?_, ?_, fun h3 h4 h5 h6 => ?_⟩
    rotate_right
    · rw [List.pairwise_cons] at h4
      refine l6 (k6 h3 h5 fun a s hm ha => h6 a s hm (lval, lsucc) (by simp) ha) h4.2 h5 fun a s hm l hl ha r hr har => ?_
      rcases k2 a s hm with hm | ⟨_, _, hm, _⟩
      · exact h6 a s hm l (by simp [hl]) ha r hr har
      · exact h4.1 l hl a ⟨hm, ha⟩
    rotate_right
    · intro l hl
      rw [List.mem_cons] at hl
      rcases hl with rfl | hl
      · exact k5
      · exact l5 l hl
    · rcases l2 a s h with h | ⟨l, hl, r, hr, h⟩
      · rcases k2 a s h with h | ⟨r, hr, h⟩
        · exact Or.inl h
        · exact Or.inr ⟨(lval, lsucc), by simp, r, hr, h⟩
      · exact Or.inr ⟨l, by simp [hl], r, hr, h⟩
    · intro l hl r hr a ha1 ha2 hp
      rw [List.mem_cons] at hl
      rcases hl with rfl | hl
      · obtain ⟨s, hs, hs'⟩ := k4 r hr a ha1 ha2 hp
        exact ⟨s, l3 a s hs, hs'⟩
      · exact l4 l hl r hr a ha1 ha2 hp

/-- The difference of two nodes of the same kind and variable. -/
theorem diffWork_sat (hC : C.Lawful) (hk : KindS C L R S t t' x k memV D K cons)
    (hov : C.limit = none ∨ L.allow .overflow)
    (hrec : ∀ a, RecS C L R (fun q => S (cons a q)) B t' rec) {y : Nat}
    {lhs rhs : List (α × SDD V)} (hxy : L.allow (.top (k.node x lhs) (k.node y rhs)) ∨ x = y)
    (hl : Dom C t (k.node x lhs)) (hr : Dom C t (k.node y rhs))
    (hls : SelfIn C R S (k.node x lhs)) (hrs : SelfIn C R S (k.node y rhs)) :
    L.Sat (diffWork C k rec (k.node x lhs) (k.node y rhs) x y lhs rhs) fun r => Dom C t r ∧
      (∀ p, Mem C p r ↔ Mem C p (k.node x lhs) ∧ ¬ Mem C p (k.node y rhs)) ∧
      Coh C R (k.node x lhs) (k.node y rhs) := by
  unfold diffWork
  by_cases hxy' : x = y
  · subst hxy'
    rw [if_pos rfl]
    obtain ⟨g1, g2, g3⟩ := hk.node_inv lhs hl hls
    obtain ⟨g1', g2', g3'⟩ := hk.node_inv rhs hr hrs
    obtain ⟨-, g5⟩ := hk.arcs_in hl hls
    obtain ⟨-, g5'⟩ := hk.arcs_in hr hrs
    refine L.bind' (L.ord' lhs) ?_
    intro lhs1 hp1
    refine L.bind' (L.ord' rhs) ?_
    intro rhs1 hp2
    have hb : rhs1.foldl (fun b a => sumAdd k.isEmpty k.lt b a.1) [] =
        (rhs1.map Prod.fst).foldl (sumAdd k.isEmpty k.lt) [] := by
      rw [List.foldl_map]
    have hD : ∀ v ∈ rhs1.map Prod.fst, D v := by
      intro v hv
      rw [List.mem_map] at hv
      obtain ⟨arc, ha, rfl⟩ := hv
      exact g2' arc (hp2.mem_iff.1 ha)
    have hdisj : VDisj memV ((rhs1.map Prod.fst).foldl (sumAdd k.isEmpty k.lt) []) := by
      have key : ∀ v ∈ (rhs1.map Prod.fst).foldl (sumAdd k.isEmpty k.lt) [], ∃ r ∈ rhs, r.1 = v := by
        intro v hv
        rw [mem_foldl_sumAdd hk.lt_st] at hv
        rcases hv with ⟨hv, _⟩ | hv
        · rw [List.mem_map] at hv
          obtain ⟨arc, harc, rfl⟩ := hv
          exact ⟨arc, hp2.mem_iff.1 harc, rfl⟩
        · simp at hv
      intro v hv w hw a ha ha'
      obtain ⟨r, hr, rfl⟩ := key v hv
      obtain ⟨r', hr', rfl⟩ := key w hw
      rw [g1'.unique hr hr' ha ha']
    rw [hb]
    refine L.bind' (hk.sum _ (BGood.foldl hk.lt_st _ hD BGood.nil) hdisj) ?_
    rintro un ⟨hun1, hun2⟩
    have hun : ∀ a, memV a un ↔ ∃ r ∈ rhs, memV a r.1 := by
      intro a
      rw [hun2]
      constructor
      · rintro ⟨v, hv, ha⟩
        rw [mem_foldl_sumAdd hk.lt_st] at hv
        rcases hv with ⟨hv, _⟩ | hv
        · rw [List.mem_map] at hv
          obtain ⟨arc, harc, rfl⟩ := hv
          exact ⟨arc, hp2.mem_iff.1 harc, ha⟩
        · simp at hv
      · rintro ⟨arc, harc, ha⟩
        exact ⟨arc.1, (mem_foldl_sumAdd hk.lt_st _ _ _).2 (Or.inl
          ⟨List.mem_map.2 ⟨arc, hp2.mem_iff.2 harc, rfl⟩, (hk.isEmpty_false (g2' arc harc)).2 ⟨a, ha⟩⟩), ha⟩
    refine L.bind' (diffFirst_sat hC hk hun1 lhs1 (fun l hl => g2 l (hp1.mem_iff.1 hl))
      (fun l hl => g3 l (hp1.mem_iff.1 hl)) (fun l hl => g1.succNe l (hp1.mem_iff.1 hl)) [] SuOK.nil) ?_
    simp only [hp1.mem_iff]
    rintro su1 ⟨j1, j2, j3⟩
    have j2 : ∀ a s, SuMem memV su1 a s ↔ ∃ l ∈ lhs, memV a l.1 ∧ ¬ memV a un ∧ s = l.2 := by
      intro a s; rw [j2]; simp [SuMem]
    refine L.bind' (diffArcs_sat (Q := Coh C R) hC hk (fun r hr => g2' r (hp2.mem_iff.1 hr)) lhs1
      (fun l hl => g2 l (hp1.mem_iff.1 hl)) (fun l hl r hr a ha hb =>
        ddDiff_satS (hrec a) (g3 l (hp1.mem_iff.1 hl)) (g3' r (hp2.mem_iff.1 hr)) (g5 l (hp1.mem_iff.1 hl) a ha)
          (g5' r (hp2.mem_iff.1 hr) a hb)) su1 j1) ?_
    simp only [hp1.mem_iff, hp2.mem_iff]
    rintro su ⟨k1, k2, k3, k4, k5, k6⟩
    have hcoh : Coh C R (k.node x lhs) (k.node x rhs) := by
      intro p p' hp hp'
      obtain ⟨a, q, rfl, l, hl, hal, hql⟩ := (hk.node_mem _ _).1 hp
      obtain ⟨b, q', rfl, r, hr, hbr, hqr⟩ := (hk.node_mem _ _).1 hp'
      refine (hk.rel_cons _ _ _ _).2 ⟨(k5 l hl r hr).1 a b hal hbr, ?_⟩
      rintro rfl
      exact (k5 l hl r hr).2 a hal hbr q q' hql hqr
    have hmem : ∀ p, (Mem C p (k.node x lhs) ∧ ¬ Mem C p (k.node x rhs)) ↔
        ∃ a q, p = cons a q ∧ ∃ s, SuMem memV su a s ∧ Mem C q s := by
      intro p
      rw [hk.node_mem, hk.node_mem]
      constructor
      · rintro ⟨⟨a, q, rfl, l, hl, hal, hql⟩, hno⟩
        by_cases hex : ∃ r ∈ rhs, memV a r.1
        · obtain ⟨r, hr, har⟩ := hex
          have hqr : ¬ Mem C q r.2 := fun h => hno ⟨a, q, rfl, r, hr, har, h⟩
          obtain ⟨s, hs1, hs2⟩ := k4 l hl r hr a hal har ⟨q, hql, hqr⟩
          exact ⟨a, q, rfl, s, hs1, (hs2.mem q).2 ⟨hql, hqr⟩⟩
        · have : ¬ memV a un := fun h => hex ((hun a).1 h)
          exact ⟨a, q, rfl, l.2, k3 a _ ((j2 a _).2 ⟨l, hl, hal, this, rfl⟩), hql⟩
      · rintro ⟨a, q, rfl, s, hs, hq⟩
        rcases k2 a s hs with hs | ⟨l, hl, r, hr, hal, har, hi⟩
        · rw [j2] at hs
          obtain ⟨l, hl, hal, hau, rfl⟩ := hs
          refine ⟨⟨a, q, rfl, l, hl, hal, hq⟩, ?_⟩
          rintro ⟨a', q', heq, r, hr, har, _⟩
          obtain ⟨rfl, rfl⟩ := hk.cons_inj _ _ _ _ heq
          exact hau ((hun a).2 ⟨r, hr, har⟩)
        · obtain ⟨hql, hqr⟩ := (hi.mem q).1 hq
          refine ⟨⟨a, q, rfl, l, hl, hal, hql⟩, ?_⟩
          rintro ⟨a', q', heq, r', hr', har', hqr'⟩
          obtain ⟨rfl, rfl⟩ := hk.cons_inj _ _ _ _ heq
          have := g1'.unique hr hr' har har'
          subst this
          exact hqr hqr'
    by_cases hsu : su = []
    · rw [hsu, if_pos (by simp)]
      refine L.pure' ⟨.zero _, fun p => ?_, hcoh⟩
      constructor
      · intro hp; exact absurd hp (not_mem_zero p)
      · intro hp
        have := (hmem p).1 hp
        rw [hsu] at this
        obtain ⟨a, q, _, s, hs, _⟩ := this
        simp [SuMem] at hs
    · rw [if_neg (by simpa using hsu)]
      have hsd : SuDisj memV su := by
        refine k6 (j3 .nil (g1.disj_perm hp1) (by simp [SuMem])) (g1.disj_perm hp1) (g1'.disj_perm hp2) fun a s hm _ _ _ r hr har => ?_
        obtain ⟨_, _, _, hau, _⟩ := (j2 a s).1 hm
        exact hau ((hun a).2 ⟨r, hr, har⟩)
      refine L.mono' (finish_sat hC hk.toKindOK hov k1 hsd ?_) ?_
      · intro a s s' h1 h2
        rcases k2 a s h1 with h1 | ⟨l, hl, r, hr, hal, har, hi⟩
        · rw [j2] at h1
          obtain ⟨l, hl, hal, hau, rfl⟩ := h1
          rcases k2 a s' h2 with h2 | ⟨l', hl', r, hr, hal', har, hi⟩
          · rw [j2] at h2
            obtain ⟨l', hl', hal', _, rfl⟩ := h2
            rw [g1.unique hl hl' hal hal']
          · exact absurd ((hun a).2 ⟨r, hr, har⟩) hau
        · rcases k2 a s' h2 with h2 | ⟨l', hl', r', hr', hal', har', hi'⟩
          · rw [j2] at h2
            obtain ⟨l', hl', hal', hau, rfl⟩ := h2
            exact absurd ((hun a).2 ⟨r, hr, har⟩) hau
          · have := g1.unique hl hl' hal hal'
            subst this
            have := g1'.unique hr hr' har har'
            subst this
            exact hi.unique hC hi'
      · rintro r ⟨hr1, hr2⟩
        exact ⟨hr1, fun p => by rw [hr2, hmem], hcoh⟩
  · rw [if_neg hxy']
    rcases hxy with hxy | hxy
    · exact L.raise' hxy
    · exact absurd hxy hxy'

end
end Verif
