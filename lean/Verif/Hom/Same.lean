import Verif.Hom.Laws
import Verif.DD.Session
/-!
# Homomorphisms and addresses

The addresses of nodes decide in which order their arcs are stored. The same set of paths is thus represented by different terms
under different addresses. This file shows that the meaning of homomorphisms (as a map between sets of paths) does not depend on
addresses, provided that the user's code only looks at the sets of paths of the SDDs it receives.
-/

set_option autoImplicit false
set_option linter.unusedSectionVars false

namespace Verif

variable {V E I U : Type}

/-- The same set of paths. (Specification or proof device, not part of the code.) -/
def Same (C : Cfg V E) (x x' : SDD V) : Prop := ∀ p, Mem C p x ↔ Mem C p x'

theorem Same.refl {C : Cfg V E} (x : SDD V) : Same C x x := fun _ => Iff.rfl
theorem Same.symm {C : Cfg V E} {x x' : SDD V} (h : Same C x x') : Same C x' x := fun p => (h p).symm
theorem Same.trans {C : Cfg V E} {x y z : SDD V} (h : Same C x y) (h' : Same C y z) : Same C x z := fun p => (h p).trans (h' p)

/-- The arcs of two nodes correspond to each other. (Specification or proof device, not part of the code.) -/
def Cor (C : Cfg V E) : SDD V → SDD V → Prop
  | .zero, .zero => True
  | .one, .one => True
  | .flat y arcs, .flat y' arcs' => y = y' ∧
      (∀ arc ∈ arcs, ∃ arc' ∈ arcs', arc.1 = arc'.1 ∧ Same C arc.2 arc'.2) ∧
      ∀ arc' ∈ arcs', ∃ arc ∈ arcs, arc.1 = arc'.1 ∧ Same C arc.2 arc'.2
  | .hier y arcs, .hier y' arcs' => y = y' ∧
      (∀ arc ∈ arcs, ∃ arc' ∈ arcs', Same C arc.1 arc'.1 ∧ Same C arc.2 arc'.2) ∧
      ∀ arc' ∈ arcs', ∃ arc ∈ arcs, Same C arc.1 arc'.1 ∧ Same C arc.2 arc'.2
  | _, _ => False

/-- Two configurations which differ only by addresses. (Specification or proof device, not part of the code.) -/
structure Readdr (C C' : Cfg V E) : Prop where
  lawful : C.Lawful
  lawful' : C'.Lawful
  vmem : C'.vmem = C.vmem

theorem Readdr.symm {C C' : Cfg V E} (h : Readdr C C') : Readdr C' C := ⟨h.lawful', h.lawful, h.vmem.symm⟩

theorem Readdr.mem {C C' : Cfg V E} (h : Readdr C C') {p : Path E} : ∀ {x : SDD V}, Mem C' p x ↔ Mem C p x := by
  induction p with
  | nil => intro s; exact Iff.rfl
  | flat x a p ih =>
    intro s
    cases s <;> simp only [Mem, h.vmem, ih]
  | hier x n p ihn ih =>
    intro s
    cases s <;> simp only [Mem, ihn, ih]

theorem Readdr.same {C C' : Cfg V E} (h : Readdr C C') {x y : SDD V} : Same C' x y ↔ Same C x y :=
  forall_congr' fun _ => by rw [h.mem, h.mem]

/-- A list of arcs with different successors can be sorted. -/
theorem exists_sorted {α : Type} {lt : SDD V → SDD V → Bool} (hlt : StrictTotal lt) (l : List (α × SDD V))
    (h : l.Pairwise fun b c => b.2 ≠ c.2) : ∃ l' : List (α × SDD V), l'.Perm l ∧ l'.Pairwise fun b c => lt b.2 c.2 = true := by
  induction l with
  | nil => exact ⟨[], .refl _, .nil⟩
  | cons a l ih =>
    obtain ⟨l', h1, h2⟩ := ih h.of_cons
    have ha : ∀ b ∈ l', a.2 ≠ b.2 := fun b hb => (List.pairwise_cons.1 h).1 b (h1.mem_iff.1 hb)
    clear h ih
    have : ∃ m : List (α × SDD V), m.Perm (a :: l') ∧ m.Pairwise fun b c => lt b.2 c.2 = true := by
      clear h1
      induction l' with
      | nil => exact ⟨[a], .refl _, by simp⟩
      | cons b l' ih' =>
        rcases hlt.total a.2 b.2 with hab | hab | hab
        · refine ⟨a :: b :: l', .refl _, List.pairwise_cons.2 ⟨fun c hc => ?_, h2⟩⟩
          rcases List.mem_cons.1 hc with rfl | hc
          · exact hab
          · exact hlt.trans _ _ _ hab ((List.pairwise_cons.1 h2).1 c hc)
        · exact absurd hab (ha b (by simp))
        · obtain ⟨m, m1, m2⟩ := ih' h2.of_cons fun c hc => ha c (by simp [hc])
          refine ⟨b :: m, (m1.cons b).trans (.swap _ _ _), List.pairwise_cons.2 ⟨fun c hc => ?_, m2⟩⟩
          rcases List.mem_cons.1 (m1.mem_iff.1 hc) with rfl | hc
          · exact hab
          · exact (List.pairwise_cons.1 h2).1 c hc
    obtain ⟨m, m1, m2⟩ := this
    exact ⟨m, m1.trans (h1.cons a), m2⟩

/-- The arcs of a node, sorted for other addresses. -/
theorem resort_arcs {C C' : Cfg V E} (ha : Readdr C C') {A α : Type} {memV : A → α → Prop} {arcs : List (α × SDD V)}
    (h : GoodArcs C memV arcs) {P : SDD V → SDD V → Prop} {Q : α → α → Prop}
    (hP : ∀ arc ∈ arcs, ∃ s, P arc.2 s) (hQ : ∀ arc ∈ arcs, ∃ v, Q arc.1 v)
    (hPw : ∀ arc ∈ arcs, ∀ s, P arc.2 s → Same C arc.2 s ∧ s ≠ .zero)
    (hw : ∀ arc ∈ arcs, WF C arc.2)
    (hQm : ∀ arc ∈ arcs, ∀ v, Q arc.1 v → ∀ a, memV a arc.1 ↔ memV a v) :
    ∃ arcs', GoodArcs C' memV arcs' ∧ (∀ arc ∈ arcs, ∃ arc' ∈ arcs', Q arc.1 arc'.1 ∧ P arc.2 arc'.2) ∧
      ∀ arc' ∈ arcs', ∃ arc ∈ arcs, Q arc.1 arc'.1 ∧ P arc.2 arc'.2 := by
  classical
  let f : α × SDD V → α × SDD V := fun arc =>
    (if h : ∃ v, Q arc.1 v then h.choose else arc.1, if h : ∃ s, P arc.2 s then h.choose else arc.2)
  have hf : ∀ arc ∈ arcs, Q arc.1 (f arc).1 ∧ P arc.2 (f arc).2 := by
    intro arc hm
    simp only [f, dif_pos (hQ arc hm), dif_pos (hP arc hm)]
    exact ⟨(hQ arc hm).choose_spec, (hP arc hm).choose_spec⟩
  have hne : (arcs.map f).Pairwise fun b c => b.2 ≠ c.2 := by
    rw [List.pairwise_map]
    refine h.sorted.imp_of_mem fun {b c} hb hc hlt heq => ?_
    have h1 := (hPw b hb _ (hf b hb).2).1
    have h2 := (hPw c hc _ (hf c hc).2).1
    rw [heq] at h1
    have := canonical_ext ha.lawful (hw b hb) (hw c hc) (h1.trans h2.symm)
    rw [this, ha.lawful.lt_st.irrefl] at hlt
    exact absurd hlt (by simp)
  obtain ⟨l, h1, h2⟩ := exists_sorted ha.lawful'.lt_st _ hne
  have hl : ∀ arc' ∈ l, ∃ arc ∈ arcs, f arc = arc' := fun arc' hm => by
    simpa using List.mem_map.1 (h1.mem_iff.1 hm)
  have hl' : ∀ arc ∈ arcs, f arc ∈ l := fun arc hm => h1.mem_iff.2 (List.mem_map_of_mem hm)
  refine ⟨l, ⟨?_, ?_, ?_, ?_, h2⟩, ?_, ?_⟩
  · intro h0
    rw [h0] at h1
    have := h1.symm.eq_nil
    exact h.ne (List.map_eq_nil_iff.1 this)
  · intro arc' hm
    obtain ⟨arc, ham, rfl⟩ := hl arc' hm
    obtain ⟨a, hv⟩ := h.valNe arc ham
    exact ⟨a, (hQm arc ham _ (hf arc ham).1 a).1 hv⟩
  · intro arc' hm
    obtain ⟨arc, ham, rfl⟩ := hl arc' hm
    exact (hPw arc ham _ (hf arc ham).2).2
  · have : (arcs.map f).Pairwise fun b c => ∀ a, ¬ (memV a b.1 ∧ memV a c.1) := by
      rw [List.pairwise_map]
      refine h.disj.imp_of_mem fun {b c} hb hc hd a hx => hd a ?_
      exact ⟨(hQm b hb _ (hf b hb).1 a).2 hx.1, (hQm c hc _ (hf c hc).1 a).2 hx.2⟩
    exact h1.symm.pairwise this (fun {b c} hd a hx => hd a ⟨hx.2, hx.1⟩)
  · exact fun arc hm => ⟨f arc, hl' arc hm, hf arc hm⟩
  · intro arc' hm
    obtain ⟨arc, ham, rfl⟩ := hl arc' hm
    exact ⟨arc, ham, hf arc ham⟩

theorem Dom.ne_zero_of_same {C : Cfg V E} {t : Ty} {x x' : SDD V} (h : Dom C t x) (h0 : x ≠ .zero)
    (hs : Same C x x') : x' ≠ .zero := by
  obtain ⟨p, hp⟩ := h.exists_mem h0
  rintro rfl
  exact not_mem_zero p ((hs p).1 hp)

/-- Every set of paths represented under some addresses is represented under the others. -/
theorem resort {C C' : Cfg V E} (ha : Readdr C C') {t : Ty} {x : SDD V} (h : Dom C t x) :
    ∃ x', Dom C' t x' ∧ Same C x x' ∧ Cor C x x' := by
  induction h with
  | zero t => exact ⟨.zero, .zero t, .refl _, trivial⟩
  | one t h => exact ⟨.one, .one t h, .refl _, trivial⟩
  | flat t t' x arcs h1 h2 h3 ih =>
    obtain ⟨arcs', g, h4, h5⟩ := resort_arcs ha h2 (P := fun s s' => Dom C' t' s' ∧ Same C s s') (Q := fun v v' => v = v')
      (fun arc hm => by obtain ⟨s', a, b, _⟩ := ih arc hm; exact ⟨s', a, b⟩) (fun arc _ => ⟨_, rfl⟩)
      (fun arc hm s' hs => ⟨hs.2, (h3 arc hm).ne_zero_of_same (h2.succNe arc hm) hs.2⟩) (fun arc hm => (h3 arc hm).wf)
      (fun arc hm v hv a => by rw [hv])
    refine ⟨.flat x arcs', .flat t t' x arcs' h1 (ha.vmem ▸ g) (fun arc' hm => ?_), ?_, rfl, fun arc hm => ?_, fun arc' hm => ?_⟩
    · obtain ⟨arc, _, _, h⟩ := h5 arc' hm; exact h.1
    · intro p
      cases p with
      | nil => simp [Mem]
      | hier => simp [Mem]
      | flat y a q =>
        simp only [Mem]
        refine and_congr_right fun _ => ⟨?_, ?_⟩
        · rintro ⟨arc, hm, hv, hq⟩
          obtain ⟨arc', hm', e, _, hs⟩ := h4 arc hm
          exact ⟨arc', hm', e ▸ hv, (hs q).1 hq⟩
        · rintro ⟨arc', hm', hv, hq⟩
          obtain ⟨arc, hm, e, _, hs⟩ := h5 arc' hm'
          exact ⟨arc, hm, e ▸ hv, (hs q).2 hq⟩
    · obtain ⟨arc', hm', e, _, hs⟩ := h4 arc hm; exact ⟨arc', hm', e, hs⟩
    · obtain ⟨arc, hm', e, _, hs⟩ := h5 arc' hm; exact ⟨arc, hm', e, hs⟩
  | hier t tn t' x arcs h1 h2 h3 h4 ih1 ih2 =>
    obtain ⟨arcs', g, h5, h6⟩ := resort_arcs ha h2 (P := fun s s' => Dom C' t' s' ∧ Same C s s')
      (Q := fun s s' => Dom C' tn s' ∧ Same C s s')
      (fun arc hm => by obtain ⟨s', a, b, _⟩ := ih2 arc hm; exact ⟨s', a, b⟩)
      (fun arc hm => by obtain ⟨s', a, b, _⟩ := ih1 arc hm; exact ⟨s', a, b⟩)
      (fun arc hm s' hs => ⟨hs.2, (h4 arc hm).ne_zero_of_same (h2.succNe arc hm) hs.2⟩) (fun arc hm => (h4 arc hm).wf)
      (fun arc hm v hv a => hv.2 a)
    refine ⟨.hier x arcs', .hier t tn t' x arcs' h1 (g.congr (fun _ _ => ha.mem.symm) fun _ _ _ _ h => h) (fun arc' hm => ?_) (fun arc' hm => ?_), ?_, rfl,
      fun arc hm => ?_, fun arc' hm => ?_⟩
    · obtain ⟨arc, _, h, _⟩ := h6 arc' hm; exact h.1
    · obtain ⟨arc, _, _, h⟩ := h6 arc' hm; exact h.1
    · intro p
      cases p with
      | nil => simp [Mem]
      | flat => simp [Mem]
      | hier y a q =>
        simp only [Mem]
        refine and_congr_right fun _ => ⟨?_, ?_⟩
        · rintro ⟨arc, hm, hv, hq⟩
          obtain ⟨arc', hm', ⟨_, e⟩, _, hs⟩ := h5 arc hm
          exact ⟨arc', hm', (e a).1 hv, (hs q).1 hq⟩
        · rintro ⟨arc', hm', hv, hq⟩
          obtain ⟨arc, hm, ⟨_, e⟩, _, hs⟩ := h6 arc' hm'
          exact ⟨arc, hm, (e a).2 hv, (hs q).2 hq⟩
    · obtain ⟨arc', hm', e, _, hs⟩ := h5 arc hm; exact ⟨arc', hm', e.2, hs⟩
    · obtain ⟨arc, hm', e, _, hs⟩ := h6 arc' hm; exact ⟨arc, hm', e.2, hs⟩

/-- SDDs with the same paths under different addresses have corresponding arcs. -/
theorem Same.cor {C C' : Cfg V E} (ha : Readdr C C') {x x' : SDD V} (h : WF C x) (h' : WF C' x') (hs : Same C x x') : Cor C x x' := by
  obtain ⟨n, hn⟩ := h
  obtain ⟨y, h1, h2, h3⟩ := resort ha hn
  have : y = x' := canonical_ext ha.lawful' h1.wf h' (ha.same.2 (h2.symm.trans hs))
  exact this ▸ h3

theorem Same.dom {C C' : Cfg V E} (ha : Readdr C C') {t : Ty} {x x' : SDD V} (h : Dom C t x) (h' : WF C' x') (hs : Same C x x') :
    Dom C' t x' := by
  obtain ⟨n, hn⟩ := h'
  exact hn.of_pty t fun p hp => h.pty p ((hs p).2 (ha.mem.1 hp))

theorem Same.eq {C : Cfg V E} (hC : C.Lawful) {x y : SDD V} (h : WF C x) (h' : WF C y) (hs : Same C x y) : x = y :=
  canonical_ext hC h h' hs

/-- The representation of a set of paths under other addresses. -/
theorem Is.resort {C C' : Cfg V E} (ha : Readdr C C') {r : SDD V} {S S' : Path E → Prop} (h : Is C r S) (hS : ∀ p, S p ↔ S' p) :
    ∃ r', Is C' r' S' ∧ Same C r r' := by
  obtain ⟨⟨n, hn⟩, h⟩ := h
  obtain ⟨r', h1, h2, _⟩ := Verif.resort ha hn
  exact ⟨r', ⟨h1.wf, fun p => by rw [ha.mem, ← h2 p, h p, hS p]⟩, h2⟩

/-- The same homomorphism, up to the representation of the SDDs it holds and to the grouping of compositions.
(Specification or proof device, not part of the code.) -/
inductive Hom.Same (C : Cfg V E) : Hom V I U → Hom V I U → Prop where
  | id : Hom.Same C .id .id
  | comp {l r l' r' : Hom V I U} : Hom.Same C l l' → Hom.Same C r r' → Hom.Same C (.comp l r) (.comp l' r')
  | assocL {a b c a' b' c' : Hom V I U} : Hom.Same C a a' → Hom.Same C b b' → Hom.Same C c c' →
      Hom.Same C (.comp (.comp a b) c) (.comp a' (.comp b' c'))
  | assocR {a b c a' b' c' : Hom V I U} : Hom.Same C a a' → Hom.Same C b b' → Hom.Same C c c' →
      Hom.Same C (.comp a (.comp b c)) (.comp (.comp a' b') c')
  | consF {o : OB I} {v : V} {h h' : Hom V I U} : Hom.Same C h h' → Hom.Same C (.consF o v h) (.consF o v h')
  | consH {o : OB I} {v v' : SDD V} {h h' : Hom V I U} : Verif.Same C v v' → Hom.Same C h h' →
      Hom.Same C (.consH o v h) (.consH o v' h')
  | const {s s' : SDD V} : Verif.Same C s s' → Hom.Same C (.const s) (.const s')
  | fix {h h' : Hom V I U} : Hom.Same C h h' → Hom.Same C (.fix h) (.fix h')
  | fn {x : Nat} {u : U} : Hom.Same C (.fn x u) (.fn x u)
  | ite {i t e i' t' e' : Hom V I U} : Hom.Same C i i' → Hom.Same C t t' → Hom.Same C e e' →
      Hom.Same C (.ite i t e) (.ite i' t' e')
  | ind {u : U} : Hom.Same C (.ind u) (.ind u)
  | inter {hs hs' : List (Hom V I U)} : hs.length = hs'.length →
      (∀ i (h1 : i < hs.length) (h2 : i < hs'.length), Hom.Same C hs[i] hs'[i]) → Hom.Same C (.inter hs) (.inter hs')
  | loc {x : Nat} {h h' : Hom V I U} : Hom.Same C h h' → Hom.Same C (.loc x h) (.loc x h')
  | satFix {x : Nat} {F L F' L' : Hom V I U} {G G' : List (Hom V I U)} : Hom.Same C F F' → G.length = G'.length →
      (∀ i (h1 : i < G.length) (h2 : i < G'.length), Hom.Same C G[i] G'[i]) → Hom.Same C L L' →
      Hom.Same C (.satFix x F G L) (.satFix x F' G' L')
  | satInter {x : Nat} {F G L F' G' L' : List (Hom V I U)} : F.length = F'.length → G.length = G'.length → L.length = L'.length →
      (∀ i (h1 : i < F.length) (h2 : i < F'.length), Hom.Same C F[i] F'[i]) →
      (∀ i (h1 : i < G.length) (h2 : i < G'.length), Hom.Same C G[i] G'[i]) →
      (∀ i (h1 : i < L.length) (h2 : i < L'.length), Hom.Same C L[i] L'[i]) →
      Hom.Same C (.satInter x F G L) (.satInter x F' G' L')
  | satSum {x : Nat} {F G L F' G' L' : List (Hom V I U)} : F.length = F'.length → G.length = G'.length → L.length = L'.length →
      (∀ i (h1 : i < F.length) (h2 : i < F'.length), Hom.Same C F[i] F'[i]) →
      (∀ i (h1 : i < G.length) (h2 : i < G'.length), Hom.Same C G[i] G'[i]) →
      (∀ i (h1 : i < L.length) (h2 : i < L'.length), Hom.Same C L[i] L'[i]) →
      Hom.Same C (.satSum x F G L) (.satSum x F' G' L')
  | sum {hs hs' : List (Hom V I U)} : hs.length = hs'.length →
      (∀ i (h1 : i < hs.length) (h2 : i < hs'.length), Hom.Same C hs[i] hs'[i]) → Hom.Same C (.sum hs) (.sum hs')

theorem Hom.Same.refl {C : Cfg V E} (h : Hom V I U) : Hom.Same C h h := by
  induction h using Hom.induct with
  | id => exact .id
  | comp _ _ a b => exact .comp a b
  | consF _ _ _ a => exact .consF a
  | consH _ _ _ a => exact .consH (.refl _) a
  | const _ => exact .const (.refl _)
  | fix _ a => exact .fix a
  | fn _ _ => exact .fn
  | ite _ _ _ a b c => exact .ite a b c
  | ind _ => exact .ind
  | inter hs a => exact .inter rfl fun i h _ => a _ (List.getElem_mem h)
  | loc _ _ a => exact .loc a
  | satFix _ _ _ _ a b c => exact .satFix a rfl (fun i h _ => b _ (List.getElem_mem h)) c
  | satInter _ _ _ _ a b c =>
    exact .satInter rfl rfl rfl (fun i h _ => a _ (List.getElem_mem h)) (fun i h _ => b _ (List.getElem_mem h))
      (fun i h _ => c _ (List.getElem_mem h))
  | satSum _ _ _ _ a b c =>
    exact .satSum rfl rfl rfl (fun i h _ => a _ (List.getElem_mem h)) (fun i h _ => b _ (List.getElem_mem h))
      (fun i h _ => c _ (List.getElem_mem h))
  | sum hs a => exact .sum rfl fun i h _ => a _ (List.getElem_mem h)

/-- The SDDs held by a homomorphism (those of `constant` and of hierarchical `cons`). (Specification or proof device, not part of the code.) -/
inductive Hom.Const (s : SDD V) : Hom V I U → Prop where
  | compL {l r : Hom V I U} : Const s l → Const s (.comp l r)
  | compR {l r : Hom V I U} : Const s r → Const s (.comp l r)
  | consF {o : OB I} {v : V} {h : Hom V I U} : Const s h → Const s (.consF o v h)
  | consV {o : OB I} {h : Hom V I U} : Const s (.consH o s h)
  | consH {o : OB I} {v : SDD V} {h : Hom V I U} : Const s h → Const s (.consH o v h)
  | const : Const s (.const s)
  | fix {h : Hom V I U} : Const s h → Const s (.fix h)
  | iteI {i t e : Hom V I U} : Const s i → Const s (.ite i t e)
  | iteT {i t e : Hom V I U} : Const s t → Const s (.ite i t e)
  | iteE {i t e : Hom V I U} : Const s e → Const s (.ite i t e)
  | inter {hs : List (Hom V I U)} {h : Hom V I U} : h ∈ hs → Const s h → Const s (.inter hs)
  | loc {x : Nat} {h : Hom V I U} : Const s h → Const s (.loc x h)
  | satFixF {x : Nat} {F L : Hom V I U} {G : List (Hom V I U)} : Const s F → Const s (.satFix x F G L)
  | satFixG {x : Nat} {F L : Hom V I U} {G : List (Hom V I U)} {h : Hom V I U} : h ∈ G → Const s h → Const s (.satFix x F G L)
  | satFixL {x : Nat} {F L : Hom V I U} {G : List (Hom V I U)} : Const s L → Const s (.satFix x F G L)
  | satInter {x : Nat} {F G L : List (Hom V I U)} {h : Hom V I U} : h ∈ F ++ G ++ L → Const s h → Const s (.satInter x F G L)
  | satSum {x : Nat} {F G L : List (Hom V I U)} {h : Hom V I U} : h ∈ F ++ G ++ L → Const s h → Const s (.satSum x F G L)
  | sum {hs : List (Hom V I U)} {h : Hom V I U} : h ∈ hs → Const s h → Const s (.sum hs)

/-- The SDDs held by a homomorphism are in canonical form. (Specification or proof device, not part of the code.) -/
def Hom.WF (C : Cfg V E) (h : Hom V I U) : Prop := ∀ s, Hom.Const s h → Verif.WF C s

/-- The same user's code under different addresses: it gives the same sets of paths to the same sets of paths. The user's code only gets SDDs in
canonical form. (Specification or proof device, not part of the code.) -/
structure User.Same (C C' : Cfg V E) (env env' : User V I U) : Prop where
  fn : env'.fn = env.fn
  fnSel : env'.fnSel = env.fnSel
  indSkip : env'.indSkip = env.indSkip
  indSel : env'.indSel = env.indSel
  indOne : ∀ u, Verif.Same C (env.indOne u) (env'.indOne u)
  indF : ∀ u o v, Hom.Same C (env.indF u o v) (env'.indF u o v)
  indH : ∀ u o v v', WF C v → WF C' v' → Verif.Same C v v' → Hom.Same C (env.indH u o v) (env'.indH u o v')

/-- The SDDs held by the homomorphisms made by the user's code are in canonical form. (Specification or proof device, not part of the code.) -/
structure User.Canon (env : User V I U) (C : Cfg V E) : Prop where
  indOne : ∀ u, WF C (env.indOne u)
  indF : ∀ u o v, (env.indF u o v).WF C
  indH : ∀ u o v, WF C v → (env.indH u o v).WF C

section lists
variable {C : Cfg V E} {hs hs' : List (Hom V I U)}

/-- The operands correspond to each other. (Specification or proof device, not part of the code.) -/
def SameL (C : Cfg V E) (hs hs' : List (Hom V I U)) : Prop :=
  hs.length = hs'.length ∧ ∀ i (h1 : i < hs.length) (h2 : i < hs'.length), Hom.Same C hs[i] hs'[i]

theorem SameL.fwd (h : SameL C hs hs') {g : Hom V I U} (hg : g ∈ hs) : ∃ g' ∈ hs', Hom.Same C g g' := by
  obtain ⟨i, hi, rfl⟩ := List.getElem_of_mem hg
  exact ⟨hs'[i]'(h.1 ▸ hi), List.getElem_mem _, h.2 i hi _⟩

theorem SameL.bwd (h : SameL C hs hs') {g' : Hom V I U} (hg : g' ∈ hs') : ∃ g ∈ hs, Hom.Same C g g' := by
  obtain ⟨i, hi, rfl⟩ := List.getElem_of_mem hg
  exact ⟨hs[i]'(h.1 ▸ hi), List.getElem_mem _, h.2 i _ hi⟩

theorem SameL.append {ks ks' : List (Hom V I U)} (h : SameL C hs hs') (h' : SameL C ks ks') : SameL C (hs ++ ks) (hs' ++ ks') := by
  refine ⟨by simp [h.1, h'.1], fun i h1 h2 => ?_⟩
  by_cases hi : i < hs.length
  · rw [List.getElem_append_left hi, List.getElem_append_left (h.1 ▸ hi)]
    exact h.2 i _ _
  · rw [List.getElem_append_right (by omega), List.getElem_append_right (by have := h.1; omega)]
    have := h'.2 (i - hs.length) (by simp at h1; omega) (by have := h.1; simp at h2; omega)
    convert this using 2
    rw [h.1]

theorem SameL.nil_iff (h : SameL C hs hs') : hs = [] ↔ hs' = [] := by
  rw [← List.length_eq_zero_iff, ← List.length_eq_zero_iff, h.1]

end lists

theorem Hom.Same.skip {C C' : Cfg V E} {env env' : User V I U} (hU : User.Same C C' env env') {h h' : Hom V I U} (hh : Hom.Same C h h')
    (x : Nat) (i : OId I) : h'.skip env' x i = h.skip env x i := by
  have key : ∀ {hs hs' : List (Hom V I U)}, hs.length = hs'.length →
      (∀ j (h1 : j < hs.length) (h2 : j < hs'.length), hs'[j].skip env' x i = hs[j].skip env x i) →
      Hom.skipAll env' x i hs' = Hom.skipAll env x i hs := by
    intro hs
    induction hs with
    | nil =>
      intro hs' hl _
      rw [List.length_nil, eq_comm, List.length_eq_zero_iff] at hl
      rw [hl]; rfl
    | cons a hs ih =>
      intro hs' hl hj
      cases hs' with
      | nil => simp at hl
      | cons a' hs' =>
        simp only [Hom.skipAll]
        rw [ih (by simpa using hl) fun j h1 h2 => hj (j + 1) (by simpa using h1) (by simpa using h2)]
        have := hj 0 (by simp) (by simp)
        simp at this
        rw [this]
  induction hh with
  | id => rfl
  | comp _ _ a b => simp only [Hom.skip, a, b]
  | assocL _ _ _ a b c => simp only [Hom.skip, a, b, c, Bool.and_assoc]
  | assocR _ _ _ a b c => simp only [Hom.skip, a, b, c, Bool.and_assoc]
  | consF => rfl
  | consH => rfl
  | const => rfl
  | fix _ a => simp only [Hom.skip, a]
  | fn => rfl
  | ite _ _ _ a b c => simp only [Hom.skip, a, b, c]
  | ind => simp only [Hom.skip, hU.indSkip]
  | inter hl _ a => exact key hl a
  | loc => rfl
  | satFix => rfl
  | satInter => rfl
  | satSum => rfl
  | sum hl _ a => exact key hl a

theorem Hom.Same.selector {C C' : Cfg V E} {env env' : User V I U} (hU : User.Same C C' env env') {h h' : Hom V I U} (hh : Hom.Same C h h') :
    h'.selector env' = h.selector env := by
  have key : ∀ {hs hs' : List (Hom V I U)}, hs.length = hs'.length →
      (∀ j (h1 : j < hs.length) (h2 : j < hs'.length), hs'[j].selector env' = hs[j].selector env) →
      Hom.selectorAll env' hs' = Hom.selectorAll env hs := by
    intro hs
    induction hs with
    | nil =>
      intro hs' hl _
      rw [List.length_nil, eq_comm, List.length_eq_zero_iff] at hl
      rw [hl]; rfl
    | cons a hs ih =>
      intro hs' hl hj
      cases hs' with
      | nil => simp at hl
      | cons a' hs' =>
        simp only [Hom.selectorAll]
        rw [ih (by simpa using hl) fun j h1 h2 => hj (j + 1) (by simpa using h1) (by simpa using h2)]
        have := hj 0 (by simp) (by simp)
        simp at this
        rw [this]
  induction hh with
  | id => rfl
  | comp _ _ a b => simp only [Hom.selector, a, b]
  | assocL _ _ _ a b c => simp only [Hom.selector, a, b, c, Bool.and_assoc]
  | assocR _ _ _ a b c => simp only [Hom.selector, a, b, c, Bool.and_assoc]
  | consF => rfl
  | consH => rfl
  | const => rfl
  | fix _ a => simp only [Hom.selector, a]
  | fn => simp only [Hom.selector, hU.fnSel]
  | ite _ _ _ a b c => simp only [Hom.selector, b, c]
  | ind => simp only [Hom.selector, hU.indSel]
  | inter hl _ a => exact key hl a
  | loc _ a => exact a
  | satFix _ hl _ _ a b c => simp only [Hom.selector, a, c, key hl b]
  | satInter h1 h2 h3 _ _ _ a b c => simp only [Hom.selector, key h1 a, key h2 b, key h3 c]
  | satSum h1 h2 h3 _ _ _ a b c => simp only [Hom.selector, key h1 a, key h2 b, key h3 c]
  | sum hl _ a => exact key hl a

theorem Hom.Same.ne_id {C : Cfg V E} {h h' : Hom V I U} (hh : Hom.Same C h h') (hne : h ≠ .id) : h' ≠ .id := by
  cases hh <;> first | exact absurd rfl hne | simp

theorem Cor.here {C C' : Cfg V E} {env env' : User V I U} (hU : User.Same C C' env env') {h h' : Hom V I U} (hh : Hom.Same C h h')
    {o : OB I} {x x' : SDD V} (hx : Cor C x x') (hr : Here env h o x) : Here env' h' o x' := by
  cases x <;> cases x' <;> simp only [Cor] at hx <;> try exact hx.elim
  · cases o <;> exact hr
  · cases o <;> exact hr
  · cases o with
    | nil => exact hr
    | node => exact ⟨hx.1 ▸ hr.1, (hh.skip hU _ _).trans hr.2⟩
  · cases o with
    | nil => exact hr
    | node => exact ⟨hx.1 ▸ hr.1, (hh.skip hU _ _).trans hr.2⟩

theorem Cor.below {C C' : Cfg V E} {env env' : User V I U} (hU : User.Same C C' env env') {h h' : Hom V I U} (hh : Hom.Same C h h')
    {id : OId I} {nxt : OB I} {x x' : SDD V} (hx : Cor C x x') (hr : Below env h id nxt x) : Below env' h' id nxt x' := by
  cases x <;> cases x' <;> simp only [Cor] at hx <;> try exact hx.elim
  · exact hr
  · exact hr
  · exact ⟨hx.1 ▸ hr.1, (hh.skip hU _ _).trans hr.2⟩
  · exact ⟨hx.1 ▸ hr.1, (hh.skip hU _ _).trans hr.2⟩

theorem Cor.arcFwd {C C' : Cfg V E} (ha : Readdr C C') {x x' : SDD V} (hx : Cor C x x') {hd : Head E} {s : SDD V}
    (h : ArcOf C x hd s) : ∃ s', ArcOf C' x' hd s' ∧ Same C s s' := by
  cases x <;> cases x' <;> simp only [Cor] at hx <;> try exact hx.elim
  · cases hd <;> exact h.elim
  · cases hd <;> exact h.elim
  · cases hd with
    | hier => exact h.elim
    | flat y a =>
      obtain ⟨rfl, v, hm, hv⟩ := h
      obtain ⟨arc', hm', e, hs⟩ := hx.2.1 _ hm
      exact ⟨arc'.2, ⟨hx.1, arc'.1, hm', ha.vmem ▸ e ▸ hv⟩, hs⟩
  · cases hd with
    | flat => exact h.elim
    | hier y a =>
      obtain ⟨rfl, v, hm, hv⟩ := h
      obtain ⟨arc', hm', e, hs⟩ := hx.2.1 _ hm
      exact ⟨arc'.2, ⟨hx.1, arc'.1, hm', ha.mem.2 ((e a).1 hv)⟩, hs⟩

theorem Cor.arcBwd {C C' : Cfg V E} (ha : Readdr C C') {x x' : SDD V} (hx : Cor C x x') {hd : Head E} {s' : SDD V}
    (h : ArcOf C' x' hd s') : ∃ s, ArcOf C x hd s ∧ Same C s s' := by
  cases x <;> cases x' <;> simp only [Cor] at hx <;> try exact hx.elim
  · cases hd <;> exact h.elim
  · cases hd <;> exact h.elim
  · cases hd with
    | hier => exact h.elim
    | flat y a =>
      obtain ⟨rfl, v, hm, hv⟩ := h
      obtain ⟨arc', hm', e, hs⟩ := hx.2.2 _ hm
      exact ⟨arc'.2, ⟨hx.1.symm, arc'.1, hm', ha.vmem ▸ e ▸ hv⟩, hs⟩
  · cases hd with
    | flat => exact h.elim
    | hier y a =>
      obtain ⟨rfl, v, hm, hv⟩ := h
      obtain ⟨arc', hm', e, hs⟩ := hx.2.2 _ hm
      exact ⟨arc'.2, ⟨hx.1.symm, arc'.1, hm', (e a).2 (ha.mem.1 hv)⟩, hs⟩

section
variable [DecidableEq I] {C C' : Cfg V E} {env env' : User V I U} {sc : Scope I U}

theorem Hom.Same.stop (hU : User.Same C C' env env') {h h' : Hom V I U} (hh : Hom.Same C h h') {o : OB I} (hs : Stop env h o) :
    Stop env' h' o := by
  cases o with
  | nil => trivial
  | node => exact (hh.skip hU _ _).trans hs

/-- The SDDs held by a homomorphism which can be applied are in canonical form. -/
theorem HTy.wf {o : OB I} {h : Hom V I U} {t : Ty} (ht : HTy env C sc o h t) : h.WF C := by
  induction ht with
  | id | fnNil | fn | indNil | indF | indH => intro s hs; cases hs
  | skip _ _ _ ih => exact ih
  | comp _ _ _ a b => intro s hs; cases hs with | compL h => exact b s h | compR h => exact a s h
  | consF _ _ _ a => intro s hs; cases hs with | consF h => exact a s h
  | consH _ _ _ hv _ a => intro s hs; cases hs with | consV => exact hv.wf | consH h => exact a s h
  | const _ h => intro s hs; cases hs; exact h.wf
  | fix _ _ a => intro s hs; cases hs with | fix h => exact a s h
  | ite _ _ _ _ _ a b c => intro s hs; cases hs with | iteI h => exact a s h | iteT h => exact b s h | iteE h => exact c s h
  | inter _ _ _ a => intro s hs; cases hs with | inter hm h => exact a _ hm s h
  | loc _ _ a => intro s hs; cases hs with | loc h => exact a s h
  | satFix _ _ _ _ a b c =>
    intro s hs
    cases hs with | satFixF h => exact a s h | satFixL h => exact b s h | satFixG hm h => exact c _ hm s h
  | satInter _ _ _ a => intro s hs; cases hs with | satInter hm h => exact a _ hm s h
  | satSum _ _ _ a => intro s hs; cases hs with | satSum hm h => exact a _ hm s h
  | sum _ _ _ a => intro s hs; cases hs with | sum hm h => exact a _ hm s h

/-- The conditions of use do not depend on addresses. -/
theorem HTy.same (ha : Readdr C C') (hU : User.Same C C' env env') (hc : env'.Canon C') {o : OB I} {h : Hom V I U} {t : Ty}
    (ht : HTy env C sc o h t) : ∀ {h' : Hom V I U}, Hom.Same C h h' → h'.WF C' → HTy env' C' sc o h' t := by
  induction ht with
  | id => intro h' hh _; cases hh; exact .id _
  | skip h1 h2 _ ih => intro h' hh hw; exact .skip (hh.ne_id h1) ((hh.skip hU _ _).trans h2) (ih hh hw)
  | comp hs _ _ a b =>
    intro h' hh hw
    have hs' := hh.stop hU hs
    cases hh with
    | comp h1 h2 => exact .comp hs' (a h2 fun s h => hw s (.compR h)) (b h1 fun s h => hw s (.compL h))
    | assocL h1 h2 h3 =>
      classical
      have g3 := a h3 fun s h => hw s (.compR (.compR h))
      obtain ⟨g2, g1⟩ := (b (.comp h1 h2) (by
        intro s h
        cases h with
        | compL h => exact hw s (.compL h)
        | compR h => exact hw s (.compR (.compL h)))).comp_inv
      exact HTy.comp_of _ (HTy.comp_of _ g3 g2) g1
    | assocR h1 h2 h3 =>
      classical
      have g1 := b h1 fun s h => hw s (.compL (.compL h))
      obtain ⟨g3, g2⟩ := (a (.comp h2 h3) (by
        intro s h
        cases h with
        | compL h => exact hw s (.compL (.compR h))
        | compR h => exact hw s (.compR h))).comp_inv
      exact HTy.comp_of _ g3 (HTy.comp_of _ g2 g1)
  | consF h0 h1 _ a => intro h' hh hw; cases hh with | consF h => exact .consF h0 h1 (a h fun s h => hw s (.consF h))
  | consH h0 h1 h2 hv _ a =>
    intro h' hh hw
    cases hh with
    | consH hs h => exact .consH h0 h1 h2 (hs.dom ha hv (hw _ .consV)) (a h fun s h => hw s (.consH h))
  | const h1 h => intro h' hh hw; cases hh with | const hs => exact .const h1 (hs.dom ha h (hw _ .const))
  | fix hs _ a =>
    intro h' hh hw
    have hs' := hh.stop hU hs
    cases hh with | fix h => exact .fix hs' (a h fun s h => hw s (.fix h))
  | fnNil => intro h' hh _; cases hh; exact .fnNil
  | fn => intro h' hh _; cases hh; exact .fn
  | ite hs hi _ _ _ a b c =>
    intro h' hh hw
    have hs' := hh.stop hU hs
    cases hh with
    | ite h1 h2 h3 =>
      exact .ite hs' ((h1.selector hU).trans hi) (a h1 fun s h => hw s (.iteI h)) (b h2 fun s h => hw s (.iteT h))
        (c h3 fun s h => hw s (.iteE h))
  | indNil h1 h2 h3 => intro h' hh _; cases hh; exact .indNil h1 h2 ((hU.indOne _).dom ha h3 (hc.indOne _))
  | indF h1 h2 hs _ a =>
    intro h' hh _
    have hs' := hh.stop hU hs
    cases hh
    exact .indF h1 h2 hs' fun v hv => a v (by rw [← ha.vmem]; exact hv) (hU.indF _ _ _) (hc.indF _ _ _)
  | indH h1 h2 h3 hs _ a =>
    intro h' hh _
    have hs' := hh.stop hU hs
    cases hh
    refine .indH h1 h2 h3 hs' fun v' hv h0 => ?_
    obtain ⟨v, g1, g2, _⟩ := resort ha.symm hv
    have g2 := ha.same.1 g2
    refine a v g1 (hv.ne_zero_of_same h0 (ha.same.2 g2)) (hU.indH _ _ _ _ g1.wf hv.wf g2.symm) (hc.indH _ _ _ hv.wf)
  | inter h1 hs _ a =>
    intro h' hh hw
    have hs' := hh.stop hU hs
    cases hh with
    | inter h2 h3 =>
      refine .inter h1 hs' fun g' hg => ?_
      obtain ⟨g, hm, hgs⟩ := SameL.bwd ⟨h2, h3⟩ hg
      exact a g hm hgs fun s h => hw s (.inter hg h)
  | loc h1 _ a => intro h' hh hw; cases hh with | loc h => exact .loc h1 (a h fun s h => hw s (.loc h))
  | satFix hs _ _ _ a b c =>
    intro h' hh hw
    have hs' := hh.stop hU hs
    cases hh with
    | satFix h1 h2 h3 h4 =>
      refine .satFix hs' (a h1 fun s h => hw s (.satFixF h)) (b h4 fun s h => hw s (.satFixL h)) fun g' hg => ?_
      obtain ⟨g, hm, hgs⟩ := SameL.bwd ⟨h2, h3⟩ hg
      exact c g hm hgs fun s h => hw s (.satFixG hg h)
  | satInter h1 hs _ a =>
    intro h' hh hw
    have hs' := hh.stop hU hs
    cases hh with
    | satInter f1 f2 f3 g1 g2 g3 =>
      refine .satInter h1 hs' fun g' hg => ?_
      obtain ⟨g, hm, hgs⟩ := SameL.bwd ((SameL.append ⟨f1, g1⟩ ⟨f2, g2⟩).append ⟨f3, g3⟩) hg
      exact a g hm hgs fun s h => hw s (.satInter hg h)
  | satSum h1 hs _ a =>
    intro h' hh hw
    have hs' := hh.stop hU hs
    cases hh with
    | satSum f1 f2 f3 g1 g2 g3 =>
      refine .satSum h1 hs' fun g' hg => ?_
      obtain ⟨g, hm, hgs⟩ := SameL.bwd ((SameL.append ⟨f1, g1⟩ ⟨f2, g2⟩).append ⟨f3, g3⟩) hg
      exact a g hm hgs fun s h => hw s (.satSum hg h)
  | sum h1 hs _ a =>
    intro h' hh hw
    have hs' := hh.stop hU hs
    cases hh with
    | sum h2 h3 =>
      refine .sum h1 hs' fun g' hg => ?_
      obtain ⟨g, hm, hgs⟩ := SameL.bwd ⟨h2, h3⟩ hg
      exact a g hm hgs fun s h => hw s (.sum hg h)

/-- Families of results for corresponding operands. -/
theorem SameL.results (ha : Readdr C C') {hs hs' : List (Hom V I U)} (hl : SameL C hs hs') {o : OB I} {x' : SDD V}
    {f : Hom V I U → SDD V}
    (ih : ∀ g ∈ hs, ∀ g' ∈ hs', Hom.Same C g g' → ∃ r', Ev env' C' g' o x' r' ∧ Same C (f g) r' ∧ WF C' r') :
    ∃ f' : Hom V I U → SDD V, (∀ g' ∈ hs', Ev env' C' g' o x' (f' g') ∧ WF C' (f' g')) ∧
      ∀ g ∈ hs, ∀ g' ∈ hs', Hom.Same C g g' → Same C (f g) (f' g') := by
  classical
  have h1 : ∀ g' ∈ hs', ∃ r', Ev env' C' g' o x' r' ∧ WF C' r' := by
    intro g' hg
    obtain ⟨g, hm, hgs⟩ := hl.bwd hg
    obtain ⟨r', a, _, b⟩ := ih g hm g' hg hgs
    exact ⟨r', a, b⟩
  let f' : Hom V I U → SDD V := fun g' => if h : ∃ r', Ev env' C' g' o x' r' ∧ WF C' r' then h.choose else .zero
  have hf' : ∀ g' ∈ hs', Ev env' C' g' o x' (f' g') ∧ WF C' (f' g') := by
    intro g' hg
    simp only [f', dif_pos (h1 g' hg)]
    exact (h1 g' hg).choose_spec
  refine ⟨f', hf', fun g hm g' hg hgs => ?_⟩
  obtain ⟨r', a, b, _⟩ := ih g hm g' hg hgs
  rw [(hf' g' hg).1.det ha.lawful' a]
  exact b

/-- One round of a saturation, under other addresses. -/
theorem sat_round (ha : Readdr C C') {G G' : List (Hom V I U)} (hl : SameL C G G') {o : OB I} {c d : Nat → SDD V}
    (hc : ∀ i, i < G.length → Is C (c (i + 1)) (fun p => Mem C p (c i) ∨ Mem C p (d i))) {c0 : SDD V}
    (h0 : Same C (c 0) c0) (hw0 : WF C' c0)
    (ih : ∀ i (_ : i < G.length) (h2 : i < G'.length), ∀ x', WF C' x' → Same C (c i) x' →
      ∃ r', Ev env' C' G'[i] o x' r' ∧ Same C (d i) r' ∧ WF C' r') :
    ∃ c' d' : Nat → SDD V, c' 0 = c0 ∧ (∀ i, (hi : i < G'.length) → Ev env' C' G'[i] o (c' i) (d' i)) ∧
      (∀ i, i < G'.length → Is C' (c' (i + 1)) (fun p => Mem C' p (c' i) ∨ Mem C' p (d' i))) ∧
      Same C (c G.length) (c' G'.length) ∧ WF C' (c' G'.length) := by
  classical
  have h1 : ∀ i, i ≤ G.length → ∃ y, Same C (c i) y ∧ WF C' y ∧ (i = 0 → y = c0) := by
    intro i hi
    cases i with
    | zero => exact ⟨c0, h0, hw0, fun _ => rfl⟩
    | succ i =>
      obtain ⟨y, a, b⟩ := (hc i hi).resort ha (fun p => Iff.rfl)
      exact ⟨y, b, a.1, by simp⟩
  let c' : Nat → SDD V := fun i => if h : ∃ y, Same C (c i) y ∧ WF C' y ∧ (i = 0 → y = c0) then h.choose else .zero
  have hc' : ∀ i, i ≤ G.length → Same C (c i) (c' i) ∧ WF C' (c' i) ∧ (i = 0 → c' i = c0) := by
    intro i hi
    simp only [c', dif_pos (h1 i hi)]
    exact (h1 i hi).choose_spec
  have h2 : ∀ i, (hi : i < G'.length) → ∃ y, Ev env' C' G'[i] o (c' i) y ∧ Same C (d i) y := by
    intro i hi
    have hi' : i < G.length := hl.1 ▸ hi
    obtain ⟨r', a, b, _⟩ := ih i hi' hi (c' i) (hc' i hi'.le).2.1 (hc' i hi'.le).1
    exact ⟨r', a, b⟩
  let d' : Nat → SDD V := fun i => if h : i < G'.length then (h2 i h).choose else .zero
  have hd' : ∀ i, (hi : i < G'.length) → Ev env' C' G'[i] o (c' i) (d' i) ∧ Same C (d i) (d' i) := by
    intro i hi
    simp only [d', dif_pos hi]
    exact (h2 i hi).choose_spec
  refine ⟨c', d', (hc' 0 (Nat.zero_le _)).2.2 rfl, fun i hi => (hd' i hi).1, fun i hi => ?_, ?_⟩
  · have hi' : i < G.length := hl.1 ▸ hi
    refine ⟨(hc' (i + 1) hi').2.1, fun p => ?_⟩
    rw [ha.mem, ← (hc' (i + 1) hi').1 p, (hc i hi').2 p]
    exact or_congr (((hc' i hi'.le).1 p).trans ha.mem.symm) (((hd' i hi).2 p).trans ha.mem.symm)
  · rw [← hl.1]
    exact ⟨(hc' _ le_rfl).1, (hc' _ le_rfl).2.1⟩

/-- The intermediate SDDs of a saturation have the shape of the order. -/
theorem sat_dom {G : List (Hom V I U)} {o : OB I} {c d : Nat → SDD V} (h0 : Dom C o.ty (c 0))
    (hG : ∀ g ∈ G, HTy env C sc o g o.ty) (hd : ∀ i, (hi : i < G.length) → Ev env C G[i] o (c i) (d i))
    (hc : ∀ i, i < G.length → Is C (c (i + 1)) (fun p => Mem C p (c i) ∨ Mem C p (d i))) :
    ∀ i, i ≤ G.length → Dom C o.ty (c i) := by
  intro i
  induction i with
  | zero => exact fun _ => h0
  | succ i ih =>
    intro hi
    have h1 := ih (by omega)
    refine (hc i hi).dom ?_
    rintro p (hp | hp)
    · exact h1.pty p hp
    · exact ((hd i hi).dom (hG _ (List.getElem_mem hi)) h1).pty p hp

/-- The meaning of homomorphisms does not depend on addresses. -/
theorem Ev.same (ha : Readdr C C') (hU : User.Same C C' env env') (hc : env'.Canon C') {h : Hom V I U} {o : OB I} {x r : SDD V}
    (e : Ev env C h o x r) : ∀ {t : Ty} {h' : Hom V I U} {x' : SDD V}, HTy env C sc o h t → Dom C o.ty x → Hom.Same C h h' →
      h'.WF C' → WF C' x' → Same C x x' → ∃ r', Ev env' C' h' o x' r' ∧ Same C r r' ∧ WF C' r' := by
  induction e with
  | zero h o =>
    intro t h' x' ht hx hh hw hx' hs
    have : x' = .zero := by
      obtain ⟨n, hn⟩ := hx'
      exact hn.zero_iff.2 fun p hp => not_mem_zero p ((hs p).2 (ha.mem.1 hp))
    subst this
    exact ⟨.zero, .zero _ _, .refl _, hx'⟩
  | id o x =>
    intro t h' x' ht hx hh hw hx' hs
    cases hh
    exact ⟨x', .id _ _, hs, hx'⟩
  | @skip h id nst nxt x r f hne hb hf hr ih =>
    intro t h' x' ht hx hh hw hx' hs
    have hcor := hs.cor ha hx.wf hx'
    obtain ⟨t', rfl, ht'⟩ := ht.skip_inv hne hb.skip
    have hsucc : ∀ hd s, ArcOf C x hd s → Dom C nxt.ty s := by
      intro hd s has
      rcases dom_cases hx with rfl | ⟨h1, rfl⟩ | ⟨_, _, arcs, h1, rfl, _, h3⟩ | ⟨_, _, _, arcs, h1, _, rfl, _, _, h4⟩
      · cases hd <;> exact has.elim
      · cases h1
      · cases h1
        cases hd with
        | flat => obtain ⟨_, v, hm, _⟩ := has; exact h3 _ hm
        | hier => exact has.elim
      · cases h1
        cases hd with
        | hier => obtain ⟨_, v, hm, _⟩ := has; exact h4 _ hm
        | flat => exact has.elim
    have hsucc' : ∀ hd s, ArcOf C' x' hd s → WF C' s := by
      intro hd s has
      have hx2 : Dom C' (OB.node id nst nxt).ty x' := hs.dom ha hx hx'
      rcases dom_cases hx2 with rfl | ⟨h1, rfl⟩ | ⟨_, _, arcs, h1, rfl, _, h3⟩ | ⟨_, _, _, arcs, h1, _, rfl, _, _, h4⟩
      · cases hd <;> exact has.elim
      · cases h1
      · cases h1
        cases hd with
        | flat => obtain ⟨_, v, hm, _⟩ := has; exact (h3 _ hm).wf
        | hier => exact has.elim
      · cases h1
        cases hd with
        | hier => obtain ⟨_, v, hm, _⟩ := has; exact (h4 _ hm).wf
        | flat => exact has.elim
    have key : ∀ hd s', ArcOf C' x' hd s' → ∃ r', Ev env' C' h' nxt s' r' := by
      intro hd s' has
      obtain ⟨s, h1, h2⟩ := hcor.arcBwd ha has
      obtain ⟨r', a, _⟩ := ih hd s h1 ht' (hsucc hd s h1) hh hw (hsucc' hd s' has) h2
      exact ⟨r', a⟩
    classical
    let f' : SDD V → SDD V := fun s' => if h : ∃ r', Ev env' C' h' nxt s' r' then h.choose else .zero
    have hf' : ∀ hd s', ArcOf C' x' hd s' → Ev env' C' h' nxt s' (f' s') := by
      intro hd s' has
      simp only [f', dif_pos (key hd s' has)]
      exact (key hd s' has).choose_spec
    have hff : ∀ hd s s', ArcOf C x hd s → ArcOf C' x' hd s' → Same C s s' → Same C (f s) (f' s') := by
      intro hd s s' h1 h2 h3
      obtain ⟨r', a, b, _⟩ := ih hd s h1 ht' (hsucc hd s h1) hh hw (hsucc' hd s' h2) h3
      rw [(hf' hd s' h2).det ha.lawful' a]
      exact b
    obtain ⟨r', h1, h2⟩ := hr.resort ha (S' := fun p => ∃ hd s q, p = hd.cons q ∧ ArcOf C' x' hd s ∧ Mem C' q (f' s)) (by
      intro p
      constructor
      · rintro ⟨hd, s, q, rfl, h1, h2⟩
        obtain ⟨s', h3, h4⟩ := hcor.arcFwd ha h1
        exact ⟨hd, s', q, rfl, h3, ha.mem.2 ((hff hd s s' h1 h3 h4 q).1 h2)⟩
      · rintro ⟨hd, s', q, rfl, h1, h2⟩
        obtain ⟨s, h3, h4⟩ := hcor.arcBwd ha h1
        exact ⟨hd, s, q, rfl, h3, (hff hd s s' h3 h1 h4 q).2 (ha.mem.1 h2)⟩)
    exact ⟨r', .skip f' (hh.ne_id hne) (hcor.below hU hh hb) hf' h1, h2, h1.1⟩
  | comp hh e1 _ ih1 ih2 =>
    intro t h' x' ht hx hs' hw hx' hs
    have hhere := (hs.cor ha hx.wf hx').here hU hs' hh
    cases ht with
    | skip _ h1 => exact (hh.not_skip hx h1).elim
    | comp _ h1 h2 =>
      cases hs' with
      | comp g1 g2 =>
        obtain ⟨y', a1, a2, a3⟩ := ih1 h1 hx g2 (fun s h => hw s (.compR h)) hx' hs
        obtain ⟨z', b1, b2, b3⟩ := ih2 h2 (e1.dom h1 hx) g1 (fun s h => hw s (.compL h)) a3 a2
        exact ⟨z', .comp hhere a1 b1, b2, b3⟩
      | @assocL a b c a' b' c' k1 k2 k3 =>
        classical
        have w12 : (Hom.comp a' b').WF C' := by
          intro s h
          cases h with
          | compL h => exact hw s (.compL h)
          | compR h => exact hw s (.compR (.compL h))
        have w3 : c'.WF C' := fun s h => hw s (.compR (.compR h))
        have t3 := h1.same ha hU hc k3 w3
        obtain ⟨t2, t1⟩ := (h2.same ha hU hc (.comp k1 k2) w12).comp_inv
        have hx2 := hs.dom ha hx hx'
        obtain ⟨y', a1, a2, a3⟩ := ih1 h1 hx k3 w3 hx' hs
        obtain ⟨z', b1, b2, b3⟩ := ih2 h2 (e1.dom h1 hx) (.comp k1 k2) w12 a3 a2
        obtain ⟨u, c1, c2⟩ := (Ev.comp_iff ha.lawful' _ t2 t1 (a1.dom t3 hx2)).1 b1
        exact ⟨z', (Ev.comp_iff ha.lawful' _ (HTy.comp_of _ t3 t2) t1 hx2).2
          ⟨u, (Ev.comp_iff ha.lawful' _ t3 t2 hx2).2 ⟨y', a1, c1⟩, c2⟩, b2, b3⟩
      | @assocR a b c a' b' c' k1 k2 k3 =>
        classical
        have w23 : (Hom.comp b' c').WF C' := by
          intro s h
          cases h with
          | compL h => exact hw s (.compL (.compR h))
          | compR h => exact hw s (.compR h)
        have w1 : a'.WF C' := fun s h => hw s (.compL (.compL h))
        have t1 := h2.same ha hU hc k1 w1
        obtain ⟨t3, t2⟩ := (h1.same ha hU hc (.comp k2 k3) w23).comp_inv
        have hx2 := hs.dom ha hx hx'
        obtain ⟨y', a1, a2, a3⟩ := ih1 h1 hx (.comp k2 k3) w23 hx' hs
        obtain ⟨z', b1, b2, b3⟩ := ih2 h2 (e1.dom h1 hx) k1 w1 a3 a2
        obtain ⟨u, c1, c2⟩ := (Ev.comp_iff ha.lawful' _ t3 t2 hx2).1 a1
        have hu2 := c1.dom t3 hx2
        exact ⟨z', (Ev.comp_iff ha.lawful' _ t3 (HTy.comp_of _ t2 t1) hx2).2
          ⟨u, c1, (Ev.comp_iff ha.lawful' _ t2 t1 hu2).2 ⟨y', c2, b1⟩⟩, b2, b3⟩
  | @consF h1' o1 id1 nst1 nxt1 v1 x1 y1 r1 hh e1 hr ih =>
    intro t h' x' ht hx hs' hw hx' hs
    have hhere := (hs.cor ha hx.wf hx').here hU hs' hh
    cases ht with
    | skip _ h1 => exact (hh.not_skip hx h1).elim
    | consF h0 h1 h2 =>
      cases hs' with
      | consF g =>
        obtain ⟨y', a1, a2, a3⟩ := ih h2 (h1 ▸ hx) g (fun s h => hw s (.consF h)) hx' hs
        obtain ⟨r', h3, h4⟩ := hr.resort ha (S' := fun p => ∃ a q, p = .flat nxt1.lvl a q ∧ C'.vmem a v1 ∧ Mem C' q y') (by
          intro p
          have a2 : ∀ q, Mem C q y1 ↔ Mem C q y' := a2
          simp only [ha.vmem, ha.mem, a2])
        exact ⟨r', .consF hhere a1 h3, h4, h3.1⟩
  | @consH h1' o1 id1 nst1 nxt1 v1 x1 y1 r1 hh e1 hr ih =>
    intro t h' x' ht hx hs' hw hx' hs
    have hhere := (hs.cor ha hx.wf hx').here hU hs' hh
    cases ht with
    | skip _ h1 => exact (hh.not_skip hx h1).elim
    | consH h0 h1 _ _ h2 =>
      cases hs' with
      | @consH _ _ v' _ _ hv g =>
        obtain ⟨y', a1, a2, a3⟩ := ih h2 (h1 ▸ hx) g (fun s h => hw s (.consH h)) hx' hs
        obtain ⟨r', h3, h4⟩ := hr.resort ha (S' := fun p => ∃ n q, p = .hier nxt1.lvl n q ∧ Mem C' n v' ∧ Mem C' q y') (by
          intro p
          have a2 : ∀ q, Mem C q y1 ↔ Mem C q y' := a2
          have hv : ∀ q, Mem C q v1 ↔ Mem C q v' := hv
          simp only [ha.mem, a2, hv])
        exact ⟨r', .consH hhere a1 h3, h4, h3.1⟩
  | const hh =>
    intro t h' x' ht hx hs' hw hx' hs
    have hhere := (hs.cor ha hx.wf hx').here hU hs' hh
    cases hs' with
    | const g => exact ⟨_, .const hhere, g, hw _ .const⟩
  | fixDone hh e1 ih =>
    intro t h' x' ht hx hs' hw hx' hs
    have hhere := (hs.cor ha hx.wf hx').here hU hs' hh
    cases ht with
    | skip _ h1 => exact (hh.not_skip hx h1).elim
    | fix _ h1 =>
      cases hs' with
      | fix g =>
        obtain ⟨y', a1, a2, a3⟩ := ih h1 hx g (fun s h => hw s (.fix h)) hx' hs
        have : y' = x' := canonical_ext ha.lawful' a3 hx' (ha.same.2 (a2.symm.trans hs))
        subst this
        exact ⟨y', .fixDone hhere a1, a2, a3⟩
  | fixStep hh e1 hne e2 ih1 ih2 =>
    intro t h' x' ht hx hs' hw hx' hs
    have hhere := (hs.cor ha hx.wf hx').here hU hs' hh
    have hsf := hs'
    cases ht with
    | skip _ h1 => exact (hh.not_skip hx h1).elim
    | fix hst h1 =>
      cases hs' with
      | fix g =>
        obtain ⟨y', a1, a2, a3⟩ := ih1 h1 hx g (fun s h => hw s (.fix h)) hx' hs
        have hy := e1.dom h1 hx
        obtain ⟨r', b1, b2, b3⟩ := ih2 (.fix hst h1) hy hsf hw a3 a2
        refine ⟨r', .fixStep hhere a1 ?_ b1, b2, b3⟩
        rintro rfl
        exact hne (canonical_ext ha.lawful hy.wf hx.wf (a2.trans hs.symm))
  | fnOne =>
    intro t h' x' ht hx hs' hw hx' hs
    cases hs'
    have : x' = .one := (hs .nil).1 rfl
    subst this
    exact ⟨.one, .fnOne, .refl _, hx'⟩
  | @fn z u o y arcs r hh hr =>
    intro t h' x' ht hx hs' hw hx' hs
    have hcor := hs.cor ha hx.wf hx'
    have hhere := hcor.here hU hs' hh
    cases hs'
    cases x' with
    | flat y' arcs' =>
      obtain ⟨rfl, h1, h2⟩ := hcor
      obtain ⟨r', h3, h4⟩ := hr.resort ha
        (S' := fun p => ∃ b q, p = .flat y b q ∧ ∃ arc ∈ arcs', C'.vmem b (env'.fn u arc.1) ∧ Mem C' q arc.2) (by
        intro p
        rw [ha.vmem, hU.fn]
        constructor
        · rintro ⟨b, q, rfl, arc, hm, hb, hq⟩
          obtain ⟨arc', hm', e, hs2⟩ := h1 arc hm
          exact ⟨b, q, rfl, arc', hm', e ▸ hb, ha.mem.2 ((hs2 q).1 hq)⟩
        · rintro ⟨b, q, rfl, arc', hm', hb, hq⟩
          obtain ⟨arc, hm, e, hs2⟩ := h2 arc' hm'
          exact ⟨b, q, rfl, arc, hm, e ▸ hb, (hs2 q).2 (ha.mem.1 hq)⟩)
      exact ⟨r', .fn hhere h3, h4, h3.1⟩
    | _ => exact hcor.elim
  | ite hi hh e1 hd _ _ hr ih1 ih2 ih3 =>
    intro t h' x' ht hx hs' hw hx' hs
    have hhere := (hs.cor ha hx.wf hx').here hU hs' hh
    cases ht with
    | skip _ h1 => exact (hh.not_skip hx h1).elim
    | ite _ _ h1 h2 h3 =>
      cases hs' with
      | ite g1 g2 g3 =>
        obtain ⟨y', a1, a2, a3⟩ := ih1 h1 hx g1 (fun s h => hw s (.iteI h)) hx' hs
        obtain ⟨d', hd', d2⟩ := hd.resort ha (S' := fun p => Mem C' p x' ∧ ¬ Mem C' p y') (by
          intro p
          simp only [ha.mem, a2 p, hs p])
        obtain ⟨b', b1, b2, b3⟩ := ih2 h2 (e1.dom h1 hx) g2 (fun s h => hw s (.iteT h)) a3 a2
        obtain ⟨c', c1, c2, c3⟩ := ih3 h3 (hd.dom fun p hp => hx.pty p hp.1) g3 (fun s h => hw s (.iteE h)) hd'.1 d2
        obtain ⟨r', h3, h4⟩ := hr.resort ha (S' := fun p => Mem C' p b' ∨ Mem C' p c') (by
          intro p
          simp only [ha.mem, b2 p, c2 p])
        exact ⟨r', .ite ((g1.selector hU).trans hi) hhere a1 hd' b1 c1 h3, h4, h3.1⟩
  | indOne =>
    intro t h' x' ht hx hs' hw hx' hs
    cases hs'
    have : x' = .one := (hs .nil).1 rfl
    subst this
    exact ⟨_, .indOne, hU.indOne _, hc.indOne _⟩
  | @indF u id nst nxt y arcs r f hh _ hr ih =>
    intro t h' x' ht hx hs' hw hx' hs
    have hcor := hs.cor ha hx.wf hx'
    have hhere := hcor.here hU hs' hh
    have hx2 : Dom C' (OB.node id nst nxt).ty x' := hs.dom ha hx hx'
    cases hs'
    cases ht with
    | skip _ h1 => exact (hh.not_skip hx h1).elim
    | indH _ _ hn =>
      rcases dom_cases hx with h | ⟨h, _⟩ | ⟨_, _, _, h, _⟩ | ⟨_, _, _, _, _, _, h, _⟩
      · cases h
      · cases h
      · cases h; exact absurd rfl hn
      · cases h
    | indF _ _ _ hty =>
      rcases dom_cases hx2 with rfl | ⟨h, _⟩ | ⟨_, _, arcs', h, rfl, g1', g3'⟩ | ⟨_, _, _, _, h, hn, _⟩
      · exact hcor.elim
      · cases h
      · cases h
        obtain ⟨t', h1, g1, g3⟩ := hx.flat_inv
        simp [OB.ty, Ty.flatNext] at h1
        obtain ⟨rfl, rfl⟩ := h1
        obtain ⟨_, c1, c2⟩ := hcor
        have key : ∀ arc ∈ arcs, ∀ arc' ∈ arcs', arc.1 = arc'.1 → Same C arc.2 arc'.2 →
            ∃ r', Ev env' C' (env'.indF u (.node id .nil nxt) arc'.1) nxt arc'.2 r' ∧ Same C (f arc) r' ∧ WF C' r' := by
          intro arc hm arc' hm' he hss
          have := ih arc hm (hty arc.1 (g1.valNe arc hm)) (g3 arc hm) (hU.indF u _ arc.1) (hc.indF u _ _) (g3' arc' hm').wf hss
          rwa [he] at this
        classical
        let f' : V × SDD V → SDD V := fun arc' =>
          if h : ∃ r', Ev env' C' (env'.indF u (.node id .nil nxt) arc'.1) nxt arc'.2 r' then h.choose else .zero
        have hf' : ∀ arc' ∈ arcs', Ev env' C' (env'.indF u (.node id .nil nxt) arc'.1) nxt arc'.2 (f' arc') := by
          intro arc' hm'
          obtain ⟨arc, hm, he, hss⟩ := c2 arc' hm'
          obtain ⟨r', a, _⟩ := key arc hm arc' hm' he hss
          have hex : ∃ r', Ev env' C' (env'.indF u (.node id .nil nxt) arc'.1) nxt arc'.2 r' := ⟨r', a⟩
          simp only [f', dif_pos hex]
          exact hex.choose_spec
        have hff : ∀ arc ∈ arcs, ∀ arc' ∈ arcs', arc.1 = arc'.1 → Same C arc.2 arc'.2 → Same C (f arc) (f' arc') := by
          intro arc hm arc' hm' he hss
          obtain ⟨r', a, b, _⟩ := key arc hm arc' hm' he hss
          rw [(hf' arc' hm').det ha.lawful' a]
          exact b
        obtain ⟨r', h3, h4⟩ := hr.resort ha (S' := fun p => ∃ arc ∈ arcs', Mem C' p (f' arc)) (by
          intro p
          constructor
          · rintro ⟨arc, hm, hp⟩
            obtain ⟨arc', hm', he, hss⟩ := c1 arc hm
            exact ⟨arc', hm', ha.mem.2 ((hff arc hm arc' hm' he hss p).1 hp)⟩
          · rintro ⟨arc', hm', hp⟩
            obtain ⟨arc, hm, he, hss⟩ := c2 arc' hm'
            exact ⟨arc, hm, (hff arc hm arc' hm' he hss p).2 (ha.mem.1 hp)⟩)
        exact ⟨r', .indF f' hhere hf' h3, h4, h3.1⟩
      · cases h; exact absurd rfl hn
  | @indH u id nst nxt y arcs r f hh _ hr ih =>
    intro t h' x' ht hx hs' hw hx' hs
    have hcor := hs.cor ha hx.wf hx'
    have hhere := hcor.here hU hs' hh
    have hx2 : Dom C' (OB.node id nst nxt).ty x' := hs.dom ha hx hx'
    cases hs'
    cases ht with
    | skip _ h1 => exact (hh.not_skip hx h1).elim
    | indF _ _ _ h =>
      rcases dom_cases hx with h | ⟨h, _⟩ | ⟨_, _, _, _, h, _⟩ | ⟨_, _, _, _, h, hn, _⟩
      · cases h
      · cases h
      · cases h
      · cases h; exact absurd rfl hn
    | indH _ _ hn _ hty =>
      rcases dom_cases hx2 with rfl | ⟨h, _⟩ | ⟨_, _, _, h, _⟩ | ⟨_, _, _, arcs', h, _, rfl, g1', g2', g3'⟩
      · exact hcor.elim
      · cases h
      · cases h; exact absurd rfl hn
      · cases h
        rcases dom_cases hx with h' | ⟨h', _⟩ | ⟨_, _, _, _, h', _⟩ | ⟨_, _, _, _, h', _, h'', g1, g2, g3⟩
        · cases h'
        · cases h'
        · cases h'
        cases h'; cases h''
        obtain ⟨_, c1, c2⟩ := hcor
        have key : ∀ arc ∈ arcs, ∀ arc' ∈ arcs', Same C arc.1 arc'.1 → Same C arc.2 arc'.2 →
            ∃ r', Ev env' C' (env'.indH u (.node id nst nxt) arc'.1) nxt arc'.2 r' ∧ Same C (f arc) r' ∧ WF C' r' := by
          intro arc hm arc' hm' he hss
          obtain ⟨n, hn⟩ := g1.valNe arc hm
          exact ih arc hm (hty arc.1 (g2 arc hm) (fun h => not_mem_zero n (h ▸ hn))) (g3 arc hm) (hU.indH u _ _ _ (g2 arc hm).wf (g2' arc' hm').wf he)
            (hc.indH u _ _ (g2' arc' hm').wf) (g3' arc' hm').wf hss
        classical
        let f' : SDD V × SDD V → SDD V := fun arc' =>
          if h : ∃ r', Ev env' C' (env'.indH u (.node id nst nxt) arc'.1) nxt arc'.2 r' then h.choose else .zero
        have hf' : ∀ arc' ∈ arcs', Ev env' C' (env'.indH u (.node id nst nxt) arc'.1) nxt arc'.2 (f' arc') := by
          intro arc' hm'
          obtain ⟨arc, hm, he, hss⟩ := c2 arc' hm'
          obtain ⟨r', a, _⟩ := key arc hm arc' hm' he hss
          have hex : ∃ r', Ev env' C' (env'.indH u (.node id nst nxt) arc'.1) nxt arc'.2 r' := ⟨r', a⟩
          simp only [f', dif_pos hex]
          exact hex.choose_spec
        have hff : ∀ arc ∈ arcs, ∀ arc' ∈ arcs', Same C arc.1 arc'.1 → Same C arc.2 arc'.2 → Same C (f arc) (f' arc') := by
          intro arc hm arc' hm' he hss
          obtain ⟨r', a, b, _⟩ := key arc hm arc' hm' he hss
          rw [(hf' arc' hm').det ha.lawful' a]
          exact b
        obtain ⟨r', h3, h4⟩ := hr.resort ha (S' := fun p => ∃ arc ∈ arcs', Mem C' p (f' arc)) (by
          intro p
          constructor
          · rintro ⟨arc, hm, hp⟩
            obtain ⟨arc', hm', he, hss⟩ := c1 arc hm
            exact ⟨arc', hm', ha.mem.2 ((hff arc hm arc' hm' he hss p).1 hp)⟩
          · rintro ⟨arc', hm', hp⟩
            obtain ⟨arc, hm, he, hss⟩ := c2 arc' hm'
            exact ⟨arc, hm, (hff arc hm arc' hm' he hss p).2 (ha.mem.1 hp)⟩)
        exact ⟨r', .indH f' hhere hf' h3, h4, h3.1⟩
  | inter f hh _ hr ih =>
    intro t h' x' ht hx hs' hw hx' hs
    have hhere := (hs.cor ha hx.wf hx').here hU hs' hh
    cases ht with
    | skip _ h1 => exact (hh.not_skip hx h1).elim
    | inter _ _ h =>
      cases hs' with
      | inter l1 l2 =>
        have hl : SameL C _ _ := ⟨l1, l2⟩
        obtain ⟨f', a1, a2⟩ := hl.results ha fun g hm g' hg hgs => ih g hm (h g hm) hx hgs (fun s h => hw s (.inter hg h)) hx' hs
        obtain ⟨r', h3, h4⟩ := hr.resort ha (S' := fun p => _ ≠ [] ∧ ∀ h ∈ _, Mem C' p (f' h)) (by
          intro p
          refine and_congr (not_congr hl.nil_iff) ⟨fun hp g' hg => ?_, fun hp g hm => ?_⟩
          · obtain ⟨g, hm, hgs⟩ := hl.bwd hg
            exact ha.mem.2 ((a2 g hm g' hg hgs p).1 (hp g hm))
          · obtain ⟨g', hg, hgs⟩ := hl.fwd hm
            exact (a2 g hm g' hg hgs p).2 (ha.mem.1 (hp g' hg)))
        exact ⟨r', .inter f' hhere (fun g' hg => (a1 g' hg).1) h3, h4, h3.1⟩
  | @interZero o x h0 pre post f hh _ _ ih1 ih2 =>
    intro t h' x' ht hx hs' hw hx' hs
    have hhere := (hs.cor ha hx.wf hx').here hU hs' hh
    cases ht with
    | skip _ h1 => exact (hh.not_skip hx h1).elim
    | inter _ _ h =>
      cases hs' with
      | @inter _ hs2 l1 l2 =>
        have hlen : pre.length < hs2.length := by rw [← l1]; simp
        obtain ⟨pre', h0', post', rfl, hl'⟩ : ∃ pre' h0' post', hs2 = pre' ++ h0' :: post' ∧ pre'.length = pre.length := by
          refine ⟨hs2.take pre.length, hs2[pre.length], hs2.drop (pre.length + 1), ?_, ?_⟩
          · rw [← List.drop_eq_getElem_cons hlen, List.take_append_drop]
          · rw [List.length_take]; omega
        have e1 : SameL C pre pre' := by
          refine ⟨hl'.symm, fun i h1 h2 => ?_⟩
          have := l2 i (by simp; omega) (by simp; omega)
          rwa [List.getElem_append_left h1, List.getElem_append_left h2] at this
        have e2 : Hom.Same C h0 h0' := by
          have := l2 pre.length (by simp) (by simp [hl'])
          rw [List.getElem_append_right (by omega), List.getElem_append_right (by omega)] at this
          simpa [hl'] using this
        obtain ⟨f', a1, a2⟩ := e1.results ha fun g hm g' hg hgs =>
          ih1 g hm (h g (by simp [hm])) hx hgs (fun s h => hw s (.inter (by simp [hg]) h)) hx' hs
        obtain ⟨z, b1, b2, b3⟩ := ih2 (h h0 (by simp)) hx e2 (fun s h => hw s (.inter (by simp) h)) hx' hs
        have : z = .zero := by
          obtain ⟨n, hn⟩ := b3
          exact hn.zero_iff.2 fun p hp => not_mem_zero p ((b2 p).2 (ha.mem.1 hp))
        subst this
        exact ⟨.zero, .interZero pre' post' f' hhere (fun g' hg => (a1 g' hg).1) b1, .refl _, b3⟩
  | @loc z h id nst nxt y arcs r f hh _ hr ih =>
    intro t h' x' ht hx hs' hw hx' hs
    have hcor := hs.cor ha hx.wf hx'
    have hhere := hcor.here hU hs' hh
    have hx2 : Dom C' (OB.node id nst nxt).ty x' := hs.dom ha hx hx'
    cases ht with
    | skip _ h1 => exact (hh.not_skip hx h1).elim
    | loc hn hty =>
      cases hs' with
      | @loc _ _ h2 g =>
      rcases dom_cases hx2 with rfl | ⟨h, _⟩ | ⟨_, _, _, h, _⟩ | ⟨_, _, _, arcs', h, _, rfl, g1', g2', g3'⟩
      · exact hcor.elim
      · cases h
      · cases h; exact absurd rfl hn
      · cases h
        rcases dom_cases hx with h' | ⟨h', _⟩ | ⟨_, _, _, _, h', _⟩ | ⟨_, _, _, _, h', _, h'', g1, g2, g3⟩
        · cases h'
        · cases h'
        · cases h'
        cases h'; cases h''
        obtain ⟨_, c1, c2⟩ := hcor
        have key : ∀ arc ∈ arcs, ∀ arc' ∈ arcs', Same C arc.1 arc'.1 →
            ∃ r', Ev env' C' h2 nst arc'.1 r' ∧ Same C (f arc.1) r' ∧ WF C' r' := by
          intro arc hm arc' hm' he
          exact ih arc hm hty (g2 arc hm) g (fun s h => hw s (.loc h)) (g2' arc' hm').wf he
        classical
        let f' : SDD V → SDD V := fun s' => if h : ∃ r', Ev env' C' h2 nst s' r' then h.choose else .zero
        have hf' : ∀ arc' ∈ arcs', Ev env' C' h2 nst arc'.1 (f' arc'.1) := by
          intro arc' hm'
          obtain ⟨arc, hm, he, _⟩ := c2 arc' hm'
          obtain ⟨r', a, _⟩ := key arc hm arc' hm' he
          have hex : ∃ r', Ev env' C' h2 nst arc'.1 r' := ⟨r', a⟩
          simp only [f', dif_pos hex]
          exact hex.choose_spec
        have hff : ∀ arc ∈ arcs, ∀ arc' ∈ arcs', Same C arc.1 arc'.1 → Same C (f arc.1) (f' arc'.1) := by
          intro arc hm arc' hm' he
          obtain ⟨r', a, b, _⟩ := key arc hm arc' hm' he
          rw [(hf' arc' hm').det ha.lawful' a]
          exact b
        obtain ⟨r', h3, h4⟩ := hr.resort ha
          (S' := fun p => ∃ n q, p = .hier nxt.lvl n q ∧ ∃ arc ∈ arcs', Mem C' n (f' arc.1) ∧ Mem C' q arc.2) (by
          intro p
          constructor
          · rintro ⟨n, q, rfl, arc, hm, hp, hq⟩
            obtain ⟨arc', hm', he, hss⟩ := c1 arc hm
            exact ⟨n, q, rfl, arc', hm', ha.mem.2 ((hff arc hm arc' hm' he n).1 hp), ha.mem.2 ((hss q).1 hq)⟩
          · rintro ⟨n, q, rfl, arc', hm', hp, hq⟩
            obtain ⟨arc, hm, he, hss⟩ := c2 arc' hm'
            exact ⟨n, q, rfl, arc, hm, (hff arc hm arc' hm' he n).2 (ha.mem.1 hp), (hss q).2 (ha.mem.1 hq)⟩)
        exact ⟨r', .loc f' hhere hf' h3, h4, h3.1⟩
  | @satDone z F G L o x a c d hh e1 e2 e3 hcc hl ih1 ih2 ih3 =>
    intro t h' x' ht hx hs' hw hx' hs
    have hhere := (hs.cor ha hx.wf hx').here hU hs' hh
    have hsf := hs'
    cases ht with
    | skip _ h1 => exact (hh.not_skip hx h1).elim
    | satFix hst hF hL hG =>
      have ha0 := e1.dom hF hx
      have hdom := sat_dom (e2.dom hL ha0) hG e3 hcc
      cases hs' with
      | @satFix _ _ _ F' L' _ G' g1 g2 g3 g4 =>
        obtain ⟨a', a1, a2, a3⟩ := ih1 hF hx g1 (fun s h => hw s (.satFixF h)) hx' hs
        obtain ⟨c0, b1, b2, b3⟩ := ih2 hL ha0 g4 (fun s h => hw s (.satFixL h)) a3 a2
        obtain ⟨c', d', k0, k1, k2, k3, k4⟩ := sat_round (env' := env') (o := o) ha ⟨g2, g3⟩ hcc b2 b3 (fun i h1 h2 x' hx2 hs2 =>
          ih3 i h1 (hG _ (List.getElem_mem h1)) (hdom i h1.le) (g3 i h1 h2)
            (fun s h => hw s (.satFixG (List.getElem_mem h2) h)) hx2 hs2)
        subst k0
        have : c' G'.length = x' := by
          rw [hl] at k3
          exact canonical_ext ha.lawful' k4 hx' (ha.same.2 (k3.symm.trans hs))
        exact ⟨x', .satDone c' d' hhere a1 b1 k1 k2 this, hs, hx'⟩
  | @satStep z F G L o x a r c d hh e1 e2 e3 hcc hl _ ih1 ih2 ih3 ih4 =>
    intro t h' x' ht hx hs' hw hx' hs
    have hhere := (hs.cor ha hx.wf hx').here hU hs' hh
    have hsf := hs'
    cases ht with
    | skip _ h1 => exact (hh.not_skip hx h1).elim
    | satFix hst hF hL hG =>
      have ha0 := e1.dom hF hx
      have hdom := sat_dom (e2.dom hL ha0) hG e3 hcc
      cases hs' with
      | @satFix _ _ _ F' L' _ G' g1 g2 g3 g4 =>
        obtain ⟨a', a1, a2, a3⟩ := ih1 hF hx g1 (fun s h => hw s (.satFixF h)) hx' hs
        obtain ⟨c0, b1, b2, b3⟩ := ih2 hL ha0 g4 (fun s h => hw s (.satFixL h)) a3 a2
        obtain ⟨c', d', k0, k1, k2, k3, k4⟩ := sat_round (env' := env') (o := o) ha ⟨g2, g3⟩ hcc b2 b3 (fun i h1 h2 x' hx2 hs2 =>
          ih3 i h1 (hG _ (List.getElem_mem h1)) (hdom i h1.le) (g3 i h1 h2)
            (fun s h => hw s (.satFixG (List.getElem_mem h2) h)) hx2 hs2)
        subst k0
        obtain ⟨r', m1, m2, m3⟩ := ih4 (.satFix hst hF hL hG) (hdom _ le_rfl) hsf hw k4 k3
        refine ⟨r', .satStep c' d' hhere a1 b1 k1 k2 ?_ m1, m2, m3⟩
        intro he
        rw [he] at k3
        exact hl (canonical_ext ha.lawful (hdom _ le_rfl).wf hx.wf (k3.trans hs.symm))
  | satInter f hh _ hr ih =>
    intro t h' x' ht hx hs' hw hx' hs
    have hhere := (hs.cor ha hx.wf hx').here hU hs' hh
    cases ht with
    | skip _ h1 => exact (hh.not_skip hx h1).elim
    | satInter _ _ h =>
      cases hs' with
      | satInter f1 f2 f3 g1 g2 g3 =>
        have hl := (SameL.append ⟨f1, g1⟩ ⟨f2, g2⟩).append ⟨f3, g3⟩
        obtain ⟨f', a1, a2⟩ := hl.results ha fun g hm g' hg hgs => ih g hm (h g hm) hx hgs (fun s h => hw s (.satInter hg h)) hx' hs
        obtain ⟨r', h3, h4⟩ := hr.resort ha (S' := fun p => _ ≠ [] ∧ ∀ h ∈ _, Mem C' p (f' h)) (by
          intro p
          refine and_congr (not_congr hl.nil_iff) ⟨fun hp g' hg => ?_, fun hp g hm => ?_⟩
          · obtain ⟨g, hm, hgs⟩ := hl.bwd hg
            exact ha.mem.2 ((a2 g hm g' hg hgs p).1 (hp g hm))
          · obtain ⟨g', hg, hgs⟩ := hl.fwd hm
            exact (a2 g hm g' hg hgs p).2 (ha.mem.1 (hp g' hg)))
        exact ⟨r', .satInter f' hhere (fun g' hg => (a1 g' hg).1) h3, h4, h3.1⟩
  | satSum f hh _ hr ih =>
    intro t h' x' ht hx hs' hw hx' hs
    have hhere := (hs.cor ha hx.wf hx').here hU hs' hh
    cases ht with
    | skip _ h1 => exact (hh.not_skip hx h1).elim
    | satSum _ _ h =>
      cases hs' with
      | satSum f1 f2 f3 g1 g2 g3 =>
        have hl := (SameL.append ⟨f1, g1⟩ ⟨f2, g2⟩).append ⟨f3, g3⟩
        obtain ⟨f', a1, a2⟩ := hl.results ha fun g hm g' hg hgs => ih g hm (h g hm) hx hgs (fun s h => hw s (.satSum hg h)) hx' hs
        obtain ⟨r', h3, h4⟩ := hr.resort ha (S' := fun p => ∃ h ∈ _, Mem C' p (f' h)) (by
          intro p
          constructor
          · rintro ⟨g, hm, hp⟩
            obtain ⟨g', hg, hgs⟩ := hl.fwd hm
            exact ⟨g', hg, ha.mem.2 ((a2 g hm g' hg hgs p).1 hp)⟩
          · rintro ⟨g', hg, hp⟩
            obtain ⟨g, hm, hgs⟩ := hl.bwd hg
            exact ⟨g, hm, (a2 g hm g' hg hgs p).2 (ha.mem.1 hp)⟩)
        exact ⟨r', .satSum f' hhere (fun g' hg => (a1 g' hg).1) h3, h4, h3.1⟩
  | sum f hh _ hr ih =>
    intro t h' x' ht hx hs' hw hx' hs
    have hhere := (hs.cor ha hx.wf hx').here hU hs' hh
    cases ht with
    | skip _ h1 => exact (hh.not_skip hx h1).elim
    | sum _ _ h =>
      cases hs' with
      | sum l1 l2 =>
        have hl : SameL C _ _ := ⟨l1, l2⟩
        obtain ⟨f', a1, a2⟩ := hl.results ha fun g hm g' hg hgs => ih g hm (h g hm) hx hgs (fun s h => hw s (.sum hg h)) hx' hs
        obtain ⟨r', h3, h4⟩ := hr.resort ha (S' := fun p => ∃ h ∈ _, Mem C' p (f' h)) (by
          intro p
          constructor
          · rintro ⟨g, hm, hp⟩
            obtain ⟨g', hg, hgs⟩ := hl.fwd hm
            exact ⟨g', hg, ha.mem.2 ((a2 g hm g' hg hgs p).1 hp)⟩
          · rintro ⟨g', hg, hp⟩
            obtain ⟨g, hm, hgs⟩ := hl.bwd hg
            exact ⟨g, hm, (a2 g hm g' hg hgs p).2 (ha.mem.1 hp)⟩)
        exact ⟨r', .sum f' hhere (fun g' hg => (a1 g' hg).1) h3, h4, h3.1⟩

end
end Verif
