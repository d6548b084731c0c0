import Verif.Hom.Typing
/-!
# Correctness of the loops of the evaluation of homomorphisms, for any monad
-/

set_option autoImplicit false
set_option linter.unusedSectionVars false

namespace Verif

variable {V E I U : Type} {m : Type → Type} [DecidableEq V] [DecidableEq I] [DecidableEq U] [DDMonad V m]
variable {C : Cfg V E} {L : Logic V m} {A α : Type}

section
variable {t t' : Ty} {x : Nat} {k : Kind V m α} {memV : A → α → Prop} {D : α → Prop} {cons : A → Path E → Path E}

theorem isZero_false {s : SDD V} (h : s ≠ .zero) : s.isZero = false := by
  rw [← Bool.not_eq_true, isZero_iff]; exact h

theorem skipArcs_sat (hC : C.Lawful) (hk : KindOK C L t t' x k memV D cons fun _ => True) {f : SDD V → m (SDD V)} {g : SDD V → SDD V}
    {Q : SDD V → Prop} (arcs : List (α × SDD V)) : (∀ arc ∈ arcs, D arc.1 ∧ k.isEmpty arc.1 = false) →
    (∀ arc ∈ arcs, L.Sat (f arc.2) fun r => Dom C t' r ∧ r = g arc.2 ∧ Q arc.2) → ∀ su, SuOK C t' k D su →
    L.Sat (skipArcs C k f arcs su) fun su' => SuOK C t' k D su' ∧
      (∀ a s, SuMem memV su' a s ↔ SuMem memV su a s ∨ ∃ arc ∈ arcs, memV a arc.1 ∧ s = g arc.2 ∧ s ≠ .zero) ∧
      ∀ arc ∈ arcs, Q arc.2 := by
  induction arcs with
  | nil => intro _ _ su hsu; exact L.pure' ⟨hsu, fun a s => by simp, by simp⟩
  | cons arc arcs ih =>
    obtain ⟨v, s⟩ := arc
    intro hv hf su hsu
    have ih := ih (fun arc ha => hv arc (by simp [ha])) (fun arc ha => hf arc (by simp [ha]))
    rw [skipArcs]
    refine L.bind' (hf (v, s) (by simp)) ?_
    rintro r ⟨hr, hg, hQ⟩
    subst hg
    have hv' := hv (v, s) (by simp)
    split
    · rename_i hz
      rw [isZero_iff] at hz
      refine L.mono' (ih su hsu) ?_
      rintro su' ⟨h1, h2, h3⟩
      refine ⟨h1, fun a s' => ?_, ?_⟩
      · rw [h2]
        constructor
        · rintro (h | ⟨arc, ha, h⟩)
          · exact Or.inl h
          · exact Or.inr ⟨arc, by simp [ha], h⟩
        · rintro (h | ⟨arc, ha, h⟩)
          · exact Or.inl h
          · rw [List.mem_cons] at ha
            rcases ha with rfl | ha
            · exact absurd (h.2.1.trans hz) h.2.2
            · exact Or.inr ⟨arc, ha, h⟩
      · intro arc ha
        rw [List.mem_cons] at ha
        rcases ha with rfl | ha
        · exact hQ
        · exact h3 arc ha
    · rename_i hz
      rw [isZero_iff] at hz
      refine L.mono' (ih _ (hsu.add hC hk hr hz hv'.1 hv'.2)) ?_
      rintro su' ⟨h1, h2, h3⟩
      refine ⟨h1, fun a s' => ?_, ?_⟩
      · rw [h2, suMem_add hC hk hsu hv'.2]
        constructor
        · rintro ((h | ⟨rfl, h⟩) | ⟨arc, ha, h⟩)
          · exact Or.inl h
          · exact Or.inr ⟨(v, s), by simp, h, rfl, hz⟩
          · exact Or.inr ⟨arc, by simp [ha], h⟩
        · rintro (h | ⟨arc, ha, h⟩)
          · exact Or.inl (Or.inl h)
          · rw [List.mem_cons] at ha
            rcases ha with rfl | ha
            · exact Or.inl (Or.inr ⟨h.2.1, h.1⟩)
            · exact Or.inr ⟨arc, ha, h⟩
      · intro arc ha
        rw [List.mem_cons] at ha
        rcases ha with rfl | ha
        · exact hQ
        · exact h3 arc ha

/-- A skipped level. -/
theorem skipNode_sat (hC : C.Lawful) (hov : C.limit = none ∨ L.allow .overflow) (hk : KindOK C L t t' x k memV D cons fun _ => True)
    {f : SDD V → m (SDD V)} {g : SDD V → SDD V} {Q : SDD V → Prop} {arcs : List (α × SDD V)} (hg : GoodArcs C memV arcs)
    (hD : ∀ arc ∈ arcs, D arc.1)
    (hf : ∀ arc ∈ arcs, L.Sat (f arc.2) fun r => Dom C t' r ∧ r = g arc.2 ∧ Q arc.2) :
    L.Sat (skipNode C k f x arcs) fun r => Dom C t r ∧
      (∀ p, Mem C p r ↔ ∃ a q, p = cons a q ∧ ∃ arc ∈ arcs, memV a arc.1 ∧ Mem C q (g arc.2)) ∧ ∀ arc ∈ arcs, Q arc.2 := by
  unfold skipNode
  refine L.bind' (L.ord' arcs) ?_
  intro arcs' hp
  refine L.bind' (skipArcs_sat hC hk arcs' (fun arc ha => ⟨hD arc (hp.mem_iff.1 ha), ?_⟩)
    (fun arc ha => hf arc (hp.mem_iff.1 ha)) [] SuOK.nil) ?_
  · rw [hk.isEmpty_false (hD arc (hp.mem_iff.1 ha))]; exact hg.valNe arc (hp.mem_iff.1 ha)
  simp only [hp.mem_iff]
  rintro su ⟨h1, h2, h3⟩
  refine L.mono' (finish_sat hC hk hov h1 (fun _ _ => trivial) ?_) ?_
  · intro a s s' hs hs'
    rw [h2] at hs hs'
    rcases hs with ⟨_, h, _⟩ | ⟨b, hb, hab, rfl, _⟩
    · simp at h
    · rcases hs' with ⟨_, h, _⟩ | ⟨b', hb', hab', rfl, _⟩
      · simp at h
      · rw [hg.unique hb hb' hab hab']
  · rintro r ⟨hr, hm⟩
    refine ⟨hr, fun p => ?_, h3⟩
    rw [hm]
    constructor
    · rintro ⟨a, q, rfl, s, hs, hq⟩
      rw [h2] at hs
      rcases hs with ⟨_, h, _⟩ | ⟨b, hb, hab, rfl, _⟩
      · simp at h
      · exact ⟨a, q, rfl, b, hb, hab, hq⟩
    · rintro ⟨a, q, rfl, b, hb, hab, hq⟩
      refine ⟨a, q, rfl, g b.2, (h2 _ _).2 (Or.inr ⟨b, hb, hab, rfl, ?_⟩), hq⟩
      intro h
      rw [h] at hq
      exact not_mem_zero q hq

end

theorem applyAll_sat {rec : Hom V I U → OB I → SDD V → m (SDD V)} {o : OB I} {x : SDD V} {g : Hom V I U → SDD V}
    {Q : Hom V I U → Prop} (hs : List (Hom V I U)) :
    (∀ h ∈ hs, L.Sat (rec h o x) fun r => r = g h ∧ Q h) →
    L.Sat (applyAll rec o x hs) fun rs => rs = hs.map g ∧ ∀ h ∈ hs, Q h := by
  induction hs with
  | nil => intro _; exact L.pure' ⟨rfl, by simp⟩
  | cons h hs ih =>
    intro hr
    rw [applyAll]
    refine L.bind' (hr h (by simp)) ?_
    rintro r ⟨rfl, hq⟩
    refine L.bind' (ih fun h hh => hr h (by simp [hh])) ?_
    rintro rs ⟨rfl, hq'⟩
    exact L.pure' ⟨rfl, by simp only [List.mem_cons, forall_eq_or_imp]; exact ⟨hq, hq'⟩⟩

theorem applyInter_sat (hC : C.Lawful) {dd : Op V → m (SDD V)} {t : Ty} (hdd : RecOK C L t dd)
    {rec : Hom V I U → OB I → SDD V → m (SDD V)} {o : OB I} {x : SDD V} {g : Hom V I U → SDD V}
    {Q : Hom V I U → Prop} (hs : List (Hom V I U)) :
    (∀ pre h post, hs = pre ++ h :: post → (∀ k ∈ pre, Q k ∧ g k ≠ .zero) →
      L.Sat (rec h o x) fun r => Dom C t r ∧ r = g h ∧ Q h) → ∀ acc : List (SDD V), (∀ y ∈ acc, Dom C t y) →
    L.Sat (applyInter C dd rec o x hs acc) fun r =>
      (∃ pre h post, hs = pre ++ h :: post ∧ (∀ k ∈ pre, Q k) ∧ g h = .zero ∧ Q h ∧ r = .zero) ∨
      ((∀ h ∈ hs, Q h) ∧ Dom C t r ∧ ∀ p, Mem C p r ↔ acc ++ hs.map g ≠ [] ∧ ∀ y ∈ acc ++ hs.map g, Mem C p y) := by
  induction hs with
  | nil =>
    intro _ acc hacc
    rw [applyInter]
    refine L.mono' (opInter_sat hC hdd hacc) ?_
    rintro r ⟨h1, h2⟩
    exact Or.inr ⟨by simp, h1, by simpa using h2⟩
  | cons h hs ih =>
    intro hr acc hacc
    rw [applyInter]
    refine L.bind' (hr [] h hs rfl (by simp)) ?_
    rintro r ⟨hd, rfl, hq⟩
    split
    · rename_i hz
      rw [isZero_iff] at hz
      exact L.pure' (Or.inl ⟨[], h, hs, rfl, by simp, hz, hq, rfl⟩)
    · rename_i hz
      rw [isZero_iff] at hz
      refine L.mono' (ih (fun pre k post hk hpre => hr (h :: pre) k post (by simp [hk]) ?_) (acc ++ [g h]) ?_) ?_
      · simp only [List.mem_cons, forall_eq_or_imp]; exact ⟨⟨hq, hz⟩, hpre⟩
      · intro y hy
        rw [List.mem_append] at hy
        rcases hy with hy | hy
        · exact hacc y hy
        · simp at hy; subst hy; exact hd
      · rintro r (⟨pre, h', post, rfl, h1, h2, h3, h4⟩ | ⟨h1, h2, h3⟩)
        · refine Or.inl ⟨h :: pre, h', post, rfl, ?_, h2, h3, h4⟩
          simp only [List.mem_cons, forall_eq_or_imp]; exact ⟨hq, h1⟩
        · refine Or.inr ⟨?_, h2, ?_⟩
          · simp only [List.mem_cons, forall_eq_or_imp]; exact ⟨hq, h1⟩
          · intro p
            rw [h3 p]
            simp

/-- A loop which stops when nothing changes. (Specification or proof device, not part of the code.) -/
inductive Iter {β : Type} (R : β → β → Prop) : β → β → Prop where
  | done {x : β} : R x x → Iter R x x
  | step {x y r : β} : R x y → y ≠ x → Iter R y r → Iter R x r

/-- Such a loop makes at most `n` iterations. (Specification or proof device, not part of the code.) -/
inductive IterN {β : Type} (R : β → β → Prop) : β → Nat → Prop where
  | done {x : β} {n : Nat} : R x x → IterN R x (n + 1)
  | step {x y : β} {n : Nat} : R x y → y ≠ x → IterN R y n → IterN R x (n + 1)

/-- What such a loop goes through. (Specification or proof device, not part of the code.) -/
inductive Reach {β : Type} (R : β → β → Prop) : β → β → Prop where
  | refl (x : β) : Reach R x x
  | head {x y z : β} : R x y → y ≠ x → Reach R y z → Reach R x z

theorem IterN.mono {β : Type} {R : β → β → Prop} {x : β} {n : Nat} (h : IterN R x n) : ∀ {k : Nat}, n ≤ k → IterN R x k := by
  induction h with
  | done h =>
    intro k hk
    obtain ⟨k, rfl⟩ : ∃ k', k = k' + 1 := ⟨k - 1, by omega⟩
    exact .done h
  | step h1 h2 _ ih =>
    intro k hk
    obtain ⟨k, rfl⟩ : ∃ k', k = k' + 1 := ⟨k - 1, by omega⟩
    exact .step h1 h2 (ih (by omega))

theorem fixLoop_sat {f : SDD V → m (SDD V)} {D : SDD V → Prop} {R : SDD V → SDD V → Prop}
    (hdet : ∀ x y z, R x y → R x z → y = z) (n : Nat) : ∀ x, D x →
    (∀ y, Reach R x y → D y → L.Sat (f y) fun z => D z ∧ R y z) → (L.allow .fuel ∨ IterN R x n) →
    L.Sat (fixLoop f n x) fun r => D r ∧ Iter R x r := by
  induction n with
  | zero =>
    intro x _ _ hfu
    rcases hfu with h | h
    · exact L.raise' h
    · cases h
  | succ n ih =>
    intro x hx hf hfu
    rw [fixLoop]
    refine L.bind' (hf x (.refl x) hx) ?_
    rintro y ⟨hy, hR⟩
    split
    · rename_i h
      subst h
      exact L.pure' ⟨hy, .done hR⟩
    · rename_i h
      refine L.mono' (ih y hy (fun z hz => hf z (.head hR h hz)) ?_) fun r hr => ⟨hr.1, .step hR h hr.2⟩
      rcases hfu with h' | h'
      · exact Or.inl h'
      · cases h' with
        | done h1 => exact absurd (hdet _ _ _ hR h1) h
        | step h1 h2 h3 => exact Or.inr (hdet _ _ _ hR h1 ▸ h3)

/-- The loop on the part `G` of a saturation fixpoint: `s ↦ s ∪ g(s)` for each `g`. (Specification or proof device, not part of the code.) -/
inductive Chain (env : User V I U) (C : Cfg V E) (o : OB I) : List (Hom V I U) → SDD V → SDD V → Prop where
  | nil (s : SDD V) : Chain env C o [] s s
  | cons {g : Hom V I U} {G : List (Hom V I U)} {s d s' r : SDD V} : Ev env C g o s d →
      Is C s' (fun p => Mem C p s ∨ Mem C p d) → Chain env C o G s' r → Chain env C o (g :: G) s r

/-- The applications made by this loop. (Specification or proof device, not part of the code.) -/
inductive ChainCall (env : User V I U) (C : Cfg V E) (o : OB I) : List (Hom V I U) → SDD V → Hom V I U → SDD V → Prop where
  | here {g : Hom V I U} {G : List (Hom V I U)} {s : SDD V} : ChainCall env C o (g :: G) s g s
  | there {g : Hom V I U} {G : List (Hom V I U)} {s d s' : SDD V} {h : Hom V I U} {x : SDD V} : Ev env C g o s d →
      Is C s' (fun p => Mem C p s ∨ Mem C p d) → ChainCall env C o G s' h x → ChainCall env C o (g :: G) s h x

theorem Chain.iff {env : User V I U} {o : OB I} {G : List (Hom V I U)} {s r : SDD V} : Chain env C o G s r ↔
    ∃ c d : Nat → SDD V, c 0 = s ∧ c G.length = r ∧ (∀ i, (hi : i < G.length) → Ev env C G[i] o (c i) (d i)) ∧
      ∀ i, i < G.length → Is C (c (i + 1)) fun p => Mem C p (c i) ∨ Mem C p (d i) := by
  constructor
  · intro h
    induction h with
    | nil s => exact ⟨fun _ => s, fun _ => s, rfl, rfl, by simp, by simp⟩
    | @cons g G s d0 s' r he hi _ ih =>
      obtain ⟨c, d, hc0, hcl, hE, hI⟩ := ih
      refine ⟨fun i => match i with | 0 => s | i + 1 => c i, fun i => match i with | 0 => d0 | i + 1 => d i, rfl, hcl, ?_, ?_⟩
      · intro i hi
        cases i with
        | zero => exact he
        | succ i => exact hE i (by simpa using hi)
      · intro i hi'
        cases i with
        | zero => simpa only [hc0] using hi
        | succ i => exact hI i (by simpa using hi')
  · rintro ⟨c, d, rfl, rfl, hE, hI⟩
    induction G generalizing c d with
    | nil => exact .nil _
    | cons g G ih =>
      refine .cons (hE 0 (by simp)) (hI 0 (by simp)) ?_
      exact ih (fun i => c (i + 1)) (fun i => d (i + 1)) (fun i hi => hE (i + 1) (by simpa using hi))
        (fun i hi => hI (i + 1) (by simpa using hi))

theorem Chain.det (hC : C.Lawful) {env : User V I U} {o : OB I} {G : List (Hom V I U)} {s r r' : SDD V}
    (h : Chain env C o G s r) (h' : Chain env C o G s r') : r = r' := by
  induction h generalizing r' with
  | nil => cases h'; rfl
  | cons he hi _ ih =>
    cases h' with
    | cons he' hi' h' =>
      obtain rfl := he.det hC he'
      obtain rfl := hi.unique hC hi' fun _ => Iff.rfl
      exact ih h'

theorem chain_sat (hC : C.Lawful) {env : User V I U} {dd : Op V → m (SDD V)} {o : OB I} (hdd : RecOK C L o.ty dd)
    {rec : Hom V I U → OB I → SDD V → m (SDD V)} (G : List (Hom V I U)) : ∀ s, Dom C o.ty s →
    (∀ g x, ChainCall env C o G s g x → g ∈ G → Dom C o.ty x → L.Sat (rec g o x) fun r => Dom C o.ty r ∧ Ev env C g o x r) →
    L.Sat (chain C dd rec o G s) fun r => Dom C o.ty r ∧ Chain env C o G s r := by
  induction G with
  | nil =>
    intro s hs _
    exact L.pure' ⟨hs, .nil s⟩
  | cons g G ih =>
    intro s hs hr
    rw [chain]
    refine L.bind' (hr g s .here (by simp) hs) ?_
    rintro d0 ⟨hd0, he0⟩
    refine L.bind' (opSum_sat hC hdd (xs := [s, d0]) (by simp [hs, hd0])) ?_
    rintro s1 ⟨hs1, hm1⟩
    have hi : Is C s1 (fun p => Mem C p s ∨ Mem C p d0) := ⟨hs1.wf, by simpa using hm1⟩
    refine L.mono' (ih s1 hs1 fun g x hgx hg hx => hr g x (.there he0 hi hgx) (by simp [hg]) hx) ?_
    rintro r ⟨hdr, hch⟩
    exact ⟨hdr, .cons he0 hi hch⟩

/-- The alpha of a user's function. -/
theorem fnAlpha_foldl (f : V → V) (arcs : List (V × SDD V)) : ∀ alpha : List (V × SDD V),
    fnAlpha C f arcs alpha = ((arcs.filter fun a => !C.visEmpty (f a.1)).map fun a => (f a.1, a.2)).foldl
      (fun arcs e => alphaAdd C arcs e.1 e.2) alpha := by
  induction arcs with
  | nil => intro alpha; simp [fnAlpha]
  | cons arc arcs ih =>
    obtain ⟨v, s⟩ := arc
    intro alpha
    rw [fnAlpha]
    split <;> rename_i h <;> rw [ih] <;> simp [h]

/-- The alpha of a user's function: the order in which the arcs are visited does not matter. -/
theorem fnAlpha_eq (hC : C.Lawful) (f : V → V) {arcs arcs' : List (V × SDD V)} (hp : arcs'.Perm arcs)
    (hs : arcs.Pairwise (fun a b => C.lt a.2 b.2 = true)) :
    fnAlpha C f arcs' [] = (arcs.filter fun a => !C.visEmpty (f a.1)).map fun a => (f a.1, a.2) := by
  rw [fnAlpha_foldl]
  refine alphaAdd_foldl_eq hC ((hp.filter _).map _) ?_
  rw [List.pairwise_map]
  exact hs.filter _

section
variable {t tn t' : Ty} {x : Nat} {dd : Op V → m (SDD V)}

/-- A local whose operand is a selector. -/
theorem locSquare_sat (hC : C.Lawful) {cons : Path E → Path E → Path E}
    (hk : KindOK C L t t' x (hierKind C dd) (Mem C) (Dom C tn) cons fun _ => True) {f : SDD V → m (SDD V)}
    {g : SDD V → SDD V} {Q : SDD V → Prop} (arcs : List (SDD V × SDD V)) :
    (∀ arc ∈ arcs, Dom C t' arc.2 ∧ arc.2 ≠ .zero) →
    (∀ arc ∈ arcs, L.Sat (f arc.1) fun r => Dom C tn r ∧ r = g arc.1 ∧ Q arc.1) →
    ∀ su, SuOK C t' (hierKind C dd) (Dom C tn) su →
    L.Sat (locSquare C (hierKind C dd) f arcs su) fun su' => SuOK C t' (hierKind C dd) (Dom C tn) su' ∧
      (∀ a s, SuMem (Mem C) su' a s ↔ SuMem (Mem C) su a s ∨ ∃ arc ∈ arcs, Mem C a (g arc.1) ∧ s = arc.2) ∧
      ∀ arc ∈ arcs, Q arc.1 := by
  induction arcs with
  | nil => intro _ _ su hsu; exact L.pure' ⟨hsu, fun a s => by simp, by simp⟩
  | cons arc arcs ih =>
    obtain ⟨v, s⟩ := arc
    intro hv hf su hsu
    have ih := ih (fun arc ha => hv arc (by simp [ha])) (fun arc ha => hf arc (by simp [ha]))
    rw [locSquare]
    refine L.bind' (hf (v, s) (by simp)) ?_
    rintro r ⟨hr, rfl, hQ⟩
    have hv' := hv (v, s) (by simp)
    split
    · rename_i hz
      rw [isZero_iff] at hz
      refine L.mono' (ih su hsu) ?_
      rintro su' ⟨h1, h2, h3⟩
      refine ⟨h1, fun a s' => ?_, ?_⟩
      · rw [h2]
        simp only [List.mem_cons, exists_eq_or_imp, hz, not_mem_zero, false_and, false_or]
      · simp only [List.mem_cons, forall_eq_or_imp]; exact ⟨hQ, h3⟩
    · rename_i hz
      have hz' : (hierKind C dd).isEmpty (g v) = false := by
        rw [← Bool.not_eq_true]; exact hz
      refine L.mono' (ih _ (hsu.add hC hk hv'.1 hv'.2 hr hz')) ?_
      rintro su' ⟨h1, h2, h3⟩
      refine ⟨h1, fun a s' => ?_, ?_⟩
      · rw [h2, suMem_add hC hk hsu hz']
        simp only [List.mem_cons, exists_eq_or_imp]
        rw [or_assoc, and_comm (a := s' = s)]
      · simp only [List.mem_cons, forall_eq_or_imp]; exact ⟨hQ, h3⟩

/-- A local in general. -/
theorem locSum_sat {f : SDD V → m (SDD V)} {g : SDD V → SDD V} {Q : SDD V → Prop} (arcs : List (SDD V × SDD V)) :
    (∀ arc ∈ arcs, L.Sat (f arc.1) fun r => r = g arc.1 ∧ Q arc.1) →
    L.Sat (locSum C (hierKind C dd) f x arcs) fun rs =>
      rs = arcs.map (fun a => mkNode1 (hierKind C dd) x (g a.1) a.2) ∧ ∀ arc ∈ arcs, Q arc.1 := by
  induction arcs with
  | nil => intro _; exact L.pure' ⟨rfl, by simp⟩
  | cons arc arcs ih =>
    obtain ⟨v, s⟩ := arc
    intro hf
    rw [locSum]
    refine L.bind' (hf (v, s) (by simp)) ?_
    rintro r ⟨rfl, hQ⟩
    refine L.bind' (ih fun arc ha => hf arc (by simp [ha])) ?_
    rintro rs ⟨rfl, hQ'⟩
    exact L.pure' ⟨rfl, by simp only [List.mem_cons, forall_eq_or_imp]; exact ⟨hQ, hQ'⟩⟩

theorem indArcs_sat {f : α → SDD V → m (SDD V)} {g : α × SDD V → SDD V} {Q : α × SDD V → Prop} (arcs : List (α × SDD V)) :
    (∀ arc ∈ arcs, L.Sat (f arc.1 arc.2) fun r => r = g arc ∧ Q arc) →
    L.Sat (indArcs f arcs) fun rs => rs = arcs.map g ∧ ∀ arc ∈ arcs, Q arc := by
  induction arcs with
  | nil => intro _; exact L.pure' ⟨rfl, by simp⟩
  | cons arc arcs ih =>
    intro hf
    obtain ⟨v, s⟩ := arc
    rw [indArcs]
    refine L.bind' (hf (v, s) (by simp)) ?_
    rintro r ⟨rfl, hQ⟩
    refine L.bind' (ih fun arc ha => hf arc (by simp [ha])) ?_
    rintro rs ⟨rfl, hQ'⟩
    exact L.pure' ⟨rfl, by simp only [List.mem_cons, forall_eq_or_imp]; exact ⟨hQ, hQ'⟩⟩

end

end Verif
