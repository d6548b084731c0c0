import Verif.Hom.Cached
/-!
# The equations of homomorphisms, at any level

`Ev` describes what a homomorphism does at the first level it does not skip.  Here are the equations under any order, whatever the
levels skipped.
-/

set_option autoImplicit false
set_option linter.unusedSectionVars false

namespace Verif

variable {V E I U : Type} [DecidableEq V] [DecidableEq I] [DecidableEq U]
variable {env : User V I U} {C : Cfg V E} {sc : Scope I U}

/-! ## Existence of unions, ... -/

/-- The same configuration with another maximal size of nodes. (Specification or proof device, not part of the code.) -/
def Cfg.withLimit (C : Cfg V E) (l : Option Nat) : Cfg V E := { C with limit := l }

theorem Cfg.Lawful.withLimit (h : C.Lawful) (l : Option Nat) : (C.withLimit l).Lawful where
  ext := h.ext
  mem_empty := h.mem_empty
  isEmpty_iff := h.isEmpty_iff
  mem_sum := h.mem_sum
  mem_inter := h.mem_inter
  mem_diff := h.mem_diff
  mem_elems := h.mem_elems
  nodup_elems := h.nodup_elems
  size_eq := h.size_eq
  mem_build := h.mem_build
  vlt_st := h.vlt_st
  elt_st := h.elt_st
  lt_st := h.lt_st

theorem mem_withLimit {C : Cfg V E} {l : Option Nat} (p : Path E) : ∀ s, Mem (C.withLimit l) p s ↔ Mem C p s := by
  induction p with
  | nil => intro s; exact Iff.rfl
  | flat x a p ih =>
    intro s
    cases s <;> simp only [Mem]
    constructor
    · rintro ⟨h, arc, h1, h2, h3⟩; exact ⟨h, arc, h1, h2, (ih _).1 h3⟩
    · rintro ⟨h, arc, h1, h2, h3⟩; exact ⟨h, arc, h1, h2, (ih _).2 h3⟩
  | hier x n p ihn ih =>
    intro s
    cases s <;> simp only [Mem]
    constructor
    · rintro ⟨h, arc, h1, h2, h3⟩; exact ⟨h, arc, h1, (ihn _).1 h2, (ih _).1 h3⟩
    · rintro ⟨h, arc, h1, h2, h3⟩; exact ⟨h, arc, h1, (ihn _).2 h2, (ih _).2 h3⟩

theorem Dom.withLimit {C : Cfg V E} {t : Ty} {s : SDD V} (h : Dom C t s) (l : Option Nat) : Dom (C.withLimit l) t s := by
  induction h with
  | zero t => exact .zero t
  | one t h => exact .one t h
  | flat t t' x arcs h1 h2 h3 ih =>
    exact .flat t t' x arcs h1 (h2.congr (fun _ _ => Iff.rfl) fun _ _ _ _ h => h) ih
  | hier t tn t' x arcs h1 h2 h3 h4 ih1 ih2 =>
    exact .hier t tn t' x arcs h1 (h2.congr (fun a v => (mem_withLimit a v).symm) fun _ _ _ _ h => h) ih1 ih2

theorem Dom.of_withLimit {C : Cfg V E} {t : Ty} {s : SDD V} {l : Option Nat} (h : Dom (C.withLimit l) t s) : Dom C t s :=
  h.withLimit C.limit

/-- Unions exist. -/
theorem exists_union (hC : C.Lawful) {t : Ty} (ht : t.IsShape) (xs : List (SDD V)) (hxs : ∀ x ∈ xs, Dom C t x) :
    ∃ r, Dom C t r ∧ ∀ p, Mem C p r ↔ ∃ x ∈ xs, Mem C p x := by
  have hC' := hC.withLimit none
  have h := opSum_sat (L := plainLogic (fun _ => []) V fun _ => False) hC'
    (plain_dd (c := fun _ => []) hC' (Or.inl rfl) t ht) fun x hx => (hxs x hx).withLimit none
  revert h
  generalize hr : opSum (C.withLimit none) (autoRun (runP (C.withLimit none) fun _ => [])) xs = res
  intro h
  cases res with
  | error e => exact h.elim
  | ok r => exact ⟨r, h.1.of_withLimit, fun p => by rw [← mem_withLimit (l := none), h.2]; simp only [mem_withLimit]⟩

/-- Differences exist. -/
theorem exists_diff (hC : C.Lawful) {t : Ty} (ht : t.IsShape) {x y : SDD V} (hx : Dom C t x) (hy : Dom C t y) :
    ∃ r, Dom C t r ∧ ∀ p, Mem C p r ↔ Mem C p x ∧ ¬ Mem C p y := by
  have hC' := hC.withLimit none
  have h := ddDiff_sat (L := plainLogic (fun _ => []) V fun _ => False)
    (plain_dd (c := fun _ => []) hC' (Or.inl rfl) t ht) (hx.withLimit none) (hy.withLimit none)
  revert h
  generalize hr : ddDiff (autoRun (runP (C.withLimit none) fun _ => [])) x y = res
  intro h
  cases res with
  | error e => exact h.elim
  | ok r => exact ⟨r, h.1.of_withLimit, fun p => by rw [← mem_withLimit (l := none), h.2]; simp only [mem_withLimit]⟩

/-- Intersections exist. -/
theorem exists_inter (hC : C.Lawful) {t : Ty} (ht : t.IsShape) (xs : List (SDD V)) (hxs : ∀ x ∈ xs, Dom C t x) :
    ∃ r, Dom C t r ∧ ∀ p, Mem C p r ↔ xs ≠ [] ∧ ∀ x ∈ xs, Mem C p x := by
  have hC' := hC.withLimit none
  have h := opInter_sat (L := plainLogic (fun _ => []) V fun _ => False) hC'
    (plain_dd (c := fun _ => []) hC' (Or.inl rfl) t ht) fun x hx => (hxs x hx).withLimit none
  revert h
  generalize hr : opInter (C.withLimit none) (autoRun (runP (C.withLimit none) fun _ => [])) xs = res
  intro h
  cases res with
  | error e => exact h.elim
  | ok r => exact ⟨r, h.1.of_withLimit, fun p => by rw [← mem_withLimit (l := none), h.2]; simp only [mem_withLimit]⟩

/-! ## A skipped level -/

/-- `r` is `x` where the successors are replaced according to `f`. (Specification or proof device, not part of the code.) -/
def Lens (C : Cfg V E) (x : SDD V) (f : SDD V → SDD V) (r : SDD V) : Prop :=
  Is C r (fun p => ∃ hd s q, p = Head.cons hd q ∧ ArcOf C x hd s ∧ Mem C q (f s))

theorem ArcOf.dom {id : OId I} {nst nxt : OB I} {x s : SDD V} {hd : Head E} (hx : Dom C (OB.node id nst nxt).ty x)
    (ha : ArcOf C x hd s) : Dom C nxt.ty s ∧ s ≠ .zero := by
  rcases dom_cases hx with rfl | ⟨h1, _⟩ | ⟨id', nxt', arcs, h1, rfl, hg, hd'⟩ | ⟨id', nst', nxt', arcs, h1, _, rfl, hg, _, hd'⟩
  · cases hd <;> simp [ArcOf] at ha
  · cases h1
  · cases h1
    cases hd with
    | flat => obtain ⟨rfl, v, hv, _⟩ := ha; exact ⟨hd' _ hv, hg.succNe _ hv⟩
    | hier => simp [ArcOf] at ha
  · cases h1
    cases hd with
    | flat => simp [ArcOf] at ha
    | hier => obtain ⟨rfl, v, hv, _⟩ := ha; exact ⟨hd' _ hv, hg.succNe _ hv⟩

theorem ArcOf.det {o : OB I} {x s s' : SDD V} {hd : Head E} (hx : Dom C o.ty x) (ha : ArcOf C x hd s)
    (ha' : ArcOf C x hd s') : s = s' := by
  rcases dom_cases hx with rfl | ⟨h1, rfl⟩ | ⟨id', nxt', arcs, h1, rfl, hg, hd'⟩ | ⟨id', nst', nxt', arcs, h1, _, rfl, hg, _, hd'⟩
  · cases hd <;> simp [ArcOf] at ha
  · cases hd <;> simp [ArcOf] at ha
  · cases hd with
    | flat =>
      obtain ⟨rfl, v, hv, h1⟩ := ha
      obtain ⟨_, v', hv', h1'⟩ := ha'
      exact congrArg Prod.snd (hg.unique hv hv' h1 h1')
    | hier => simp [ArcOf] at ha
  · cases hd with
    | flat => simp [ArcOf] at ha
    | hier =>
      obtain ⟨rfl, v, hv, h1⟩ := ha
      obtain ⟨_, v', hv', h1'⟩ := ha'
      exact congrArg Prod.snd (hg.unique hv hv' h1 h1')

theorem not_arcOf_zero {hd : Head E} {s : SDD V} : ¬ ArcOf C .zero hd s := by cases hd <;> simp [ArcOf]

/-- The paths of an SDD of several levels begin with one of its arcs. -/
theorem mem_node_cases {id : OId I} {nst nxt : OB I} {x : SDD V} (hx : Dom C (OB.node id nst nxt).ty x) {p : Path E}
    (hp : Mem C p x) : ∃ hd s q, p = Head.cons hd q ∧ ArcOf C x hd s ∧ Mem C q s := by
  rcases Path.cases_head p with rfl | ⟨hd, q, rfl⟩
  · rcases dom_cases hx with rfl | ⟨h1, rfl⟩ | ⟨id', nxt', arcs, h1, rfl, _⟩ | ⟨id', nst', nxt', arcs, h1, _, rfl, _⟩
    · exact absurd hp (not_mem_zero _)
    · cases h1
    · simp [Mem] at hp
    · simp [Mem] at hp
  · obtain ⟨s, h1, h2⟩ := mem_cons_iff.1 hp
    exact ⟨hd, s, q, rfl, h1, h2⟩

theorem exists_lens (hC : C.Lawful) {id : OId I} {nst nxt : OB I} {x : SDD V} (hx : Dom C (OB.node id nst nxt).ty x)
    {f : SDD V → SDD V} {t : Ty} (ht : t.IsShape) (hf : ∀ hd s, ArcOf C x hd s → Dom C t (f s)) :
    ∃ r, Lens C x f r ∧ Dom C (liftTy nst nxt t) r := by
  rcases dom_cases hx with rfl | ⟨h1, _⟩ | ⟨id', nxt', arcs, h1, rfl, hg, hs⟩ | ⟨id', nst', nxt', arcs, h1, hne, rfl, hg, hn, hs⟩
  · refine ⟨.zero, ⟨⟨0, .zero _⟩, fun p => ⟨fun h => absurd h (not_mem_zero p), ?_⟩⟩, .zero _⟩
    rintro ⟨hd, s, q, _, h, _⟩
    exact absurd h not_arcOf_zero
  · cases h1
  · cases h1
    have hf' : ∀ arc ∈ arcs, Dom C t (f arc.2) := by
      intro arc ha
      obtain ⟨a, hav⟩ := hg.valNe arc ha
      exact hf (.flat nxt.lvl a) arc.2 ⟨rfl, arc.1, ha, hav⟩
    obtain ⟨r, h1, h2⟩ := exists_union hC (t := .flat nxt.lvl t) ht
      (arcs.map fun arc => mkNode1 (m := Plain (fun _ => []) V) (flatKind C) nxt.lvl arc.1 (f arc.2)) (by
        intro y hy
        obtain ⟨arc, ha, rfl⟩ := List.mem_map.1 hy
        exact mkNode1_flat_dom hC (hf' arc ha))
    refine ⟨r, ⟨h1.wf, fun p => ?_⟩, h1⟩
    rw [h2]
    constructor
    · rintro ⟨y, hy, hp⟩
      obtain ⟨arc, ha, rfl⟩ := List.mem_map.1 hy
      obtain ⟨a, q, rfl, hav, hq⟩ := ((mkNode1_flat hC (hf' arc ha).wf).2 p).1 hp
      exact ⟨.flat nxt.lvl a, arc.2, q, rfl, ⟨rfl, arc.1, ha, hav⟩, hq⟩
    · rintro ⟨hd, s, q, rfl, ha, hq⟩
      cases hd with
      | flat z a =>
        obtain ⟨rfl, v, hv, hav⟩ := ha
        exact ⟨_, List.mem_map.2 ⟨_, hv, rfl⟩, ((mkNode1_flat hC (hf' _ hv).wf).2 _).2 ⟨a, q, rfl, hav, hq⟩⟩
      | hier => simp [ArcOf] at ha
  · cases h1
    have hf' : ∀ arc ∈ arcs, Dom C t (f arc.2) := by
      intro arc ha
      obtain ⟨a, hav⟩ := hg.valNe arc ha
      exact hf (.hier nxt.lvl a) arc.2 ⟨rfl, arc.1, ha, hav⟩
    have hty : liftTy nst nxt t = .hier nxt.lvl nst.ty t := by
      cases nst with
      | nil => exact absurd rfl hne
      | node => rfl
    obtain ⟨r, h1, h2⟩ := exists_union hC (t := .hier nxt.lvl nst.ty t) ⟨OB.ty_shape _, ht⟩
      (arcs.map fun arc => mkNode1 (m := Plain (fun _ => []) V) (hierKind C fun _ => pure .zero) nxt.lvl arc.1 (f arc.2)) (by
        intro y hy
        obtain ⟨arc, ha, rfl⟩ := List.mem_map.1 hy
        exact mkNode1_hier_dom (hn arc ha) (hf' arc ha))
    refine ⟨r, ⟨h1.wf, fun p => ?_⟩, hty ▸ h1⟩
    rw [h2]
    constructor
    · rintro ⟨y, hy, hp⟩
      obtain ⟨arc, ha, rfl⟩ := List.mem_map.1 hy
      obtain ⟨a, q, rfl, hav, hq⟩ := ((mkNode1_hier (hn arc ha).wf (hf' arc ha).wf).2 p).1 hp
      exact ⟨.hier nxt.lvl a, arc.2, q, rfl, ⟨rfl, arc.1, ha, hav⟩, hq⟩
    · rintro ⟨hd, s, q, rfl, ha, hq⟩
      cases hd with
      | hier z a =>
        obtain ⟨rfl, v, hv, hav⟩ := ha
        exact ⟨_, List.mem_map.2 ⟨_, hv, rfl⟩,
          ((mkNode1_hier (hn _ hv).wf (hf' _ hv).wf).2 _).2 ⟨a, q, rfl, hav, hq⟩⟩
      | flat => simp [ArcOf] at ha

theorem Lens.congr {x r : SDD V} {f g : SDD V → SDD V} (h : Lens C x f r) (hfg : ∀ hd s, ArcOf C x hd s → f s = g s) :
    Lens C x g r := by
  refine ⟨h.1, fun p => ?_⟩
  rw [h.2]
  constructor
  · rintro ⟨hd, s, q, rfl, h1, h2⟩; exact ⟨hd, s, q, rfl, h1, hfg hd s h1 ▸ h2⟩
  · rintro ⟨hd, s, q, rfl, h1, h2⟩; exact ⟨hd, s, q, rfl, h1, (hfg hd s h1).symm ▸ h2⟩

theorem Lens.unique (hC : C.Lawful) {x r r' : SDD V} {f : SDD V → SDD V} (h : Lens C x f r) (h' : Lens C x f r') : r = r' :=
  Is.unique hC h h' fun _ => Iff.rfl

theorem Lens.self {id : OId I} {nst nxt : OB I} {x : SDD V} (hx : Dom C (OB.node id nst nxt).ty x) :
    Lens C x (fun s => s) x := by
  refine ⟨hx.wf, fun p => ⟨fun hp => mem_node_cases hx hp, ?_⟩⟩
  rintro ⟨hd, s, q, rfl, h1, h2⟩
  exact mem_cons_iff.2 ⟨s, h1, h2⟩

/-- The arcs of the result. -/
theorem Lens.arcOf (hC : C.Lawful) {id : OId I} {nst nxt : OB I} {x r : SDD V} {f : SDD V → SDD V}
    (hx : Dom C (OB.node id nst nxt).ty x) (h : Lens C x f r) (hr : Dom C (OB.node id nst nxt).ty r)
    (hf : ∀ hd s, ArcOf C x hd s → WF C (f s)) {hd : Head E} {w : SDD V} :
    ArcOf C r hd w ↔ w ≠ .zero ∧ ∃ s, ArcOf C x hd s ∧ w = f s := by
  have key : ∀ {w : SDD V}, ArcOf C r hd w → ∃ s, ArcOf C x hd s ∧ w = f s := by
    intro w hw
    obtain ⟨hwd, hw0⟩ := hw.dom hr
    obtain ⟨q, hq⟩ := hwd.exists_mem hw0
    obtain ⟨hd', s, q', he, hs, hq'⟩ := (h.2 _).1 (mem_cons_iff.2 ⟨w, hw, hq⟩)
    obtain ⟨rfl, rfl⟩ := Head.cons_inj he
    refine ⟨s, hs, canonical_ext hC hwd.wf (hf _ s hs) fun q1 => ?_⟩
    constructor
    · intro h1
      obtain ⟨hd', s', q', he, hs', hq'⟩ := (h.2 _).1 (mem_cons_iff.2 ⟨w, hw, h1⟩)
      obtain ⟨rfl, rfl⟩ := Head.cons_inj he
      exact hs.det hx hs' ▸ hq'
    · intro h1
      obtain ⟨w', hw', h2⟩ := mem_cons_iff.1 ((h.2 _).2 ⟨hd, s, q1, rfl, hs, h1⟩)
      exact hw.det hr hw' ▸ h2
  constructor
  · intro hw; exact ⟨(hw.dom hr).2, key hw⟩
  · rintro ⟨h0, s, hs, rfl⟩
    obtain ⟨q, hq⟩ : ∃ q, Mem C q (f s) := by
      obtain ⟨n, hn⟩ := hf hd s hs
      exact hn.exists_mem h0
    obtain ⟨w', hw', _⟩ := mem_cons_iff.1 ((h.2 _).2 ⟨hd, s, q, rfl, hs, hq⟩)
    obtain ⟨s', hs', h1⟩ := key hw'
    rw [hs.det hx hs', ← h1]
    exact hw'

/-- Replacing the successors twice. -/
theorem Lens.comp_iff (hC : C.Lawful) {id : OId I} {nst nxt : OB I} {x y z : SDD V} {f g : SDD V → SDD V}
    (hx : Dom C (OB.node id nst nxt).ty x) (h : Lens C x f y) (hy : Dom C (OB.node id nst nxt).ty y)
    (hf : ∀ hd s, ArcOf C x hd s → WF C (f s)) (hg : g .zero = .zero) : Lens C x (fun s => g (f s)) z ↔ Lens C y g z := by
  have key : ∀ p, (∃ hd s q, p = Head.cons hd q ∧ ArcOf C x hd s ∧ Mem C q (g (f s))) ↔
      ∃ hd s q, p = Head.cons hd q ∧ ArcOf C y hd s ∧ Mem C q (g s) := by
    intro p
    constructor
    · rintro ⟨hd, s, q, rfl, h1, h2⟩
      refine ⟨hd, f s, q, rfl, (h.arcOf hC hx hy hf).2 ⟨fun h0 => ?_, s, h1, rfl⟩, h2⟩
      rw [h0, hg] at h2
      exact not_mem_zero _ h2
    · rintro ⟨hd, w, q, rfl, h1, h2⟩
      obtain ⟨_, s, hs, rfl⟩ := (h.arcOf hC hx hy hf).1 h1
      exact ⟨hd, s, q, rfl, hs, h2⟩
  unfold Lens Is
  simp only [key]

/-! ## Definedness -/

/-- The application has a result. (Specification or proof device, not part of the code.) -/
def Def (env : User V I U) (C : Cfg V E) (h : Hom V I U) (o : OB I) (x : SDD V) : Prop := ∃ r, Ev env C h o x r

theorem Def.ev (hC : C.Lawful) {h : Hom V I U} {o : OB I} {x : SDD V} (hd : Def env C h o x) : Ev env C h o x (evOf env C h o x) := by
  obtain ⟨r, e⟩ := hd
  exact (evOf_eq hC e).symm ▸ e

theorem Ev.iff_def (hC : C.Lawful) {h : Hom V I U} {o : OB I} {x r : SDD V} :
    Ev env C h o x r ↔ Def env C h o x ∧ r = evOf env C h o x :=
  ⟨fun e => ⟨⟨r, e⟩, (evOf_eq hC e).symm⟩, fun ⟨h1, h2⟩ => h2 ▸ h1.ev hC⟩

theorem evOf_zero (hC : C.Lawful) {h : Hom V I U} {o : OB I} : evOf env C h o .zero = .zero := evOf_eq hC (.zero h o)

/-- The application at a skipped level. -/
theorem Ev.skip_iff (hC : C.Lawful) {h : Hom V I U} {id : OId I} {nst nxt : OB I} {x r : SDD V}
    (hs : h.skip env nxt.lvl id = true) (hx : Dom C (OB.node id nst nxt).ty x) :
    Ev env C h (.node id nst nxt) x r ↔
      (∀ hd s, ArcOf C x hd s → Def env C h nxt s) ∧ Lens C x (evOf env C h nxt) r := by
  by_cases hid : h = .id
  · subst hid
    have h1 : ∀ hd s, ArcOf C x hd s → s = evOf env C .id nxt s := fun hd s _ => (evOf_eq hC (.id nxt s)).symm
    constructor
    · intro e
      rw [e.of_id]
      exact ⟨fun hd s _ => ⟨s, .id _ _⟩, (Lens.self hx).congr h1⟩
    · rintro ⟨_, h2⟩
      rw [h2.unique hC ((Lens.self hx).congr h1)]
      exact .id _ _
  by_cases h0 : x = .zero
  · subst h0
    constructor
    · intro e
      rw [e.of_zero]
      refine ⟨fun hd s h => absurd h not_arcOf_zero, ⟨0, .zero _⟩, fun p => ⟨fun h => absurd h (not_mem_zero p), ?_⟩⟩
      rintro ⟨hd, s, q, _, h, _⟩
      exact absurd h not_arcOf_zero
    · rintro ⟨_, h1, h2⟩
      have : r = .zero := by
        obtain ⟨n, h1⟩ := h1
        rw [h1.zero_iff]
        intro p hp
        obtain ⟨hd, s, q, _, h, _⟩ := (h2 p).1 hp
        exact absurd h not_arcOf_zero
      rw [this]
      exact .zero _ _
  constructor
  · intro e
    cases e with
    | zero => exact absurd rfl h0
    | id => exact absurd rfl hid
    | skip f _ hb hf hr =>
      exact ⟨fun hd s ha => ⟨_, hf hd s ha⟩, Lens.congr hr fun hd s ha => (evOf_eq hC (hf hd s ha)).symm⟩
    | fnOne | indOne => rcases dom_cases hx with h | ⟨h, _⟩ | ⟨_, _, _, _, h, _⟩ | ⟨_, _, _, _, _, _, h, _⟩ <;> cases h
    | comp hh | consF hh | consH hh | const hh | fixDone hh | fixStep hh | fn hh | ite _ hh | indF _ hh | indH _ hh
    | inter _ hh | interZero _ _ _ hh | loc _ hh | satDone _ _ hh | satStep _ _ hh | satInter _ hh | satSum _ hh | sum _ hh =>
      exact (hh.not_skip hx hs).elim
  · rintro ⟨h1, h2⟩
    refine .skip (evOf env C h nxt) hid ?_ (fun hd s ha => (h1 hd s ha).ev hC) h2
    rcases dom_cases hx with rfl | ⟨h3, _⟩ | ⟨_, _, _, h3, rfl, _⟩ | ⟨_, _, _, _, h3, _, rfl, _⟩
    · exact absurd rfl h0
    · cases h3
    · cases h3; exact ⟨rfl, hs⟩
    · cases h3; exact ⟨rfl, hs⟩

theorem liftTy_inj {nst nxt : OB I} {t t' : Ty} (h : liftTy nst nxt t = liftTy nst nxt t') : t = t' := by
  cases nst <;> simpa [liftTy] using h

/-- The conditions of use below a skipped level. -/
theorem HTy.sk {id : OId I} {nst nxt : OB I} {h : Hom V I U} {t : Ty} (ht : HTy env C sc (.node id nst nxt) h t)
    (hs : h.skip env nxt.lvl id = true) : ∃ t', t = liftTy nst nxt t' ∧ HTy env C sc nxt h t' := by
  by_cases hid : h = .id
  · subst hid
    cases ht with
    | id => exact ⟨nxt.ty, liftTy_ty.symm, .id _⟩
    | skip h => exact absurd rfl h
  · exact ht.skip_inv hid hs

theorem HTy.sk_ty {id : OId I} {nst nxt : OB I} {h : Hom V I U}
    (ht : HTy env C sc (.node id nst nxt) h (OB.node id nst nxt).ty)
    (hs : h.skip env nxt.lvl id = true) : HTy env C sc nxt h nxt.ty := by
  obtain ⟨t', h1, h2⟩ := ht.sk hs
  rw [← liftTy_ty] at h1
  rw [liftTy_inj h1]
  exact h2

theorem HTy.sk_lift {id : OId I} {nst nxt : OB I} {h : Hom V I U} {t : Ty}
    (ht : HTy env C sc (.node id nst nxt) h (liftTy nst nxt t))
    (hs : h.skip env nxt.lvl id = true) : HTy env C sc nxt h t := by
  obtain ⟨t', h1, h2⟩ := ht.sk hs
  rw [liftTy_inj h1]
  exact h2

theorem HTy.above {id : OId I} {nst nxt : OB I} {h : Hom V I U} {t : Ty} (ht : HTy env C sc nxt h t)
    (hs : h.skip env nxt.lvl id = true) : HTy env C sc (.node id nst nxt) h (liftTy nst nxt t) := by
  by_cases hid : h = .id
  · subst hid
    have : t = nxt.ty := by
      cases ht with
      | id => rfl
      | skip h => exact absurd rfl h
    rw [this, liftTy_ty]
    exact .id _
  · exact .skip hid hs ht

theorem Def.skip_iff (hC : C.Lawful) {h : Hom V I U} {id : OId I} {nst nxt : OB I} {x : SDD V} {t : Ty}
    (ht : HTy env C sc nxt h t) (hs : h.skip env nxt.lvl id = true) (hx : Dom C (OB.node id nst nxt).ty x) :
    Def env C h (.node id nst nxt) x ↔ ∀ hd s, ArcOf C x hd s → Def env C h nxt s := by
  constructor
  · rintro ⟨r, e⟩; exact ((Ev.skip_iff hC hs hx).1 e).1
  · intro h1
    obtain ⟨r, h2, _⟩ := exists_lens hC hx ht.shape fun hd s ha => ((h1 hd s ha).ev hC).dom ht (ha.dom hx).1
    exact ⟨r, (Ev.skip_iff hC hs hx).2 ⟨h1, h2⟩⟩

theorem Def.lens (hC : C.Lawful) {h : Hom V I U} {id : OId I} {nst nxt : OB I} {x : SDD V}
    (hs : h.skip env nxt.lvl id = true) (hx : Dom C (OB.node id nst nxt).ty x) (hd : Def env C h (.node id nst nxt) x) :
    Lens C x (evOf env C h nxt) (evOf env C h (.node id nst nxt) x) :=
  ((Ev.skip_iff hC hs hx).1 (hd.ev hC)).2

/-- Either the first level is skipped, or it is not. -/
theorem stop_or_skip (h : Hom V I U) (o : OB I) :
    Stop env h o ∨ ∃ id nst nxt, o = .node id nst nxt ∧ h.skip env nxt.lvl id = true := by
  cases o with
  | nil => exact Or.inl trivial
  | node id nst nxt =>
    cases hs : h.skip env nxt.lvl id with
    | false => exact Or.inl hs
    | true => exact Or.inr ⟨id, nst, nxt, rfl, hs⟩

/-! ## Composition -/

theorem HTy.comp_of {l r : Hom V I U} (o : OB I) : ∀ {t : Ty}, HTy env C sc o r o.ty → HTy env C sc o l t →
    HTy env C sc o (.comp l r) t := by
  induction o with
  | nil => intro t h h'; exact .comp trivial h h'
  | node id nst nxt _ ih =>
    intro t h h'
    cases hs : (Hom.comp l r).skip env nxt.lvl id with
    | false => exact .comp hs h h'
    | true =>
      have hs' : l.skip env nxt.lvl id = true ∧ r.skip env nxt.lvl id = true := by simpa [Hom.skip] using hs
      obtain ⟨t', rfl, h1⟩ := h'.sk hs'.1
      exact .skip (by simp) hs (ih (h.sk_ty hs'.2) h1)

/-- The operands of a composition which can be applied. -/
theorem HTy.comp_inv {l r : Hom V I U} {o : OB I} {t : Ty} (ht : HTy env C sc o (.comp l r) t) :
    HTy env C sc o r o.ty ∧ HTy env C sc o l t := by
  generalize hg : Hom.comp l r = g at ht
  induction ht with
  | @skip id nst nxt g t _ hsk _ ih =>
    subst hg
    obtain ⟨h1, h2⟩ := ih rfl
    have hs : l.skip env nxt.lvl id = true ∧ r.skip env nxt.lvl id = true := by simpa [Hom.skip] using hsk
    exact ⟨liftTy_ty (id := id) ▸ h1.above hs.2, h2.above hs.1⟩
  | comp _ h1 h2 => cases hg; exact ⟨h1, h2⟩
  | _ => cases hg

/-- A composition is a composition. -/
theorem Ev.comp_iff (hC : C.Lawful) {l r : Hom V I U} (o : OB I) : ∀ {t : Ty} {x z : SDD V}, HTy env C sc o r o.ty →
    HTy env C sc o l t → Dom C o.ty x → (Ev env C (.comp l r) o x z ↔ ∃ y, Ev env C r o x y ∧ Ev env C l o y z) := by
  induction o with
  | nil =>
    intro t x z hr hl hx
    by_cases h0 : x = .zero
    · subst h0
      constructor
      · intro e; rw [e.of_zero]; exact ⟨.zero, .zero _ _, .zero _ _⟩
      · rintro ⟨y, e1, e2⟩; rw [e1.of_zero] at e2; rw [e2.of_zero]; exact .zero _ _
    constructor
    · intro e
      cases e with
      | zero => exact absurd rfl h0
      | comp _ e1 e2 => exact ⟨_, e1, e2⟩
    · rintro ⟨y, e1, e2⟩
      exact .comp (Stop.here trivial hx h0) e1 e2
  | node id nst nxt _ ih =>
    intro t x z hr hl hx
    by_cases h0 : x = .zero
    · subst h0
      constructor
      · intro e; rw [e.of_zero]; exact ⟨.zero, .zero _ _, .zero _ _⟩
      · rintro ⟨y, e1, e2⟩; rw [e1.of_zero] at e2; rw [e2.of_zero]; exact .zero _ _
    cases hs : (Hom.comp l r).skip env nxt.lvl id with
    | false =>
      have hh : Here env (.comp l r) (.node id nst nxt) x := Stop.here hs hx h0
      constructor
      · intro e
        cases e with
        | zero => exact absurd rfl h0
        | skip _ _ hb => exact (hh.not_below hb).elim
        | comp _ e1 e2 => exact ⟨_, e1, e2⟩
      · rintro ⟨y, e1, e2⟩
        exact .comp hh e1 e2
    | true =>
      have hs' := hs
      simp only [Hom.skip, Bool.and_eq_true] at hs'
      obtain ⟨hsl, hsr⟩ := hs'
      have hr' := hr.sk_ty hsr
      obtain ⟨t', rfl, hl'⟩ := hl.sk hsl
      rw [Ev.skip_iff hC hs hx]
      have hf : ∀ {hd : Head E} {s : SDD V}, ArcOf C x hd s → Def env C r nxt s → Dom C nxt.ty (evOf env C r nxt s) :=
        fun ha hd => (hd.ev hC).dom hr' (ha.dom hx).1
      constructor
      · rintro ⟨h1, h2⟩
        have h3 : ∀ hd s, ArcOf C x hd s → Def env C r nxt s ∧ Def env C l nxt (evOf env C r nxt s) ∧
            evOf env C (.comp l r) nxt s = evOf env C l nxt (evOf env C r nxt s) := by
          intro hd s ha
          obtain ⟨y, e1, e2⟩ := (ih hr' hl' (ha.dom hx).1).1 ((h1 hd s ha).ev hC)
          rw [evOf_eq hC e1]
          exact ⟨⟨y, e1⟩, ⟨_, e2⟩, (evOf_eq hC e2).symm⟩
        obtain ⟨y, hy1, hy2⟩ := exists_lens hC hx (OB.ty_shape nxt) fun hd s ha => hf ha (h3 hd s ha).1
        rw [liftTy_ty (id := id)] at hy2
        refine ⟨y, (Ev.skip_iff hC hsr hx).2 ⟨fun hd s ha => (h3 hd s ha).1, hy1⟩, (Ev.skip_iff hC hsl hy2).2 ⟨?_, ?_⟩⟩
        · intro hd w hw
          obtain ⟨_, s, hs, rfl⟩ := (hy1.arcOf hC hx hy2 fun hd s ha => (hf ha (h3 hd s ha).1).wf).1 hw
          exact (h3 hd s hs).2.1
        · rw [← hy1.comp_iff hC hx hy2 (fun hd s ha => (hf ha (h3 hd s ha).1).wf) (evOf_zero hC)]
          exact h2.congr fun hd s ha => (h3 hd s ha).2.2
      · rintro ⟨y, e1, e2⟩
        have hy := e1.dom hr hx
        obtain ⟨h1, h2⟩ := (Ev.skip_iff hC hsr hx).1 e1
        obtain ⟨h3, h4⟩ := (Ev.skip_iff hC hsl hy).1 e2
        have hwf := fun hd s (ha : ArcOf C x hd s) => (hf ha (h1 hd s ha)).wf
        have h5 : ∀ hd s, ArcOf C x hd s → Ev env C (.comp l r) nxt s (evOf env C l nxt (evOf env C r nxt s)) := by
          intro hd s ha
          refine (ih hr' hl' (ha.dom hx).1).2 ⟨_, (h1 hd s ha).ev hC, ?_⟩
          by_cases hz : evOf env C r nxt s = .zero
          · rw [hz, evOf_zero hC]; exact .zero _ _
          · exact (h3 hd _ ((h2.arcOf hC hx hy hwf).2 ⟨hz, s, ha, rfl⟩)).ev hC
        refine ⟨fun hd s ha => ⟨_, h5 hd s ha⟩, ?_⟩
        rw [← h2.comp_iff hC hx hy hwf (evOf_zero hC)] at h4
        exact h4.congr fun hd s ha => (evOf_eq hC (h5 hd s ha)).symm

/-! ## Sum -/

/-- `r` is the union of the results of `hs`. (Specification or proof device, not part of the code.) -/
def SumSpec (env : User V I U) (C : Cfg V E) (hs : List (Hom V I U)) (o : OB I) (x r : SDD V) : Prop :=
  (∀ h ∈ hs, Def env C h o x) ∧ Is C r (fun p => ∃ h ∈ hs, Mem C p (evOf env C h o x))

theorem SumSpec.exists (hC : C.Lawful) {hs : List (Hom V I U)} {o : OB I} {t : Ty} {x : SDD V} (ht : t.IsShape)
    (hty : ∀ h ∈ hs, HTy env C sc o h t) (hx : Dom C o.ty x) (hd : ∀ h ∈ hs, Def env C h o x) :
    ∃ r, SumSpec env C hs o x r := by
  obtain ⟨r, h1, h2⟩ := exists_union hC ht (hs.map fun h => evOf env C h o x) (by
    intro y hy
    obtain ⟨h, hm, rfl⟩ := List.mem_map.1 hy
    exact ((hd h hm).ev hC).dom (hty h hm) hx)
  refine ⟨r, hd, h1.wf, fun p => ?_⟩
  rw [h2]
  simp

theorem SumSpec.zero (hC : C.Lawful) {hs : List (Hom V I U)} {o : OB I} {r : SDD V} :
    SumSpec env C hs o .zero r ↔ r = .zero := by
  constructor
  · rintro ⟨_, ⟨n, h1⟩, h2⟩
    rw [h1.zero_iff]
    intro p hp
    obtain ⟨h, _, hq⟩ := (h2 p).1 hp
    rw [evOf_zero hC] at hq
    exact not_mem_zero _ hq
  · rintro rfl
    refine ⟨fun h _ => ⟨_, .zero _ _⟩, ⟨0, .zero _⟩, fun p => ⟨fun h => absurd h (not_mem_zero p), ?_⟩⟩
    rintro ⟨h, _, hq⟩
    rw [evOf_zero hC] at hq
    exact absurd hq (not_mem_zero _)

theorem Ev.sum_here (hC : C.Lawful) {hs : List (Hom V I U)} {o : OB I} {x r : SDD V} (hh : Here env (.sum hs) o x) :
    Ev env C (.sum hs) o x r ↔ SumSpec env C hs o x r := by
  constructor
  · intro e
    cases e with
    | zero => exact absurd rfl hh.ne_zero
    | skip _ _ hb => exact (hh.not_below hb).elim
    | sum f _ hf hr =>
      refine ⟨fun h hm => ⟨_, hf h hm⟩, hr.1, fun p => ?_⟩
      rw [hr.2]
      constructor
      · rintro ⟨h, hm, hp⟩; exact ⟨h, hm, (evOf_eq hC (hf h hm)).symm ▸ hp⟩
      · rintro ⟨h, hm, hp⟩; exact ⟨h, hm, evOf_eq hC (hf h hm) ▸ hp⟩
  · rintro ⟨h1, h2⟩
    exact .sum (fun h => evOf env C h o x) hh (fun h hm => (h1 h hm).ev hC) h2

/-- A sum is the union of the results of its operands. -/
theorem Ev.sum_iff (hC : C.Lawful) {hs : List (Hom V I U)} (o : OB I) : ∀ {t : Ty} {x r : SDD V}, t.IsShape → hs ≠ [] →
    (∀ h ∈ hs, HTy env C sc o h t) → Dom C o.ty x → (Ev env C (.sum hs) o x r ↔ SumSpec env C hs o x r) := by
  induction o with
  | nil =>
    intro t x r _ _ _ hx
    by_cases h0 : x = .zero
    · subst h0
      rw [SumSpec.zero hC]
      exact ⟨fun e => e.of_zero, fun e => by rw [e]; exact .zero _ _⟩
    exact Ev.sum_here hC (Stop.here trivial hx h0)
  | node id nst nxt _ ih =>
    intro t x r hsh hne ht hx
    by_cases h0 : x = .zero
    · subst h0
      rw [SumSpec.zero hC]
      exact ⟨fun e => e.of_zero, fun e => by rw [e]; exact .zero _ _⟩
    cases hs' : (Hom.sum hs).skip env nxt.lvl id with
    | false => exact Ev.sum_here hC (Stop.here hs' hx h0)
    | true =>
      have hsk := hs'
      simp only [Hom.skip, Hom.skipAll_iff] at hsk
      have ⟨t', ht', hty⟩ : ∃ t', t'.IsShape ∧ ∀ h ∈ hs, HTy env C sc nxt h t' := by
        obtain ⟨g, l, hgl⟩ := List.exists_cons_of_ne_nil hne
        have hg : g ∈ hs := by simp [hgl]
        obtain ⟨t', rfl, h1⟩ := (ht g hg).sk (hsk g hg)
        exact ⟨t', h1.shape, fun h hm => (ht h hm).sk_lift (hsk h hm)⟩
      rw [Ev.skip_iff hC hs' hx]
      have hdef : (∀ hd s, ArcOf C x hd s → Def env C (.sum hs) nxt s) ↔ ∀ h ∈ hs, Def env C h (.node id nst nxt) x := by
        constructor
        · intro h1 h hm
          refine (Def.skip_iff hC (hty h hm) (hsk h hm) hx).2 fun hd s ha => ?_
          exact ((ih ht' hne hty (ha.dom hx).1).1 ((h1 hd s ha).ev hC)).1 h hm
        · intro h1 hd s ha
          obtain ⟨r, hr⟩ := SumSpec.exists hC ht' hty (ha.dom hx).1 fun h hm =>
            (Def.skip_iff hC (hty h hm) (hsk h hm) hx).1 (h1 h hm) hd s ha
          exact ⟨r, (ih ht' hne hty (ha.dom hx).1).2 hr⟩
      unfold SumSpec
      rw [hdef]
      refine and_congr_right fun h1 => ?_
      unfold Lens Is
      refine and_congr_right fun _ => forall_congr' fun p => iff_congr Iff.rfl ?_
      constructor
      · rintro ⟨hd, s, q, rfl, ha, hq⟩
        have h2 := (ih ht' hne hty (ha.dom hx).1).1 (((hdef.2 h1) hd s ha).ev hC)
        obtain ⟨h, hm, hq⟩ := (h2.2.2 q).1 hq
        exact ⟨h, hm, (((h1 h hm).lens hC (hsk h hm) hx).2 _).2 ⟨hd, s, q, rfl, ha, hq⟩⟩
      · rintro ⟨h, hm, hp⟩
        obtain ⟨hd, s, q, rfl, ha, hq⟩ := (((h1 h hm).lens hC (hsk h hm) hx).2 _).1 hp
        have h2 := (ih ht' hne hty (ha.dom hx).1).1 (((hdef.2 h1) hd s ha).ev hC)
        exact ⟨hd, s, q, rfl, ha, (h2.2.2 q).2 ⟨h, hm, hq⟩⟩

/-! ## Intersection -/

/-- `r` is the intersection of the results of `hs`. (Specification or proof device, not part of the code.) -/
def InterSpec (env : User V I U) (C : Cfg V E) (hs : List (Hom V I U)) (o : OB I) (x r : SDD V) : Prop :=
  Is C r (fun p => ∀ h ∈ hs, Mem C p (evOf env C h o x))

theorem Ev.inter_here (hC : C.Lawful) {hs : List (Hom V I U)} {o : OB I} {x r : SDD V} (hne : hs ≠ [])
    (hh : Here env (.inter hs) o x) (hd : ∀ h ∈ hs, Def env C h o x) :
    Ev env C (.inter hs) o x r ↔ InterSpec env C hs o x r := by
  constructor
  · intro e
    generalize hg : Hom.inter hs = g at e
    cases e with
    | zero => exact absurd rfl hh.ne_zero
    | skip _ _ hb => subst hg; exact (hh.not_below hb).elim
    | inter f _ hf hr =>
      cases hg
      refine ⟨hr.1, fun p => ?_⟩
      rw [hr.2]
      constructor
      · rintro ⟨_, hp⟩ h hm; exact (evOf_eq hC (hf h hm)).symm ▸ hp h hm
      · intro hp; exact ⟨hne, fun h hm => evOf_eq hC (hf h hm) ▸ hp h hm⟩
    | @interZero _ _ h pre post f _ _ e0 =>
      cases hg
      refine ⟨⟨0, .zero _⟩, fun p => ⟨fun h => absurd h (not_mem_zero p), fun hp => ?_⟩⟩
      have := hp h (by simp)
      rw [evOf_eq hC e0] at this
      exact absurd this (not_mem_zero _)
    | _ => cases hg
  · intro h2
    refine .inter (fun h => evOf env C h o x) hh (fun h hm => (hd h hm).ev hC) ⟨h2.1, fun p => ?_⟩
    rw [h2.2]
    exact ⟨fun h => ⟨hne, h⟩, fun h => h.2⟩

/-- An intersection is the intersection of the results of its operands. -/
theorem Ev.inter_iff (hC : C.Lawful) {hs : List (Hom V I U)} (o : OB I) : ∀ {t : Ty} {x r : SDD V}, t.IsShape → hs ≠ [] →
    (∀ h ∈ hs, HTy env C sc o h t) → Dom C o.ty x → x ≠ .zero → (∀ h ∈ hs, Def env C h o x) →
    (Ev env C (.inter hs) o x r ↔ InterSpec env C hs o x r) := by
  induction o with
  | nil => intro t x r _ hne _ hx h0 hd; exact Ev.inter_here hC hne (Stop.here trivial hx h0) hd
  | node id nst nxt _ ih =>
    intro t x r hsh hne ht hx h0 hdef
    cases hs' : (Hom.inter hs).skip env nxt.lvl id with
    | false => exact Ev.inter_here hC hne (Stop.here hs' hx h0) hdef
    | true =>
      have hsk := hs'
      simp only [Hom.skip, Hom.skipAll_iff] at hsk
      have ⟨t', ht', hty⟩ : ∃ t', t'.IsShape ∧ ∀ h ∈ hs, HTy env C sc nxt h t' := by
        obtain ⟨g, l, hgl⟩ := List.exists_cons_of_ne_nil hne
        have hg : g ∈ hs := by simp [hgl]
        obtain ⟨t', rfl, h1⟩ := (ht g hg).sk (hsk g hg)
        exact ⟨t', h1.shape, fun h hm => (ht h hm).sk_lift (hsk h hm)⟩
      have hdefs : ∀ hd s, ArcOf C x hd s → ∀ h ∈ hs, Def env C h nxt s := fun hd s ha h hm =>
        (Def.skip_iff hC (hty h hm) (hsk h hm) hx).1 (hdef h hm) hd s ha
      have hin : ∀ hd s, ArcOf C x hd s → ∃ r, Ev env C (.inter hs) nxt s r ∧ InterSpec env C hs nxt s r := by
        intro hd s ha
        obtain ⟨r, h1, h2⟩ := exists_inter hC ht' (hs.map fun h => evOf env C h nxt s) (by
          intro y hy
          obtain ⟨h, hm, rfl⟩ := List.mem_map.1 hy
          exact ((hdefs hd s ha h hm).ev hC).dom (hty h hm) (ha.dom hx).1)
        have h3 : InterSpec env C hs nxt s r := by
          refine ⟨h1.wf, fun p => ?_⟩
          rw [h2]
          simp [hne]
        exact ⟨r, (ih ht' hne hty (ha.dom hx).1 (ha.dom hx).2 (hdefs hd s ha)).2 h3, h3⟩
      rw [Ev.skip_iff hC hs' hx]
      have : (∀ hd s, ArcOf C x hd s → Def env C (.inter hs) nxt s) := fun hd s ha => by
        obtain ⟨r, h1, _⟩ := hin hd s ha; exact ⟨r, h1⟩
      refine ⟨fun h => ?_, fun h => ⟨this, ?_⟩⟩
      all_goals
        have key : ∀ p, (∃ hd s q, p = Head.cons hd q ∧ ArcOf C x hd s ∧ Mem C q (evOf env C (.inter hs) nxt s)) ↔
            ∀ h ∈ hs, Mem C p (evOf env C h (.node id nst nxt) x) := by
          intro p
          constructor
          · rintro ⟨hd, s, q, rfl, ha, hq⟩ h hm
            obtain ⟨r, h1, h2⟩ := hin hd s ha
            rw [evOf_eq hC h1, h2.2] at hq
            exact (((hdef h hm).lens hC (hsk h hm) hx).2 _).2 ⟨hd, s, q, rfl, ha, hq h hm⟩
          · intro hp
            obtain ⟨g, l, hgl⟩ := List.exists_cons_of_ne_nil hne
            have hg : g ∈ hs := by simp [hgl]
            obtain ⟨hd, s, q, rfl, ha, _⟩ := (((hdef g hg).lens hC (hsk g hg) hx).2 _).1 (hp g hg)
            refine ⟨hd, s, q, rfl, ha, ?_⟩
            obtain ⟨r, h1, h2⟩ := hin hd s ha
            rw [evOf_eq hC h1, h2.2]
            intro h hm
            obtain ⟨hd', s', q', he, ha', hq'⟩ := (((hdef h hm).lens hC (hsk h hm) hx).2 _).1 (hp h hm)
            obtain ⟨rfl, rfl⟩ := Head.cons_inj he
            exact ha.det hx ha' ▸ hq'
      · exact ⟨h.2.1, fun p => (h.2.2 p).trans (key p)⟩
      · exact ⟨h.1, fun p => (h.2 p).trans (key p).symm⟩

/-! ## If-then-else -/

open Classical in
/-- The SDD of a set of paths (if any). (Specification or proof device, not part of the code.) -/
noncomputable def isOf (C : Cfg V E) (S : Path E → Prop) : SDD V := if h : ∃ r, Is C r S then h.choose else .zero

theorem isOf_spec {S : Path E → Prop} (h : ∃ r, Is C r S) : Is C (isOf C S) S := by
  unfold isOf; rw [dif_pos h]; exact h.choose_spec

theorem isOf_eq (hC : C.Lawful) {S : Path E → Prop} {r : SDD V} (h : Is C r S) : isOf C S = r :=
  (isOf_spec ⟨r, h⟩).unique hC h fun _ => Iff.rfl

/-- `then(if(x)) ∪ else(x \ if(x))`. (Specification or proof device, not part of the code.) -/
def IteSpec (env : User V I U) (C : Cfg V E) (i t e : Hom V I U) (o : OB I) (x r : SDD V) : Prop :=
  ∃ y d a b, Ev env C i o x y ∧ Is C d (fun p => Mem C p x ∧ ¬ Mem C p y) ∧ Ev env C t o y a ∧ Ev env C e o d b ∧
    Is C r (fun p => Mem C p a ∨ Mem C p b)

theorem Is.eq_zero {r : SDD V} {S : Path E → Prop} (h : Is C r S) (hS : ∀ p, ¬ S p) : r = .zero := by
  obtain ⟨⟨n, h1⟩, h2⟩ := h
  rw [h1.zero_iff]
  intro p hp
  exact hS p ((h2 p).1 hp)

theorem Is.zero {S : Path E → Prop} (hS : ∀ p, ¬ S p) : Is C (.zero : SDD V) S :=
  ⟨⟨0, .zero _⟩, fun p => ⟨fun h => absurd h (not_mem_zero p), fun h => absurd h (hS p)⟩⟩

theorem IteSpec.zero {i t e : Hom V I U} {o : OB I} {r : SDD V} : IteSpec env C i t e o .zero r ↔ r = .zero := by
  constructor
  · rintro ⟨y, d, a, b, h1, h2, h3, h4, h5⟩
    cases h1.of_zero
    cases h2.eq_zero fun p hp => not_mem_zero p hp.1
    cases h3.of_zero
    cases h4.of_zero
    exact h5.eq_zero fun p hp => hp.elim (not_mem_zero p) (not_mem_zero p)
  · rintro rfl
    exact ⟨.zero, .zero, .zero, .zero, .zero _ _, .zero fun p hp => not_mem_zero p hp.1, .zero _ _, .zero _ _,
      .zero fun p hp => hp.elim (not_mem_zero p) (not_mem_zero p)⟩

theorem Ev.ite_here {i t e : Hom V I U} {o : OB I} {x r : SDD V} (hsel : i.selector env = true)
    (hh : Here env (.ite i t e) o x) : Ev env C (.ite i t e) o x r ↔ IteSpec env C i t e o x r := by
  constructor
  · intro ev
    cases ev with
    | zero => exact absurd rfl hh.ne_zero
    | skip _ _ hb => exact (hh.not_below hb).elim
    | ite _ _ h1 h2 h3 h4 h5 => exact ⟨_, _, _, _, h1, h2, h3, h4, h5⟩
  · rintro ⟨y, d, a, b, h1, h2, h3, h4, h5⟩
    exact .ite hsel hh h1 h2 h3 h4 h5

/-- An if-then-else is what it says. -/
theorem Ev.ite_iff (hC : C.Lawful) {i t e : Hom V I U} (hsel : i.selector env = true) (o : OB I) : ∀ {ty : Ty} {x r : SDD V},
    HTy env C sc o i o.ty → HTy env C sc o t ty → HTy env C sc o e ty → Dom C o.ty x →
    (Ev env C (.ite i t e) o x r ↔ IteSpec env C i t e o x r) := by
  induction o with
  | nil =>
    intro ty x r _ _ _ hx
    by_cases h0 : x = .zero
    · subst h0
      rw [IteSpec.zero]
      exact ⟨fun e => e.of_zero, fun e => by rw [e]; exact .zero _ _⟩
    exact Ev.ite_here hsel (Stop.here trivial hx h0)
  | node id nst nxt _ ih =>
    intro ty x r hi ht he hx
    by_cases h0 : x = .zero
    · subst h0
      rw [IteSpec.zero]
      exact ⟨fun e => e.of_zero, fun e => by rw [e]; exact .zero _ _⟩
    cases hs : (Hom.ite i t e).skip env nxt.lvl id with
    | false => exact Ev.ite_here hsel (Stop.here hs hx h0)
    | true =>
      have hsk := hs
      simp only [Hom.skip, Bool.and_eq_true] at hsk
      obtain ⟨⟨hsi, hse⟩, hst⟩ := hsk
      have hi' := hi.sk_ty hsi
      obtain ⟨ty', rfl, ht'⟩ := ht.sk hst
      have he' := he.sk_lift hse
      rw [Ev.skip_iff hC hs hx]
      let I' := evOf env C i nxt
      let D' : SDD V → SDD V := fun s => isOf C fun p => Mem C p s ∧ ¬ Mem C p (I' s)
      have hI : ∀ {hd : Head E} {s : SDD V}, ArcOf C x hd s → Def env C i nxt s → Dom C nxt.ty (I' s) :=
        fun ha hd => (hd.ev hC).dom hi' (ha.dom hx).1
      have hD : ∀ {hd : Head E} {s : SDD V}, ArcOf C x hd s → Def env C i nxt s → Dom C nxt.ty (D' s) ∧
          Is C (D' s) (fun p => Mem C p s ∧ ¬ Mem C p (I' s)) := by
        intro hd s ha hdef
        obtain ⟨d, h1, h2⟩ := exists_diff hC (OB.ty_shape nxt) (ha.dom hx).1 (hI ha hdef)
        have h3 : D' s = d := isOf_eq hC ⟨h1.wf, h2⟩
        rw [h3]
        exact ⟨h1, h1.wf, h2⟩
      -- the difference, level by level
      have hdiff : (∀ hd s, ArcOf C x hd s → Def env C i nxt s) → ∀ {y d : SDD V}, Lens C x I' y →
          (Lens C x D' d ↔ Is C d (fun p => Mem C p x ∧ ¬ Mem C p y)) := by
        intro hdef y d hy
        unfold Lens Is
        refine and_congr_right fun _ => forall_congr' fun p => iff_congr Iff.rfl ?_
        constructor
        · rintro ⟨hd, s, q, rfl, ha, hq⟩
          rw [(hD ha (hdef hd s ha)).2.2] at hq
          refine ⟨mem_cons_iff.2 ⟨s, ha, hq.1⟩, fun h => ?_⟩
          obtain ⟨hd', s', q', h1, h2, h3⟩ := (hy.2 _).1 h
          obtain ⟨rfl, rfl⟩ := Head.cons_inj h1
          cases ha.det hx h2
          exact hq.2 h3
        · rintro ⟨h1, h2⟩
          obtain ⟨hd, s, q, rfl, ha, hq⟩ := mem_node_cases hx h1
          refine ⟨hd, s, q, rfl, ha, ?_⟩
          rw [(hD ha (hdef hd s ha)).2.2]
          exact ⟨hq, fun h => h2 ((hy.2 _).2 ⟨hd, s, q, rfl, ha, h⟩)⟩
      -- the union, level by level
      have hunion : ∀ {f g k : SDD V → SDD V} {a b r : SDD V}, Lens C x f a → Lens C x g b →
          (∀ hd s, ArcOf C x hd s → Is C (k s) fun p => Mem C p (f s) ∨ Mem C p (g s)) →
          (Lens C x k r ↔ Is C r fun p => Mem C p a ∨ Mem C p b) := by
        intro f g k a b r ha hb hk
        unfold Lens Is
        refine and_congr_right fun _ => forall_congr' fun p => iff_congr Iff.rfl ?_
        change _ ↔ Mem C p a ∨ Mem C p b
        rw [ha.2, hb.2]
        constructor
        · rintro ⟨hd, s, q, rfl, hs, hq⟩
          rw [(hk hd s hs).2] at hq
          rcases hq with hq | hq
          · exact Or.inl ⟨hd, s, q, rfl, hs, hq⟩
          · exact Or.inr ⟨hd, s, q, rfl, hs, hq⟩
        · rintro (⟨hd, s, q, rfl, hs, hq⟩ | ⟨hd, s, q, rfl, hs, hq⟩)
          · exact ⟨hd, s, q, rfl, hs, ((hk hd s hs).2 q).2 (Or.inl hq)⟩
          · exact ⟨hd, s, q, rfl, hs, ((hk hd s hs).2 q).2 (Or.inr hq)⟩
      constructor
      · rintro ⟨h1, h2⟩
        have h3 : ∀ hd s, ArcOf C x hd s → Def env C i nxt s ∧ Def env C t nxt (I' s) ∧ Def env C e nxt (D' s) ∧
            Is C (evOf env C (.ite i t e) nxt s) (fun p =>
              Mem C p (evOf env C t nxt (I' s)) ∨ Mem C p (evOf env C e nxt (D' s))) := by
          intro hd s ha
          obtain ⟨y, d, a, b, g1, g2, g3, g4, g5⟩ := (ih hi' ht' he' (ha.dom hx).1).1 ((h1 hd s ha).ev hC)
          have hy : I' s = y := evOf_eq hC g1
          have hd' : D' s = d := by
            refine isOf_eq hC ?_
            rw [hy]; exact g2
          rw [hy, hd', evOf_eq hC g3, evOf_eq hC g4]
          exact ⟨⟨_, g1⟩, ⟨_, g3⟩, ⟨_, g4⟩, g5⟩
        have hdef := fun hd s ha => (h3 hd s ha).1
        obtain ⟨y, hy1, hy2⟩ := exists_lens hC hx (OB.ty_shape nxt) fun hd s ha => hI ha (hdef hd s ha)
        obtain ⟨d, hd1, hd2⟩ := exists_lens hC hx (OB.ty_shape nxt) fun hd s ha => (hD ha (hdef hd s ha)).1
        rw [liftTy_ty (id := id)] at hy2 hd2
        have hyw := fun hd s ha => (hI ha (hdef hd s ha)).wf
        have hdw := fun hd s ha => (hD ha (hdef hd s ha)).1.wf
        have hyd : ∀ hd w, ArcOf C y hd w → Def env C t nxt w := by
          intro hd w hw
          obtain ⟨_, s, hs, rfl⟩ := (hy1.arcOf hC hx hy2 hyw).1 hw
          exact (h3 hd s hs).2.1
        have hdd : ∀ hd w, ArcOf C d hd w → Def env C e nxt w := by
          intro hd w hw
          obtain ⟨_, s, hs, rfl⟩ := (hd1.arcOf hC hx hd2 hdw).1 hw
          exact (h3 hd s hs).2.2.1
        obtain ⟨a, ha⟩ := (Def.skip_iff hC ht' hst hy2).2 hyd
        obtain ⟨b, hb⟩ := (Def.skip_iff hC he' hse hd2).2 hdd
        refine ⟨y, d, a, b, (Ev.skip_iff hC hsi hx).2 ⟨hdef, hy1⟩, (hdiff hdef hy1).1 hd1, ha, hb, ?_⟩
        have ha' := ((Ev.skip_iff hC hst hy2).1 ha).2
        have hb' := ((Ev.skip_iff hC hse hd2).1 hb).2
        rw [← hy1.comp_iff hC hx hy2 hyw (evOf_zero hC)] at ha'
        rw [← hd1.comp_iff hC hx hd2 hdw (evOf_zero hC)] at hb'
        exact (hunion ha' hb' fun hd s hs => (h3 hd s hs).2.2.2).1 h2
      · rintro ⟨y, d, a, b, g1, g2, g3, g4, g5⟩
        obtain ⟨hdef, hy1⟩ := (Ev.skip_iff hC hsi hx).1 g1
        have hy2 := g1.dom hi hx
        have hd1 := (hdiff hdef hy1).2 g2
        have hd2 : Dom C (OB.node id nst nxt).ty d := g2.dom fun p hp => hx.pty p hp.1
        have hyw := fun hd s ha => (hI ha (hdef hd s ha)).wf
        have hdw := fun hd s ha => (hD ha (hdef hd s ha)).1.wf
        obtain ⟨g3, g3'⟩ := (Ev.skip_iff hC hst hy2).1 g3
        obtain ⟨g4, g4'⟩ := (Ev.skip_iff hC hse hd2).1 g4
        rw [← hy1.comp_iff hC hx hy2 hyw (evOf_zero hC)] at g3'
        rw [← hd1.comp_iff hC hx hd2 hdw (evOf_zero hC)] at g4'
        have h5 : ∀ hd s, ArcOf C x hd s → ∃ r, Ev env C (.ite i t e) nxt s r ∧
            Is C r (fun p => Mem C p (evOf env C t nxt (I' s)) ∨ Mem C p (evOf env C e nxt (D' s))) := by
          intro hd s ha
          have e1 : Ev env C t nxt (I' s) (evOf env C t nxt (I' s)) := by
            by_cases hz : I' s = .zero
            · rw [hz, evOf_zero hC]; exact .zero _ _
            · exact (g3 hd _ ((hy1.arcOf hC hx hy2 hyw).2 ⟨hz, s, ha, rfl⟩)).ev hC
          have e2 : Ev env C e nxt (D' s) (evOf env C e nxt (D' s)) := by
            by_cases hz : D' s = .zero
            · rw [hz, evOf_zero hC]; exact .zero _ _
            · exact (g4 hd _ ((hd1.arcOf hC hx hd2 hdw).2 ⟨hz, s, ha, rfl⟩)).ev hC
          obtain ⟨r, hr1, hr2⟩ := exists_union hC ht'.shape [evOf env C t nxt (I' s), evOf env C e nxt (D' s)] (by
            intro z hz
            simp only [List.mem_cons, List.not_mem_nil, or_false] at hz
            rcases hz with rfl | rfl
            · exact e1.dom ht' (hI ha (hdef hd s ha))
            · exact e2.dom he' (hD ha (hdef hd s ha)).1)
          have hr3 : Is C r (fun p => Mem C p (evOf env C t nxt (I' s)) ∨ Mem C p (evOf env C e nxt (D' s))) :=
            ⟨hr1.wf, fun p => by rw [hr2]; simp⟩
          exact ⟨r, (ih hi' ht' he' (ha.dom hx).1).2 ⟨_, _, _, _, (hdef hd s ha).ev hC, (hD ha (hdef hd s ha)).2, e1, e2, hr3⟩, hr3⟩
        refine ⟨fun hd s ha => ?_, (hunion g3' g4' fun hd s ha => ?_).2 g5⟩
        · obtain ⟨r, h1, _⟩ := h5 hd s ha; exact ⟨r, h1⟩
        · obtain ⟨r, h1, h2⟩ := h5 hd s ha
          rw [evOf_eq hC h1]
          exact h2

/-! ## Fixpoint -/

/-- `r` is obtained by iterating `h` from `x`, and `h` does not change it. (Specification or proof device, not part of the code.) -/
def FixSpec (env : User V I U) (C : Cfg V E) (h : Hom V I U) (o : OB I) (x r : SDD V) : Prop :=
  ∃ n, ∃ c : Nat → SDD V, c 0 = x ∧ (∀ i, i < n → Ev env C h o (c i) (c (i + 1))) ∧ c n = r ∧ Ev env C h o r r

theorem FixSpec.zero {h : Hom V I U} {o : OB I} {r : SDD V} : FixSpec env C h o .zero r ↔ r = .zero := by
  constructor
  · rintro ⟨n, c, h0, h1, rfl, _⟩
    have : ∀ i, i ≤ n → c i = .zero := by
      intro i
      induction i with
      | zero => intro _; exact h0
      | succ i ih => intro hi; have := h1 i (by omega); rw [ih (by omega)] at this; exact this.of_zero
    exact this n (le_refl _)
  · rintro rfl
    exact ⟨0, fun _ => .zero, rfl, by omega, rfl, .zero _ _⟩

theorem Ev.fix_stop (hC : C.Lawful) {h : Hom V I U} {o : OB I} {x r : SDD V} (hst : Stop env (.fix h) o)
    (ht : HTy env C sc o h o.ty) (hx : Dom C o.ty x) : Ev env C (.fix h) o x r ↔ FixSpec env C h o x r := by
  constructor
  · intro e
    generalize hg : Hom.fix h = g at e
    generalize ho : o = o' at e
    induction e with
    | zero => subst ho; exact FixSpec.zero.2 rfl
    | fixDone hh e1 => cases hg; subst ho; exact ⟨0, fun _ => _, rfl, by omega, rfl, e1⟩
    | fixStep hh e1 _ _ _ ih =>
      cases hg; subst ho
      obtain ⟨n, c, h0, h1, h2, h3⟩ := ih (e1.dom ht hx) rfl rfl
      refine ⟨n + 1, fun i => match i with | 0 => _ | i + 1 => c i, rfl, ?_, h2, h3⟩
      intro i hi
      cases i with
      | zero => rw [← h0] at e1; exact e1
      | succ i => exact h1 i (by omega)
    | skip f _ hb => subst hg; subst ho; exact ((hst.here hx hb.ne_zero).not_below hb).elim
    | _ => cases hg
  · rintro ⟨n, c, h0, h1, h2, h3⟩
    induction n generalizing x c with
    | zero =>
      have hxr : x = r := h0.symm.trans h2
      subst hxr
      by_cases hz : x = .zero
      · rw [hz]; exact .zero _ _
      · exact .fixDone (hst.here hx hz) h3
    | succ n ih =>
      by_cases hz : x = .zero
      · subst hz
        rw [FixSpec.zero.1 ⟨n + 1, c, h0, h1, h2, h3⟩]
        exact .zero _ _
      have e1 := h1 0 (by omega)
      rw [h0] at e1
      by_cases hne : c (0 + 1) = x
      · have hall : ∀ i, i ≤ n + 1 → c i = x := by
          intro i
          induction i with
          | zero => intro _; exact h0
          | succ i ih' =>
            intro hi
            have := h1 i (by omega)
            rw [ih' (by omega)] at this
            rw [hne] at e1
            exact this.det hC e1
        rw [← h2, hall (n + 1) (le_refl _)]
        rw [hne] at e1
        exact .fixDone (hst.here hx hz) e1
      · exact .fixStep (hst.here hx hz) e1 hne
          (ih (e1.dom ht hx) (fun i => c (i + 1)) rfl (fun i hi => h1 (i + 1) (by omega)) h2)

/-- A fixpoint is obtained by iteration. -/
theorem Ev.fix_iff (hC : C.Lawful) {h : Hom V I U} (o : OB I) : ∀ {x r : SDD V}, HTy env C sc o h o.ty → Dom C o.ty x →
    (Ev env C (.fix h) o x r ↔ FixSpec env C h o x r) := by
  induction o with
  | nil => intro x r ht hx; exact Ev.fix_stop hC trivial ht hx
  | node id nst nxt _ ih =>
    intro x r ht hx
    cases hs : (Hom.fix h).skip env nxt.lvl id with
    | false => exact Ev.fix_stop hC hs ht hx
    | true =>
      have hsk : h.skip env nxt.lvl id = true := by simpa only [Hom.skip] using hs
      have ht' := ht.sk_ty hsk
      rw [Ev.skip_iff hC hs hx]
      let F := evOf env C h nxt
      constructor
      · rintro ⟨h1, h2⟩
        have hfix : ∀ hd s, ArcOf C x hd s → FixSpec env C h nxt s (evOf env C (.fix h) nxt s) := fun hd s ha =>
          (ih ht' (ha.dom hx).1).1 ((h1 hd s ha).ev hC)
        -- the iterations from one successor
        have hit : ∀ hd s, ArcOf C x hd s → (∀ i, Dom C nxt.ty (F^[i] s) ∧ Ev env C h nxt (F^[i] s) (F^[i + 1] s)) ∧
            ∃ n, ∀ i, n ≤ i → F^[i] s = evOf env C (.fix h) nxt s := by
          intro hd s ha
          obtain ⟨n, c, g0, g1, g2, g3⟩ := hfix hd s ha
          have k1 : ∀ i, i ≤ n → F^[i] s = c i := by
            intro i
            induction i with
            | zero => intro _; exact g0.symm
            | succ i ih' =>
              intro hi
              rw [Function.iterate_succ_apply', ih' (by omega)]
              exact evOf_eq hC (g1 i (by omega))
          have k2 : ∀ i, F^[n + i] s = evOf env C (.fix h) nxt s := by
            intro i
            induction i with
            | zero => rw [Nat.add_zero, k1 n (le_refl _), g2]
            | succ i ih' =>
              rw [← Nat.add_assoc, Function.iterate_succ_apply', ih']
              exact evOf_eq hC g3
          have k3 : ∀ i, Ev env C h nxt (F^[i] s) (F^[i + 1] s) := by
            intro i
            rcases Nat.lt_or_ge i n with hi | hi
            · rw [k1 i (by omega), k1 (i + 1) (by omega)]
              exact g1 i hi
            · obtain ⟨j, rfl⟩ := Nat.exists_eq_add_of_le hi
              rw [k2 j, Nat.add_assoc, k2 (j + 1)]
              exact g3
          refine ⟨fun i => ⟨?_, k3 i⟩, n, fun i hi => ?_⟩
          · induction i with
            | zero => exact (ha.dom hx).1
            | succ i ih' => exact (k3 i).dom ht' ih'
          · obtain ⟨j, rfl⟩ := Nat.exists_eq_add_of_le hi
            exact k2 j
        obtain ⟨N, hN⟩ := exists_bound (P := fun s n => ∀ hd, ArcOf C x hd s → ∀ i, n ≤ i → F^[i] s = evOf env C (.fix h) nxt s)
          (fun b n k hP hnk hd ha i hi => hP hd ha i (by omega)) (succs x) (by
            intro s _
            by_cases hd : ∃ hd, ArcOf C x hd s
            · obtain ⟨hd, ha⟩ := hd
              obtain ⟨n, hn⟩ := (hit hd s ha).2
              exact ⟨n, fun _ _ => hn⟩
            · exact ⟨0, fun hd' ha => absurd ⟨hd', ha⟩ hd⟩)
        have hl : ∀ i, ∃ y, Lens C x (F^[i]) y ∧ Dom C (OB.node id nst nxt).ty y := by
          intro i
          obtain ⟨y, g1, g2⟩ := exists_lens hC hx (f := F^[i]) (OB.ty_shape nxt) fun hd s ha => ((hit hd s ha).1 i).1
          rw [liftTy_ty] at g2
          exact ⟨y, g1, g2⟩
        choose c hc1 hc2 using hl
        have hw : ∀ i hd s, ArcOf C x hd s → WF C (F^[i] s) := fun i hd s ha => ((hit hd s ha).1 i).1.wf
        have hcr : c N = r := (hc1 N).unique hC (h2.congr fun hd s ha =>
          (hN s (ArcOf.mem_succs ha) hd ha N (le_refl _)).symm)
        refine ⟨N, c, ?_, ?_, hcr, ?_⟩
        · exact (hc1 0).unique hC (Lens.self hx)
        · intro i _
          refine (Ev.skip_iff hC hsk (hc2 i)).2 ⟨?_, ?_⟩
          · intro hd w hw'
            obtain ⟨_, s, hs, rfl⟩ := ((hc1 i).arcOf hC hx (hc2 i) (hw i)).1 hw'
            exact ⟨_, ((hit hd s hs).1 i).2⟩
          · rw [← (hc1 i).comp_iff hC hx (hc2 i) (hw i) (evOf_zero hC)]
            exact (hc1 (i + 1)).congr fun hd s ha => Function.iterate_succ_apply' _ _ _
        · have hr2 : Dom C (OB.node id nst nxt).ty r := hcr ▸ hc2 N
          have hr1 : Lens C x (F^[N]) r := hcr ▸ hc1 N
          have harc : ∀ hd w, ArcOf C r hd w → Ev env C h nxt w w := by
            intro hd w hw'
            obtain ⟨_, s, hs, rfl⟩ := (hr1.arcOf hC hx hr2 (hw N)).1 hw'
            have := ((hit hd s hs).1 N).2
            rw [hN s (ArcOf.mem_succs hs) hd hs (N + 1) (by omega), ← hN s (ArcOf.mem_succs hs) hd hs N (le_refl _)] at this
            exact this
          exact (Ev.skip_iff hC hsk hr2).2 ⟨fun hd w hw' => ⟨_, harc hd w hw'⟩,
            (Lens.self hr2).congr fun hd w hw' => (evOf_eq hC (harc hd w hw')).symm⟩
      · rintro ⟨n, c, g0, g1, g2, g3⟩
        have key : ∀ i, i ≤ n → Lens C x (F^[i]) (c i) ∧ Dom C (OB.node id nst nxt).ty (c i) ∧
            (∀ hd s, ArcOf C x hd s → Dom C nxt.ty (F^[i] s)) ∧
            ∀ j, j < i → ∀ hd s, ArcOf C x hd s → Ev env C h nxt (F^[j] s) (F^[j + 1] s) := by
          intro i
          induction i with
          | zero =>
            intro _
            rw [g0]
            exact ⟨Lens.self hx, hx, fun hd s ha => (ha.dom hx).1, by omega⟩
          | succ i ih' =>
            intro hi
            obtain ⟨k1, k2, k3, k4⟩ := ih' (by omega)
            have e := g1 i (by omega)
            obtain ⟨e1, e2⟩ := (Ev.skip_iff hC hsk k2).1 e
            have hw := fun hd s ha => (k3 hd s ha).wf
            rw [← k1.comp_iff hC hx k2 hw (evOf_zero hC)] at e2
            have hev : ∀ hd s, ArcOf C x hd s → Ev env C h nxt (F^[i] s) (F^[i + 1] s) := by
              intro hd s ha
              rw [Function.iterate_succ_apply']
              by_cases hz : F^[i] s = .zero
              · rw [hz]; change Ev env C h nxt .zero (evOf env C h nxt .zero); rw [evOf_zero hC]; exact .zero _ _
              · exact (e1 hd _ ((k1.arcOf hC hx k2 hw).2 ⟨hz, s, ha, rfl⟩)).ev hC
            refine ⟨e2.congr fun hd s ha => (Function.iterate_succ_apply' F i s).symm, e.dom ht k2,
              fun hd s ha => (hev hd s ha).dom ht' (k3 hd s ha), fun j hj hd s ha => ?_⟩
            rcases Nat.lt_or_ge j i with hj' | hj'
            · exact k4 j hj' hd s ha
            · cases (by omega : j = i); exact hev hd s ha
        obtain ⟨k1, k2, k3, k4⟩ := key n (le_refl _)
        rw [g2] at k1 k2
        have hw := fun hd s ha => (k3 hd s ha).wf
        obtain ⟨e1, e2⟩ := (Ev.skip_iff hC hsk k2).1 g3
        have hfx : ∀ hd w, ArcOf C r hd w → evOf env C h nxt w = w := by
          intro hd w hw'
          have h3 : ∀ hd s, ArcOf C r hd s → WF C (evOf env C h nxt s) := fun hd s ha =>
            (((e1 hd s ha).ev hC).dom ht' (ha.dom k2).1).wf
          obtain ⟨_, s, hs, h4⟩ := (e2.arcOf hC k2 k2 h3).1 hw'
          rw [hw'.det k2 hs]
          rw [hw'.det k2 hs] at h4
          exact h4.symm
        have hsp : ∀ hd s, ArcOf C x hd s → Ev env C (.fix h) nxt s (F^[n] s) := by
          intro hd s ha
          refine (ih ht' (ha.dom hx).1).2 ⟨n, fun i => F^[i] s, rfl, fun i hi => k4 i hi hd s ha, rfl, ?_⟩
          by_cases hz : F^[n] s = .zero
          · rw [hz]; exact .zero _ _
          · have harc := (k1.arcOf hC hx k2 hw).2 ⟨hz, s, ha, rfl⟩
            have := (e1 hd _ harc).ev hC
            rw [hfx hd _ harc] at this
            exact this
        exact ⟨fun hd s ha => ⟨_, hsp hd s ha⟩, k1.congr fun hd s ha => (evOf_eq hC (hsp hd s ha)).symm⟩

end Verif
