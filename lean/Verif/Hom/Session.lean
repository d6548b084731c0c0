import Verif.DD.Outcome
import Verif.DD.Top
import Verif.Hom.History
/-!
# Sessions mixing operations on SDDs and applications of homomorphisms

The user holds SDDs, obtained by creating nodes, by operations, by applications of homomorphisms, or from exceptions; calls are made on
the SDDs held.
-/

set_option autoImplicit false
set_option linter.unusedSectionVars false

namespace Verif

section
variable {V E I U : Type} [DecidableEq V] [DecidableEq I] [DecidableEq U]

/-! ## Definitions -/

/-- The state of a session: the library (which tells the current addresses), the contents of the caches, and the SDDs held by the user.
(Model of the environment: what the user or the system does.) -/
structure LSess (V E I U : Type) where
  lib : Lib V E I U
  mach : HMach V I U
  handles : List (SDD V)

/-- The SDDs kept in memory: those reachable from a handle of the user or from the caches
(`/repo/sdd/mem/ptr.hh`, reference counting). (Model of the environment: what the user or the system does.) -/
def LSess.Live (s : LSess V E I U) (a : SDD V) : Prop := s.mach.Live a ∨ ∃ h ∈ s.handles, Sub a h

/-- One step of a session. (Model of the environment: what the user or the system does.) -/
inductive LSess.Step (sc : Scope I U) : LSess V E I U → LSess V E I U → Prop where
  /-- an operation on handles, which returns or raises -/
  | call (s : LSess V E I U) (c : Call V) : (∀ x ∈ c.args, x ∈ s.handles) →
      Step sc s
        { s with
          mach := { s.mach with dd := (c.run s.lib.C s.lib.orc s.lib.cap s.mach.dd).2 }
          handles := addHandle (c.run s.lib.C s.lib.orc s.lib.cap s.mach.dd).1 s.handles }
  /-- an operation during which the code of the user may throw; if it throws an exception of type `top`, it carries SDDs of the user -/
  | callThrown (s : LSess V E I U) (c : Call V) (stop : Nat → Option (Err V)) : (∀ x ∈ c.args, x ∈ s.handles) →
      (∀ k l r, stop k = some (.top l r) → l ∈ s.handles ∧ r ∈ s.handles) →
      Step sc s
        { s with
          mach := { s.mach with dd := (c.runX s.lib.C s.lib.orc s.lib.cap stop s.mach.dd).2 }
          handles := addHandle (c.runX s.lib.C s.lib.orc s.lib.cap stop s.mach.dd).1 s.handles }
  /-- an application of a homomorphism to a handle, which returns, raises or is stopped anywhere -/
  | apply (s : LSess V E I U) (n : Nat) (h : Hom V I U) (o : OB I) (x : SDD V) : x ∈ s.handles → s.lib.Use sc h o x →
      Step sc s
        { s with
          mach := (s.lib.apply n h o x s.mach).2
          handles := addHandle (s.lib.apply n h o x s.mach).1 s.handles }
  /-- an application of a homomorphism during which the code of the user may throw -/
  | thrown (s : LSess V E I U) (stop : Nat → Option (Err V)) (n : Nat) (h : Hom V I U) (o : OB I) (x : SDD V) : x ∈ s.handles →
      s.lib.Use sc h o x → (∀ k l r, stop k = some (.top l r) → l ∈ s.handles ∧ r ∈ s.handles) →
      Step sc s
        { s with
          mach := (s.lib.applyX stop n h o x s.mach).2
          handles := addHandle (s.lib.applyX stop n h o x s.mach).1 s.handles }
  /-- copies and destructions of handles -/
  | drop (s : LSess V E I U) (hs : List (SDD V)) : (∀ x ∈ hs, x ∈ s.handles) → Step sc s { s with handles := hs }
  /-- `reset_hom_cache`, `/repo/sdd/manager.hh:189-194` -/
  | resetHom (s : LSess V E I U) : Step sc s { s with mach := { s.mach with homs := [] } }
  /-- `context::clear`, `/repo/sdd/dd/context.hh:103-111` -/
  | resetDD (s : LSess V E I U) : Step sc s { s with mach := { s.mach with dd := ⟨fun _ => [], s.mach.dd.tick⟩ } }
  /-- nodes which are not in memory get other addresses; the user's code handles SDDs as sets of paths -/
  | realloc (s : LSess V E I U) (lt : SDD V → SDD V → Bool) (env : User V I U) : StrictTotal lt →
      (∀ a b, s.Live a → s.Live b → s.lib.C.lt a b = lt a b) → User.Same s.lib.C (s.lib.C.withLt lt) s.lib.env env →
      env.Canon (s.lib.C.withLt lt) → (s.lib.withLt lt env).OK sc → Step sc s { s with lib := s.lib.withLt lt env }

/-- The sessions reachable from a new manager (`init`) used as expected. (Model of the environment: what the user or the system does.) -/
inductive LSess.Reach (sc : Scope I U) : LSess V E I U → Prop where
  | init (L : Lib V E I U) : L.OK sc → Reach sc ⟨L, ⟨⟨fun _ => [], 0⟩, []⟩, []⟩
  | step (s s' : LSess V E I U) : Reach sc s → Step sc s s' → Reach sc s'

/-! ## Compatibility of the operands kept by the caches -/

section
variable {env : User V I U} {C : Cfg V E} {sc : Scope I U} {orc : Nat → Nat → List Nat} {cap : OpKind → Nat}

/-- SDDs of one order have compatible paths. -/
theorem Dom.coh {t : Ty} (ht : t.IsShape) {x y : SDD V} (hx : Dom C t x) (hy : Dom C t y) : Coh C Compat x y := by
  intro p
  induction p generalizing t x y with
  | nil =>
    intro q hp hq
    cases x with
    | zero => exact absurd hp (not_mem_zero _)
    | flat => simp [Mem] at hp
    | hier => simp [Mem] at hp
    | one =>
      cases hx with
      | one _ h =>
        cases t with
        | any => simp [Ty.IsShape] at ht
        | flat => simp [Ty.hasOne] at h
        | hier => simp [Ty.hasOne] at h
        | nil =>
          cases hy with
          | zero => exact absurd hq (not_mem_zero q)
          | flat _ _ _ _ h => simp [Ty.flatNext] at h
          | hier _ _ _ _ _ h => simp [Ty.hierNext] at h
          | one =>
            rw [mem_one] at hq
            subst hq
            trivial
  | flat z a p ih =>
    intro q hp hq
    cases x with
    | zero => exact absurd hp (not_mem_zero _)
    | one => simp [Mem] at hp
    | hier => simp [Mem] at hp
    | flat x arcs =>
      cases hx with
      | flat _ t' _ _ h1 _ h3 =>
        cases t with
        | any => simp [Ty.IsShape] at ht
        | nil => simp [Ty.flatNext] at h1
        | hier => simp [Ty.flatNext] at h1
        | flat w t =>
          cases hy with
          | zero => exact absurd hq (not_mem_zero q)
          | one _ h => simp [Ty.hasOne] at h
          | hier _ _ _ _ _ h => simp [Ty.hierNext] at h
          | flat _ t'' y arcs' h1' _ h3' =>
            simp only [Ty.flatNext, Option.ite_none_right_eq_some, Option.some.injEq] at h1 h1'
            obtain ⟨rfl, rfl⟩ := h1
            obtain ⟨rfl, rfl⟩ := h1'
            obtain ⟨rfl, arc, ha, -, hp⟩ := hp
            cases q with
            | nil => simp [Mem] at hq
            | hier => simp [Mem] at hq
            | flat z b q =>
              obtain ⟨rfl, arc', ha', -, hq⟩ := hq
              exact ⟨rfl, fun _ => ih (t := t) ht (h3 _ ha) (h3' _ ha') q hp hq⟩
  | hier z a p ih1 ih2 =>
    intro q hp hq
    cases x with
    | zero => exact absurd hp (not_mem_zero _)
    | one => simp [Mem] at hp
    | flat => simp [Mem] at hp
    | hier x arcs =>
      cases hx with
      | hier _ tn t' _ _ h1 _ h2 h3 =>
        cases t with
        | any => simp [Ty.IsShape] at ht
        | nil => simp [Ty.hierNext] at h1
        | flat => simp [Ty.hierNext] at h1
        | hier w tn t =>
          cases hy with
          | zero => exact absurd hq (not_mem_zero q)
          | one _ h => simp [Ty.hasOne] at h
          | flat _ _ _ _ h => simp [Ty.flatNext] at h
          | hier _ tn' t'' y arcs' h1' _ h2' h3' =>
            simp only [Ty.hierNext, Option.ite_none_right_eq_some, Option.some.injEq, Prod.mk.injEq] at h1 h1'
            obtain ⟨rfl, rfl, rfl⟩ := h1
            obtain ⟨rfl, rfl, rfl⟩ := h1'
            obtain ⟨rfl, arc, ha, hn, hp⟩ := hp
            cases q with
            | nil => simp [Mem] at hq
            | flat => simp [Mem] at hq
            | hier z b q =>
              obtain ⟨rfl, arc', ha', hn', hq⟩ := hq
              exact ⟨rfl, ih1 ht.1 (h2 _ ha) (h2' _ ha') b hn hn', fun _ => ih2 ht.2 (h3 _ ha) (h3' _ ha') q hp hq⟩

/-- The entries of the caches are right, and the operands of the cached operations are compatible.
(Specification or proof device, not part of the code.) -/
def HMachCoh (env : User V I U) (C : Cfg V E) (sc : Scope I U) (s : HMach V I U) : Prop :=
  HMachOK env C sc s ∧ ∀ k, ∀ e ∈ s.dd.cache k, OpCoh C Compat e.1

/-- As `homLogic`, with the compatibility of the operands stored in caches. (Specification or proof device, not part of the code.) -/
def homCohLogic (env : User V I U) (C : Cfg V E) (sc : Scope I U) (orc : Nat → Nat → List Nat) :
    Logic V (HM orc V I U) where
  Sat x P := ∀ s, HMachCoh env C sc s → HMachCoh env C sc (x s).2 ∧
    match (x s).1 with
    | .ok a => P a
    | .error e => TopCoh C e
  allow := TopCoh C
  pure' h s hs := ⟨hs, h⟩
  bind' := by
    intro α β x f P Q h1 h2 s hs
    have h1 := h1 s hs
    change HMachCoh env C sc (match x s with
      | (.ok a, s') => f a s'
      | (.error e, s') => (.error e, s')).2 ∧ match (match x s with
      | (.ok a, s') => f a s'
      | (.error e, s') => (.error e, s')).1 with
      | .ok a => Q a
      | .error e => TopCoh C e
    match hx : x s, h1 with
    | (.ok a, s'), h1 => exact h2 a h1.2 s' h1.1
    | (.error e, s'), h1 => exact h1
  raise' h s hs := ⟨hs, h⟩
  ord' l s hs := ⟨hs, permBy_perm l _⟩
  mono' := by
    intro α x P Q h1 h2 s hs
    have h1 := h1 s hs
    match hx : (x s).1, h1 with
    | .ok a, h1 => exact ⟨h1.1, h2 a h1.2⟩
    | .error e, h1 => exact h1

theorem lift_coh {α : Type} {x : CM orc V α} {P : α → Prop} (h : (cohLogic C orc).Sat x P) :
    (homCohLogic env C sc orc).Sat (HM.lift x) P := by
  intro s hs
  have h := h s.dd ⟨hs.1.1, hs.2⟩
  exact ⟨⟨⟨h.1.1, hs.1.2⟩, h.1.2⟩, h.2⟩

theorem guardH_coh {α : Type} {stop : Nat → Option (Err V)} (hstop : ∀ k e, stop k = some e → TopCoh C e) {x : HM orc V I U α}
    {P : α → Prop} (h : (homCohLogic env C sc orc).Sat x P) : (homCohLogic env C sc orc).Sat (guardH stop x) P := by
  intro s hs
  unfold guardH
  split
  · rename_i e he
    exact ⟨hs, hstop _ _ he⟩
  · exact h _ hs

theorem homCache_coh (htr : Transfer env C sc) {hcap : Nat} (hpos : 0 < hcap) :
    CallSound env C sc (homCohLogic env C sc orc) (homCache hcap) := by
  intro f o h t x hS ht hx h0 hid hf s hs
  unfold homCache
  split
  · split
    · rename_i r hr
      refine ⟨⟨⟨hs.1.1, fun e he => hs.1.2 e (mem_lruTouch.1 he)⟩, hs.2⟩, ?_⟩
      obtain ⟨o', t', hS', ht', hx', _, he⟩ := hs.1.2 _ (lruFind_mem hr)
      exact htr o' o h t' t x r hS' hS (hx'.ty_unique hx (OB.ty_shape o') (OB.ty_shape o) h0) ht' ht hx' he
    · have hf := hf s hs
      split
      · rename_i e s' he
        rw [he] at hf
        exact hf
      · rename_i r s' he
        rw [he] at hf
        obtain ⟨c', hc'⟩ := lruInsert_isSome (pick := (orc s'.dd.tick 0).headD 0) (c := s'.homs) (k := (h, x)) (r := r) hpos
        rw [hc']
        refine ⟨⟨⟨hf.1.1.1, fun e he => ?_⟩, hf.1.2⟩, hf.2⟩
        rcases mem_lruInsert hc' he with he | rfl
        · exact hf.1.1.2 e he
        · exact ⟨o, t, hS, ht, hx, h0, hf.2⟩
  · exact hf s hs

theorem RecS.shape {run : Op V → CM orc V (SDD V)} {t : Ty} (ht : t.IsShape)
    (h : RecS C (cohLogic C orc) Compat (fun _ => True) (fun _ => True) t run) : RecOK C (cohLogic C orc) t run := by
  intro op hop
  refine (cohLogic C orc).mono' (h op hop (fun x hx => ⟨?_, fun _ _ => trivial⟩) op.small_true) fun r hr => ⟨hr.1, hr.2.1⟩
  have : Dom C t x := by
    cases op with
    | sum xs => exact hop.1.dom x hx
    | inter xs => exact hop.1.dom x hx
    | diff l r =>
      simp only [Op.operands, List.mem_cons, List.not_mem_nil, or_false] at hx
      rcases hx with rfl | rfl
      · exact hop.1
      · exact hop.2.1
  exact Dom.coh ht this this

theorem Lib.OK.coh {L : Lib V E I U} (hL : L.OK sc) {n : Nat} {h : Hom V I U} {o : OB I} {x : SDD V} (hu : L.Use sc h o x) :
    (homCohLogic L.env L.C sc L.orc).Sat (L.apply n h o x) (Ev L.env L.C h o x) := by
  obtain ⟨t, ht⟩ := hu.ty
  refine runH_sat (L := homCohLogic L.env L.C sc L.orc) hL.closed hL.lawful (Or.inr (by rintro l r h; cases h))
    (by rintro l r h; cases h) hL.honest (fun t ht op hop => ?_) (homCache_coh hL.transfer hL.hcap) n o h t x hu.order ht hu.dom
  exact lift_coh (autoRun_ok (L := cohLogic L.C L.orc) (fun n t h1 h2 => (runC_coh hL.lawful hL.cap n t h1).shape h2) t ht op hop)

theorem Lib.OK.cohX {L : Lib V E I U} (hL : L.OK sc) {stop : Nat → Option (Err V)} (hstop : ∀ k e, stop k = some e → TopCoh L.C e)
    {n : Nat} {h : Hom V I U} {o : OB I} {x : SDD V} (hu : L.Use sc h o x) :
    (homCohLogic L.env L.C sc L.orc).Sat (L.applyX stop n h o x) (Ev L.env L.C h o x) := by
  obtain ⟨t, ht⟩ := hu.ty
  refine runH_sat (L := homCohLogic L.env L.C sc L.orc) hL.closed hL.lawful (Or.inr (by rintro l r h; cases h))
    (by rintro l r h; cases h) hL.honest (fun t ht op hop => ?_) (fun f o h t x h1 h2 h3 h4 h5 h6 => ?_) n o h t x hu.order ht hu.dom
  · exact lift_coh (guardX_coh hstop (autoRun_ok (L := cohLogic L.C L.orc)
      (fun n t h1 h2 => (runX_coh hL.lawful hL.cap hstop n t h1).shape h2) t ht op hop))
  · refine guardH_coh hstop (homCache_coh hL.transfer hL.hcap _ o h t x h1 h2 h3 h4 h5 ?_)
    exact (homCohLogic L.env L.C sc L.orc).bind' (guardH_coh hstop h6)
      fun r hr => guardH_coh hstop ((homCohLogic L.env L.C sc L.orc).pure' hr)

end

/-! ## The invariant -/

section
variable {sc : Scope I U}

/-- The invariant of sessions. (Proof device, not part of the code.) -/
structure LSess.Inv (sc : Scope I U) (s : LSess V E I U) : Prop where
  ok : s.lib.OK sc
  mach : HMachCoh s.lib.env s.lib.C sc s.mach
  wf : ∀ h ∈ s.handles, WF s.lib.C h
  self : ∀ h ∈ s.handles, Coh s.lib.C Compat h h

/-- The operations on SDDs see a session without homomorphisms. (Proof device, not part of the code.) -/
def LSess.dd (s : LSess V E I U) : Sess V := ⟨s.lib.C.lt, s.mach.dd, s.handles⟩

theorem LSess.Inv.dd {s : LSess V E I U} (h : s.Inv sc) : s.dd.Inv s.lib.C ∧ s.dd.Coh s.lib.C :=
  ⟨⟨h.ok.lawful.lt_st, h.mach.1.1, h.wf⟩, ⟨h.mach.2, h.self⟩⟩

/-- After a call on SDDs. -/
theorem LSess.Inv.ofDD {s : LSess V E I U} (h : s.Inv sc) {m : Mach V} {hs : List (SDD V)}
    (h1 : Sess.Inv s.lib.C ⟨s.lib.C.lt, m, hs⟩) (h2 : Sess.Coh s.lib.C ⟨s.lib.C.lt, m, hs⟩) :
    LSess.Inv sc ⟨s.lib, { s.mach with dd := m }, hs⟩ :=
  ⟨h.ok, ⟨⟨h1.cache, h.mach.1.2⟩, h2.cache⟩, h1.wf, h2.self⟩

/-- After an application of a homomorphism. -/
theorem LSess.Inv.ofHom {s : LSess V E I U} (h : s.Inv sc) {h' : Hom V I U} {o : OB I} {x : SDD V} (hu : s.lib.Use sc h' o x)
    {m : HMach V I U} (hm : HMachCoh s.lib.env s.lib.C sc m) {r : Except (Err V) (SDD V)}
    (hr : ∀ y, r = .ok y → Ev s.lib.env s.lib.C h' o x y) (hr' : ∀ a b, r = .error (.top a b) → a ∈ s.handles ∧ b ∈ s.handles) :
    LSess.Inv sc ⟨s.lib, m, addHandle r s.handles⟩ := by
  obtain ⟨t, ht⟩ := hu.ty
  have key : ∀ y ∈ addHandle r s.handles, y ∈ s.handles ∨ Dom s.lib.C t y := by
    intro y hy
    rcases mem_addHandle hy with hy | e | ⟨a, b, e, hy⟩
    · exact Or.inl hy
    · exact Or.inr ((hr y e).dom ht hu.dom)
    · rcases hy with rfl | rfl
      · exact Or.inl (hr' _ _ e).1
      · exact Or.inl (hr' _ _ e).2
  refine ⟨h.ok, hm, fun y hy => ?_, fun y hy => ?_⟩
  · rcases key y hy with hy | hy
    · exact h.wf y hy
    · exact hy.wf
  · rcases key y hy with hy | hy
    · exact h.self y hy
    · exact Dom.coh ht.shape hy hy

theorem LSess.Step.inv {s s' : LSess V E I U} (h : LSess.Step sc s s') (hi : s.Inv sc) : s'.Inv sc := by
  have hC := hi.ok.lawful
  have hd := hi.dd
  cases h with
  | call c hc =>
    have hst : Sess.Step s.lib.C s.lib.orc s.lib.cap s.dd _ := .call s.dd c hc
    exact hi.ofDD (hst.inv hC hi.ok.cap hd.1) (hst.coh hC hi.ok.cap hd.1 hd.2)
  | callThrown c stop hc hs =>
    have hst : Sess.Step s.lib.C s.lib.orc s.lib.cap s.dd _ := .thrown s.dd c stop hc hs
    exact hi.ofDD (hst.inv hC hi.ok.cap hd.1) (hst.coh hC hi.ok.cap hd.1 hd.2)
  | apply n h o x hx hu =>
    have e := (hi.ok.sat (n := n) hu s.mach hi.mach.1).2
    refine hi.ofHom hu (hi.ok.coh hu s.mach hi.mach).1 (fun y hy => ?_) fun a b hy => ?_
    · rw [hy] at e; exact e
    · rw [hy] at e; rcases e with e | e <;> cases e
  | thrown stop n h o x hx hu hst =>
    have e := (hi.ok.satX (stop := stop) (n := n) (allow := fun e => e = .fuel ∨ e = .overflow ∨ ∃ k, stop k = some e)
      (Or.inr (Or.inr (Or.inl rfl))) (Or.inl rfl) (fun k e h => Or.inr (Or.inr ⟨k, h⟩)) hu s.mach hi.mach.1).2
    refine hi.ofHom hu (hi.ok.cohX (stop := stop) ?_ hu s.mach hi.mach).1 (fun y hy => ?_) fun a b hy => ?_
    · rintro k e hk l r rfl
      exact ⟨hi.self l (hst k l r hk).1, hi.self r (hst k l r hk).2⟩
    · rw [hy] at e; exact e
    · rw [hy] at e
      rcases e with e | e | ⟨k, e⟩
      · cases e
      · cases e
      · exact hst k a b e
  | drop hs hsub => exact ⟨hi.ok, hi.mach, fun x hx => hi.wf x (hsub x hx), fun x hx => hi.self x (hsub x hx)⟩
  | resetHom => exact ⟨hi.ok, ⟨⟨hi.mach.1.1, fun e he => by simp at he⟩, hi.mach.2⟩, hi.wf, hi.self⟩
  | resetDD => exact ⟨hi.ok, ⟨⟨fun _ e he => by simp at he, hi.mach.1.2⟩, fun _ e he => by simp at he⟩, hi.wf, hi.self⟩
  | realloc lt env hlt h hU hc hok =>
    refine ⟨hok, ⟨hi.mach.1.withLt hC hlt (fun a b h1 h2 => h a b (Or.inl h1) (Or.inl h2)) hU hc,
      fun k e he => OpCoh.withLt.2 (hi.mach.2 k e he)⟩, fun x hx => (hi.wf x hx).withLt fun a b h1 h2 =>
        h a b (Or.inr ⟨x, hx, h1⟩) (Or.inr ⟨x, hx, h2⟩), fun x hx => coh_withLt.2 (hi.self x hx)⟩

theorem LSess.Reach.inv {s : LSess V E I U} (h : LSess.Reach sc s) : s.Inv sc := by
  induction h with
  | init L hL => exact ⟨hL, ⟨⟨fun _ e he => by simp at he, fun e he => by simp at he⟩, fun _ e he => by simp at he⟩, by simp, by simp⟩
  | step s s' _ h ih => exact h.inv ih

/-- The caches of a session are those of a history of the library. -/
theorem LSess.Reach.lib {s : LSess V E I U} (h : LSess.Reach sc s) : s.lib.Reach sc s.mach := by
  induction h with
  | init => exact .init
  | step s s' hr h ih =>
    have hi := hr.inv
    cases h with
    | call c hc => exact .call c ih fun x hx => hi.wf x (hc x hx)
    | callThrown c stop hc _ => exact .callThrown stop c ih fun x hx => hi.wf x (hc x hx)
    | apply n h o x _ hu => exact .apply n ih hu
    | thrown stop n h o x _ hu _ => exact .thrown stop n ih hu
    | drop => exact ih
    | resetHom => exact .resetHom ih
    | resetDD => exact .resetDD ih
    | realloc lt env hlt h hU hc _ =>
      exact .realloc lt env ih hi.ok hlt (fun a b h1 h2 => h a b (Or.inl h1) (Or.inl h2)) hU hc

end
end
end Verif
