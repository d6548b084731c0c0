import Verif.DD.Evals
/-!
# The number of operands of an operation

Sums and intersections store their number of operands in a `C::operands_size_type`, whose width is chosen by the user.
-/

set_option autoImplicit false
set_option linter.unusedSectionVars false

namespace Verif

section
variable {V E : Type} [DecidableEq V]

/-- What is between `begin()` and `end()` for an operation whose number of operands is stored with `bits` bits:
`static_cast<typename C::operands_size_type>(builder.size())`, `/repo/sdd/dd/nary.hh:49-60` and 85-99. Two operations are equal when
these are (lines 123-129), and only these are hashed (lines 268-285). The other operands are in the array, but are never visited (nor
destroyed: the references they hold are lost, see `Mem/OpHeap`). -/
def Op.stored (bits : Nat) : Op V → Op V
  | .sum xs => .sum (xs.take (xs.length % 2 ^ bits))
  | .inter xs => .inter (xs.take (xs.length % 2 ^ bits))
  | .diff l r => .diff l r

/-- Whether the first operand is a flat node (`mem::is<flat_node<C>>(*begin())`, `/repo/sdd/dd/nary.hh:110`). -/
def flatHead : List (SDD V) → Bool
  | .flat _ _ :: _ => true
  | _ => false

/-- `nary_op::operator()`, `/repo/sdd/dd/nary.hh:103-121`, when the number of operands is stored with `bits` bits. If this number is 0,
the first operand is nevertheless read: the linear sum (`/repo/sdd/dd/sum.hh:221-296`) visits no operand and makes a node without arc,
which is `|0|`; the other algorithms go past the end of the array (`/repo/sdd/dd/sum.hh:100`, `/repo/sdd/dd/intersection.hh:57`), which is
undefined (as in `sumStep` and `interStep`). -/
def stepW {m : Type → Type} [DDMonad V m] (C : Cfg V E) (bits : Nat) (rec : Op V → m (SDD V)) : Op V → m (SDD V)
  | .sum xs => if C.fast && flatHead xs && decide (xs.length % 2 ^ bits = 0) then pure .zero else step C rec ((Op.sum xs).stored bits)
  | op => step C rec (op.stored bits)

/-- `runC`, when numbers of operands are stored with `bits` bits. (`/repo/sdd/mem/cache.hh`, lines 211-261.) -/
def runW (C : Cfg V E) (orc : Nat → Nat → List Nat) (cap : OpKind → Nat) (bits : Nat) : Nat → Op V → CM orc V (SDD V)
  | 0, _ => DDMonad.raise .fuel
  | n + 1, op => cacheCall cap (fun _ => stepW C bits (runW C orc cap bits n) op) (op.stored bits)

/-- A call (`Call.run`), when numbers of operands are stored with `bits` bits. (The calls of `Call`.) -/
def Call.runW (C : Cfg V E) (orc : Nat → Nat → List Nat) (cap : OpKind → Nat) (bits : Nat) : Call V → CM orc V (SDD V)
  | .sum xs => opSum C (Verif.runW C orc cap bits (maxHeight xs)) xs
  | .inter xs => opInter C (Verif.runW C orc cap bits (maxHeight xs)) xs
  | .diff x y => ddDiff (Verif.runW C orc cap bits (maxHeight [x, y])) x y
  | c => c.run C orc cap

/-- The number of operands of an operation is less than `2 ^ bits`. (Specification, not part of the code.) -/
def Op.Fits (bits : Nat) : Op V → Prop
  | .sum xs => xs.length < 2 ^ bits
  | .inter xs => xs.length < 2 ^ bits
  | .diff _ _ => True

variable {C : Cfg V E} {orc : Nat → Nat → List Nat} {cap : OpKind → Nat} {bits : Nat}

theorem Op.Fits.stored {op : Op V} (h : op.Fits bits) : op.stored bits = op := by
  cases op with
  | sum xs => rw [Op.stored, Nat.mod_eq_of_lt h, List.take_length]
  | inter xs => rw [Op.stored, Nat.mod_eq_of_lt h, List.take_length]
  | diff l r => rfl

theorem stepW_fits {m : Type → Type} [DDMonad V m] {op : Op V} (h : op.Fits bits) (rec : Op V → m (SDD V)) :
    stepW C bits rec op = step C rec op := by
  cases op with
  | sum xs =>
    rw [stepW, Op.Fits.stored h, if_neg]
    have h' : xs.length < 2 ^ bits := h
    rw [Nat.mod_eq_of_lt h']
    cases xs <;> simp [flatHead]
  | inter xs => rw [stepW, Op.Fits.stored h]; rintro _ ⟨⟩
  | diff l r => rfl

/-- All the operations stored in the caches fit. (Specification, not part of the code.) -/
def KeysFit (bits : Nat) (s : Mach V) : Prop := ∀ k, ∀ e ∈ s.cache k, e.1.Fits bits

/-- When all the operations evaluated by the first computation fit, the second one does the same. (Specification or proof device, not
part of the code.) -/
def widthRel (orc : Nat → Nat → List Nat) (V : Type) (bits : Nat) : MRel V (LM orc V) (CM orc V) where
  R x y := ∀ s, (∃ new, (x s).2.log = new ++ s.log) ∧ ((∀ op ∈ (x s).2.log, op.Fits bits) → KeysFit bits s.m →
    KeysFit bits (x s).2.m ∧ y s.m = ((x s).1, (x s).2.m))
  pure' a s := ⟨⟨[], rfl⟩, fun _ h => ⟨h, rfl⟩⟩
  bind' := by
    intro α β x y f g h1 h2 s
    obtain ⟨⟨l1, e1⟩, h1⟩ := h1 s
    change (∃ new, (match x s with | (.ok a, s') => f a s' | (.error e, s') => (.error e, s')).2.log = new ++ s.log) ∧
      ((∀ op ∈ (match x s with | (.ok a, s') => f a s' | (.error e, s') => (.error e, s')).2.log, op.Fits bits) → KeysFit bits s.m →
        KeysFit bits (match x s with | (.ok a, s') => f a s' | (.error e, s') => (.error e, s')).2.m ∧
        (match y s.m with | (.ok a, s') => g a s' | (.error e, s') => (.error e, s')) =
          ((match x s with | (.ok a, s') => f a s' | (.error e, s') => (.error e, s')).1,
            (match x s with | (.ok a, s') => f a s' | (.error e, s') => (.error e, s')).2.m))
    match hx : x s with
    | (.ok a, s1) =>
      rw [hx] at e1 h1
      obtain ⟨⟨l2, e2⟩, h2⟩ := h2 a s1
      dsimp only at e1 e2 h1 ⊢
      refine ⟨⟨l2 ++ l1, by rw [e2, e1, List.append_assoc]⟩, fun hf hk => ?_⟩
      obtain ⟨h1a, h1b⟩ := h1 (fun op hop => hf op (by rw [e2]; exact List.mem_append_right _ hop)) hk
      obtain ⟨h2a, h2b⟩ := h2 hf h1a
      refine ⟨h2a, ?_⟩
      rw [h1b]
      exact h2b
    | (.error e, s1) =>
      rw [hx] at e1 h1
      dsimp only at e1 h1 ⊢
      refine ⟨⟨l1, e1⟩, fun hf hk => ?_⟩
      obtain ⟨h1a, h1b⟩ := h1 hf hk
      exact ⟨h1a, by rw [h1b]⟩
  raise' e s := ⟨⟨[], rfl⟩, fun _ h => ⟨h, rfl⟩⟩
  ord' l s := ⟨⟨[], rfl⟩, fun _ h => ⟨h, rfl⟩⟩

theorem Mach.set_keys {s : Mach V} (h : KeysFit bits s) {k : OpKind} {c : Lru (Op V) (SDD V)} (hc : ∀ e ∈ c, e.1.Fits bits) :
    KeysFit bits (s.set k c) := by
  intro k' e he
  unfold Mach.set at he
  dsimp only at he
  split at he
  · exact hc e he
  · exact h k' e he

theorem lruInsert_mem {K R : Type} {cap pick : Nat} {c c' : Lru K R} {k : K} {r : R} (h : lruInsert cap pick c k r = some c')
    {e : K × R} (he : e ∈ c') : e ∈ c ∨ e = (k, r) := by
  unfold lruInsert at h
  split at h
  · split at h
    · cases h
    · cases h
      rw [List.mem_append, List.mem_singleton] at he
      exact he.imp (List.mem_of_mem_eraseIdx) id
  · cases h
    rw [List.mem_append, List.mem_singleton] at he
    exact he

/-- An operation which fits, or which is not found in the cache and is recorded. -/
theorem runW_rel (n : Nat) : ∀ op : Op V, (widthRel orc V bits).R (runL C orc cap n op) (runW C orc cap bits n op) := by
  induction n with
  | zero => intro op; exact (widthRel orc V bits).raise' _
  | succ n ih =>
    intro op s
    rw [runL, runW]
    have hstep := step_rel (M := widthRel orc V bits) (C := C) ih op { s with log := op :: s.log }
    unfold cacheCallL cacheCall
    cases hf : lruFind (s.m.cache op.kind) op with
    | some r =>
      refine ⟨⟨[], rfl⟩, fun _ hk => ?_⟩
      have hop : op.Fits bits := hk _ _ (lruFind_mem hf)
      rw [hop.stored, hf]
      exact ⟨Mach.set_keys hk fun e he => hk _ e ((lruTouch_perm _ _).mem_iff.1 he), rfl⟩
    | none =>
      dsimp only at hstep ⊢
      obtain ⟨⟨l1, e1⟩, h1⟩ := hstep
      match hx : step C (runL C orc cap n) op { s with log := op :: s.log } with
      | (.error e, s1) =>
        rw [hx] at e1 h1
        dsimp only at e1 h1 ⊢
        refine ⟨⟨l1 ++ [op], by rw [e1]; simp⟩, fun hlog hk => ?_⟩
        have hop : op.Fits bits := hlog op (by rw [e1]; simp)
        obtain ⟨h1a, h1b⟩ := h1 hlog hk
        refine ⟨h1a, ?_⟩
        rw [hop.stored, hf, stepW_fits hop]
        dsimp only
        rw [h1b]
      | (.ok r, s1) =>
        rw [hx] at e1 h1
        dsimp only at e1 h1 ⊢
        have key : (∀ op ∈ s1.log, op.Fits bits) → KeysFit bits s.m → op.Fits bits ∧ KeysFit bits s1.m ∧
            step C (runW C orc cap bits n) op s.m = (.ok r, s1.m) := fun hlog hk =>
          ⟨hlog op (by rw [e1]; simp), h1 hlog hk⟩
        cases hi : lruInsert (cap op.kind) ((orc s1.m.tick 0).headD 0) (s1.m.cache op.kind) op r with
        | none =>
          refine ⟨⟨l1 ++ [op], by rw [e1]; simp⟩, fun hlog hk => ?_⟩
          obtain ⟨hop, ha, hb⟩ := key hlog hk
          rw [hop.stored, hf, stepW_fits hop]
          dsimp only
          rw [hb]
          dsimp only
          rw [hi]
          exact ⟨ha, rfl⟩
        | some c =>
          refine ⟨⟨l1 ++ [op], by dsimp only; rw [e1]; simp⟩, fun hlog hk => ?_⟩
          obtain ⟨hop, ha, hb⟩ := key hlog hk
          rw [hop.stored, hf, stepW_fits hop]
          dsimp only
          rw [hb]
          dsimp only
          rw [hi]
          refine ⟨Mach.set_keys ha fun e he => ?_, rfl⟩
          rcases lruInsert_mem hi he with he | rfl
          · exact ha _ e he
          · exact hop

/-- The calls which only evaluate operations which fit are not changed by the width. -/
theorem Call.runW_rel (c : Call V) : (widthRel orc V bits).R (c.runL C orc cap) (c.runW C orc cap bits) := by
  cases c with
  | zero => exact (widthRel orc V bits).pure' _
  | one => exact (widthRel orc V bits).pure' _
  | flat x v t => exact (widthRel orc V bits).pure' _
  | hier x v t => exact (widthRel orc V bits).pure' _
  | sum xs => exact ddSum_rel (M := widthRel orc V bits) (Verif.runW_rel _) _
  | inter xs => exact ddInter_rel (M := widthRel orc V bits) (Verif.runW_rel _) _
  | diff x y => exact ddDiff_rel (M := widthRel orc V bits) (Verif.runW_rel _) _ _

/-! ## SDDs without hierarchy -/

theorem SumKey.fits (hC : C.Lawful) {xs : List (SDD V)} (h : xs.length < 2 ^ bits) {op : Op V} (hop : SumKey C xs op) : op.Fits bits := by
  obtain ⟨t, ks, g, rfl, -, -, hs, -, -, hm⟩ := hop
  have hsub : ks ⊆ xs.map g := fun s hs => by
    obtain ⟨-, x, hx, rfl⟩ := (hm s).1 hs
    exact List.mem_map_of_mem hx
  have := ((nodup_of_lt hC hs).subperm hsub).length_le
  rw [List.length_map] at this
  exact Nat.lt_of_le_of_lt this h

theorem InterKey.fits (hC : C.Lawful) (h : 2 < 2 ^ bits) {x y : SDD V} {op : Op V} (hop : InterKey C x y op) : op.Fits bits := by
  obtain ⟨t, a, b, ks, rfl, -, -, -, -, -, -, -, hs, -, hm⟩ := hop
  have hsub : ks ⊆ [a, b] := fun s hs => by simpa using (hm s).1 hs
  have := ((nodup_of_lt hC hs).subperm hsub).length_le
  exact Nat.lt_of_le_of_lt this h

theorem DiffKey.fits {x y : SDD V} {op : Op V} (hop : DiffKey C x y op) : op.Fits bits := by
  obtain ⟨t, a, b, rfl, -⟩ := hop
  trivial

/-- A call which only evaluates operations which fit. -/
theorem Call.runW_keys {c : Call V} {K : Op V → Prop} (hK : (keysLogic orc K).Sat (c.runL C orc cap) fun _ => True)
    (hf : ∀ op, K op → op.Fits bits) {s : Mach V} (hs : KeysFit bits s) :
    c.runW C orc cap bits s = c.run C orc cap s ∧ KeysFit bits (c.run C orc cap s).2 := by
  have h1 := (hK ⟨s, []⟩ (by simp)).1
  obtain ⟨h2, h3⟩ := (c.runW_rel (C := C) (orc := orc) (cap := cap) (bits := bits) ⟨s, []⟩).2 (fun op hop => hf op (h1 op hop)) hs
  obtain ⟨h4, h5⟩ := c.runL_run (C := C) (orc := orc) (cap := cap) ⟨s, []⟩
  refine ⟨?_, by rw [← h5]; exact h2⟩
  rw [h3, h4, h5]

/-! ## SDDs with hierarchies -/

/-- The nested path at the `i`-th position of a path, if there is one. (Specification, not part of the code.) -/
def Path.nestedAt : Path E → Nat → Option (Path E)
  | .nil, _ => none
  | .flat _ _ _, 0 => none
  | .flat _ _ p, i + 1 => p.nestedAt i
  | .hier _ n _, 0 => some n
  | .hier _ _ p, i + 1 => p.nestedAt i

/-- The number of different nested paths at each position satisfies `B`. (Specification or proof device, not part of the code.) -/
def Thin (B : Nat → Prop) (S : Path E → Prop) : Prop :=
  ∀ i (l : List (Path E)), l.Nodup → (∀ n ∈ l, ∃ p, S p ∧ p.nestedAt i = some n) → B l.length

theorem Thin.flat {B : Nat → Prop} {S : Path E → Prop} (h : Thin B S) (x : Nat) (a : E) : Thin B fun q => S (.flat x a q) := by
  intro i l hn hl
  refine h (i + 1) l hn fun n hm => ?_
  obtain ⟨p, h1, h2⟩ := hl n hm
  exact ⟨_, h1, h2⟩

theorem Thin.hier {B : Nat → Prop} {S : Path E → Prop} (h : Thin B S) (x : Nat) (n : Path E) : Thin B fun q => S (.hier x n q) := by
  intro i l hn hl
  refine h (i + 1) l hn fun n hm => ?_
  obtain ⟨p, h1, h2⟩ := hl n hm
  exact ⟨_, h1, h2⟩

theorem Thin.nested {B : Nat → Prop} {S : Path E → Prop} (h : Thin B S) (x : Nat) : Thin B fun n => ∃ q, S (.hier x n q) := by
  intro i l hn hl
  choose! f h1 h2 using hl
  have := h 0 (l.map f) (hn.map_on fun m hm m' hm' e => by
    have h3 := h2 m hm
    rw [e, h2 m' hm'] at h3
    exact (Option.some.inj h3).symm) fun n hm => by
      obtain ⟨m, hm', rfl⟩ := List.mem_map.1 hm
      obtain ⟨q, hq⟩ := h1 m hm'
      exact ⟨_, hq, rfl⟩
  rwa [List.length_map] at this

/-- Postconditions: only operations which fit are evaluated, and the caches are right. (Specification or proof device, not part of the
code.) -/
def fitsLogic (C : Cfg V E) (orc : Nat → Nat → List Nat) (bits : Nat) : Logic V (LM orc V) where
  Sat {α} x Q := ∀ s, CacheOK C s.m → (∀ op ∈ s.log, op.Fits bits) → (∀ op ∈ (x s).2.log, op.Fits bits) ∧
    match (x s).1 with
    | .ok a => CacheOK C (x s).2.m ∧ Q a
    | .error _ => True
  allow _ := True
  pure' h s hc hs := ⟨hs, hc, h⟩
  bind' := by
    intro α β x f Q Q' h1 h2 s hc hs
    have h1 := h1 s hc hs
    change (∀ op ∈ (match x s with
      | (.ok a, s') => f a s'
      | (.error e, s') => (.error e, s')).2.log, op.Fits bits) ∧ match (match x s with
      | (.ok a, s') => f a s'
      | (.error e, s') => (.error e, s')).1 with
      | .ok a => CacheOK C (match x s with
        | (.ok a, s') => f a s'
        | (.error e, s') => (.error e, s')).2.m ∧ Q' a
      | .error e => True
    match hx : x s, h1 with
    | (.error e, s'), h1 => exact h1
    | (.ok a, s'), h1 => exact h2 a h1.2.2 s' h1.2.1 h1.1
  raise' h s hc hs := ⟨hs, trivial⟩
  ord' l s hc hs := ⟨hs, hc, permBy_perm l _⟩
  mono' := by
    intro α x P Q h1 h2 s hc hs
    have h1 := h1 s hc hs
    refine ⟨h1.1, ?_⟩
    match hx : (x s).1, h1.2 with
    | .ok a, h1 => exact ⟨h1.1, h2 a h1.2⟩
    | .error e, h1 => trivial

theorem Op.Small.fits {op : Op V} (h : op.Small fun n => n < 2 ^ bits) : op.Fits bits := by cases op <;> exact h

theorem runL_fits (hC : C.Lawful) (hb : 2 < 2 ^ bits) (n : Nat) :
    ∀ (t : Ty) (S : Path E → Prop), t.depth ≤ n → Thin (fun n => n < 2 ^ bits) S →
      RecS C (fitsLogic C orc bits) (fun _ _ => True) S (fun n => n < 2 ^ bits) t (runL C orc cap n) := by
  induction n with
  | zero =>
    intro t S ht _ op hop
    exact absurd (hop.depth_pos hC) (by omega)
  | succ n ih =>
    intro t S ht hS op hop hself hsm
    have hbody : (fitsLogic C orc bits).Sat (step C (runL C orc cap n) op) fun r => Dom C t r ∧ OpSpec C op r := by
      refine (fitsLogic C orc bits).mono' (step_satS (L := fitsLogic C orc bits) hC PathRel.trivial
        (B := fun n => n < 2 ^ bits) (S := S) ⟨fun _ _ h1 h2 => Nat.lt_of_le_of_lt h1 h2, hb, fun x l h1 h2 => ?_⟩
        (fun _ _ _ _ _ _ _ _ _ => trivial) (.inr trivial) ?_ ?_ hop hself hsm) fun _ h => ⟨h.1, h.2.1⟩
      · exact hS 0 l h1 fun n hn => by obtain ⟨q, hq⟩ := h2 n hn; exact ⟨_, hq, rfl⟩
      · intro x t' h a
        have := (Ty.flatNext_depth h).1
        exact ih t' _ (by omega) (hS.flat x a)
      · intro x tn t' h
        have hd := (Ty.hierNext_depth h).1
        exact ⟨ih tn _ (by omega) (hS.nested x), fun a => ih t' _ (by omega) (hS.hier x a)⟩
    rw [runL]
    intro s hc hs
    unfold cacheCallL
    cases hf : lruFind (s.m.cache op.kind) op with
    | some r =>
      have hr := hc _ _ (lruFind_mem hf) _ (hop.to_any le_rfl)
      exact ⟨hs, hc.set fun e he => hc _ e (mem_lruTouch.1 he), OpSpec.dom hop hr.1 hr.2, hr.2, OpCoh.trivial op⟩
    | none =>
      have h1 := hbody { s with log := op :: s.log } hc fun o ho => by
        rcases List.mem_cons.1 ho with rfl | ho
        · exact hsm.fits
        · exact hs o ho
      dsimp only
      match hx : step C (runL C orc cap n) op { s with log := op :: s.log } with
      | (.error e, s1) => rw [hx] at h1; exact h1
      | (.ok r, s1) =>
        rw [hx] at h1
        obtain ⟨h1, h2, h3, h4⟩ := h1
        dsimp only
        cases hi : lruInsert (cap op.kind) ((orc s1.m.tick 0).headD 0) (s1.m.cache op.kind) op r with
        | none => exact ⟨h1, trivial⟩
        | some c =>
          refine ⟨h1, h2.set fun e he => ?_, h3, h4, OpCoh.trivial op⟩
          rcases lruInsert_mem hi he with he | rfl
          · exact h2 _ e he
          · exact fun _ _ => ⟨h3.wf, h4⟩

/-- The operations evaluated by a call fit when its operands do, and there are few nested paths at each position. -/
theorem Call.runL_fits (hC : C.Lawful) (hb : 2 < 2 ^ bits) {c : Call V} (hw : ∀ x ∈ c.args, WF C x) (hl : c.args.length < 2 ^ bits)
    (hS : Thin (fun n => n < 2 ^ bits) fun p => ∃ x ∈ c.args, Mem C p x) {s : Mach V} (hs : CacheOK C s) :
    ∀ op ∈ (c.runL C orc cap ⟨s, []⟩).2.log, op.Fits bits := by
  have hin : ∀ x ∈ c.args, SelfIn C (fun _ _ => True) (fun p => ∃ x ∈ c.args, Mem C p x) x := fun x hx =>
    ⟨fun _ _ _ _ => trivial, fun p hp => ⟨x, hx, hp⟩⟩
  have hrec := Verif.runL_fits (orc := orc) (cap := cap) hC hb (maxHeight c.args) (.any _) _ (Nat.le_refl _) hS
  have hd := dom_maxHeight hw
  have key : ∀ {Q : SDD V → Prop}, (fitsLogic C orc bits).Sat (c.runL C orc cap) Q →
      ∀ op ∈ (c.runL C orc cap ⟨s, []⟩).2.log, op.Fits bits := fun h => (h ⟨s, []⟩ hs (by simp)).1
  cases c with
  | zero => simp [Call.runL]; rintro op ⟨⟩
  | one => simp [Call.runL]; rintro op ⟨⟩
  | flat x v t => rintro op ⟨⟩
  | hier x v t => rintro op ⟨⟩
  | sum xs => exact key (opSum_satS hC hrec hd hin fun n hn => Nat.lt_of_le_of_lt hn hl)
  | inter xs => exact key (opInter_satS hC hrec hd hin fun n hn => Nat.lt_of_le_of_lt hn hl)
  | diff x y => exact key (ddDiff_satS hrec (hd x (by simp [Call.args])) (hd y (by simp [Call.args])) (hin x (by simp [Call.args])) (hin y (by simp [Call.args])))

/-! ## As many operands as values of the type -/

/-- A sum of `2 ^ bits` different flat nodes. -/
theorem sum_wraps (hC : C.Lawful) (hb : 0 < bits) (hcap : 0 < cap .sum) {xs : List (SDD V)} (hn : xs.Nodup) (hl : xs.length = 2 ^ bits)
    (hx : ∀ x ∈ xs, x.isFlat = true) {s : Mach V} (hs : s.cache .sum = []) :
    ((Call.sum xs).runW C orc cap bits s).1 = if C.fast then .ok .zero else .error .ub := by
  have h2 : 2 ≤ 2 ^ bits := Nat.le_self_pow (by omega) 2
  have hm : ∀ y, y ∈ xs.foldl (sumAdd SDD.isZero C.lt) [] ↔ y ∈ xs := by
    intro y
    rw [mem_foldl_sumAdd hC.lt_st]
    constructor
    · rintro (h | h)
      · exact h.1
      · cases h
    · intro h
      refine .inl ⟨h, ?_⟩
      have := hx y h
      cases y <;> simp_all [SDD.isFlat, SDD.isZero]
  have hb' := BGood.foldl (isEmpty := SDD.isZero) (D := fun _ => True) hC.lt_st xs (fun _ _ => trivial) BGood.nil
  have hlen : (xs.foldl (sumAdd SDD.isZero C.lt) []).length = 2 ^ bits := by
    rw [← hl]
    exact ((List.perm_ext_iff_of_nodup (nodup_of_lt hC hb'.sorted) hn).2 hm).length_eq
  have hh : ∀ n, maxHeight xs = n → 0 < n := by
    rintro n rfl
    match xs, hx, hl with
    | x :: xs, hx, _ =>
      have := hx x (by simp)
      cases x <;> simp_all [SDD.isFlat, maxHeight, SDD.height]
    | [], _, hl => simp at hl; omega
  have hcall : (Call.sum xs).runW C orc cap bits = ddSum (Verif.runW C orc cap bits (maxHeight xs)) (xs.foldl (sumAdd SDD.isZero C.lt) []) := rfl
  rw [hcall]
  generalize xs.foldl (sumAdd SDD.isZero C.lt) [] = ks at hm hlen
  match ks, hm, hlen with
  | [], _, hlen => simp at hlen; omega
  | [_], _, hlen => simp at hlen; omega
  | x :: y :: l, hm, hlen =>
    rw [ddSum]
    · obtain ⟨n, hn'⟩ := Nat.exists_eq_succ_of_ne_zero (Nat.pos_iff_ne_zero.1 (hh _ rfl))
      rw [hn', runW]
      have hst : (Op.sum (x :: y :: l)).stored bits = .sum [] := by
        rw [Op.stored, hlen, Nat.mod_self, List.take_zero]
      have hf : flatHead (x :: y :: l) = true := by
        have := hx x ((hm x).1 (by simp))
        cases x <;> simp_all [SDD.isFlat, flatHead]
      rw [hst]
      unfold cacheCall
      have hk : (Op.sum [] : Op V).kind = .sum := rfl
      rw [hk, hs]
      have hnone : lruFind ([] : Lru (Op V) (SDD V)) (.sum []) = none := rfl
      rw [hnone]
      dsimp only
      rw [stepW, hf, hlen, Nat.mod_self, hst]
      cases hfast : C.fast with
      | true =>
        simp only [Bool.and_self, decide_true, if_true]
        obtain ⟨c', hc'⟩ := lruInsert_isSome (pick := (orc s.tick 0).headD 0) (c := ([] : Lru (Op V) (SDD V))) (k := .sum []) (r := .zero) hcap
        change (match lruInsert (cap .sum) ((orc s.tick 0).headD 0) (s.cache .sum) (.sum []) .zero with
          | none => ((.error .ub, s) : Except (Err V) (SDD V) × Mach V)
          | some c => (.ok .zero, s.set .sum c)).1 = _
        rw [hs, hc']
      | false =>
        simp only [Bool.false_and, Bool.false_eq_true, if_false]
        rfl
    · rintro ⟨⟩
    · rintro _ ⟨⟩

/-- An intersection of `2 ^ bits` different nodes. -/
theorem inter_wraps (hC : C.Lawful) (hb : 0 < bits) {xs : List (SDD V)} (hn : xs.Nodup) (hl : xs.length = 2 ^ bits)
    (hx : ∀ x ∈ xs, (x.isFlat || x.isHier) = true) {s : Mach V} (hs : s.cache .inter = []) :
    ((Call.inter xs).runW C orc cap bits s).1 = .error .ub := by
  have h2 : 2 ≤ 2 ^ bits := Nat.le_self_pow (by omega) 2
  have hnz : ∀ x ∈ xs, x.isZero = false := by
    intro x h
    have := hx x h
    cases x <;> simp_all [SDD.isFlat, SDD.isHier, SDD.isZero]
  obtain ⟨h1, h2', h3, h4⟩ := foldl_interAdd (isEmpty := SDD.isZero) (D := fun _ => True) hC.lt_st xs {} (by simp) BGood.nil (by simp)
  have hh : ∀ n, maxHeight xs = n → 0 < n := by
    rintro n rfl
    match xs, hx, hl with
    | x :: xs, hx, _ =>
      have := hx x (by simp)
      cases x <;> simp_all [SDD.isFlat, SDD.isHier, maxHeight, SDD.height]
    | [], _, hl => simp at hl; omega
  have hcall : (Call.inter xs).runW C orc cap bits = ddInter (Verif.runW C orc cap bits (maxHeight xs)) (xs.foldl (interAdd SDD.isZero C.lt) {}) := rfl
  rw [hcall]
  dsimp only at h1 h2' h3 h4
  generalize xs.foldl (interAdd SDD.isZero C.lt) {} = b at h1 h2' h3 h4
  have hz : b.hasZero = false := by
    rw [Bool.eq_false_iff]
    intro hz
    rcases h3.1 hz with h | ⟨x, h, h'⟩
    · cases h
    · rw [hnz x h] at h'; cases h'
  have hlen : b.set.length = 2 ^ bits := by
    rw [← hl]
    exact ((List.perm_ext_iff_of_nodup (nodup_of_lt hC h2'.sorted) hn).2 fun y => by rw [h4 hz]; simp).length_eq
  unfold ddInter
  match hb' : b.set with
  | [] => rw [hb'] at hlen; simp at hlen; omega
  | [_] => rw [hb'] at hlen; simp at hlen; omega
  | x :: y :: l =>
    rw [hb'] at hlen
    obtain ⟨n, hn'⟩ := Nat.exists_eq_succ_of_ne_zero (Nat.pos_iff_ne_zero.1 (hh _ rfl))
    dsimp only
    rw [hn', runW]
    have hst : (Op.inter (x :: y :: l)).stored bits = .inter [] := by
      rw [Op.stored, hlen, Nat.mod_self, List.take_zero]
    rw [hst]
    unfold cacheCall
    have hk : (Op.inter [] : Op V).kind = .inter := rfl
    rw [hk, hs]
    have hnone : lruFind ([] : Lru (Op V) (SDD V)) (.inter []) = none := rfl
    rw [hnone]
    dsimp only
    rw [stepW, hst]
    · rfl
    · rintro _ ⟨⟩

end
end Verif
