import Verif.DD.Keys
import Verif.DD.Outcome
/-!
# The number of operations evaluated by an operation on SDDs without hierarchy
-/

set_option autoImplicit false
set_option linter.unusedSectionVars false

namespace Verif

section
variable {V E : Type} [DecidableEq V] {C : Cfg V E} {orc : Nat → Nat → List Nat} {cap : OpKind → Nat}

/-- Only the operations of `K` are evaluated. (Specification or proof device, not part of the code.) -/
def keysLogic (orc : Nat → Nat → List Nat) (K : Op V → Prop) : Logic V (LM orc V) where
  Sat {α} x Q := ∀ s, (∀ op ∈ s.log, K op) → (∀ op ∈ (x s).2.log, K op) ∧
    match (x s).1 with
    | .ok a => Q a
    | .error _ => True
  allow _ := True
  pure' h s hs := ⟨hs, h⟩
  bind' := by
    intro α β x f Q Q' h1 h2 s hs
    have h1 := h1 s hs
    change (∀ op ∈ (match x s with
      | (.ok a, s') => f a s'
      | (.error e, s') => (.error e, s')).2.log, K op) ∧ match (match x s with
      | (.ok a, s') => f a s'
      | (.error e, s') => (.error e, s')).1 with
      | .ok a => Q' a
      | .error e => True
    match hx : x s, h1 with
    | (.error e, s'), h1 => exact h1
    | (.ok a, s'), h1 => exact h2 a h1.2 s' h1.1
  raise' h s hs := ⟨hs, trivial⟩
  ord' l s hs := ⟨hs, permBy_perm l _⟩
  mono' := by
    intro α x P Q h1 h2 s hs
    have h1 := h1 s hs
    refine ⟨h1.1, ?_⟩
    match hx : (x s).1, h1.2 with
    | .ok a, h1 => exact h2 a h1
    | .error e, h1 => trivial

/-- `K` has the operations evaluated by its operations. (Specification or proof device, not part of the code.) -/
def StepClosed (C : Cfg V E) (orc : Nat → Nat → List Nat) (K : Op V → Prop) : Prop :=
  ∀ rec : Op V → LM orc V (SDD V), (∀ op, K op → (keysLogic orc K).Sat (rec op) fun _ => True) → ∀ op, K op →
    (keysLogic orc K).Sat (step C rec op) fun _ => True

theorem runL_keys {K : Op V → Prop} (hK : StepClosed C orc K) (n : Nat) :
    ∀ op, K op → (keysLogic orc K).Sat (runL C orc cap n op) fun _ => True := by
  induction n with
  | zero => intro op _ s hs; exact ⟨hs, trivial⟩
  | succ n ih =>
    intro op hop s hs
    rw [runL]
    unfold cacheCallL
    cases hf : lruFind (s.m.cache op.kind) op with
    | some r => exact ⟨hs, trivial⟩
    | none =>
      have := hK _ ih op hop { s with log := op :: s.log } (fun q hq => by
        rw [List.mem_cons] at hq
        rcases hq with rfl | hq
        · exact hop
        · exact hs q hq)
      simp only
      match hx : step C (runL C orc cap n) op { s with log := op :: s.log }, this with
      | (.error e, s'), this => exact ⟨this.1, trivial⟩
      | (.ok r, s'), this =>
        dsimp only
        split
        · exact ⟨this.1, trivial⟩
        · exact ⟨this.1, trivial⟩

/-! ## The keys -/

/-- The type of the successors. (Specification or proof device, not part of the code.) -/
def Ty.next : Ty → Ty
  | .flat _ t => t
  | t => t

theorem Ty.Flat.next {t : Ty} (h : t.Flat) : t.next.Flat := by
  cases t <;> simp_all [Ty.Flat, Ty.next]

theorem Dom.succs {t : Ty} (ht : t.Flat) {x s : SDD V} (h : Dom C t x) (hs : s ∈ Verif.succsOf x) : Dom C t.next s := by
  cases x with
  | flat y arcs =>
    obtain ⟨t', h1, -, h2⟩ := h.flat_inv
    obtain ⟨arc, ha, rfl⟩ := List.mem_map.1 hs
    cases t with
    | flat z t =>
      simp only [Ty.flatNext] at h1
      split at h1 <;> simp at h1
      subst h1
      exact h2 arc ha
    | _ => simp_all [Ty.flatNext, Ty.Flat]
  | _ => simp [Verif.succsOf] at hs

theorem succs_sub {x s : SDD V} (hs : s ∈ succsOf x) : Sub s x := by
  cases x with
  | flat y arcs =>
    obtain ⟨arc, ha, rfl⟩ := List.mem_map.1 hs
    exact .flat y arcs arc ha .refl
  | _ => simp [succsOf] at hs

/-- Sums of SDDs below the operands, at most one for each. (Specification or proof device, not part of the code.) -/
def SumKey (C : Cfg V E) (xs : List (SDD V)) (op : Op V) : Prop :=
  ∃ (t : Ty) (ks : List (SDD V)) (g : SDD V → SDD V), op = .sum ks ∧ t.Flat ∧ (∀ k ∈ ks, Dom C t k) ∧
    (ks.Pairwise fun a b => C.lt a b = true) ∧ 2 ≤ ks.length ∧ (∀ x ∈ xs, g x = .zero ∨ Sub (g x) x) ∧
    ∀ s, s ∈ ks ↔ s ≠ .zero ∧ ∃ x ∈ xs, g x = s

/-- Intersections of an SDD below each operand. (Specification or proof device, not part of the code.) -/
def InterKey (C : Cfg V E) (x y : SDD V) (op : Op V) : Prop :=
  ∃ (t : Ty) (a b : SDD V) (ks : List (SDD V)), op = .inter ks ∧ t.Flat ∧ Dom C t a ∧ Dom C t b ∧ Sub a x ∧ Sub b y ∧
    a ≠ .zero ∧ b ≠ .zero ∧ (ks.Pairwise fun a b => C.lt a b = true) ∧ 2 ≤ ks.length ∧ ∀ s, s ∈ ks ↔ s = a ∨ s = b

/-- Differences of an SDD below each operand. (Specification or proof device, not part of the code.) -/
def DiffKey (C : Cfg V E) (x y : SDD V) (op : Op V) : Prop :=
  ∃ (t : Ty) (a b : SDD V), op = .diff a b ∧ t.Flat ∧ Dom C t a ∧ Dom C t b ∧ Sub a x ∧ Sub b y ∧ a ≠ .zero ∧ b ≠ .zero ∧ a ≠ b

theorem nodup_of_lt (hC : C.Lawful) {ks : List (SDD V)} (h : ks.Pairwise fun a b => C.lt a b = true) : ks.Nodup :=
  h.imp fun h => hC.lt_st.ne_of h

theorem sumKey_closed (hC : C.Lawful) (xs : List (SDD V)) : StepClosed C orc (SumKey C xs) := by
  rintro rec hrec op ⟨t, ks, g, rfl, ht, hd, hs, hlen, hg, hm⟩
  have hall : ∀ e, (keysLogic orc (SumKey C xs)).allow e := fun _ => trivial
  have hrec' : ∀ zs, zs.Perm ks → ∀ ks', Pick C zs ks' → 2 ≤ ks'.length →
      (keysLogic orc (SumKey C xs)).Sat (rec (.sum ks')) fun _ => True := by
    rintro zs hp ks' ⟨h1, g', h2, h3⟩ h4
    refine hrec _ ⟨t.next, ks', fun x => if g x = .zero then .zero else g' (g x), rfl, ht.next, ?_, h1, h4, ?_, ?_⟩
    · intro k hk
      obtain ⟨hk0, z, hz, rfl⟩ := (h3 k).1 hk
      exact (hd z (hp.mem_iff.1 hz)).succs ht ((h2 z hz).resolve_left hk0)
    · intro x hx
      dsimp only
      split
      · exact .inl rfl
      · rename_i hne
        have hz : g x ∈ zs := hp.mem_iff.2 ((hm _).2 ⟨hne, x, hx, rfl⟩)
        exact (h2 _ hz).imp id fun h => (succs_sub h).trans ((hg x hx).resolve_left hne)
    · intro s
      rw [h3]
      refine and_congr_right fun hs0 => ⟨?_, ?_⟩
      · rintro ⟨z, hz, rfl⟩
        obtain ⟨hz0, x, hx, rfl⟩ := (hm z).1 (hp.mem_iff.1 hz)
        exact ⟨x, hx, if_neg hz0⟩
      · rintro ⟨x, hx, rfl⟩
        dsimp only at hs0
        split at hs0
        · exact absurd rfl hs0
        · rename_i hne
          exact ⟨g x, hp.mem_iff.2 ((hm _).2 ⟨hne, x, hx, rfl⟩), (if_neg hne).symm⟩
  rw [step]
  refine (keysLogic orc (SumKey C xs)).bind' ((keysLogic orc (SumKey C xs)).ord' _) fun zs hp => ?_
  have hn : zs.Nodup := hp.nodup_iff.2 (nodup_of_lt hC hs)
  match zs, hp, hn with
  | [], hp, _ => exact (keysLogic orc (SumKey C xs)).raise' trivial
  | head :: zs, hp, hn =>
    unfold sumStep
    dsimp only
    cases head with
    | flat y arcs =>
      dsimp only
      split
      · exact fastWork_keys hC hall hn (fun z hz => (hd z (hp.mem_iff.1 hz)).wf) (hrec' _ hp)
      · exact sumWork_keys hC hall hn (hrec' _ hp)
    | hier y arcs => exact (Dom.not_hier ht (hd _ (hp.mem_iff.1 List.mem_cons_self))).elim
    | _ => cases zs <;> exact (keysLogic orc (SumKey C xs)).raise' trivial

theorem two_mem {zs : List (SDD V)} {a b : SDD V} (hn : zs.Nodup) (hl : 2 ≤ zs.length) (h : ∀ s, s ∈ zs ↔ s = a ∨ s = b) :
    zs = [a, b] ∨ zs = [b, a] := by
  match zs, hn, hl, h with
  | [c, d], hn, _, h =>
    have hc := (h c).1 (by simp)
    have hd := (h d).1 (by simp)
    have hne : c ≠ d := by simpa using hn
    rcases hc with rfl | rfl <;> rcases hd with rfl | rfl <;> simp_all
  | c :: d :: e :: l, hn, _, h =>
    exfalso
    have hc := (h c).1 (by simp)
    have hd := (h d).1 (by simp)
    have he := (h e).1 (by simp)
    simp only [List.nodup_cons, List.mem_cons, not_or] at hn
    rcases hc with rfl | rfl <;> rcases hd with rfl | rfl <;> rcases he with rfl | rfl <;> simp_all

theorem interKey_closed (hC : C.Lawful) (x y : SDD V) : StepClosed C orc (InterKey C x y) := by
  rintro rec hrec op ⟨t, a, b, ks, rfl, ht, ha, hb, hsa, hsb, ha0, hb0, hs, hlen, hm⟩
  have hall : ∀ e, (keysLogic orc (InterKey C x y)).allow e := fun _ => trivial
  rw [step]
  refine (keysLogic orc (InterKey C x y)).bind' ((keysLogic orc (InterKey C x y)).ord' _) fun zs hp => ?_
  have hn : zs.Nodup := hp.nodup_iff.2 (nodup_of_lt hC hs)
  have key : ∀ c d ks', c ∈ succsOf a → d ∈ succsOf b → (ks'.Pairwise fun a b => C.lt a b = true) → (∀ s, s ∈ ks' ↔ s = c ∨ s = d) →
      c ≠ .zero → d ≠ .zero → 2 ≤ ks'.length → (keysLogic orc (InterKey C x y)).Sat (rec (.inter ks')) fun _ => True := by
    intro c d ks' hc hd hs' hm' hc0 hd0 hl'
    exact hrec _ ⟨t.next, c, d, ks', rfl, ht.next, ha.succs ht hc, hb.succs ht hd, (succs_sub hc).trans hsa, (succs_sub hd).trans hsb,
      hc0, hd0, hs', hl', hm'⟩
  rcases two_mem hn (by rw [hp.length_eq]; exact hlen) (fun s => by rw [hp.mem_iff, hm]) with rfl | rfl
  · unfold interStep
    dsimp only
    cases a with
    | flat z arcs => exact interWork2_keys hC hall key
    | hier z arcs => exact (ha.not_hier ht).elim
    | _ => exact (keysLogic orc (InterKey C x y)).raise' trivial
  · unfold interStep
    dsimp only
    cases b with
    | flat z arcs =>
      exact interWork2_keys hC hall fun d c ks' hd hc hs' hm' hd0 hc0 hl' =>
        key c d ks' hc hd hs' (fun s => (hm' s).trans or_comm) hc0 hd0 hl'
    | hier z arcs => exact (hb.not_hier ht).elim
    | _ => exact (keysLogic orc (InterKey C x y)).raise' trivial

theorem diffKey_closed (x y : SDD V) : StepClosed C orc (DiffKey C x y) := by
  rintro rec hrec op ⟨t, a, b, rfl, ht, ha, hb, hsa, hsb, ha0, hb0, hne⟩
  have hall : ∀ e, (keysLogic orc (DiffKey C x y)).allow e := fun _ => trivial
  rw [step]
  unfold diffStep
  split
  · rename_i n1 lhs n2 rhs
    refine diffWork_keys hall fun c d hc hd hc0 hd0 hcd => hrec _ ?_
    have hc : c ∈ succsOf (.flat n1 lhs) := hc
    have hd : d ∈ succsOf (.flat n2 rhs) := hd
    exact ⟨t.next, c, d, rfl, ht.next, ha.succs ht hc, hb.succs ht hd, (succs_sub hc).trans hsa, (succs_sub hd).trans hsb, hc0, hd0, hcd⟩
  · exact (ha.not_hier ht).elim
  all_goals exact (keysLogic orc (DiffKey C x y)).raise' trivial

/-! ## Their number -/

theorem sorted_eq (hC : C.Lawful) {ks ks' : List (SDD V)} (h : ks.Pairwise fun a b => C.lt a b = true)
    (h' : ks'.Pairwise fun a b => C.lt a b = true) (hm : ∀ s, s ∈ ks ↔ s ∈ ks') : ks = ks' :=
  sorted_ext (r := fun a b => C.lt a b = true) (fun _ h => hC.lt_st.ne_of h rfl) (fun _ _ _ h1 h2 => hC.lt_st.trans _ _ _ h1 h2) h h' hm

/-- Two different SDDs of a flat type, not empty, are nodes. -/
theorem Dom.node {t : Ty} (ht : t.Flat) {a b : SDD V} (ha : Dom C t a) (hb : Dom C t b) (ha0 : a ≠ .zero) (hb0 : b ≠ .zero) (hne : a ≠ b) :
    (a.isFlat || a.isHier) = true := by
  cases a with
  | zero => exact absurd rfl ha0
  | flat => rfl
  | hier => rfl
  | one =>
    cases ha with
    | one _ h =>
      cases t with
      | nil =>
        cases hb with
        | zero => exact absurd rfl hb0
        | one => exact absurd rfl hne
        | flat _ _ _ _ h => simp [Ty.flatNext] at h
        | hier _ _ _ _ _ h => simp [Ty.hierNext] at h
      | _ => simp_all [Ty.hasOne, Ty.Flat]

/-- `length_le_choices`, with a relation. -/
theorem length_le_of_rel {α β : Type} {lr : List β} {ls : List (List α)} (hn : lr.Nodup) (R : β → List α → Prop)
    (hf : ∀ b ∈ lr, ∃ as, List.Forall₂ (fun a l => a ∈ l) as ls ∧ R b as) (hi : ∀ b c as, R b as → R c as → b = c) :
    lr.length ≤ (ls.map List.length).prod := by
  classical
  refine length_le_choices hn (fun b => if h : b ∈ lr then (hf b h).choose else []) (fun b hb => ?_) fun b hb c hc h => ?_
  · simp only [hb, dite_true]
    exact (hf b hb).choose_spec.1
  · simp only [hb, hc, dite_true] at h
    exact hi b c _ (hf b hb).choose_spec.2 (h ▸ (hf c hc).choose_spec.2)

theorem sumKey_count (hC : C.Lawful) {xs : List (SDD V)} {ls : List (List (SDD V))} (hls : List.Forall₂ HasNodes ls xs) {log : List (Op V)}
    (hn : log.Nodup) (hk : ∀ op ∈ log, SumKey C xs op) : log.length ≤ (ls.map fun l => l.length + 1).prod := by
  have h := length_le_of_rel (ls := ls.map (SDD.zero :: ·)) hn (fun op as => ∃ ks, op = .sum ks ∧ (ks.Pairwise fun a b => C.lt a b = true) ∧
      ∀ s, s ∈ ks ↔ s ≠ .zero ∧ s ∈ as) (fun op hop => ?_) ?_
  · rw [List.map_map] at h
    exact h
  · obtain ⟨t, ks, g, rfl, ht, hd, hs, hl, hg, hm⟩ := hk op hop
    refine ⟨xs.map g, ?_, ks, rfl, hs, fun s => by rw [hm, List.mem_map]⟩
    have hmem : ∀ x ∈ xs, g x = .zero ∨ (Sub (g x) x ∧ ((g x).isFlat || (g x).isHier) = true) := by
      intro x hx
      by_cases hz : g x = .zero
      · exact .inl hz
      · refine .inr ⟨(hg x hx).resolve_left hz, ?_⟩
        have hgx : g x ∈ ks := (hm _).2 ⟨hz, x, hx, rfl⟩
        obtain ⟨b, hb, hbne⟩ : ∃ b ∈ ks, b ≠ g x := by
          by_contra hcon
          have : ks ⊆ [g x] := fun b hb => by
            by_contra hb'
            exact hcon ⟨b, hb, by simpa using hb'⟩
          have := ((nodup_of_lt hC hs).subperm this).length_le
          simp at this
          omega
        exact (hd _ hgx).node ht (hd b hb) hz ((hm b).1 hb).1 (Ne.symm hbne)
    clear hm hd hg hl hk
    induction hls with
    | nil => exact .nil
    | @cons l x ls xs h1 h2 ih =>
      refine .cons ?_ (ih fun x hx => hmem x (by simp [hx]))
      rcases hmem x (by simp) with h | h
      · simp [h]
      · exact List.mem_cons_of_mem _ (h1 _ h.1 h.2)
  · rintro op op' as ⟨ks, rfl, h1, h2⟩ ⟨ks', rfl, h1', h2'⟩
    rw [sorted_eq hC h1 h1' fun s => by rw [h2, h2']]

/-- The two lists with the nodes of the operands. -/
theorem interKey_count (hC : C.Lawful) {x y : SDD V} {lx ly : List (SDD V)} (hx : HasNodes lx x) (hy : HasNodes ly y) {log : List (Op V)}
    (hn : log.Nodup) (hk : ∀ op ∈ log, InterKey C x y op) : log.length ≤ lx.length * ly.length := by
  have h := length_le_of_rel (ls := [lx, ly]) hn (fun op as => ∃ ks, op = .inter ks ∧ (ks.Pairwise fun a b => C.lt a b = true) ∧
      ∀ s, s ∈ ks ↔ s ∈ as) (fun op hop => ?_) ?_
  · simpa using h
  · obtain ⟨t, a, b, ks, rfl, ht, ha, hb, hsa, hsb, ha0, hb0, hs, hl, hm⟩ := hk op hop
    have hne : a ≠ b := by
      rintro rfl
      have : ks ⊆ [a] := fun s hs => by simpa using (hm s).1 hs
      have := ((nodup_of_lt hC hs).subperm this).length_le
      simp at this
      omega
    exact ⟨[a, b], .cons (hx _ hsa (ha.node ht hb ha0 hb0 hne)) (.cons (hy _ hsb (hb.node ht ha hb0 ha0 hne.symm)) .nil), ks, rfl, hs,
      fun s => by simp [hm]⟩
  · rintro op op' as ⟨ks, rfl, h1, h2⟩ ⟨ks', rfl, h1', h2'⟩
    rw [sorted_eq hC h1 h1' fun s => by rw [h2, h2']]

theorem diffKey_count {x y : SDD V} {lx ly : List (SDD V)} (hx : HasNodes lx x) (hy : HasNodes ly y) {log : List (Op V)}
    (hn : log.Nodup) (hk : ∀ op ∈ log, DiffKey C x y op) : log.length ≤ lx.length * ly.length := by
  have h := length_le_of_rel (ls := [lx, ly]) hn (fun op as => ∃ a b, op = .diff a b ∧ as = [a, b]) (fun op hop => ?_) ?_
  · simpa using h
  · obtain ⟨t, a, b, rfl, ht, ha, hb, hsa, hsb, ha0, hb0, hne⟩ := hk op hop
    exact ⟨[a, b], .cons (hx _ hsa (ha.node ht hb ha0 hb0 hne)) (.cons (hy _ hsb (hb.node ht ha hb0 ha0 hne.symm)) .nil), a, b, rfl, rfl⟩
  · rintro op op' as ⟨a, b, rfl, h1⟩ ⟨a', b', rfl, h1'⟩
    rw [h1] at h1'
    simp at h1'
    rw [h1'.1, h1'.2]

/-! ## Calls -/

theorem sum_keys (hC : C.Lawful) {t : Ty} (ht : t.Flat) {xs : List (SDD V)} (hx : ∀ x ∈ xs, Dom C t x) :
    (keysLogic orc (SumKey C xs)).Sat ((Call.sum xs).runL C orc cap) fun _ => True := by
  have hm : ∀ s, s ∈ xs.foldl (sumAdd SDD.isZero C.lt) [] ↔ s ≠ .zero ∧ ∃ x ∈ xs, x = s := by
    intro s
    rw [mem_foldl_sumAdd hC.lt_st]
    have hz : s.isZero = false ↔ s ≠ .zero := by cases s <;> simp [SDD.isZero]
    rw [hz]
    simp [and_comm]
  have hb := BGood.foldl (isEmpty := SDD.isZero) hC.lt_st xs hx BGood.nil
  have hcall : (Call.sum xs).runL C orc cap = ddSum (Verif.runL C orc cap (maxHeight xs)) (xs.foldl (sumAdd SDD.isZero C.lt) []) := rfl
  rw [hcall]
  generalize xs.foldl (sumAdd SDD.isZero C.lt) [] = ks at hm hb ⊢
  match ks, hm, hb with
  | [], _, _ => exact (keysLogic orc (SumKey C xs)).pure' trivial
  | [x], _, _ => exact (keysLogic orc (SumKey C xs)).pure' trivial
  | x :: y :: l, hm, hb =>
    exact runL_keys (sumKey_closed hC xs) _ _ ⟨t, _, id, rfl, ht, hb.dom, hb.sorted, by simp, fun x _ => .inr .refl, hm⟩

theorem inter_keys (hC : C.Lawful) {t : Ty} (ht : t.Flat) {x y : SDD V} (hx : Dom C t x) (hy : Dom C t y) :
    (keysLogic orc (InterKey C x y)).Sat ((Call.inter [x, y]).runL C orc cap) fun _ => True :=
  ddInter2_keys hC fun ks hs hm hx0 hy0 hl => runL_keys (interKey_closed hC x y) _ _
    ⟨t, x, y, ks, rfl, ht, hx, hy, .refl, .refl, hx0, hy0, hs, hl, hm⟩

theorem diff_keys {t : Ty} (ht : t.Flat) {x y : SDD V} (hx : Dom C t x) (hy : Dom C t y) :
    (keysLogic orc (DiffKey C x y)).Sat ((Call.diff x y).runL C orc cap) fun _ => True := by
  unfold Call.runL ddDiff
  dsimp only
  split
  · exact (keysLogic orc (DiffKey C x y)).pure' trivial
  · split
    · exact (keysLogic orc (DiffKey C x y)).pure' trivial
    · rename_i h1 h2
      rw [not_or] at h1
      exact runL_keys (diffKey_closed x y) _ _ ⟨t, x, y, rfl, ht, hx, hy, .refl, .refl, h1.2, h2, h1.1⟩

/-- A call which evaluates at most `B` different operations, all of the same kind, from a state where their cache has room for `B`
entries: they are evaluated once. -/
theorem Call.evals (hC : C.Lawful) (hcap : ∀ k, 0 < cap k) {c : Call V} (hargs : ∀ x ∈ c.args, WF C x) {K : Op V → Prop}
    (hK : (keysLogic orc K).Sat (c.runL C orc cap) fun _ => True) {k : OpKind} (hkind : ∀ op, K op → op.kind = k) {B : Nat}
    (hB : ∀ log : List (Op V), log.Nodup → (∀ op ∈ log, K op) → log.length ≤ B) {s : Mach V} (hs : CacheOK C s)
    (hsize : ∀ k, (s.cache k).length ≤ cap k) (hroom : (s.cache k).length + B ≤ cap k) {r : SDD V}
    (hr : (c.runL C orc cap ⟨s, []⟩).1 = .ok r) :
    (c.runL C orc cap ⟨s, []⟩).2.log.Nodup ∧ (c.runL C orc cap ⟨s, []⟩).2.log.length ≤ B ∧
      ∀ op ∈ (c.runL C orc cap ⟨s, []⟩).2.log, K op := by
  have h1 := (hK ⟨s, []⟩ (by simp)).1
  have h2 := (Call.runL_memo (orc := orc) (c0 := fun k => (s.cache k).length) hC hcap hargs ⟨s, []⟩
    ⟨hs, .inl ⟨by simp, by simp, by simp, by simp [ofKind]⟩⟩).2
  rw [hr] at h2
  generalize (c.runL C orc cap ⟨s, []⟩).2 = s' at h1 h2 ⊢
  have hnd : s'.log.Nodup := by
    rcases h2.1.2 with h | ⟨k', h⟩
    · exact h.nodup
    · exfalso
      have hb := hB (ofKind k' s'.log).dedup (List.nodup_dedup _) fun op hop => by
        simp only [ofKind, List.mem_dedup, List.mem_filter] at hop
        exact h1 op hop.1
      by_cases e : k' = k
      · subst e; dsimp only at h; omega
      · have : ofKind k' s'.log = [] := by
          rw [ofKind, List.filter_eq_nil_iff]
          intro op hop
          rw [hkind op (h1 op hop)]
          simpa using Ne.symm e
        rw [this] at h
        have := hsize k'
        simp at h
        omega
  exact ⟨hnd, hB _ hnd h1, h1⟩

/-! ## The size of results -/

/-- The nodes of the result are counted by the choices of nodes in the operands. -/
theorem result_count (hC : C.Lawful) {t : Ty} (ht : t.Flat) {r : SDD V} (hr : Dom C t r) {xs : List (SDD V)} (hx : ∀ x ∈ xs, Dom C t x)
    (F : List Prop → Prop) (hF : ∀ p, Mem C p r ↔ F (xs.map (Mem C p)))
    {ls : List (List (SDD V))} (hls : List.Forall₂ HasNodes ls xs)
    {lr : List (SDD V)} (hn : lr.Nodup) (hlr : ∀ a ∈ lr, Sub a r ∧ (a.isFlat || a.isHier) = true) {ms : List (List (SDD V))}
    (hms : ∀ as, List.Forall₂ (fun b l => b ∈ .zero :: l) as ls → (∃ p, F (as.map (Mem C p))) → List.Forall₂ (fun b l => b ∈ l) as ms) :
    lr.length ≤ (ms.map List.length).prod := by
  obtain ⟨f, h1, h2⟩ := result_size hC ht hr hx F hF hls hlr
  refine length_le_choices hn f (fun a ha => hms _ (h1 a ha).1 ?_) h2
  obtain ⟨hs, hk⟩ := hlr a ha
  obtain ⟨t', hd⟩ := Dom.sub hs hr
  obtain ⟨p, hp⟩ := hd.exists_mem (by rintro rfl; simp [SDD.isFlat, SDD.isHier] at hk)
  exact ⟨p, ((h1 a ha).2 p).1 hp⟩

theorem sum_size (hC : C.Lawful) {t : Ty} (ht : t.Flat) {r : SDD V} (hr : Dom C t r) {xs : List (SDD V)} (hx : ∀ x ∈ xs, Dom C t x)
    (hm : ∀ p, Mem C p r ↔ ∃ x ∈ xs, Mem C p x) {ls : List (List (SDD V))} (hls : List.Forall₂ HasNodes ls xs)
    {lr : List (SDD V)} (hn : lr.Nodup) (hlr : ∀ a ∈ lr, Sub a r ∧ (a.isFlat || a.isHier) = true) :
    lr.length < (ls.map fun l => l.length + 1).prod := by
  obtain ⟨f, h1, h2⟩ := result_size hC ht hr hx (fun L => ∃ P ∈ L, P) (fun p => by
    rw [hm]
    exact ⟨fun ⟨x, h, hp⟩ => ⟨_, List.mem_map_of_mem h, hp⟩, fun ⟨P, h, hp⟩ => by
      obtain ⟨x, hx, rfl⟩ := List.mem_map.1 h; exact ⟨x, hx, hp⟩⟩) hls hlr
  have hne : ∀ a ∈ lr, f a ≠ ls.map fun _ => .zero := by
    intro a ha e
    obtain ⟨hs, hk⟩ := hlr a ha
    obtain ⟨t', hd⟩ := Dom.sub hs hr
    obtain ⟨p, hp⟩ := hd.exists_mem (by rintro rfl; simp [SDD.isFlat, SDD.isHier] at hk)
    have := ((h1 a ha).2 p).1 hp
    rw [e] at this
    obtain ⟨P, h, hP⟩ := this
    simp only [List.map_map, List.mem_map, Function.comp_apply] at h
    obtain ⟨l, -, rfl⟩ := h
    exact not_mem_zero p hP
  have h := length_le_of_rel (ls := ls.map (SDD.zero :: ·)) (lr := none :: lr.map some) (List.nodup_cons.2 ⟨by simp, hn.map (Option.some_injective _)⟩)
    (fun b as => match b with
      | none => as = ls.map fun _ => .zero
      | some a => a ∈ lr ∧ f a = as) (fun b hb => ?_) ?_
  · rw [List.map_map, List.length_cons, List.length_map] at h
    exact h
  · have hz : List.Forall₂ (fun a l => a ∈ l) (ls.map fun _ => SDD.zero) (ls.map (SDD.zero :: ·)) := by
      rw [List.forall₂_map_left_iff, List.forall₂_map_right_iff, List.forall₂_same]
      simp
    rw [List.mem_cons, List.mem_map] at hb
    rcases hb with rfl | ⟨a, ha, rfl⟩
    · exact ⟨_, hz, rfl⟩
    · refine ⟨f a, ?_, ha, rfl⟩
      rw [List.forall₂_map_right_iff]
      exact (h1 a ha).1
  · intro b c as hb hc
    match b, c, hb, hc with
    | none, none, _, _ => rfl
    | some a, some a', hb, hc => rw [h2 a hb.1 a' hc.1 (hb.2.trans hc.2.symm)]
    | none, some a, hb, hc => exact absurd (hc.2.trans hb) (hne a hc.1)
    | some a, none, hb, hc => exact absurd (hb.2.trans hc) (hne a hb.1)

theorem inter_size (hC : C.Lawful) {t : Ty} (ht : t.Flat) {r : SDD V} (hr : Dom C t r) {xs : List (SDD V)} (hx : ∀ x ∈ xs, Dom C t x)
    (hm : ∀ p, Mem C p r ↔ xs ≠ [] ∧ ∀ x ∈ xs, Mem C p x) {ls : List (List (SDD V))} (hls : List.Forall₂ HasNodes ls xs)
    {lr : List (SDD V)} (hn : lr.Nodup) (hlr : ∀ a ∈ lr, Sub a r ∧ (a.isFlat || a.isHier) = true) :
    lr.length ≤ (ls.map List.length).prod := by
  refine result_count hC ht hr hx (fun L => L ≠ [] ∧ ∀ P ∈ L, P) (fun p => by
    rw [hm]
    refine and_congr (by simp) ⟨fun h P hP => ?_, fun h x hx => h _ (List.mem_map_of_mem hx)⟩
    obtain ⟨x, hx, rfl⟩ := List.mem_map.1 hP; exact h x hx) hls hn hlr fun as has hex => ?_
  obtain ⟨p, -, hp⟩ := hex
  clear hls
  induction has with
  | nil => exact .nil
  | @cons a l as ls h1 h2 ih =>
    refine .cons ?_ (ih fun P hP => hp P (by simp at hP ⊢; exact .inr hP))
    rcases List.mem_cons.1 h1 with rfl | h
    · exact absurd (hp (Mem C p .zero) (by simp)) (not_mem_zero p)
    · exact h

theorem diff_size (hC : C.Lawful) {t : Ty} (ht : t.Flat) {r x y : SDD V} (hr : Dom C t r) (hx : Dom C t x) (hy : Dom C t y)
    (hm : ∀ p, Mem C p r ↔ Mem C p x ∧ ¬ Mem C p y) {lx ly : List (SDD V)} (hlx : HasNodes lx x) (hly : HasNodes ly y)
    {lr : List (SDD V)} (hn : lr.Nodup) (hlr : ∀ a ∈ lr, Sub a r ∧ (a.isFlat || a.isHier) = true) :
    lr.length ≤ lx.length * (ly.length + 1) := by
  have := result_count hC ht hr (xs := [x, y]) (by simp [hx, hy]) (fun L => match L with
    | [P, Q] => P ∧ ¬ Q
    | _ => False) (fun p => by simp [hm]) (ls := [lx, ly]) (.cons hlx (.cons hly .nil)) hn hlr (ms := [lx, .zero :: ly]) (fun as has hex => by
      obtain ⟨p, hp⟩ := hex
      cases has with
      | @cons a _ _ _ h1 h2 =>
        cases h2 with
        | @cons b _ _ _ h3 h4 =>
          cases h4
          refine .cons ?_ (.cons h3 .nil)
          rcases List.mem_cons.1 h1 with rfl | h
          · exact absurd hp.1 (not_mem_zero p)
          · exact h)
  simpa using this

/-! ## A call done again -/

theorem cacheCallL_again {f : Op V → LM orc V (SDD V)} {op : Op V} {s : LS V} {r : SDD V} (h : (cacheCallL cap f op s).1 = .ok r) :
    (cacheCallL cap f op (cacheCallL cap f op s).2).2.log = (cacheCallL cap f op s).2.log := by
  have key : ∃ r', lruFind ((cacheCallL cap f op s).2.m.cache op.kind) op = some r' := by
    cases hn : lruFind ((cacheCallL cap f op s).2.m.cache op.kind) op with
    | some r' => exact ⟨r', rfl⟩
    | none =>
      exfalso
      rw [lruFind_none] at hn
      unfold cacheCallL at h hn
      cases hf : lruFind (s.m.cache op.kind) op with
      | some r' =>
        rw [hf] at hn
        refine hn r' ?_
        simp only [Mach.set, if_true, mem_lruTouch]
        exact lruFind_mem hf
      | none =>
        simp only [hf] at h hn
        match hx : f op { s with log := op :: s.log } with
        | (.error e, s') => rw [hx] at h; cases h
        | (.ok r', s') =>
          simp only [hx] at h hn
          match hi : lruInsert (cap op.kind) ((orc s'.m.tick 0).headD 0) (s'.m.cache op.kind) op r' with
          | none => rw [hi] at h; cases h
          | some c' =>
            simp only [hi] at h hn
            refine hn r' ?_
            simp only [Mach.set, if_true]
            unfold lruInsert at hi
            split at hi
            · split at hi
              · cases hi
              · cases hi; simp
            · cases hi; simp
  obtain ⟨r', hr'⟩ := key
  generalize (cacheCallL cap f op s).2 = s' at hr' ⊢
  unfold cacheCallL
  rw [hr']

theorem Call.again {c : Call V} {s : LS V} {r : SDD V} (h : (c.runL C orc cap s).1 = .ok r) :
    (c.runL C orc cap (c.runL C orc cap s).2).2.log = (c.runL C orc cap s).2.log := by
  have key : ∀ n op (s : LS V) r, (Verif.runL C orc cap n op s).1 = .ok r →
      (Verif.runL C orc cap n op (Verif.runL C orc cap n op s).2).2.log = (Verif.runL C orc cap n op s).2.log := by
    intro n op s r h
    cases n with
    | zero => cases h
    | succ n => exact cacheCallL_again h
  have hc : (∃ a, c.runL C orc cap = pure a) ∨ ∃ n op, c.runL C orc cap = Verif.runL C orc cap n op := by
    cases c with
    | zero => exact .inl ⟨_, rfl⟩
    | one => exact .inl ⟨_, rfl⟩
    | flat x v t => exact .inl ⟨_, rfl⟩
    | hier x v t => exact .inl ⟨_, rfl⟩
    | sum xs =>
      unfold Call.runL opSum ddSum
      dsimp only
      split
      · exact .inl ⟨_, rfl⟩
      · exact .inl ⟨_, rfl⟩
      · exact .inr ⟨_, _, rfl⟩
    | inter xs =>
      unfold Call.runL opInter ddInter
      dsimp only
      split
      · exact .inl ⟨_, rfl⟩
      · exact .inl ⟨_, rfl⟩
      · exact .inr ⟨_, _, rfl⟩
    | diff x y =>
      unfold Call.runL ddDiff
      dsimp only
      split
      · exact .inl ⟨_, rfl⟩
      · split
        · exact .inl ⟨_, rfl⟩
        · exact .inr ⟨_, _, rfl⟩
  rcases hc with ⟨a, hc⟩ | ⟨n, op, hc⟩
  · rw [hc]; rfl
  · rw [hc] at h ⊢
    exact key _ _ _ _ h

end
end Verif
