import Mathlib.Data.List.Perm.Subperm
import Verif.DD.Containers
/-!
# A program logic for the operations

The correctness proof of the operations is done once for every monad having a notion of
"satisfies a postcondition" compatible with `pure`, `bind`, exceptions and iteration in any order.
-/

set_option autoImplicit false
set_option linter.unusedSectionVars false

namespace Verif

/-- A notion of postcondition for the programs of a monad. `allow` are the exceptions which may be
raised. (Specification or proof device, not part of the code.) -/
structure Logic (V : Type) (m : Type → Type) [DDMonad V m] where
  Sat : {α : Type} → m α → (α → Prop) → Prop
  allow : Err V → Prop
  pure' : ∀ {α : Type} {a : α} {P : α → Prop}, P a → Sat (pure a) P
  bind' : ∀ {α β : Type} {x : m α} {f : α → m β} {P : α → Prop} {Q : β → Prop},
    Sat x P → (∀ a, P a → Sat (f a) Q) → Sat (x >>= f) Q
  raise' : ∀ {α : Type} {e : Err V} {P : α → Prop}, allow e → Sat (DDMonad.raise e) P
  ord' : ∀ {β : Type} (l : List β), Sat (DDMonad.ord l : m (List β)) fun l' => l'.Perm l
  mono' : ∀ {α : Type} {x : m α} {P Q : α → Prop}, Sat x P → (∀ a, P a → Q a) → Sat x Q

section
variable {V E : Type}

/-- The operations sent to the caches: at least two operands, sorted by address, different from `|0|`,
of type `t`. (Specification or proof device, not part of the code.) -/
def OpOK (C : Cfg V E) (t : Ty) : Op V → Prop
  | .sum xs => BGood SDD.isZero C.lt (Dom C t) xs ∧ 2 ≤ xs.length
  | .inter xs => BGood SDD.isZero C.lt (Dom C t) xs ∧ 2 ≤ xs.length
  | .diff l r => Dom C t l ∧ Dom C t r ∧ l ≠ .zero ∧ r ≠ .zero ∧ l ≠ r

/-- What is expected of the result of an operation. (Specification or proof device, not part of the code.) -/
def OpSpec (C : Cfg V E) : Op V → SDD V → Prop
  | .sum xs, r => ∀ p, Mem C p r ↔ ∃ x ∈ xs, Mem C p x
  | .inter xs, r => ∀ p, Mem C p r ↔ ∀ x ∈ xs, Mem C p x
  | .diff x y, r => ∀ p, Mem C p r ↔ Mem C p x ∧ ¬ Mem C p y

/-- The recursive calls are right on operands of type `t`. (Specification or proof device, not part of the code.) -/
def RecOK {m : Type → Type} [DDMonad V m] (C : Cfg V E) (L : Logic V m) (t : Ty)
    (rec : Op V → m (SDD V)) : Prop :=
  ∀ op, OpOK C t op → L.Sat (rec op) fun r => Dom C t r ∧ OpSpec C op r

/-- The operands of an operation. (Specification or proof device, not part of the code.) -/
def Op.operands : Op V → List (SDD V)
  | .sum xs => xs
  | .inter xs => xs
  | .diff l r => [l, r]

/-- The paths of `x` are related to those of `y`. (Specification or proof device, not part of the code.) -/
def Coh (C : Cfg V E) (R : Path E → Path E → Prop) (x y : SDD V) : Prop :=
  ∀ p q, Mem C p x → Mem C q y → R p q

/-- The paths of `x` are related to each other and belong to `S`. (Specification or proof device, not part of the code.) -/
structure SelfIn (C : Cfg V E) (R : Path E → Path E → Prop) (S : Path E → Prop) (x : SDD V) :
    Prop where
  self : Coh C R x x
  sub : ∀ p, Mem C p x → S p

/-- The paths common to the first operands are related to those of the next one, up to the end of the list. (Specification or proof device, not part of the code.) -/
def PrefixRel (C : Cfg V E) (R : Path E → Path E → Prop) (l : List (SDD V)) : Prop :=
  ∀ ys z zs, l = ys ++ z :: zs → ys ≠ [] → ∀ p q, (∀ y ∈ ys, Mem C p y) → Mem C q z → R p q

/-- What is known of the operands of an intersection which returns: it stops as soon as an intermediate result is empty, hence the operands
have been visited in some order in which the paths common to the first operands are related to those of the next one.
(Specification or proof device, not part of the code.) -/
def InterCoh (C : Cfg V E) (R : Path E → Path E → Prop) (xs : List (SDD V)) : Prop :=
  ∃ l : List (SDD V), (∀ x, x ∈ l ↔ x ∈ xs) ∧ PrefixRel C (fun p q => R p q ∧ R q p) l

/-- The paths of all operands are related to each other; less is known of intersections. (Specification or proof device, not part of the code.) -/
def OpCoh (C : Cfg V E) (R : Path E → Path E → Prop) : Op V → Prop
  | .sum xs => ∀ x ∈ xs, ∀ y ∈ xs, Coh C R x y
  | .inter xs => InterCoh C R xs
  | .diff x y => Coh C R x y

/-- The number of operands of a sum or of an intersection satisfies `B`. (Specification or proof device, not part of the code.) -/
def Op.Small (B : Nat → Prop) : Op V → Prop
  | .sum xs => B xs.length
  | .inter xs => B xs.length
  | .diff _ _ => True

theorem Op.small_true (op : Op V) : op.Small fun _ => True := by cases op <;> exact True.intro

/-- The recursive calls are right on operands of type `t` whose paths are in `S`, and related to each other in
each operand, when the number of operands satisfies `B`; when a call returns, the paths of different operands are related to each other.
(Specification or proof device, not part of the code.) -/
def RecS {m : Type → Type} [DDMonad V m] (C : Cfg V E) (L : Logic V m) (R : Path E → Path E → Prop)
    (S : Path E → Prop) (B : Nat → Prop) (t : Ty) (rec : Op V → m (SDD V)) : Prop :=
  ∀ op, OpOK C t op → (∀ x ∈ op.operands, SelfIn C R S x) → op.Small B →
    L.Sat (rec op) fun r => Dom C t r ∧ OpSpec C op r ∧ OpCoh C R op

variable {C : Cfg V E} {m : Type → Type} [DDMonad V m] {L : Logic V m} {t : Ty}
  {rec : Op V → m (SDD V)} [DecidableEq V] {R : Path E → Path E → Prop} {S : Path E → Prop} {B : Nat → Prop}

theorem SelfIn.mono {x y : SDD V} (h : SelfIn C R S x) (hy : ∀ p, Mem C p y → Mem C p x) :
    SelfIn C R S y :=
  ⟨fun p q hp hq => h.self p q (hy p hp) (hy q hq), fun p hp => h.sub p (hy p hp)⟩

theorem SelfIn.trivial (x : SDD V) : SelfIn C (fun _ _ => True) (fun _ => True) x :=
  ⟨fun _ _ _ _ => True.intro, fun _ _ => True.intro⟩

theorem OpCoh.trivial (op : Op V) : OpCoh C (fun _ _ => True) op := by
  cases op <;> simp [OpCoh, Coh]
  exact ⟨_, fun _ => Iff.rfl, fun _ _ _ _ _ _ _ _ _ => ⟨True.intro, True.intro⟩⟩

theorem InterCoh.of_mem {xs ys : List (SDD V)} (h : InterCoh C R xs) (heq : ∀ x, x ∈ xs ↔ x ∈ ys) : InterCoh C R ys :=
  h.elim fun l hl => ⟨l, fun x => (hl.1 x).trans (heq x), hl.2⟩

theorem PrefixRel.one (x : SDD V) : PrefixRel C R [x] := by
  intro ys z zs h hne
  match ys, hne, h with
  | [], hne, _ => exact absurd rfl hne
  | _ :: ys, _, h => simp at h

theorem PrefixRel.zero (l : List (SDD V)) : PrefixRel C R (.zero :: l) := by
  intro ys z zs he hne p q hp
  match ys, hne, he with
  | [], hne, _ => exact absurd rfl hne
  | y :: ys, _, he =>
    rw [List.cons_append, List.cons.injEq] at he
    exact absurd (hp y (by simp)) (by rw [← he.1]; exact not_mem_zero p)

/-- One more operand in front: `z` has the paths common to `x` and `y`. -/
theorem PrefixRel.cons {x y z : SDD V} {l : List (SDD V)} (hxy : Coh C R x y) (h : PrefixRel C R (z :: l))
    (hz : ∀ p, Mem C p x → Mem C p y → Mem C p z) : PrefixRel C R (x :: y :: l) := by
  intro ys w zs he hne p q hp hq
  match ys, hne, he, hp with
  | [], hne, _, _ => exact absurd rfl hne
  | [a], _, he, hp =>
    simp only [List.cons_append, List.nil_append, List.cons.injEq] at he
    obtain ⟨rfl, rfl, rfl⟩ := he
    exact hxy p q (hp _ (by simp)) hq
  | a :: b :: ys, _, he, hp =>
    simp only [List.cons_append, List.cons.injEq] at he
    obtain ⟨rfl, rfl, rfl⟩ := he
    refine h (z :: ys) w zs (by simp) (by simp) p q (fun v hv => ?_) hq
    rcases List.mem_cons.1 hv with rfl | hv
    · exact hz p (hp _ (by simp)) (hp _ (by simp))
    · exact hp v (by simp [hv])

/-- With an operand `|0|`, nothing is known. -/
theorem InterCoh.zero {xs : List (SDD V)} (h : .zero ∈ xs) : InterCoh C R xs := by
  exact ⟨.zero :: xs, fun x => by simp; rintro rfl; exact h, .zero xs⟩

/-- The first element which satisfies `P`. -/
theorem exists_first {α : Type} {P : α → Prop} : ∀ {l : List α}, (∃ x ∈ l, P x) →
    ∃ ys z zs, l = ys ++ z :: zs ∧ P z ∧ ∀ y ∈ ys, ¬ P y := by
  intro l
  induction l with
  | nil => simp
  | cons a l ih =>
    intro h
    by_cases ha : P a
    · exact ⟨[], a, l, rfl, ha, by simp⟩
    · obtain ⟨ys, z, zs, rfl, h1, h2⟩ := ih (by
        obtain ⟨x, hx, hP⟩ := h
        rcases List.mem_cons.1 hx with rfl | hx
        · exact absurd hP ha
        · exact ⟨x, hx, hP⟩)
      refine ⟨a :: ys, z, zs, rfl, h1, fun y hy => ?_⟩
      rcases List.mem_cons.1 hy with rfl | hy
      · exact ha
      · exact h2 y hy

/-- A path common to all other operands is related to the paths of an operand. -/
theorem InterCoh.common {xs : List (SDD V)} (h : InterCoh C R xs) {z : SDD V} (hz : z ∈ xs) (hself : Coh C R z z) {p q : Path E}
    (hp0 : ∃ y ∈ xs, Mem C p y) (hp : ∀ x ∈ xs, x ≠ z → Mem C p x) (hq : Mem C q z) : R p q ∧ R q p := by
  obtain ⟨l, hl, hc⟩ := h
  obtain ⟨ys, z', zs, rfl, rfl, hys⟩ := exists_first (P := fun x => x = z) ⟨z, (hl z).2 hz, rfl⟩
  by_cases hne : ys = []
  · subst hne
    by_cases hall : ∃ x ∈ zs, x ≠ z'
    · obtain ⟨ws, y, us, rfl, hy, hws⟩ := exists_first hall
      have := hc (z' :: ws) y us (by simp) (by simp) q p (by
        intro w hw
        rcases List.mem_cons.1 hw with rfl | hw
        · exact hq
        · rw [not_not.1 (hws w hw)]; exact hq) (hp y ((hl y).1 (by simp)) hy)
      exact this.symm
    · push Not at hall
      obtain ⟨y, hy, hpy⟩ := hp0
      have : y = z' := by
        rcases List.mem_cons.1 ((hl y).2 hy) with rfl | h
        · rfl
        · exact hall y h
      subst this
      exact ⟨hself p q hpy hq, hself q p hq hpy⟩
  · exact hc ys z' zs rfl hne p q (fun y hy => hp y ((hl y).1 (by simp [hy])) (hys y hy)) hq

/-- Without constraint on paths. -/
theorem RecOK.toS (h : RecOK C L t rec) : RecS C L (fun _ _ => True) (fun _ => True) B t rec :=
  fun op hop _ _ => L.mono' (h op hop) fun _ h => ⟨h.1, h.2, OpCoh.trivial op⟩

theorem ddSum_satS (hrec : RecS C L R S B t rec) {xs : List (SDD V)}
    (h : BGood SDD.isZero C.lt (Dom C t) xs) (hs : ∀ x ∈ xs, SelfIn C R S x) (hB : B xs.length) :
    L.Sat (ddSum rec xs) fun r => Dom C t r ∧ (∀ p, Mem C p r ↔ ∃ x ∈ xs, Mem C p x) ∧
      ∀ x ∈ xs, ∀ y ∈ xs, Coh C R x y := by
  match xs, h, hs, hB with
  | [], _, _, _ => exact L.pure' ⟨.zero _, fun p => by simp [not_mem_zero], by simp⟩
  | [x], h, hs, _ =>
    exact L.pure' ⟨h.dom x (by simp), fun p => by simp, by simpa using (hs x (by simp)).self⟩
  | x :: y :: l, h, hs, hB => exact hrec (.sum (x :: y :: l)) ⟨h, by simp⟩ hs hB

theorem ddDiff_satS (hrec : RecS C L R S B t rec) {x y : SDD V} (hx : Dom C t x) (hy : Dom C t y)
    (hxs : SelfIn C R S x) (hys : SelfIn C R S y) :
    L.Sat (ddDiff rec x y) fun r => Dom C t r ∧ (∀ p, Mem C p r ↔ Mem C p x ∧ ¬ Mem C p y) ∧
      Coh C R x y := by
  unfold ddDiff
  split
  · rename_i h
    refine L.pure' ⟨.zero _, fun p => ?_, ?_⟩
    · rcases h with rfl | rfl
      · simp [not_mem_zero]
      · simp [not_mem_zero]
    · rcases h with rfl | rfl
      · exact hxs.self
      · exact fun p q hp => absurd hp (not_mem_zero p)
  · split
    · rename_i h1 h2
      subst h2
      exact L.pure' ⟨hx, fun p => by simp [not_mem_zero], fun p q _ hq => absurd hq (not_mem_zero q)⟩
    · rename_i h1 h2
      rw [not_or] at h1
      refine hrec (.diff x y) ⟨hx, hy, h1.2, h2, h1.1⟩ (fun z hz => ?_) trivial
      simp only [Op.operands, List.mem_cons, List.not_mem_nil, or_false] at hz
      rcases hz with rfl | rfl
      · exact hxs
      · exact hys

theorem opSum_satS (hC : C.Lawful) (hrec : RecS C L R S B t rec) {xs : List (SDD V)}
    (h : ∀ x ∈ xs, Dom C t x) (hs : ∀ x ∈ xs, SelfIn C R S x) (hB : ∀ n, n ≤ xs.length → B n) :
    L.Sat (opSum C rec xs) fun r => Dom C t r ∧ (∀ p, Mem C p r ↔ ∃ x ∈ xs, Mem C p x) ∧
      ∀ x ∈ xs, ∀ y ∈ xs, Coh C R x y := by
  have key : ∀ x, x ∈ xs.foldl (sumAdd SDD.isZero C.lt) [] ↔ x ∈ xs ∧ SDD.isZero x = false := by
    intro x
    rw [mem_foldl_sumAdd hC.lt_st]
    simp
  have hz : ∀ x, (∃ p, Mem C p x) → SDD.isZero x = false := by
    rintro x ⟨p, hp⟩
    by_contra hc
    rw [Bool.not_eq_false, isZero_iff] at hc
    subst hc
    exact not_mem_zero p hp
  refine L.mono' (ddSum_satS hrec (BGood.foldl hC.lt_st xs h BGood.nil) (fun x hx => hs x ((key x).1 hx).1)
    (hB _ ?_)) ?_
  · exact (List.Nodup.subperm ((BGood.foldl hC.lt_st xs h BGood.nil).sorted.imp fun h => hC.lt_st.ne_of h)
      fun x hx => ((key x).1 hx).1).length_le
  rintro r ⟨h1, h2, h3⟩
  refine ⟨h1, fun p => ?_, fun x hx y hy p q hp hq => ?_⟩
  · rw [h2]
    constructor
    · rintro ⟨x, hx, hp⟩
      exact ⟨x, ((key x).1 hx).1, hp⟩
    · rintro ⟨x, hx, hp⟩
      exact ⟨x, (key x).2 ⟨hx, hz x ⟨p, hp⟩⟩, hp⟩
  · exact h3 x ((key x).2 ⟨hx, hz x ⟨p, hp⟩⟩) y ((key y).2 ⟨hy, hz y ⟨q, hq⟩⟩) p q hp hq

theorem opInter_satS (hC : C.Lawful) (hrec : RecS C L R S B t rec) {xs : List (SDD V)}
    (h : ∀ x ∈ xs, Dom C t x) (hself : ∀ x ∈ xs, SelfIn C R S x) (hB : ∀ n, n ≤ xs.length → B n) :
    L.Sat (opInter C rec xs) fun r => Dom C t r ∧
      (∀ p, Mem C p r ↔ xs ≠ [] ∧ ∀ x ∈ xs, Mem C p x) ∧
      InterCoh C R xs := by
  have hb := foldl_interAdd (isEmpty := SDD.isZero) (D := Dom C t) hC.lt_st xs {}
    (by simp) BGood.nil h
  simp only [] at hb
  unfold opInter
  generalize xs.foldl (interAdd SDD.isZero C.lt) {} = b at hb
  obtain ⟨b1, b2, b3, b4⟩ := hb
  cases hz : b.hasZero with
  | true =>
    rw [ddInter, b1 hz]
    rw [hz] at b3
    simp at b3
    obtain ⟨x, hx, hx0⟩ := b3
    rw [isZero_iff] at hx0
    subst hx0
    refine L.pure' ⟨.zero _, fun p => ?_, .zero hx⟩
    constructor
    · intro hp; exact absurd hp (not_mem_zero p)
    · intro hp; exact absurd (hp.2 _ hx) (not_mem_zero p)
  | false =>
    have b4 := b4 hz
    simp at b4
    have hspec : ∀ r, (∀ p, Mem C p r ↔ ∀ x ∈ b.set, Mem C p x) → b.set ≠ [] → ∀ p, Mem C p r ↔
        xs ≠ [] ∧ ∀ x ∈ xs, Mem C p x := by
      intro r hr hne p
      rw [hr]
      constructor
      · intro h1
        refine ⟨?_, fun x hx => h1 x ((b4 x).2 hx)⟩
        rintro rfl
        obtain ⟨y, l, hl⟩ := List.exists_cons_of_ne_nil hne
        have := (b4 y).1 (by simp [hl])
        simp at this
      · exact fun h1 x hx => h1.2 x ((b4 x).1 hx)
    unfold ddInter
    split
    · rename_i hs
      have : xs = [] := by
        rw [hs] at b4
        exact List.eq_nil_iff_forall_not_mem.2 fun x hx => by simpa using (b4 x).2 hx
      exact L.pure' ⟨.zero _, fun p => by simp [this, not_mem_zero], [], by simp [this], fun ys z zs h => by simp at h⟩
    · rename_i x hs
      refine L.pure' ⟨b2.dom x (by simp [hs]), hspec x (fun p => by simp [hs]) (by simp [hs]), [x], fun y => ?_, .one x⟩
      rw [← b4 y, hs]
    · rename_i l h1 h2
      have hlen : 2 ≤ b.set.length := by
        match hb' : b.set with
        | [] => exact absurd hb' h1
        | [x] => exact absurd hb' (h2 x)
        | _ :: _ :: _ => simp
      refine L.mono' (hrec (.inter b.set) ⟨b2, hlen⟩ (fun x hx => hself x ((b4 x).1 hx)) (hB _ ?_)) ?_
      · exact (List.Nodup.subperm (b2.sorted.imp fun h => hC.lt_st.ne_of h) fun x hx => (b4 x).1 hx).length_le
      rintro r ⟨hr1, hr2, hr3⟩
      exact ⟨hr1, hspec r hr2 h1, hr3.of_mem b4⟩

theorem opInter2_satS (hC : C.Lawful) (hrec : RecS C L R S B t rec) {x y : SDD V}
    (hx : Dom C t x) (hy : Dom C t y) (hxs : SelfIn C R S x) (hys : SelfIn C R S y) (hB : ∀ n, n ≤ 2 → B n) :
    L.Sat (ddInter rec (interAdd SDD.isZero C.lt (interAdd SDD.isZero C.lt {} x) y)) fun r =>
      Dom C t r ∧ (∀ p, Mem C p r ↔ Mem C p x ∧ Mem C p y) ∧ Coh C R x y := by
  have := opInter_satS (xs := [x, y]) hC hrec (by simp [hx, hy]) (by simp [hxs, hys]) hB
  refine L.mono' this ?_
  rintro r ⟨h1, h2, h3⟩
  refine ⟨h1, fun p => by rw [h2]; simp, fun p q hp hq => (h3.common (z := y) (by simp) hys.self ⟨x, by simp, hp⟩ ?_ hq).1⟩
  intro w hw hwy
  simp only [List.mem_cons, List.not_mem_nil, or_false] at hw
  rcases hw with rfl | rfl
  · exact hp
  · exact absurd rfl hwy

theorem ddSum_sat (hrec : RecOK C L t rec) {xs : List (SDD V)}
    (h : BGood SDD.isZero C.lt (Dom C t) xs) :
    L.Sat (ddSum rec xs) fun r => Dom C t r ∧ ∀ p, Mem C p r ↔ ∃ x ∈ xs, Mem C p x := by
  match xs, h with
  | [], _ => exact L.pure' ⟨.zero _, fun p => by simp [not_mem_zero]⟩
  | [x], h => exact L.pure' ⟨h.dom x (by simp), fun p => by simp⟩
  | x :: y :: l, h => exact hrec (.sum (x :: y :: l)) ⟨h, by simp⟩

theorem ddDiff_sat (hrec : RecOK C L t rec) {x y : SDD V} (hx : Dom C t x) (hy : Dom C t y) :
    L.Sat (ddDiff rec x y) fun r => Dom C t r ∧ ∀ p, Mem C p r ↔ Mem C p x ∧ ¬ Mem C p y := by
  unfold ddDiff
  split
  · rename_i h
    refine L.pure' ⟨.zero _, fun p => ?_⟩
    rcases h with rfl | rfl
    · simp [not_mem_zero]
    · simp [not_mem_zero]
  · split
    · rename_i h1 h2
      subst h2
      exact L.pure' ⟨hx, fun p => by simp [not_mem_zero]⟩
    · rename_i h1 h2
      rw [not_or] at h1
      exact hrec (.diff x y) ⟨hx, hy, h1.2, h2, h1.1⟩

theorem opSum_sat (hC : C.Lawful) (hrec : RecOK C L t rec) {xs : List (SDD V)}
    (h : ∀ x ∈ xs, Dom C t x) :
    L.Sat (opSum C rec xs) fun r => Dom C t r ∧ ∀ p, Mem C p r ↔ ∃ x ∈ xs, Mem C p x := by
  refine L.mono' (ddSum_sat hrec (BGood.foldl hC.lt_st xs h BGood.nil)) ?_
  rintro r ⟨h1, h2⟩
  refine ⟨h1, fun p => ?_⟩
  rw [h2]
  constructor
  · rintro ⟨x, hx, hp⟩
    rw [mem_foldl_sumAdd hC.lt_st] at hx
    rcases hx with ⟨hx, _⟩ | hx
    · exact ⟨x, hx, hp⟩
    · simp at hx
  · rintro ⟨x, hx, hp⟩
    refine ⟨x, (mem_foldl_sumAdd hC.lt_st _ _ _).2 (Or.inl ⟨hx, ?_⟩), hp⟩
    by_contra hc
    rw [Bool.not_eq_false, isZero_iff] at hc
    subst hc
    exact not_mem_zero p hp

/-- The intersection of no operand is `|0|`. -/
theorem opInter_sat (hC : C.Lawful) (hrec : RecOK C L t rec) {xs : List (SDD V)}
    (h : ∀ x ∈ xs, Dom C t x) :
    L.Sat (opInter C rec xs) fun r => Dom C t r ∧
      ∀ p, Mem C p r ↔ xs ≠ [] ∧ ∀ x ∈ xs, Mem C p x := by
  have hb := foldl_interAdd (isEmpty := SDD.isZero) (D := Dom C t) hC.lt_st xs {}
    (by simp) BGood.nil h
  simp only [] at hb
  unfold opInter
  generalize xs.foldl (interAdd SDD.isZero C.lt) {} = b at hb
  obtain ⟨b1, b2, b3, b4⟩ := hb
  cases hz : b.hasZero with
  | true =>
    rw [ddInter, b1 hz]
    refine L.pure' ⟨.zero _, fun p => ?_⟩
    rw [hz] at b3
    simp at b3
    obtain ⟨x, hx, hx0⟩ := b3
    rw [isZero_iff] at hx0
    subst hx0
    constructor
    · intro hp; exact absurd hp (not_mem_zero p)
    · intro hp; exact absurd (hp.2 _ hx) (not_mem_zero p)
  | false =>
    have b4 := b4 hz
    simp at b4
    have hspec : ∀ r, (∀ p, Mem C p r ↔ ∀ x ∈ b.set, Mem C p x) → b.set ≠ [] → ∀ p, Mem C p r ↔
        xs ≠ [] ∧ ∀ x ∈ xs, Mem C p x := by
      intro r hr hne p
      rw [hr]
      constructor
      · intro h1
        refine ⟨?_, fun x hx => h1 x ((b4 x).2 hx)⟩
        rintro rfl
        obtain ⟨y, l, hl⟩ := List.exists_cons_of_ne_nil hne
        have := (b4 y).1 (by simp [hl])
        simp at this
      · exact fun h1 x hx => h1.2 x ((b4 x).1 hx)
    unfold ddInter
    split
    · rename_i hs
      refine L.pure' ⟨.zero _, fun p => ?_⟩
      have : xs = [] := by
        rw [hs] at b4
        exact List.eq_nil_iff_forall_not_mem.2 fun x hx => by simpa using (b4 x).2 hx
      simp [this, not_mem_zero]
    · rename_i x hs
      refine L.pure' ⟨b2.dom x (by simp [hs]), ?_⟩
      exact hspec x (fun p => by simp [hs]) (by simp [hs])
    · rename_i l h1 h2
      have hlen : 2 ≤ b.set.length := by
        match hb' : b.set with
        | [] => exact absurd hb' h1
        | [x] => exact absurd hb' (h2 x)
        | _ :: _ :: _ => simp
      refine L.mono' (hrec (.inter b.set) ⟨b2, hlen⟩) ?_
      rintro r ⟨hr1, hr2⟩
      exact ⟨hr1, hspec r hr2 h1⟩

theorem opInter2_sat (hC : C.Lawful) (hrec : RecOK C L t rec) {x y : SDD V}
    (hx : Dom C t x) (hy : Dom C t y) :
    L.Sat (ddInter rec (interAdd SDD.isZero C.lt (interAdd SDD.isZero C.lt {} x) y)) fun r =>
      Dom C t r ∧ ∀ p, Mem C p r ↔ Mem C p x ∧ Mem C p y := by
  have := opInter_sat (xs := [x, y]) hC hrec (by simp [hx, hy])
  simpa [opInter] using this

end
end Verif
