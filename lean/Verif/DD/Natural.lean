import Verif.DD.Session
/-!
# The operations do not look inside the monad

Any relation between two monads which is compatible with the basic effects is compatible with the
operations.  Used to compare runs with and without caches, and runs with different recursion bounds.
-/

set_option autoImplicit false
set_option linter.unusedSectionVars false

namespace Verif

/-- A relation between computations, compatible with the effects. (Specification or proof device, not part of the code.) -/
structure MRel (V : Type) (m m' : Type → Type) [DDMonad V m] [DDMonad V m'] where
  R : {α : Type} → m α → m' α → Prop
  pure' : {α : Type} → (a : α) → R (pure a) (pure a)
  bind' : {α β : Type} → {x : m α} → {y : m' α} → {f : α → m β} → {g : α → m' β} →
    R x y → (∀ a, R (f a) (g a)) → R (x >>= f) (y >>= g)
  raise' : {α : Type} → (e : Err V) → R (DDMonad.raise (α := α) e) (DDMonad.raise (α := α) e)
  ord' : {β : Type} → (l : List β) → R (DDMonad.ord l) (DDMonad.ord l)

/-- Related kinds. (Specification or proof device, not part of the code.) -/
structure KRel {V : Type} {m m' : Type → Type} [DDMonad V m] [DDMonad V m'] (M : MRel V m m')
    {α : Type} (k : Kind V m α) (k' : Kind V m' α) : Prop where
  isEmpty : k.isEmpty = k'.isEmpty
  lt : k.lt = k'.lt
  inter : ∀ b, M.R (k.inter b) (k'.inter b)
  diff : ∀ v w, M.R (k.diff v w) (k'.diff v w)
  sum : ∀ l, M.R (k.sum l) (k'.sum l)
  node : k.node = k'.node
  view : k.view = k'.view

section
variable {V E : Type} {m m' : Type → Type} [DecidableEq V] [DDMonad V m] [DDMonad V m']
  {M : MRel V m m'} {C : Cfg V E} {rec : Op V → m (SDD V)} {rec' : Op V → m' (SDD V)}
  {α : Type} {k : Kind V m α} {k' : Kind V m' α}

theorem ddSum_rel (h : ∀ op, M.R (rec op) (rec' op)) (l : List (SDD V)) :
    M.R (ddSum rec l) (ddSum rec' l) := by
  match l with
  | [] => exact M.pure' _
  | [x] => exact M.pure' _
  | x :: y :: l => exact h _

theorem ddInter_rel (h : ∀ op, M.R (rec op) (rec' op)) (b : InterB (SDD V)) :
    M.R (ddInter rec b) (ddInter rec' b) := by
  unfold ddInter
  match b.set with
  | [] => exact M.pure' _
  | [x] => exact M.pure' _
  | x :: y :: l => exact h _

theorem ddDiff_rel (h : ∀ op, M.R (rec op) (rec' op)) (l r : SDD V) :
    M.R (ddDiff rec l r) (ddDiff rec' l r) := by
  unfold ddDiff
  split
  · exact M.pure' _
  · split
    · exact M.pure' _
    · exact h _

theorem flatKind_rel : KRel M (flatKind C) (flatKind C) where
  isEmpty := rfl
  lt := rfl
  inter _ := M.bind' (M.ord' _) fun _ => M.pure' _
  diff _ _ := M.pure' _
  sum _ := M.bind' (M.ord' _) fun _ => M.pure' _
  node := rfl
  view := rfl

theorem hierKind_rel (h : ∀ op, M.R (rec op) (rec' op)) :
    KRel M (hierKind C rec) (hierKind C rec') where
  isEmpty := rfl
  lt := rfl
  inter := ddInter_rel h
  diff := ddDiff_rel h
  sum := ddSum_rel h
  node := rfl
  view := rfl

theorem mkNode_rel {mk : Nat → List (α × SDD V) → SDD V} {x : Nat} {arcs : List (α × SDD V)} :
    M.R (mkNode C mk x arcs) (mkNode C mk x arcs) := by
  unfold mkNode
  split
  · exact M.pure' _
  · split
    · exact M.raise' _
    · exact M.pure' _

theorem suAdd_rel (hk : KRel M k k') (su : List (SDD V × List α)) (s : SDD V) (v : α) :
    suAdd C k su s v = suAdd C k' su s v := by
  unfold suAdd
  rw [hk.isEmpty, hk.lt]

theorem suFinish_rel (hk : KRel M k k') (su : List (SDD V × List α)) :
    ∀ arcs, M.R (suFinish C k su arcs) (suFinish C k' su arcs) := by
  induction su with
  | nil => intro arcs; exact M.pure' _
  | cons e su ih =>
    obtain ⟨succ, vals⟩ := e
    intro arcs
    exact M.bind' (hk.sum _) fun v => ih _

theorem suEnd_rel (hk : KRel M k k') (su : List (SDD V × List α)) :
    M.R (suEnd C k su) (suEnd C k' su) :=
  M.bind' (M.ord' _) fun _ => suFinish_rel hk _ _

theorem scan_rel [DecidableEq α] (hk : KRel M k k') (succ : SDD V)
    (todo : List (α × List (SDD V))) :
    ∀ cur kept save rem, M.R (scan C k succ cur todo kept save rem)
      (scan C k' succ cur todo kept save rem) := by
  induction todo with
  | nil =>
    intro cur kept save rem
    simp only [scan, hk.isEmpty]
    exact M.pure' _
  | cons e todo ih =>
    obtain ⟨rv, rs⟩ := e
    intro cur kept save rem
    simp only [scan, hk.isEmpty, hk.lt]
    split
    · exact M.pure' _
    · split
      · exact M.pure' _
      · refine M.bind' (hk.inter _) fun inter => ?_
        split
        · exact ih _ _ _ _
        · refine M.bind' (hk.diff _ _) fun d => ?_
          split
          · exact M.pure' _
          · exact M.bind' (hk.diff _ _) fun c => ih _ _ _ _

theorem sumArcs_rel [DecidableEq α] (hk : KRel M k k') (arcs : List (α × SDD V)) :
    ∀ res save, M.R (sumArcs C k arcs res save) (sumArcs C k' arcs res save) := by
  induction arcs with
  | nil => intro res save; exact M.pure' _
  | cons e arcs ih =>
    obtain ⟨v, s⟩ := e
    intro res save
    exact M.bind' (M.ord' _) fun res => M.bind' (scan_rel hk _ _ _ _ _ _) fun r => ih _ _

theorem sumOperands_rel [DecidableEq α] (hk : KRel M k k') (head : SDD V) (xs : List (SDD V)) :
    ∀ res, M.R (sumOperands C k head xs res) (sumOperands C k' head xs res) := by
  induction xs with
  | nil => intro res; exact M.pure' _
  | cons x xs ih =>
    intro res
    simp only [sumOperands, hk.view]
    split
    · split
      · exact M.raise' _
      · exact M.bind' (M.ord' _) fun arcs => M.bind' (sumArcs_rel hk _ _ _) fun r => ih _
    · exact M.raise' _

theorem sumSquare_rel (hk : KRel M k k') (h : ∀ op, M.R (rec op) (rec' op))
    (res : List (α × List (SDD V))) :
    ∀ su, M.R (sumSquare C k rec res su) (sumSquare C k' rec' res su) := by
  induction res with
  | nil => intro su; exact M.pure' _
  | cons e res ih =>
    obtain ⟨v, ss⟩ := e
    intro su
    refine M.bind' (ddSum_rel h _) fun s => ?_
    rw [suAdd_rel hk]
    exact ih _

theorem sumWork_rel [DecidableEq α] (hk : KRel M k k') (h : ∀ op, M.R (rec op) (rec' op))
    (head : SDD V) (xs : List (SDD V)) :
    M.R (sumWork C k rec head xs) (sumWork C k' rec' head xs) := by
  simp only [sumWork, hk.view]
  split
  · exact M.raise' _
  · refine M.bind' (M.ord' _) fun arcs => M.bind' (sumOperands_rel hk _ _ _) fun res => M.bind' (M.ord' _) fun res =>
      M.bind' (sumSquare_rel hk h _ _) fun su => M.bind' (suEnd_rel hk _) fun alpha => ?_
    rw [hk.node]
    exact mkNode_rel

theorem fastOperands_rel (head : SDD V) (xs : List (SDD V)) :
    ∀ map, M.R (fastOperands C head xs map) (fastOperands C head xs map) := by
  induction xs with
  | nil => intro map; exact M.pure' _
  | cons x xs ih =>
    intro map
    unfold fastOperands
    split
    · split
      · exact M.bind' (M.ord' _) fun arcs => ih _
      · exact M.raise' _
    · exact M.raise' _

theorem fastSquare_rel (h : ∀ op, M.R (rec op) (rec' op)) (l : List (E × List (SDD V))) :
    ∀ map, M.R (fastSquare C rec l map) (fastSquare C rec' l map) := by
  induction l with
  | nil => intro map; exact M.pure' _
  | cons e l ih =>
    obtain ⟨v, ss⟩ := e
    intro map
    exact M.bind' (ddSum_rel h _) fun s => ih _

theorem fastWork_rel (h : ∀ op, M.R (rec op) (rec' op)) (x : Nat) (xs : List (SDD V)) :
    M.R (fastWork C rec x xs) (fastWork C rec' x xs) := by
  cases xs with
  | nil => exact M.raise' _
  | cons head xs =>
    exact M.bind' (fastOperands_rel _ _ _) fun map => M.bind' (fastSquare_rel h _ _) fun map =>
      M.bind' (M.ord' _) fun map => mkNode_rel

theorem interArc_rel (hk : KRel M k k') (h : ∀ op, M.R (rec op) (rec' op)) (lval : α)
    (lsucc : SDD V) (rhs : List (α × SDD V)) :
    ∀ su, M.R (interArc C k rec lval lsucc rhs su) (interArc C k' rec' lval lsucc rhs su) := by
  induction rhs with
  | nil => intro su; exact M.pure' _
  | cons e rhs ih =>
    obtain ⟨v, s⟩ := e
    intro su
    simp only [interArc, hk.isEmpty, hk.lt]
    refine M.bind' (hk.inter _) fun v => ?_
    split
    · exact ih _
    · refine M.bind' (ddInter_rel h _) fun s => ?_
      split
      · exact ih _
      · rw [suAdd_rel hk]
        exact ih _

theorem interArcs_rel (hk : KRel M k k') (h : ∀ op, M.R (rec op) (rec' op))
    (rhs lhs : List (α × SDD V)) :
    ∀ su, M.R (interArcs C k rec rhs lhs su) (interArcs C k' rec' rhs lhs su) := by
  induction lhs with
  | nil => intro su; exact M.pure' _
  | cons e lhs ih =>
    obtain ⟨v, s⟩ := e
    intro su
    exact M.bind' (interArc_rel hk h _ _ _ _) fun su => ih _

theorem interWork_rel (hk : KRel M k k') (h : ∀ op, M.R (rec op) (rec' op)) (x : Nat)
    (ys : List (SDD V)) :
    ∀ res, M.R (interWork C k rec x res ys) (interWork C k' rec' x res ys) := by
  induction ys with
  | nil => intro res; exact M.pure' _
  | cons y ys ih =>
    intro res
    simp only [interWork, hk.view]
    split
    · split
      · refine M.bind' (M.ord' _) fun lhs => M.bind' (M.ord' _) fun rhs => M.bind' (interArcs_rel hk h _ _ _) fun su => ?_
        split
        · exact M.pure' _
        · refine M.bind' (suEnd_rel hk _) fun alpha => ?_
          rw [hk.node]
          exact M.bind' mkNode_rel fun res => ih _
      · exact M.raise' _
    · exact M.raise' _

theorem diffFirst_rel (hk : KRel M k k') (un : α) (lhs : List (α × SDD V)) :
    ∀ su, M.R (diffFirst C k un lhs su) (diffFirst C k' un lhs su) := by
  induction lhs with
  | nil => intro su; exact M.pure' _
  | cons e lhs ih =>
    obtain ⟨v, s⟩ := e
    intro su
    simp only [diffFirst, hk.isEmpty]
    refine M.bind' (hk.diff _ _) fun tmp => ?_
    split
    · exact ih _
    · rw [suAdd_rel hk]
      exact ih _

theorem diffArc_rel (hk : KRel M k k') (h : ∀ op, M.R (rec op) (rec' op)) (lval : α)
    (lsucc : SDD V) (rhs : List (α × SDD V)) :
    ∀ su, M.R (diffArc C k rec lval lsucc rhs su) (diffArc C k' rec' lval lsucc rhs su) := by
  induction rhs with
  | nil => intro su; exact M.pure' _
  | cons e rhs ih =>
    obtain ⟨v, s⟩ := e
    intro su
    simp only [diffArc, hk.isEmpty, hk.lt]
    refine M.bind' (hk.inter _) fun v => ?_
    split
    · exact ih _
    · refine M.bind' (ddDiff_rel h _ _) fun s => ?_
      split
      · exact ih _
      · rw [suAdd_rel hk]
        exact ih _

theorem diffArcs_rel (hk : KRel M k k') (h : ∀ op, M.R (rec op) (rec' op))
    (rhs lhs : List (α × SDD V)) :
    ∀ su, M.R (diffArcs C k rec rhs lhs su) (diffArcs C k' rec' rhs lhs su) := by
  induction lhs with
  | nil => intro su; exact M.pure' _
  | cons e lhs ih =>
    obtain ⟨v, s⟩ := e
    intro su
    exact M.bind' (diffArc_rel hk h _ _ _ _) fun su => ih _

theorem diffWork_rel (hk : KRel M k k') (h : ∀ op, M.R (rec op) (rec' op)) (l r : SDD V)
    (x y : Nat) (lhs rhs : List (α × SDD V)) :
    M.R (diffWork C k rec l r x y lhs rhs) (diffWork C k' rec' l r x y lhs rhs) := by
  simp only [diffWork, hk.isEmpty, hk.lt]
  split
  · refine M.bind' (M.ord' _) fun lhs => M.bind' (M.ord' _) fun rhs => M.bind' (hk.sum _) fun un =>
      M.bind' (diffFirst_rel hk _ _ _) fun su =>
      M.bind' (diffArcs_rel hk h _ _ _) fun su => ?_
    split
    · exact M.pure' _
    · rw [hk.node]
      exact M.bind' (suEnd_rel hk _) fun alpha => mkNode_rel
  · exact M.raise' _

/-- The evaluation of an operation is compatible with the relation. -/
theorem step_rel (h : ∀ op, M.R (rec op) (rec' op)) (op : Op V) :
    M.R (step C rec op) (step C rec' op) := by
  cases op with
  | sum xs =>
    refine M.bind' (M.ord' _) fun xs => ?_
    unfold sumStep
    split
    · exact M.raise' _
    · split
      · split
        · exact fastWork_rel h _ _
        · exact sumWork_rel flatKind_rel h _ _
      · exact sumWork_rel (hierKind_rel h) h _ _
      · split <;> exact M.raise' _
  | inter xs =>
    refine M.bind' (M.ord' _) fun xs => ?_
    unfold interStep
    split
    · exact M.raise' _
    · split
      · exact interWork_rel flatKind_rel h _ _ _
      · exact interWork_rel (hierKind_rel h) h _ _ _
      · split <;> exact M.raise' _
  | diff l r =>
    change M.R (diffStep C rec l r) (diffStep C rec' l r)
    unfold diffStep
    split
    · exact diffWork_rel flatKind_rel h _ _ _ _ _ _
    · exact diffWork_rel (hierKind_rel h) h _ _ _ _ _ _
    · exact M.raise' _
    · exact M.raise' _
    · exact M.raise' _

end
end Verif
