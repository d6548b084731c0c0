import Verif.Hom.Eval
import Verif.DD.Natural
/-!
# The evaluation of homomorphisms does not look inside the monad

Any relation between two monads which is compatible with the basic effects is compatible with the evaluation of homomorphisms
(as `step_rel` for the operations on SDDs).
-/

set_option autoImplicit false
set_option linter.unusedSectionVars false

namespace Verif

variable {V E I U : Type} {m m' : Type → Type} [DecidableEq V] [DecidableEq I] [DecidableEq U] [DDMonad V m] [DDMonad V m']
variable {M : MRel V m m'} {C : Cfg V E} {env : User V I U} {dd : Op V → m (SDD V)} {dd' : Op V → m' (SDD V)}
variable {rec : Hom V I U → OB I → SDD V → m (SDD V)} {rec' : Hom V I U → OB I → SDD V → m' (SDD V)}

section
variable {α : Type} {k : Kind V m α} {k' : Kind V m' α}

theorem mkNode1_rel (hk : KRel M k k') (x : Nat) (v : α) (s : SDD V) : mkNode1 k x v s = mkNode1 k' x v s := by
  unfold mkNode1
  rw [hk.isEmpty, hk.node]

theorem skipArcs_rel (hk : KRel M k k') {f : SDD V → m (SDD V)} {f' : SDD V → m' (SDD V)} (hf : ∀ s, M.R (f s) (f' s))
    (arcs : List (α × SDD V)) : ∀ su, M.R (skipArcs C k f arcs su) (skipArcs C k' f' arcs su) := by
  induction arcs with
  | nil => intro su; exact M.pure' _
  | cons e arcs ih =>
    obtain ⟨v, s⟩ := e
    intro su
    refine M.bind' (hf s) fun r => ?_
    rw [suAdd_rel hk]
    split
    · exact ih _
    · exact ih _

theorem skipNode_rel (hk : KRel M k k') {f : SDD V → m (SDD V)} {f' : SDD V → m' (SDD V)} (hf : ∀ s, M.R (f s) (f' s)) (x : Nat)
    (arcs : List (α × SDD V)) : M.R (skipNode C k f x arcs) (skipNode C k' f' x arcs) := by
  refine M.bind' (M.ord' _) fun arcs => M.bind' (skipArcs_rel hk hf _ _) fun su => M.bind' (suEnd_rel hk _) fun alpha => ?_
  rw [hk.node]
  exact mkNode_rel

theorem locSquare_rel {k : Kind V m (SDD V)} {k' : Kind V m' (SDD V)} (hk : KRel M k k') {f : SDD V → m (SDD V)} {f' : SDD V → m' (SDD V)}
    (hf : ∀ s, M.R (f s) (f' s)) (arcs : List (SDD V × SDD V)) :
    ∀ su, M.R (locSquare C k f arcs su) (locSquare C k' f' arcs su) := by
  induction arcs with
  | nil => intro su; exact M.pure' _
  | cons e arcs ih =>
    obtain ⟨v, s⟩ := e
    intro su
    refine M.bind' (hf v) fun r => ?_
    rw [suAdd_rel hk]
    split
    · exact ih _
    · exact ih _

theorem locSum_rel {k : Kind V m (SDD V)} {k' : Kind V m' (SDD V)} (hk : KRel M k k') {f : SDD V → m (SDD V)} {f' : SDD V → m' (SDD V)}
    (hf : ∀ s, M.R (f s) (f' s)) (x : Nat) (arcs : List (SDD V × SDD V)) : M.R (locSum C k f x arcs) (locSum C k' f' x arcs) := by
  induction arcs with
  | nil => exact M.pure' _
  | cons e arcs ih =>
    obtain ⟨v, s⟩ := e
    refine M.bind' (hf v) fun r => M.bind' ih fun rs => ?_
    rw [mkNode1_rel hk]
    exact M.pure' _

theorem indArcs_rel {f : α → SDD V → m (SDD V)} {f' : α → SDD V → m' (SDD V)} (hf : ∀ v s, M.R (f v s) (f' v s))
    (arcs : List (α × SDD V)) : M.R (indArcs f arcs) (indArcs f' arcs) := by
  induction arcs with
  | nil => exact M.pure' _
  | cons e arcs ih =>
    obtain ⟨v, s⟩ := e
    exact M.bind' (hf v s) fun r => M.bind' ih fun rs => M.pure' _

end

theorem opSum_rel (hdd : ∀ op, M.R (dd op) (dd' op)) (xs : List (SDD V)) : M.R (opSum C dd xs) (opSum C dd' xs) := ddSum_rel hdd _

theorem opInter_rel (hdd : ∀ op, M.R (dd op) (dd' op)) (xs : List (SDD V)) : M.R (opInter C dd xs) (opInter C dd' xs) :=
  ddInter_rel hdd _

theorem applyAll_rel (hr : ∀ h o x, M.R (rec h o x) (rec' h o x)) (o : OB I) (x : SDD V) (hs : List (Hom V I U)) :
    M.R (applyAll rec o x hs) (applyAll rec' o x hs) := by
  induction hs with
  | nil => exact M.pure' _
  | cons h hs ih => exact M.bind' (hr h o x) fun r => M.bind' ih fun rs => M.pure' _

theorem applyInter_rel (hdd : ∀ op, M.R (dd op) (dd' op)) (hr : ∀ h o x, M.R (rec h o x) (rec' h o x)) (o : OB I) (x : SDD V)
    (hs : List (Hom V I U)) : ∀ acc, M.R (applyInter C dd rec o x hs acc) (applyInter C dd' rec' o x hs acc) := by
  induction hs with
  | nil => intro acc; exact opInter_rel hdd _
  | cons h hs ih =>
    intro acc
    refine M.bind' (hr h o x) fun r => ?_
    split
    · exact M.pure' _
    · exact ih _

theorem fixLoop_rel {f : SDD V → m (SDD V)} {f' : SDD V → m' (SDD V)} (hf : ∀ s, M.R (f s) (f' s)) (n : Nat) :
    ∀ x, M.R (fixLoop f n x) (fixLoop f' n x) := by
  induction n with
  | zero => intro x; exact M.raise' _
  | succ n ih =>
    intro x
    refine M.bind' (hf x) fun y => ?_
    split
    · exact M.pure' _
    · exact ih _

theorem chain_rel (hdd : ∀ op, M.R (dd op) (dd' op)) (hr : ∀ h o x, M.R (rec h o x) (rec' h o x)) (o : OB I) (G : List (Hom V I U)) :
    ∀ s, M.R (chain C dd rec o G s) (chain C dd' rec' o G s) := by
  induction G with
  | nil => intro s; exact M.pure' _
  | cons g G ih => intro s; exact M.bind' (hr g o s) fun r => M.bind' (opSum_rel hdd _) fun s => ih _

theorem satRound_rel (hdd : ∀ op, M.R (dd op) (dd' op)) (hr : ∀ h o x, M.R (rec h o x) (rec' h o x)) (o : OB I) (F : Hom V I U)
    (G : List (Hom V I U)) (L : Hom V I U) (s : SDD V) : M.R (satRound C dd rec o F G L s) (satRound C dd' rec' o F G L s) :=
  M.bind' (hr F o s) fun _ => M.bind' (hr L o _) fun _ => chain_rel hdd hr _ _ _

theorem homWork_rel (hdd : ∀ op, M.R (dd op) (dd' op)) (hr : ∀ h o x, M.R (rec h o x) (rec' h o x)) (n : Nat) (h : Hom V I U) (o : OB I)
    (x : SDD V) : M.R (homWork env C dd n rec h o x) (homWork env C dd' n rec' h o x) := by
  cases h with
  | id => exact M.raise' _
  | comp l r => exact M.bind' (hr _ _ _) fun y => hr _ _ _
  | consF o' v h =>
    cases o' with
    | nil => exact M.raise' _
    | node id nst nxt =>
      refine M.bind' (hr _ _ _) fun r => ?_
      rw [mkNode1_rel (M := M) (k := flatKind C) flatKind_rel]
      exact M.pure' _
  | consH o' v h =>
    cases o' with
    | nil => exact M.raise' _
    | node id nst nxt =>
      refine M.bind' (hr _ _ _) fun r => ?_
      rw [mkNode1_rel (hierKind_rel hdd)]
      exact M.pure' _
  | const s => exact M.pure' _
  | fix h => exact fixLoop_rel (fun s => hr _ _ s) _ _
  | fn y u =>
    simp only [homWork]
    split
    · exact M.pure' _
    · refine M.bind' (M.ord' _) fun arcs => ?_
      split
      · exact mkNode_rel
      · rw [funext fun a : V × SDD V => mkNode1_rel (M := M) (k := flatKind C) (k' := flatKind C) flatKind_rel _ (env.fn u a.1) a.2]
        exact opSum_rel hdd _
    · exact M.raise' _
  | ite i t e =>
    exact M.bind' (hr _ _ _) fun _ => M.bind' (hr _ _ _) fun _ => M.bind' (ddDiff_rel hdd _ _) fun _ => M.bind' (hr _ _ _) fun _ =>
      opSum_rel hdd _
  | ind u =>
    simp only [homWork]
    split
    · exact M.pure' _
    · exact M.bind' (M.ord' _) fun arcs => M.bind' (indArcs_rel (fun v s => hr _ _ _) _) fun rs => opSum_rel hdd _
    · exact M.bind' (M.ord' _) fun arcs => M.bind' (indArcs_rel (fun v s => hr _ _ _) _) fun rs => opSum_rel hdd _
    · exact M.raise' _
  | inter hs => exact applyInter_rel hdd hr _ _ _ _
  | loc y h =>
    simp only [homWork]
    split
    · refine M.bind' (M.ord' _) fun arcs => ?_
      split
      · exact M.bind' (locSquare_rel (hierKind_rel hdd) (fun s => hr _ _ s) _ _) fun su => M.bind' (suEnd_rel (hierKind_rel hdd) _)
          fun alpha => mkNode_rel
      · exact M.bind' (locSum_rel (hierKind_rel hdd) (fun s => hr _ _ s) _ _) fun rs => opSum_rel hdd _
    · exact M.raise' _
  | satFix y F G L => exact fixLoop_rel (fun s => satRound_rel hdd hr _ _ _ _ s) _ _
  | satInter y F G L => exact M.bind' (applyAll_rel hr _ _ _) fun rs => opInter_rel hdd _
  | satSum y F G L => exact M.bind' (applyAll_rel hr _ _ _) fun rs => opSum_rel hdd _
  | sum hs => exact M.bind' (applyAll_rel hr _ _ _) fun rs => opSum_rel hdd _

/-- One step of the evaluation of a homomorphism is compatible with the relation. -/
theorem homEval_rel (hdd : ∀ op, M.R (dd op) (dd' op)) (hr : ∀ h o x, M.R (rec h o x) (rec' h o x)) (n : Nat) (h : Hom V I U) (o : OB I)
    (x : SDD V) : M.R (homEval env C dd n rec h o x) (homEval env C dd' n rec' h o x) := by
  unfold homEval
  split
  · exact M.raise' _
  · exact homWork_rel hdd hr _ _ _ _
  · split
    · exact M.raise' _
    · split
      · exact skipNode_rel flatKind_rel (fun s => hr _ _ s) _ _
      · exact homWork_rel hdd hr _ _ _ _
  · split
    · exact M.raise' _
    · split
      · exact skipNode_rel (hierKind_rel hdd) (fun s => hr _ _ s) _ _
      · exact homWork_rel hdd hr _ _ _ _
  · exact M.raise' _

/-- The evaluation of a homomorphism is compatible with the relation. -/
theorem runH_rel (hdd : ∀ op, M.R (dd op) (dd' op))
    {call : (Hom V I U → OB I → SDD V → m (SDD V)) → Hom V I U → OB I → SDD V → m (SDD V)}
    {call' : (Hom V I U → OB I → SDD V → m' (SDD V)) → Hom V I U → OB I → SDD V → m' (SDD V)}
    (hcall : ∀ f f', (∀ h o x, M.R (f h o x) (f' h o x)) → ∀ h o x, M.R (call f h o x) (call' f' h o x)) (n : Nat) :
    ∀ h o x, M.R (runH env C dd call n h o x) (runH env C dd' call' n h o x) := by
  induction n with
  | zero => intro h o x; exact M.raise' _
  | succ n ih =>
    intro h o x
    rw [runH, runH]
    split
    · exact M.pure' _
    · exact hcall _ _ (homEval_rel hdd ih n) _ _ _

end Verif
