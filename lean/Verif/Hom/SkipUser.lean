import Verif.Hom.History
import Verif.Order.Artificial
/-!
# Identifiers received by `skip`

`/repo/sdd/hom/inductive.hh:186-211`: the evaluation of a homomorphism depends on the `skip` of inductive homomorphisms only
for the identifiers of the orders it meets.
-/

set_option autoImplicit false
set_option linter.unusedSectionVars false

namespace Verif

variable {V E I U : Type} [DecidableEq V] [DecidableEq I] [DecidableEq U]

/-- The order `o` is given to a `cons` in the homomorphism. (Specification or proof device, not part of the code.) -/
inductive Hom.Cons (o : OB I) : Hom V I U → Prop where
  | compL {l r : Hom V I U} : Cons o l → Cons o (.comp l r)
  | compR {l r : Hom V I U} : Cons o r → Cons o (.comp l r)
  | consFO {v : V} {h : Hom V I U} : Cons o (.consF o v h)
  | consF {o' : OB I} {v : V} {h : Hom V I U} : Cons o h → Cons o (.consF o' v h)
  | consHO {v : SDD V} {h : Hom V I U} : Cons o (.consH o v h)
  | consH {o' : OB I} {v : SDD V} {h : Hom V I U} : Cons o h → Cons o (.consH o' v h)
  | fix {h : Hom V I U} : Cons o h → Cons o (.fix h)
  | iteI {i t e : Hom V I U} : Cons o i → Cons o (.ite i t e)
  | iteT {i t e : Hom V I U} : Cons o t → Cons o (.ite i t e)
  | iteE {i t e : Hom V I U} : Cons o e → Cons o (.ite i t e)
  | inter {hs : List (Hom V I U)} {h : Hom V I U} : h ∈ hs → Cons o h → Cons o (.inter hs)
  | loc {x : Nat} {h : Hom V I U} : Cons o h → Cons o (.loc x h)
  | satFixF {x : Nat} {F L : Hom V I U} {G : List (Hom V I U)} : Cons o F → Cons o (.satFix x F G L)
  | satFixG {x : Nat} {F L : Hom V I U} {G : List (Hom V I U)} {h : Hom V I U} : h ∈ G → Cons o h → Cons o (.satFix x F G L)
  | satFixL {x : Nat} {F L : Hom V I U} {G : List (Hom V I U)} : Cons o L → Cons o (.satFix x F G L)
  | satInter {x : Nat} {F G L : List (Hom V I U)} {h : Hom V I U} : h ∈ F ++ G ++ L → Cons o h → Cons o (.satInter x F G L)
  | satSum {x : Nat} {F G L : List (Hom V I U)} {h : Hom V I U} : h ∈ F ++ G ++ L → Cons o h → Cons o (.satSum x F G L)
  | sum {hs : List (Hom V I U)} {h : Hom V I U} : h ∈ hs → Cons o h → Cons o (.sum hs)

/-- The user's code with another `skip`, which receives the user part of the identifier. (Model of the environment: what the user or the
system does; `/repo/sdd/hom/inductive.hh:189-199`.) -/
def User.withSkip (env : User V I U) (sk : U → I → Bool) : User V I U := { env with indSkip := fun u i => sk u i.user }

/-- A library with another `skip`. (Model of the environment: what the user or the system does; `/repo/sdd/hom/inductive.hh:189-199`.) -/
def Lib.withSkip (L : Lib V E I U) (sk : U → I → Bool) : Lib V E I U := { L with env := L.env.withSkip sk }

section
variable (P : OId I → Prop)

/-- All the identifiers of the order satisfy `P`. (Proof device, not part of the code.) -/
def OB.All (o : OB I) : Prop := ∀ i ∈ o.ids, P i

/-- All the identifiers of the orders of the homomorphism satisfy `P`. (Proof device, not part of the code.) -/
def Hom.All (h : Hom V I U) : Prop := ∀ o, Hom.Cons o h → o.All P

variable {P}

theorem OB.All.id {id : OId I} {nst nxt : OB I} (h : (OB.node id nst nxt).All P) : P id := h id (by simp [OB.ids])
theorem OB.All.nst {id : OId I} {nst nxt : OB I} (h : (OB.node id nst nxt).All P) : nst.All P :=
  fun i hi => h i (by simp [OB.ids, hi])
theorem OB.All.nxt {id : OId I} {nst nxt : OB I} (h : (OB.node id nst nxt).All P) : nxt.All P :=
  fun i hi => h i (by simp [OB.ids, hi])

theorem skip_congr {env : User V I U} {sk sk' : U → I → Bool} {id : OId I} (hs : ∀ u, sk u id.user = sk' u id.user) (x : Nat)
    (h : Hom V I U) : h.skip (env.withSkip sk) x id = h.skip (env.withSkip sk') x id := by
  have key : ∀ hs : List (Hom V I U), (∀ h ∈ hs, h.skip (env.withSkip sk) x id = h.skip (env.withSkip sk') x id) →
      Hom.skipAll (env.withSkip sk) x id hs = Hom.skipAll (env.withSkip sk') x id hs := by
    intro hs
    induction hs with
    | nil => intro; rfl
    | cons a hs ih =>
      intro hh
      simp only [Hom.skipAll]
      rw [hh a List.mem_cons_self, ih fun b hb => hh b (List.mem_cons_of_mem _ hb)]
  induction h using Hom.induct with
  | id => rfl
  | comp l r a b => simp only [Hom.skip, a, b]
  | consF => rfl
  | consH => rfl
  | const => rfl
  | fix h a => simp only [Hom.skip, a]
  | fn => rfl
  | ite i t e a b c => simp only [Hom.skip, a, b, c]
  | ind u => exact hs u
  | inter hs a => exact key hs a
  | loc => rfl
  | satFix => rfl
  | satInter => rfl
  | satSum => rfl
  | sum hs a => exact key hs a

theorem selector_congr {env : User V I U} {sk : U → I → Bool} (h : Hom V I U) : h.selector (env.withSkip sk) = h.selector env := by
  have key : ∀ hs : List (Hom V I U), (∀ h ∈ hs, h.selector (env.withSkip sk) = h.selector env) →
      Hom.selectorAll (env.withSkip sk) hs = Hom.selectorAll env hs := by
    intro hs
    induction hs with
    | nil => intro; rfl
    | cons a hs ih =>
      intro hh
      simp only [Hom.selectorAll]
      rw [hh a List.mem_cons_self, ih fun b hb => hh b (List.mem_cons_of_mem _ hb)]
  induction h using Hom.induct with
  | id => rfl
  | comp l r a b => simp only [Hom.selector, a, b]
  | consF => rfl
  | consH => rfl
  | const => rfl
  | fix h a => simp only [Hom.selector, a]
  | fn => rfl
  | ite i t e a b c => simp only [Hom.selector, b, c]
  | ind u => rfl
  | inter hs a => exact key hs a
  | loc x h a => simp only [Hom.selector, a]
  | satFix x F G L a b c => simp only [Hom.selector, a, key G b, c]
  | satInter x F G L a b c => simp only [Hom.selector, key F a, key G b, key L c]
  | satSum x F G L a b c => simp only [Hom.selector, key F a, key G b, key L c]
  | sum hs a => exact key hs a

variable {m : Type → Type} [DDMonad V m] {C : Cfg V E} {dd : Op V → m (SDD V)} {rec rec' : Hom V I U → OB I → SDD V → m (SDD V)}
  (hr : ∀ h o x, h.All P → o.All P → rec h o x = rec' h o x)
include hr

theorem applyAll_congr {o : OB I} (ho : o.All P) (x : SDD V) {hs : List (Hom V I U)} (hh : ∀ h ∈ hs, h.All P) :
    applyAll rec o x hs = applyAll rec' o x hs := by
  induction hs with
  | nil => rfl
  | cons a hs ih =>
    simp only [applyAll]
    rw [hr a o x (hh a List.mem_cons_self) ho, ih fun b hb => hh b (List.mem_cons_of_mem _ hb)]

theorem applyInter_congr {o : OB I} (ho : o.All P) (x : SDD V) {hs : List (Hom V I U)} (hh : ∀ h ∈ hs, h.All P) (acc : List (SDD V)) :
    applyInter C dd rec o x hs acc = applyInter C dd rec' o x hs acc := by
  induction hs generalizing acc with
  | nil => rfl
  | cons a hs ih =>
    simp only [applyInter]
    rw [hr a o x (hh a List.mem_cons_self) ho]
    congr 1
    funext r
    rw [ih fun b hb => hh b (List.mem_cons_of_mem _ hb)]

theorem chain_congr {o : OB I} (ho : o.All P) {hs : List (Hom V I U)} (hh : ∀ h ∈ hs, h.All P) (x : SDD V) :
    chain C dd rec o hs x = chain C dd rec' o hs x := by
  induction hs generalizing x with
  | nil => rfl
  | cons a hs ih =>
    simp only [chain]
    rw [hr a o x (hh a List.mem_cons_self) ho]
    congr 1
    funext r
    congr 1
    funext s
    exact ih (fun b hb => hh b (List.mem_cons_of_mem _ hb)) s

theorem homWork_congr {env : User V I U} {sk sk' : U → I → Bool} (n : Nat)
    (hF : ∀ u o v, o.All P → (env.indF u o v).All P) (hH : ∀ u o v, o.All P → (env.indH u o v).All P)
    {h : Hom V I U} (hh : h.All P) {o : OB I} (ho : o.All P) (x : SDD V) :
    homWork (env.withSkip sk) C dd n rec h o x = homWork (env.withSkip sk') C dd n rec' h o x := by
  have hfun : ∀ {h : Hom V I U} {o : OB I}, h.All P → o.All P → rec h o = rec' h o := fun h1 h2 => funext fun x => hr _ _ x h1 h2
  cases h with
  | id => rfl
  | comp l r =>
    simp only [homWork]
    rw [hfun (fun o h => hh o (.compR h)) ho, hfun (fun o h => hh o (.compL h)) ho]
  | consF o' v h =>
    simp only [homWork]
    cases o' with
    | nil => rfl
    | node id' nst' nxt' =>
      have := hh (.node id' nst' nxt') .consFO
      simp only
      rw [hfun (fun o h => hh o (.consF h)) this.nxt]
  | consH o' v h =>
    simp only [homWork]
    cases o' with
    | nil => rfl
    | node id' nst' nxt' =>
      have := hh (.node id' nst' nxt') .consHO
      simp only
      rw [hfun (fun o h => hh o (.consH h)) this.nxt]
  | const s => rfl
  | fix h =>
    simp only [homWork]
    rw [hfun (fun o h => hh o (.fix h)) ho]
  | fn y u => rfl
  | ite i t e =>
    simp only [homWork]
    rw [hfun (fun o h => hh o (.iteI h)) ho, hfun (fun o h => hh o (.iteT h)) ho, hfun (fun o h => hh o (.iteE h)) ho]
  | ind u =>
    cases x with
    | zero => rfl
    | one => rfl
    | flat y arcs =>
      cases o with
      | nil => rfl
      | node id nst nxt =>
        simp only [homWork, User.withSkip]
        have : ∀ v, rec (env.indF u (.node id nst nxt) v) nxt = rec' (env.indF u (.node id nst nxt) v) nxt :=
          fun v => hfun (hF u _ v ho) ho.nxt
        simp only [this]
    | hier y arcs =>
      cases o with
      | nil => rfl
      | node id nst nxt =>
        simp only [homWork, User.withSkip]
        have : ∀ v, rec (env.indH u (.node id nst nxt) v) nxt = rec' (env.indH u (.node id nst nxt) v) nxt :=
          fun v => hfun (hH u _ v ho) ho.nxt
        simp only [this]
  | inter hs => exact applyInter_congr hr ho x (fun g hg o h => hh o (.inter hg h)) []
  | loc y h =>
    cases x with
    | zero => rfl
    | one => rfl
    | flat => rfl
    | hier y arcs =>
      cases o with
      | nil => rfl
      | node id nst nxt =>
        simp only [homWork, selector_congr]
        rw [hfun (fun o h => hh o (.loc h)) ho.nst]
  | satFix y F G L =>
    simp only [homWork]
    congr 1
    funext s
    unfold satRound
    rw [hfun (fun o h => hh o (.satFixF h)) ho, hfun (fun o h => hh o (.satFixL h)) ho]
    congr 1
    funext s
    congr 1
    funext s
    exact chain_congr hr ho (fun g hg o h => hh o (.satFixG hg h)) s
  | satInter y F G L =>
    simp only [homWork]
    rw [applyAll_congr hr ho x fun g hg o h => hh o (.satInter hg h)]
  | satSum y F G L =>
    simp only [homWork]
    rw [applyAll_congr hr ho x fun g hg o h => hh o (.satSum hg h)]
  | sum hs =>
    simp only [homWork]
    rw [applyAll_congr hr ho x fun g hg o h => hh o (.sum hg h)]

theorem homEval_congr {env : User V I U} {sk sk' : U → I → Bool} (hs : ∀ u i, P i → sk u i.user = sk' u i.user) (n : Nat)
    (hF : ∀ u o v, o.All P → (env.indF u o v).All P) (hH : ∀ u o v, o.All P → (env.indH u o v).All P)
    {h : Hom V I U} (hh : h.All P) {o : OB I} (ho : o.All P) (x : SDD V) :
    homEval (env.withSkip sk) C dd n rec h o x = homEval (env.withSkip sk') C dd n rec' h o x := by
  have hw := homWork_congr (C := C) (dd := dd) (sk := sk) (sk' := sk') hr n hF hH hh ho
  cases x with
  | zero => rfl
  | one =>
    cases o <;> exact hw _
  | flat y arcs =>
    cases o with
    | nil => rfl
    | node id nst nxt =>
      have h1 : rec h nxt = rec' h nxt := funext fun x => hr _ _ x hh ho.nxt
      simp only [homEval]
      rw [skip_congr (fun u => hs u id ho.id), h1, hw]
  | hier y arcs =>
    cases o with
    | nil => rfl
    | node id nst nxt =>
      have h1 : rec h nxt = rec' h nxt := funext fun x => hr _ _ x hh ho.nxt
      simp only [homEval]
      rw [skip_congr (fun u => hs u id ho.id), h1, hw]

omit hr in
theorem homCache_congr {orc : Nat → Nat → List Nat} {cap : Nat} {f f' : Hom V I U → OB I → SDD V → HM orc V I U (SDD V)} {h : Hom V I U}
    {o : OB I} {x : SDD V} {s : HMach V I U} (he : f h o x s = f' h o x s) : homCache cap f h o x s = homCache cap f' h o x s := by
  unfold homCache
  rw [he]

omit hr in
theorem apply_congr {L : Lib V E I U} {sk sk' : U → I → Bool} (hs : ∀ u i, P i → sk u i.user = sk' u i.user)
    (hF : ∀ u o v, o.All P → (L.env.indF u o v).All P) (hH : ∀ u o v, o.All P → (L.env.indH u o v).All P) :
    ∀ (n : Nat) {h : Hom V I U}, h.All P → ∀ {o : OB I}, o.All P → ∀ (x : SDD V) (s : HMach V I U),
      (L.withSkip sk).apply n h o x s = (L.withSkip sk').apply n h o x s := by
  intro n
  induction n with
  | zero => intros; rfl
  | succ n ih =>
    intro h hh o ho x s
    unfold Lib.apply homC at ih ⊢
    rw [runH, runH]
    split
    · rfl
    · have he := homEval_congr (m := HM L.orc V I U) (C := L.C) (dd := fun op => HM.lift (autoRun (runC L.C L.orc L.cap) op))
        (rec := runH (L.withSkip sk).env L.C (fun op => HM.lift (autoRun (runC L.C L.orc L.cap) op)) (homCache L.hcap) n)
        (rec' := runH (L.withSkip sk').env L.C (fun op => HM.lift (autoRun (runC L.C L.orc L.cap) op)) (homCache L.hcap) n)
        (fun h o x h1 h2 => funext fun s => ih h1 h2 x s) hs n hF hH hh ho x
      exact homCache_congr (congrFun he s)

end

end Verif
