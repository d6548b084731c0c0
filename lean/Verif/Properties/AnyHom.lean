import Verif.Properties.Hom
import Verif.Hom.CompFit
import Verif.Hom.RewriteInter
/-!
# Compositions, rewritings and choices of all homomorphisms

C36, C41 and, for equal branches, C39 are about homomorphisms made of additive parts. Here, those made of any user's functions and of any intersections.
-/

set_option autoImplicit false
set_option linter.unusedSectionVars false

namespace Verif

/-! ## An example -/

namespace DemoAny

/-- Functions of the user. (An example.) -/
inductive DU : Type where
  | a
  | b
  | c
  | d
  | e
  | g
  deriving DecidableEq

/-- `c` gives 5 and 6 for 1, 6 for 2, 1 for 7; `a` gives 7 for 5 and 8 for 6; `b` gives 8 for 5 and 7 for 6. They are path by path;
`d` and `e` are not: `d`, which is a selector, keeps the sets of several values, `e` is `c` and also gives 7 for 5 and 6 together. `g` is a
selector, which keeps 1. (An example.) -/
def env : User NSet Nat DU where
  fn u v := match u with
    | .a => ns (v.data.flatMap fun n => if n = 5 then [7] else if n = 6 then [8] else [])
    | .b => ns (v.data.flatMap fun n => if n = 5 then [8] else if n = 6 then [7] else [])
    | .c => ns (v.data.flatMap fun n => if n = 1 then [5, 6] else if n = 2 then [6] else if n = 7 then [1] else [])
    | .d => if v.data.length < 2 then ns [] else v
    | .e => ns ((v.data.flatMap fun n => if n = 1 then [5, 6] else if n = 2 then [6] else []) ++ if 5 ∈ v.data ∧ 6 ∈ v.data then [7] else [])
    | .g => ns (v.data.filter fun n => n = 1)
  fnSel u := decide (u = .d ∨ u = .g)
  fnShift _ := false
  indOne _ := .one
  indF _ _ _ := .id
  indH _ _ _ := .id
  indSkip _ _ := false
  indSel _ := false

/-- A library with small caches. (An example.) -/
def L : Lib NSet Nat Nat DU := ⟨env, natCfg none, fun k n => [k + n, 1], fun _ => 2, 2⟩

/-- An order: the level 0 contains the level 1, the level 2 is flat. (An example.) -/
def o : OB Nat := .node (OB.uid 0) (.node (OB.uid 1) .nil .nil) (.node (OB.uid 2) .nil .nil)

/-- A new manager. (An example.) -/
def s0 : HMach NSet Nat DU := ⟨⟨fun _ => [], 0⟩, []⟩

/-- One flat level. (An example.) -/
def f (l : List Nat) : SDD NSet := .flat 0 [(ns l, .one)]

/-- An operand: 1 with 10, 2 with 20. (An example.) -/
def x : SDD NSet := .hier 1 [(f [1], f [10]), (f [2], f [20])]

/-- All the uses which do not involve inductives. (An example.) -/
def sc : Scope Nat DU := ⟨fun _ => True, fun _ => False⟩

theorem vmem {a : Nat} {v : NSet} : L.C.vmem a v ↔ a ∈ v.data := Iff.rfl

theorem mem_ns {a : Nat} {l : List Nat} : a ∈ (ns l).data ↔ a ∈ l := FSet.mem_ofList natLt_st' a l

theorem ok : L.OK sc where
  lawful := natCfg_lawful none
  cap _ := by simp [L]
  hcap := by simp [L]
  honest := ⟨fun u hu v b hb => by
      have hu : u = .d ∨ u = .g := by simpa [L, env] using hu
      rw [vmem] at hb ⊢
      rcases hu with rfl | rfl <;> simp only [L, env] at hb
      · split at hb
        · rw [mem_ns] at hb; cases hb
        · exact hb
      · rw [mem_ns, List.mem_filter] at hb
        exact hb.1, fun u hu => by simp [L, env] at hu, fun u hu => by simp [L, env] at hu⟩
  closed _ _ _ _ := ⟨trivial, trivial⟩
  transfer := Transfer.of_idFree fun _ h => h.elim

theorem sing : Sing L.C := ⟨⟨0⟩, fun a => ⟨ns [a], fun b => by rw [vmem, mem_ns]; simp⟩⟩

theorem dom_f {a : Nat} {l : List Nat} : Dom L.C (.flat 0 .nil) (f (a :: l)) := by
  refine .flat _ _ _ _ (by simp [Ty.flatNext]; rfl) ⟨by simp, ?_, by simp, by simp, by simp⟩ ?_
  · simp only [List.mem_singleton, forall_eq]
    exact ⟨a, vmem.2 (mem_ns.2 (by simp))⟩
  · simp only [List.mem_singleton, forall_eq]
    exact .one _ trivial

theorem dom_x : Dom L.C o.ty x := by
  refine .hier _ (.flat 0 .nil) (.flat 0 .nil) _ _ (by rfl) ⟨by simp, ?_, by simp [f], ?_, ?_⟩ ?_ ?_
  · simp only [List.mem_cons, List.not_mem_nil, or_false, forall_eq_or_imp, forall_eq]
    exact ⟨by_contra fun hc => by push Not at hc; exact absurd ((dom_f (a := 1) (l := [])).zero_iff.2 hc) (by simp [f]),
      by_contra fun hc => by push Not at hc; exact absurd ((dom_f (a := 2) (l := [])).zero_iff.2 hc) (by simp [f])⟩
  · simp only [List.pairwise_cons, List.mem_singleton, forall_eq, List.not_mem_nil, false_imp_iff, implies_true, List.Pairwise.nil, and_true]
    rintro p ⟨h1, h2⟩
    cases p with
    | flat y a q =>
      obtain ⟨_, arc, h1, h3, _⟩ := h1
      obtain ⟨_, arc', h2, h4, _⟩ := h2
      rw [List.mem_singleton] at h1 h2
      subst h1 h2
      rw [vmem, mem_ns, List.mem_singleton] at h3 h4
      omega
    | _ => simp [f, Mem] at h1
  · simp only [List.pairwise_cons, List.mem_singleton, forall_eq, List.not_mem_nil, false_imp_iff, implies_true, List.Pairwise.nil, and_true]
    decide +kernel
  · simp only [List.mem_cons, List.not_mem_nil, or_false, forall_eq_or_imp, forall_eq]
    exact ⟨dom_f, dom_f⟩
  · simp only [List.mem_cons, List.not_mem_nil, or_false, forall_eq_or_imp, forall_eq]
    exact ⟨dom_f, dom_f⟩

/-- What is returned by a new manager. -/
theorem ret {h : Hom NSet Nat DU} {o : OB Nat} {x r : SDD NSet} (n : Nat) (he : (L.apply n h o x s0).1 = .ok r) :
    L.Returns sc h o x r := ⟨_, n, .init, he⟩

/-- `function(o, 1, c)`. (An example.) -/
def hc : Hom NSet Nat DU := .loc 1 (.fn 0 DU.c)

theorem ty_fn {u : DU} : HTy env L.C sc (.node (OB.uid 1) .nil .nil) (.fn 0 u) (OB.node (OB.uid 1) .nil .nil : OB Nat).ty := .fn

theorem ty_hc : HTy env L.C sc o hc o.ty := .loc (by simp) ty_fn

theorem fnRel (u : DU) (hu : u = .a ∨ u = .b ∨ u = .c) : ∃ g : Nat → Nat → Prop, ∀ v, (∃ a, L.C.vmem a v) →
    ∀ b, L.C.vmem b (env.fn u v) ↔ ∃ a, L.C.vmem a v ∧ g a b := by
  cases u with
  | a =>
    refine ⟨fun n b => b ∈ if n = 5 then [7] else if n = 6 then [8] else [], fun v _ b => ?_⟩
    show b ∈ (ns _).data ↔ _
    rw [mem_ns, List.mem_flatMap]; exact Iff.rfl
  | b =>
    refine ⟨fun n b => b ∈ if n = 5 then [8] else if n = 6 then [7] else [], fun v _ b => ?_⟩
    show b ∈ (ns _).data ↔ _
    rw [mem_ns, List.mem_flatMap]; exact Iff.rfl
  | c =>
    refine ⟨fun n b => b ∈ if n = 1 then [5, 6] else if n = 2 then [6] else if n = 7 then [1] else [], fun v _ b => ?_⟩
    show b ∈ (ns _).data ↔ _
    rw [mem_ns, List.mem_flatMap]; exact Iff.rfl
  | d => simp at hu
  | e => simp at hu
  | g => simp at hu

/-- The order, as an object of the library. (An example.) -/
def ord : Ord Nat := match Ord.ofBuilder o with
  | .ok r => r
  | .error _ => ⟨[], none⟩

theorem ord_eq : Ord.ofBuilder o = .ok ord := rfl

theorem ad_hc : Ad env L.C sc o hc o.ty := by
  have hi : FlatAt 1 o := by simp [FlatAt, o, OB.uid]
  obtain ⟨vs, l, k, h1, h2, h3⟩ := hfunction_spec (V := NSet) (u := DU.c) (h := hc) ord_eq hi rfl
  obtain ⟨g, hg⟩ := fnRel .c (by simp)
  rw [h3]
  exact ⟨_, Rl.function h1 rfl h2 g hg⟩

theorem hc_ty {t : Ty} (h : HTy env L.C sc o hc t) : t = o.ty := by
  obtain ⟨_, _, _, he, ⟨_, _, tn, rfl, h1⟩ | ⟨hx, _⟩⟩ := h.loc_cases
  · cases he
    cases h1 with
    | fn => rfl
    | skip _ hs => simp [Hom.skip, OB.lvl, OB.level] at hs
  · cases he
    exact absurd rfl hx

variable {lt : Hom NSet Nat DU → Hom NSet Nat DU → Bool}

/-- The intersection of `a` and `b`, in the order of addresses. -/
theorem inter2 (hlt : StrictTotal lt) : hnary .inter lt id [.fn 0 DU.a, .fn 0 DU.b] = .inter [.fn 0 DU.a, .fn 0 DU.b] ∨
    hnary .inter lt id [.fn 0 DU.a, .fn 0 DU.b] = .inter [.fn 0 DU.b, .fn 0 DU.a] := by
  rcases h : lt (.fn 0 DU.b) (.fn 0 DU.a) with _ | _
  · rcases hlt.total (.fn 0 DU.a) (.fn 0 DU.b) with h' | h' | h'
    · exact Or.inl (by simp [hnary, heightAll, Hom.height, hnaryN, hvisitAll, hvisit, HAcc.add, insertBy, h, h', NAry.mk])
    · cases h'
    · rw [h] at h'; cases h'
  · exact Or.inr (by simp [hnary, heightAll, Hom.height, hnaryN, hvisitAll, hvisit, HAcc.add, insertBy, h, NAry.mk])

theorem ty_inter {hs : List (Hom NSet Nat DU)} (h : hs = [.fn 0 DU.a, .fn 0 DU.b] ∨ hs = [.fn 0 DU.b, .fn 0 DU.a]) :
    HTy env L.C sc (.node (OB.uid 1) .nil .nil) (.inter hs) (OB.node (OB.uid 1) .nil .nil : OB Nat).ty := by
  rcases h with rfl | rfl
  all_goals
    refine .inter (OB.ty_shape _) (by simp [Stop, Hom.skip, Hom.skipAll, OB.lvl, OB.level]) ?_
    simp only [List.mem_cons, List.not_mem_nil, or_false, forall_eq_or_imp, forall_eq]
    exact ⟨ty_fn, ty_fn⟩

/-- The sum of `function(o, 1, d)` and of `function(o, 2, c)`, in the order of addresses. -/
theorem sum2 (hlt : StrictTotal lt) : hnary .sum lt id [.loc 1 (.fn 0 DU.d), .fn 0 DU.c] = .sum [.loc 1 (.fn 0 DU.d), .fn 0 DU.c] ∨
    hnary .sum lt id [.loc 1 (.fn 0 DU.d), .fn 0 DU.c] = .sum [.fn 0 DU.c, .loc 1 (.fn 0 DU.d)] := by
  rcases h : lt (.loc 1 (.fn 0 DU.d)) (.fn 0 DU.c) with _ | _
  · rcases hlt.total (.loc 1 (.fn 0 DU.d)) (.fn 0 DU.c) with h' | h' | h'
    · rw [h] at h'; cases h'
    · cases h'
    · exact Or.inr (by simp [hnary, heightAll, Hom.height, hnaryN, hvisitAll, hvisit, HAcc.add, addLocal, insertBy, hloc, h, h', NAry.mk])
  · exact Or.inl (by simp [hnary, heightAll, Hom.height, hnaryN, hvisitAll, hvisit, HAcc.add, addLocal, insertBy, hloc, h, NAry.mk])

/-- Another operand. (An example.) -/
def x2 (l l' : List Nat) : SDD NSet := .hier 1 [(f l, f l')]

theorem dom_x2 {a b : Nat} {l l' : List Nat} : Dom L.C o.ty (x2 (a :: l) (b :: l')) := by
  refine .hier _ (.flat 0 .nil) (.flat 0 .nil) _ _ (by rfl) ⟨by simp, ?_, by simp [f], by simp, by simp⟩ ?_ ?_
  · simp only [List.mem_singleton, forall_eq]
    exact by_contra fun hc => by push Not at hc; exact absurd ((dom_f (a := a) (l := l)).zero_iff.2 hc) (by simp [f])
  · simpa using dom_f
  · simpa using dom_f

/-- The sum of the identity and of `function(o, 1, e)`, in the order of addresses. -/
theorem sumE (hlt : StrictTotal lt) : hnary .sum lt id [.id, .loc 1 (.fn 0 DU.e)] = .sum [.id, .loc 1 (.fn 0 DU.e)] ∨
    hnary .sum lt id [.id, .loc 1 (.fn 0 DU.e)] = .sum [.loc 1 (.fn 0 DU.e), .id] := by
  rcases h : lt (.loc 1 (.fn 0 DU.e)) .id with _ | _
  · rcases hlt.total .id (.loc 1 (.fn 0 DU.e)) with h' | h' | h'
    · exact Or.inl (by simp [hnary, heightAll, Hom.height, hnaryN, hvisitAll, hvisit, HAcc.add, addLocal, insertBy, hloc, h, h', NAry.mk])
    · cases h'
    · rw [h] at h'; cases h'
  · exact Or.inr (by simp [hnary, heightAll, Hom.height, hnaryN, hvisitAll, hvisit, HAcc.add, addLocal, insertBy, hloc, h, NAry.mk])

/-- The same sum inside the level 0. -/
theorem sumE' (hlt : StrictTotal lt) : hnary .sum lt id [.fn 0 DU.e, .id] = .sum [.id, .fn 0 DU.e] ∨
    hnary .sum lt id [.fn 0 DU.e, .id] = .sum [.fn 0 DU.e, .id] := by
  rcases h : lt .id (.fn 0 DU.e) with _ | _
  · rcases hlt.total .id (.fn 0 DU.e) with h' | h' | h'
    · rw [h] at h'; cases h'
    · cases h'
    · exact Or.inr (by simp [hnary, heightAll, Hom.height, hnaryN, hvisitAll, hvisit, HAcc.add, insertBy, h, h', NAry.mk])
  · exact Or.inl (by simp [hnary, heightAll, Hom.height, hnaryN, hvisitAll, hvisit, HAcc.add, insertBy, h, NAry.mk])

/-- The intersection of the selections of sets of several values, inside the level 0 and at the level 2, in the order of addresses. -/
theorem interD (hlt : StrictTotal lt) : hnary .inter lt id [.loc 1 (.fn 0 DU.d), .fn 0 DU.d] = .inter [.loc 1 (.fn 0 DU.d), .fn 0 DU.d] ∨
    hnary .inter lt id [.loc 1 (.fn 0 DU.d), .fn 0 DU.d] = .inter [.fn 0 DU.d, .loc 1 (.fn 0 DU.d)] := by
  rcases h : lt (.loc 1 (.fn 0 DU.d)) (.fn 0 DU.d) with _ | _
  · rcases hlt.total (.loc 1 (.fn 0 DU.d)) (.fn 0 DU.d) with h' | h' | h'
    · rw [h] at h'; cases h'
    · cases h'
    · exact Or.inr (by simp [hnary, heightAll, Hom.height, hnaryN, hvisitAll, hvisit, HAcc.add, addLocal, insertBy, hloc, h, h', NAry.mk])
  · exact Or.inl (by simp [hnary, heightAll, Hom.height, hnaryN, hvisitAll, hvisit, HAcc.add, addLocal, insertBy, hloc, h, NAry.mk])

theorem minus : Is L.C (x2 [2] [10]) fun p => Mem L.C p (x2 [1, 2] [10]) ∧ ¬ Mem L.C p (x2 [1] [10]) := by
  refine ⟨dom_x2.wf, fun p => ?_⟩
  cases p with
  | hier z n q =>
    cases n with
    | flat w a m =>
      simp only [Mem, x2, f, exists_eq_left, vmem, mem_ns, List.mem_cons, List.not_mem_nil, or_false]
      grind
    | nil => simp [Mem, x2, f]
    | hier => simp [Mem, x2, f]
  | nil => simp [Mem, x2]
  | flat => simp [Mem, x2]

end DemoAny

/-! ## C104 -/

variable {V E I U : Type} [DecidableEq V] [DecidableEq I] [DecidableEq U] {L : Lib V E I U} {sc : Scope I U}

/-- **C104.** `composition(a, b)(x)` is `a(b(x))` for all `b` which the library can build (intersections of any operands, user's functions which are not path by
path…), provided that `a` is additive.

What is missing: `a` must be additive; `C104_composition_negation` shows that it is needed. `C104_regrouped_partial` and `C36_not_regrouped` are about the other `a`. -/
theorem C104_composition_partial (hL : L.OK sc) (hsg : Sing L.C) {o : OB I} (hS : sc.S o) {a b : Hom V I U} {t : Ty}
    (hb : HTy L.env L.C sc o b o.ty) (ha : Ad L.env L.C sc o a t) {x y z r : SDD V} (hx : Dom L.C o.ty x)
    (hy : L.Returns sc b o x y) (hz : L.Returns sc a o y z) (hr : L.Returns sc (hcomp a b) o x r) : r = z := by
  have eb := hy.ev hL ⟨hS, ⟨_, hb⟩, hx⟩
  have hyd := eb.dom hb hx
  have ea := hz.ev hL (ha.use hL hsg hS hyd)
  obtain ⟨hc, hth⟩ := Then.hcomp hL.lawful a b hb (ha.rl hL.lawful hsg)
  have er := hr.ev hL ⟨hS, ⟨t, hc⟩, hx⟩
  refine canonical_ext hL.lawful (er.dom hc hx).wf (ea.dom (ha.rl hL.lawful hsg).hty hyd).wf fun p => ?_
  rw [hth x y r hx eb er p, (ha.rl hL.lawful hsg).image hyd ea]

/-- **C104.** `composition(a, b)(x)` is `a(b(x))` for all `a` and `b` which the library can build, provided that the local which is regrouped, if there is one, is additive:
the rightmost part of `a`, when it and the leftmost part of `b` are locals of the same level. Nothing is asked of the other parts.

What is missing: locals which are regrouped and not additive; `C104_composition_negation` is about one of them. -/
theorem C104_regrouped_partial (hL : L.OK sc) {o : OB I} (hS : sc.S o) {a b : Hom V I U} {t : Ty} (hb : HTy L.env L.C sc o b o.ty) (ha : HTy L.env L.C sc o a t)
    (hm : ∀ u a' b', a.right = .loc u a' → b.left = .loc u b' →
      Sing L.C ∧ ∀ t', HTy L.env L.C sc o (.loc u a') t' → Ad L.env L.C sc o (.loc u a') t')
    {x y z r : SDD V} (hx : Dom L.C o.ty x) (hy : L.Returns sc b o x y) (hz : L.Returns sc a o y z) (hr : L.Returns sc (hcomp a b) o x r) : r = z := by
  have eb := hy.ev hL ⟨hS, ⟨_, hb⟩, hx⟩
  have ea := hz.ev hL ⟨hS, ⟨_, ha⟩, eb.dom hb hx⟩
  obtain ⟨hc, hs⟩ := Seq.hcomp hL.lawful a b hb ha fun u a' b' h1 h2 t' h3 =>
    ⟨_, ((hm u a' b' h1 h2).2 t' h3).rl hL.lawful (hm u a' b' h1 h2).1⟩
  exact hs x y z r hx eb ea (hr.ev hL ⟨hS, ⟨t, hc⟩, hx⟩)

/-- **C104.** When no local is regrouped, that is unless the rightmost part of `a` and the leftmost part of `b` are locals of the same level, `composition(a, b)(x)` is `a(b(x))` for
all `a` and `b` which the library can build, and one is defined when the other is.

What is missing: locals which are regrouped. -/
theorem C104_apart_partial (hL : L.OK sc) {o : OB I} (hS : sc.S o) {a b : Hom V I U} {t : Ty} (hb : HTy L.env L.C sc o b o.ty) (ha : HTy L.env L.C sc o a t)
    (hm : ∀ u a' b', a.right = .loc u a' → b.left ≠ .loc u b') {x : SDD V} (hx : Dom L.C o.ty x) :
    (∀ y z, L.Returns sc b o x y → L.Returns sc a o y z → L.Gives sc (hcomp a b) o x z) ∧
      ∀ z, L.Returns sc (hcomp a b) o x z → ∃ y, L.Gives sc b o x y ∧ L.Gives sc a o y z := by
  obtain ⟨hc, hs⟩ := SeqIff.hcomp hL.lawful a b hb ha hm
  have hu : L.Use sc (hcomp a b) o x := ⟨hS, ⟨t, hc⟩, hx⟩
  refine ⟨fun y z hy hz => ?_, fun z hz => ?_⟩
  · have eb := hy.ev hL ⟨hS, ⟨_, hb⟩, hx⟩
    have ea := hz.ev hL ⟨hS, ⟨_, ha⟩, eb.dom hb hx⟩
    exact hu.gives hL ((hs x z hx).2 ⟨y, eb, ea⟩)
  · obtain ⟨y, eb, ea⟩ := (hs x z hx).1 (hz.ev hL hu)
    exact ⟨y, Lib.Use.gives hL ⟨hS, ⟨_, hb⟩, hx⟩ eb, Lib.Use.gives hL ⟨hS, ⟨_, ha⟩, eb.dom hb hx⟩ ea⟩

/-- **C104.** `rewrite(o, h)(x)` is `h(x)` for all sums of homomorphisms which the library can build, and one is defined when the other is: nothing is asked of the
operands when the only things to be rewritten are sums and sums in locals (`onlySums`).

What is missing: the intersections and the fixpoints which are rewritten; `C104_rewrite_negation` shows that `C41_rewrite` does not hold for those which are not
additive. -/
theorem C104_rewrite_partial (hL : L.OK sc) {lt : Hom V I U → Hom V I U → Bool} (hlt : StrictTotal lt)
    {ord : List (Nat × List (Hom V I U)) → List (Nat × List (Hom V I U))} (hord : Iterates ord) {o : OB I} {h : Hom V I U}
    (hb : Built L.env lt ord h) (hs : h.onlySums = true) {x r : SDD V} (hu : L.Use sc h o x) :
    (L.Returns sc h o x r → L.Gives sc (hrewrite L.env lt ord o h) o x r) ∧
      (L.Returns sc (hrewrite L.env lt ord o h) o x r → L.Gives sc h o x r) := by
  obtain ⟨t, ht⟩ := hu.ty
  obtain ⟨h1, h2⟩ := SameEv.hrewrite hL.lawful hL.honest hlt hord o (hb.noEmpty hlt hord) hs ht
  have hu' : L.Use sc (hrewrite L.env lt ord o h) o x := ⟨hu.order, ⟨t, h1⟩, hu.dom⟩
  exact ⟨fun hr => Lib.Use.gives hL hu' ((h2 x hu.dom r).2 (hr.ev hL hu)), fun hr => Lib.Use.gives hL hu ((h2 x hu.dom r).1 (hr.ev hL hu'))⟩

/-- **C104.** `rewrite(o, h)(x)` is `h(x)` for the homomorphisms without fixpoints whose intersections, where `rewrite` reaches them, are those of selectors
(`selInters`); the selectors may be any functions which only remove values. `C41_rewrite` asks them to be path by path.

What is missing: as for `C104_rewrite_partial`; intersections of other homomorphisms are the subject of `C38_negation`. -/
theorem C104_rewrite_selectors_partial (hL : L.OK sc) (hF : ∀ u, sc.A u → ∀ o v, (L.env.indF u o v).noFix = true)
    (hH : ∀ u, sc.A u → ∀ o v, (L.env.indH u o v).noFix = true) {lt : Hom V I U → Hom V I U → Bool} (hlt : StrictTotal lt)
    {ord : List (Nat × List (Hom V I U)) → List (Nat × List (Hom V I U))} (hord : Iterates ord) {o : OB I} {h : Hom V I U}
    (hb : Built L.env lt ord h) (hf : h.noFix = true) (hs : h.selInters L.env = true) {x r : SDD V} (hu : L.Use sc h o x) :
    (L.Returns sc h o x r → L.Gives sc (hrewrite L.env lt ord o h) o x r) ∧
      (L.Returns sc (hrewrite L.env lt ord o h) o x r → L.Gives sc h o x r) := by
  obtain ⟨t, ht⟩ := hu.ty
  obtain ⟨h1, h2⟩ := SameEv.hrewrite_inter hL.lawful hL.honest hlt hord hF hH o (hb.noEmpty hlt hord) hf hs ht
  have hu' : L.Use sc (hrewrite L.env lt ord o h) o x := ⟨hu.order, ⟨t, h1⟩, hu.dom⟩
  exact ⟨fun hr => Lib.Use.gives hL hu' ((h2 x hu.dom r).2 (hr.ev hL hu)), fun hr => Lib.Use.gives hL hu ((h2 x hu.dom r).1 (hr.ev hL hu'))⟩

/-- **C104 does not hold** for compositions whose left operand is not additive: `composition(local(x, a), local(x, c))` is regrouped in
`local(x, composition(a, c))`, and `c` may give the same value for different arcs, which a homomorphism which is not additive, here an intersection, does not see
together. -/
theorem C104_composition_negation {lt : Hom NSet Nat DemoAny.DU → Hom NSet Nat DemoAny.DU → Bool} (hlt : StrictTotal lt) :
    ∃ k y z r, hinter lt id [.fn 0 DemoAny.DU.a, .fn 0 DemoAny.DU.b] = .ok k ∧ Built DemoAny.env lt id (hloc 1 k) ∧ Built DemoAny.env lt id DemoAny.hc ∧
      Built DemoAny.env lt id (hcomp (hloc 1 k) DemoAny.hc) ∧
      DemoAny.L.Use DemoAny.sc DemoAny.hc DemoAny.o DemoAny.x ∧ DemoAny.L.Use DemoAny.sc (hloc 1 k) DemoAny.o y ∧
      DemoAny.L.Use DemoAny.sc (hcomp (hloc 1 k) DemoAny.hc) DemoAny.o DemoAny.x ∧
      DemoAny.L.Returns DemoAny.sc DemoAny.hc DemoAny.o DemoAny.x y ∧ DemoAny.L.Returns DemoAny.sc (hloc 1 k) DemoAny.o y z ∧
      DemoAny.L.Returns DemoAny.sc (hcomp (hloc 1 k) DemoAny.hc) DemoAny.o DemoAny.x r ∧ r ≠ z := by
  have hbi : ∀ g ∈ ([.fn 0 DemoAny.DU.a, .fn 0 DemoAny.DU.b] : List (Hom NSet Nat DemoAny.DU)), Built DemoAny.env lt id g := by
    simp only [List.mem_cons, List.not_mem_nil, or_false, forall_eq_or_imp, forall_eq]
    exact ⟨.fn 0 DemoAny.DU.a, .fn 0 DemoAny.DU.b⟩
  have hbk : Built DemoAny.env lt id (hloc 1 (hnary .inter lt id [.fn 0 DemoAny.DU.a, .fn 0 DemoAny.DU.b])) := .loc 1 (.inter hbi rfl)
  have hbc : Built DemoAny.env lt id DemoAny.hc := .loc 1 (.fn 0 DemoAny.DU.c)
  have hy : DemoAny.L.Returns DemoAny.sc DemoAny.hc DemoAny.o DemoAny.x
      (.hier 1 [(DemoAny.f [5], DemoAny.f [10]), (DemoAny.f [6], DemoAny.f [10, 20])]) := DemoAny.ret 50 (by decide +kernel)
  have hu : DemoAny.L.Use DemoAny.sc DemoAny.hc DemoAny.o DemoAny.x := ⟨trivial, ⟨_, DemoAny.ty_hc⟩, DemoAny.dom_x⟩
  have hyd := (hy.ev DemoAny.ok hu).dom DemoAny.ty_hc DemoAny.dom_x
  refine ⟨_, _, .zero, .hier 1 [(DemoAny.f [7, 8], DemoAny.f [10])], rfl, hbk, hbc, .comp hbk hbc, hu, ?_, ?_, hy, ?_, ?_, by simp⟩
  · refine ⟨trivial, ⟨DemoAny.o.ty, ?_⟩, hyd⟩
    rcases DemoAny.inter2 hlt with h | h <;> rw [h] <;> exact .loc (by simp) (DemoAny.ty_inter (by simp))
  · refine ⟨trivial, ⟨DemoAny.o.ty, ?_⟩, DemoAny.dom_x⟩
    rcases DemoAny.inter2 hlt with h | h <;> rw [h]
    · exact .loc (by simp) (HTy.comp_of _ DemoAny.ty_fn (DemoAny.ty_inter (Or.inl rfl)))
    · exact .loc (by simp) (HTy.comp_of _ DemoAny.ty_fn (DemoAny.ty_inter (Or.inr rfl)))
  · rcases DemoAny.inter2 hlt with h | h <;> rw [h] <;> exact DemoAny.ret 50 (by decide +kernel)
  · rcases DemoAny.inter2 hlt with h | h <;> rw [h] <;> exact DemoAny.ret 50 (by decide +kernel)

/-- **C104 does not hold** for rewritings of fixpoints which are not additive: the fixpoint of `id + local(x, e)` is rewritten in the local of a fixpoint, which is
applied to the values of each arc; the fixpoint itself meets them in other arcs after each application. -/
theorem C104_rewrite_negation {lt : Hom NSet Nat DemoAny.DU → Hom NSet Nat DemoAny.DU → Bool} (hlt : StrictTotal lt) :
    ∃ k r r', hsum lt id [.id, .loc 1 (.fn 0 DemoAny.DU.e)] = .ok k ∧ Built DemoAny.env lt id (hfix k) ∧
      DemoAny.L.Use DemoAny.sc (hfix k) DemoAny.o DemoAny.x ∧
      DemoAny.L.Use DemoAny.sc (hrewrite DemoAny.env lt id DemoAny.o (hfix k)) DemoAny.o DemoAny.x ∧
      DemoAny.L.Returns DemoAny.sc (hfix k) DemoAny.o DemoAny.x r ∧
      DemoAny.L.Returns DemoAny.sc (hrewrite DemoAny.env lt id DemoAny.o (hfix k)) DemoAny.o DemoAny.x r' ∧ r ≠ r' := by
  have hb : ∀ g ∈ ([.id, .loc 1 (.fn 0 DemoAny.DU.e)] : List (Hom NSet Nat DemoAny.DU)), Built DemoAny.env lt id g := by
    simp only [List.mem_cons, List.not_mem_nil, or_false, forall_eq_or_imp, forall_eq]
    exact ⟨.id, .loc 1 (.fn 0 DemoAny.DU.e)⟩
  have h1 : HTy DemoAny.env DemoAny.L.C DemoAny.sc DemoAny.o (.loc 1 (.fn 0 DemoAny.DU.e)) DemoAny.o.ty := .loc (by simp) DemoAny.ty_fn
  have key : hrewrite DemoAny.env lt id DemoAny.o (hfix (hnary .sum lt id [.id, .loc 1 (.fn 0 DemoAny.DU.e)])) =
      .loc 1 (.satFix 0 .id [.fn 0 DemoAny.DU.e] .id) := by
    rcases DemoAny.sumE hlt with h | h <;> rw [h] <;> rcases DemoAny.sumE' hlt with h' | h' <;>
      simp [hfix, DemoAny.o, hrewrite, hparts, Hom.skip, OB.lvl, OB.level, h', hloc, hsatFix, homSet, insertBy]
  refine ⟨_, .hier 1 [(DemoAny.f [1, 5], DemoAny.f [10]), (DemoAny.f [2], DemoAny.f [20]), (DemoAny.f [6], DemoAny.f [10, 20])],
    .hier 1 [(DemoAny.f [1, 5, 7], DemoAny.f [10]), (DemoAny.f [2], DemoAny.f [20]), (DemoAny.f [6], DemoAny.f [10, 20])], rfl,
    .fix (.sum hb rfl), ⟨trivial, ⟨DemoAny.o.ty, ?_⟩, DemoAny.dom_x⟩, ⟨trivial, ⟨DemoAny.o.ty, ?_⟩, DemoAny.dom_x⟩, ?_, ?_, ?_⟩
  · rcases DemoAny.sumE hlt with h | h <;> rw [h] <;>
      refine .fix (by simp [Stop, DemoAny.o, Hom.skip, Hom.skipAll, OB.lvl, OB.level])
        (.sum (OB.ty_shape _) (by simp [Stop, DemoAny.o, Hom.skip, Hom.skipAll, OB.lvl, OB.level]) ?_) <;>
      simp only [List.mem_cons, List.not_mem_nil, or_false, forall_eq_or_imp, forall_eq]
    · exact ⟨.id _, h1⟩
    · exact ⟨h1, .id _⟩
  · rw [key]
    refine .loc (by simp) (.satFix (by simp [Stop, Hom.skip, OB.lvl, OB.level]) (.id _) (.id _) ?_)
    simp only [List.mem_singleton, forall_eq]
    exact DemoAny.ty_fn
  · rcases DemoAny.sumE hlt with h | h <;> rw [h] <;> exact DemoAny.ret 50 (by decide +kernel)
  · rw [key]; exact DemoAny.ret 50 (by decide +kernel)
  · decide +kernel

/-- A composition whose right operand is an intersection which is not additive. -/
example {lt : Hom NSet Nat DemoAny.DU → Hom NSet Nat DemoAny.DU → Bool} (hlt : StrictTotal lt) :
    ∃ k, hinter lt id [.fn 0 DemoAny.DU.a, .fn 0 DemoAny.DU.b] = .ok k ∧ HTy DemoAny.env DemoAny.L.C DemoAny.sc DemoAny.o (hloc 1 k) DemoAny.o.ty ∧
      Ad DemoAny.env DemoAny.L.C DemoAny.sc DemoAny.o DemoAny.hc DemoAny.o.ty ∧ ∃ x y z r, Dom DemoAny.L.C DemoAny.o.ty x ∧
      DemoAny.L.Returns DemoAny.sc (hloc 1 k) DemoAny.o x y ∧ DemoAny.L.Returns DemoAny.sc DemoAny.hc DemoAny.o y z ∧
      DemoAny.L.Returns DemoAny.sc (hcomp DemoAny.hc (hloc 1 k)) DemoAny.o x r := by
  refine ⟨_, rfl, ?_, DemoAny.ad_hc, DemoAny.x2 [5, 6] [10], DemoAny.x2 [7, 8] [10], DemoAny.x2 [1] [10], DemoAny.x2 [1] [10], DemoAny.dom_x2, ?_,
    DemoAny.ret 50 (by decide +kernel), ?_⟩
  · rcases DemoAny.inter2 hlt with h | h <;> rw [h] <;> exact .loc (by simp) (DemoAny.ty_inter (by simp))
  · rcases DemoAny.inter2 hlt with h | h <;> rw [h] <;> exact DemoAny.ret 50 (by decide +kernel)
  · rcases DemoAny.inter2 hlt with h | h <;> rw [h] <;> exact DemoAny.ret 50 (by decide +kernel)

/-- The left operand is not additive, but its part which is regrouped is. -/
example : hcomp (.comp (.fn 0 DemoAny.DU.d) DemoAny.hc) (.loc 1 (.fn 0 DemoAny.DU.d)) =
      .comp (.fn 0 DemoAny.DU.d) (.loc 1 (.comp (.fn 0 DemoAny.DU.c) (.fn 0 DemoAny.DU.d))) ∧
    HTy DemoAny.env DemoAny.L.C DemoAny.sc DemoAny.o (.loc 1 (.fn 0 DemoAny.DU.d)) DemoAny.o.ty ∧
    HTy DemoAny.env DemoAny.L.C DemoAny.sc DemoAny.o (.comp (.fn 0 DemoAny.DU.d) DemoAny.hc) DemoAny.o.ty ∧
    (∀ u a' b', (Hom.comp (.fn 0 DemoAny.DU.d) DemoAny.hc).right = .loc u a' → (Hom.loc 1 (.fn 0 DemoAny.DU.d) : Hom NSet Nat DemoAny.DU).left = .loc u b' →
      Sing DemoAny.L.C ∧ ∀ t', HTy DemoAny.env DemoAny.L.C DemoAny.sc DemoAny.o (.loc u a') t' → Ad DemoAny.env DemoAny.L.C DemoAny.sc DemoAny.o (.loc u a') t') ∧
    DemoAny.L.Returns DemoAny.sc (.loc 1 (.fn 0 DemoAny.DU.d)) DemoAny.o (DemoAny.x2 [1, 2] [10, 20]) (DemoAny.x2 [1, 2] [10, 20]) ∧
    DemoAny.L.Returns DemoAny.sc (.comp (.fn 0 DemoAny.DU.d) DemoAny.hc) DemoAny.o (DemoAny.x2 [1, 2] [10, 20]) (DemoAny.x2 [5, 6] [10, 20]) ∧
    DemoAny.L.Returns DemoAny.sc (hcomp (.comp (.fn 0 DemoAny.DU.d) DemoAny.hc) (.loc 1 (.fn 0 DemoAny.DU.d))) DemoAny.o (DemoAny.x2 [1, 2] [10, 20])
      (DemoAny.x2 [5, 6] [10, 20]) := by
  refine ⟨by decide +kernel, .loc (by simp) DemoAny.ty_fn, HTy.comp_of _ DemoAny.ty_hc ?_, fun u a' b' h1 _ => ⟨DemoAny.sing, fun t' h => ?_⟩,
    DemoAny.ret 50 (by decide +kernel), DemoAny.ret 50 (by decide +kernel), DemoAny.ret 50 (by decide +kernel)⟩
  · exact .skip (nst := .node (OB.uid 1) .nil .nil) (nxt := .node (OB.uid 2) .nil .nil) (by simp) (by decide +kernel) .fn
  · rw [← h1] at h ⊢
    rw [DemoAny.hc_ty h]
    exact DemoAny.ad_hc

/-- No part is additive and no local is regrouped. -/
example : hcomp (V := NSet) (I := Nat) (.comp (.loc 1 (.fn 0 DemoAny.DU.e)) (.fn 0 DemoAny.DU.d)) (.loc 1 (.fn 0 DemoAny.DU.d)) =
      .comp (.loc 1 (.fn 0 DemoAny.DU.e)) (.comp (.fn 0 DemoAny.DU.d) (.loc 1 (.fn 0 DemoAny.DU.d))) ∧
    HTy DemoAny.env DemoAny.L.C DemoAny.sc DemoAny.o (.loc 1 (.fn 0 DemoAny.DU.d)) DemoAny.o.ty ∧
    HTy DemoAny.env DemoAny.L.C DemoAny.sc DemoAny.o (.comp (.loc 1 (.fn 0 DemoAny.DU.e)) (.fn 0 DemoAny.DU.d)) DemoAny.o.ty ∧
    (∀ u a' b', (Hom.comp (.loc 1 (.fn 0 DemoAny.DU.e)) (.fn 0 DemoAny.DU.d) : Hom NSet Nat DemoAny.DU).right = .loc u a' →
      (Hom.loc 1 (.fn 0 DemoAny.DU.d) : Hom NSet Nat DemoAny.DU).left ≠ .loc u b') ∧
    DemoAny.L.Returns DemoAny.sc (.loc 1 (.fn 0 DemoAny.DU.d)) DemoAny.o (DemoAny.x2 [1, 2] [10, 20]) (DemoAny.x2 [1, 2] [10, 20]) ∧
    DemoAny.L.Returns DemoAny.sc (.comp (.loc 1 (.fn 0 DemoAny.DU.e)) (.fn 0 DemoAny.DU.d)) DemoAny.o (DemoAny.x2 [1, 2] [10, 20]) (DemoAny.x2 [5, 6] [10, 20]) ∧
    DemoAny.L.Returns DemoAny.sc (hcomp (.comp (.loc 1 (.fn 0 DemoAny.DU.e)) (.fn 0 DemoAny.DU.d)) (.loc 1 (.fn 0 DemoAny.DU.d))) DemoAny.o
      (DemoAny.x2 [1, 2] [10, 20]) (DemoAny.x2 [5, 6] [10, 20]) := by
  refine ⟨by decide +kernel, .loc (by simp) DemoAny.ty_fn, HTy.comp_of _ ?_ (.loc (by simp) DemoAny.ty_fn), fun u a' b' h1 => ?_,
    DemoAny.ret 50 (by decide +kernel), DemoAny.ret 50 (by decide +kernel), DemoAny.ret 50 (by decide +kernel)⟩
  · exact .skip (nst := .node (OB.uid 1) .nil .nil) (nxt := .node (OB.uid 2) .nil .nil) (by simp) (by decide +kernel) .fn
  · cases h1

/-- A sum with an operand which is not additive is rewritten to another homomorphism. -/
example {lt : Hom NSet Nat DemoAny.DU → Hom NSet Nat DemoAny.DU → Bool} (hlt : StrictTotal lt) :
    ∃ k, hsum lt id [.loc 1 (.fn 0 DemoAny.DU.d), .fn 0 DemoAny.DU.c] = .ok k ∧ Built DemoAny.env lt id k ∧ k.onlySums = true ∧
      hrewrite DemoAny.env lt id DemoAny.o k ≠ k ∧ DemoAny.L.Use DemoAny.sc k DemoAny.o (DemoAny.x2 [1, 2] [1]) ∧
      DemoAny.L.Returns DemoAny.sc k DemoAny.o (DemoAny.x2 [1, 2] [1]) (DemoAny.x2 [1, 2] [1, 5, 6]) := by
  have hb : ∀ g ∈ ([.loc 1 (.fn 0 DemoAny.DU.d), .fn 0 DemoAny.DU.c] : List (Hom NSet Nat DemoAny.DU)), Built DemoAny.env lt id g := by
    simp only [List.mem_cons, List.not_mem_nil, or_false, forall_eq_or_imp, forall_eq]
    exact ⟨.loc 1 (.fn 0 DemoAny.DU.d), .fn 0 DemoAny.DU.c⟩
  have h1 : HTy DemoAny.env DemoAny.L.C DemoAny.sc DemoAny.o (.loc 1 (.fn 0 DemoAny.DU.d)) DemoAny.o.ty := .loc (by simp) DemoAny.ty_fn
  have h2 : HTy DemoAny.env DemoAny.L.C DemoAny.sc DemoAny.o (.fn 0 DemoAny.DU.c) DemoAny.o.ty :=
    .skip (nst := .node (OB.uid 1) .nil .nil) (nxt := .node (OB.uid 2) .nil .nil) (by simp) (by decide +kernel) .fn
  refine ⟨_, rfl, .sum hb rfl, ?_, ?_, ⟨trivial, ⟨DemoAny.o.ty, ?_⟩, DemoAny.dom_x2⟩, ?_⟩
  · rcases DemoAny.sum2 hlt with h | h <;> rw [h] <;> decide +kernel
  · rcases DemoAny.sum2 hlt with h | h <;> rw [h] <;>
      simp [DemoAny.o, hrewrite, hparts, Hom.skip, OB.lvl, OB.level, hsatSum]
  · rcases DemoAny.sum2 hlt with h | h <;> rw [h] <;> refine .sum (OB.ty_shape _) (by simp [Stop, DemoAny.o, Hom.skip, Hom.skipAll, OB.lvl, OB.level]) ?_ <;>
      simp only [List.mem_cons, List.not_mem_nil, or_false, forall_eq_or_imp, forall_eq]
    · exact ⟨h1, h2⟩
    · exact ⟨h2, h1⟩
  · rcases DemoAny.sum2 hlt with h | h <;> rw [h] <;> exact DemoAny.ret 50 (by decide +kernel)

/-- An intersection of selectors which are not additive is rewritten to another homomorphism. -/
example {lt : Hom NSet Nat DemoAny.DU → Hom NSet Nat DemoAny.DU → Bool} (hlt : StrictTotal lt) :
    ∃ k, hinter lt id [.loc 1 (.fn 0 DemoAny.DU.d), .fn 0 DemoAny.DU.d] = .ok k ∧ Built DemoAny.env lt id k ∧ k.noFix = true ∧ k.selInters DemoAny.env = true ∧
      hrewrite DemoAny.env lt id DemoAny.o k ≠ k ∧ DemoAny.L.Use DemoAny.sc k DemoAny.o (DemoAny.x2 [1, 2] [1, 2]) ∧
      DemoAny.L.Returns DemoAny.sc k DemoAny.o (DemoAny.x2 [1, 2] [1, 2]) (DemoAny.x2 [1, 2] [1, 2]) ∧
      DemoAny.L.Returns DemoAny.sc k DemoAny.o (DemoAny.x2 [1, 2] [1]) .zero := by
  have hb : ∀ g ∈ ([.loc 1 (.fn 0 DemoAny.DU.d), .fn 0 DemoAny.DU.d] : List (Hom NSet Nat DemoAny.DU)), Built DemoAny.env lt id g := by
    simp only [List.mem_cons, List.not_mem_nil, or_false, forall_eq_or_imp, forall_eq]
    exact ⟨.loc 1 (.fn 0 DemoAny.DU.d), .fn 0 DemoAny.DU.d⟩
  have h1 : HTy DemoAny.env DemoAny.L.C DemoAny.sc DemoAny.o (.loc 1 (.fn 0 DemoAny.DU.d)) DemoAny.o.ty := .loc (by simp) DemoAny.ty_fn
  have h2 : HTy DemoAny.env DemoAny.L.C DemoAny.sc DemoAny.o (.fn 0 DemoAny.DU.d) DemoAny.o.ty :=
    .skip (nst := .node (OB.uid 1) .nil .nil) (nxt := .node (OB.uid 2) .nil .nil) (by simp) (by decide +kernel) .fn
  refine ⟨_, rfl, .inter hb rfl, ?_, ?_, ?_, ⟨trivial, ⟨DemoAny.o.ty, ?_⟩, DemoAny.dom_x2⟩, ?_, ?_⟩
  · rcases DemoAny.interD hlt with h | h <;> rw [h] <;> decide +kernel
  · rcases DemoAny.interD hlt with h | h <;> rw [h] <;> decide +kernel
  · rcases DemoAny.interD hlt with h | h <;> rw [h] <;>
      simp [DemoAny.o, hrewrite, hparts, Hom.skip, OB.lvl, OB.level, hsatInter]
  · rcases DemoAny.interD hlt with h | h <;> rw [h] <;> refine .inter (OB.ty_shape _) (by simp [Stop, DemoAny.o, Hom.skip, Hom.skipAll, OB.lvl, OB.level]) ?_ <;>
      simp only [List.mem_cons, List.not_mem_nil, or_false, forall_eq_or_imp, forall_eq]
    · exact ⟨h1, h2⟩
    · exact ⟨h2, h1⟩
  · rcases DemoAny.interD hlt with h | h <;> rw [h] <;> exact DemoAny.ret 50 (by decide +kernel)
  · rcases DemoAny.interD hlt with h | h <;> rw [h] <;> exact DemoAny.ret 50 (by decide +kernel)

/-! ## C105: choices -/

/-- **C105.** `if_then_else(p, a, b)(x)` is the sum of `a(p(x))` and of `b(x - p(x))` for all branches which the library can build, additive or not, if these are different or if
the predicate keeps all the paths of the operand or none: `y` is `p(x)`, `d` is `x - y`.

What is missing: two branches which are the same homomorphism, when the predicate keeps some paths only; `C105_negation` shows that they must then be additive, and
`C39_if_then_else` is about these. -/
theorem C105_branches_partial (hL : L.OK sc) {o : OB I} (hS : sc.S o) {i a b k : Hom V I U} (hk : hite L.env i a b = .ok k) {t : Ty}
    (hi : HTy L.env L.C sc o i o.ty) (ha : HTy L.env L.C sc o a t) (hb : HTy L.env L.C sc o b t) {x y d ra rb : SDD V} (hab : a ≠ b ∨ y = x ∨ y = .zero)
    (hx : Dom L.C o.ty x) (hy : L.Returns sc i o x y) (hd : Is L.C d fun p => Mem L.C p x ∧ ¬ Mem L.C p y) (hra : L.Returns sc a o y ra)
    (hrb : L.Returns sc b o d rb) : ∃ r, L.Gives sc k o x r ∧ Is L.C r fun p => Mem L.C p ra ∨ Mem L.C p rb := by
  by_cases hne : a = b
  · subst hne
    have hka : k = a := by
      simp only [hite] at hk
      split at hk
      · cases hk
      · split at hk
        · cases hk; rfl
        · simpa using hk.symm
    subst hka
    have hyd := (hy.ev hL ⟨hS, ⟨_, hi⟩, hx⟩).dom hi hx
    have hdd : Dom L.C o.ty d := by
      obtain ⟨n, hn⟩ := hd.1
      exact hn.of_pty o.ty fun p hp => hx.pty p ((hd.2 p).1 hp).1
    have ea := hra.ev hL ⟨hS, ⟨_, ha⟩, hyd⟩
    have eb := hrb.ev hL ⟨hS, ⟨_, hb⟩, hdd⟩
    rcases hab with h | rfl | rfl
    · exact absurd rfl h
    · cases hd.eq_zero fun p hp => hp.2 hp.1
      cases eb.of_zero
      exact ⟨ra, Lib.Use.gives hL ⟨hS, ⟨t, ha⟩, hx⟩ ea, (ea.dom ha hyd).wf, fun p => (or_iff_left (not_mem_zero p)).symm⟩
    · cases canonical_ext hL.lawful hdd.wf hx.wf fun p => (hd.2 p).trans (and_iff_left (not_mem_zero p))
      cases ea.of_zero
      exact ⟨rb, Lib.Use.gives hL ⟨hS, ⟨t, hb⟩, hx⟩ eb, (eb.dom hb hdd).wf, fun p => (or_iff_right (not_mem_zero p)).symm⟩
  · exact (C39_if_then_else hL hS hk hi ha hb (fun h => absurd h hne) hx hy hd hra hrb).2 hne

/-- **C105.** Conversely, when `if_then_else(p, a, b)(x)` returns, so do `p(x)`, `a(p(x))` and `b(x - p(x))`, and the result is the sum of the last two.

What is missing: two branches which are the same homomorphism, since the predicate is not evaluated. -/
theorem C105_defined_partial (hL : L.OK sc) {o : OB I} (hS : sc.S o) {i a b k : Hom V I U} (hk : hite L.env i a b = .ok k) {t : Ty}
    (hi : HTy L.env L.C sc o i o.ty) (ha : HTy L.env L.C sc o a t) (hb : HTy L.env L.C sc o b t) (hab : a ≠ b) {x r : SDD V} (hx : Dom L.C o.ty x)
    (hr : L.Returns sc k o x r) : ∃ y d ra rb, L.Gives sc i o x y ∧ (Is L.C d fun p => Mem L.C p x ∧ ¬ Mem L.C p y) ∧ L.Gives sc a o y ra ∧
      L.Gives sc b o d rb ∧ Is L.C r fun p => Mem L.C p ra ∨ Mem L.C p rb := by
  have hkt := HTy.hite_of hk hi ha hb
  have er := hr.ev hL ⟨hS, ⟨t, hkt⟩, hx⟩
  have hsel : i.selector L.env = true := by
    by_contra hc
    simp only [Bool.not_eq_true] at hc
    simp [hite, hc] at hk
  obtain ⟨y, d, ra, rb, ey, hd, ea, eb, hr'⟩ : ∃ y d ra rb, Ev L.env L.C i o x y ∧ (Is L.C d fun p => Mem L.C p x ∧ ¬ Mem L.C p y) ∧
      Ev L.env L.C a o y ra ∧ Ev L.env L.C b o d rb ∧ Is L.C r fun p => Mem L.C p ra ∨ Mem L.C p rb := by
    simp only [hite, hsel, Bool.true_eq_false, if_false, hab] at hk
    split at hk
    · rename_i h; subst h; cases hk
      exact ⟨x, .zero, r, .zero, .id _ _, ⟨(Dom.zero (C := L.C) o.ty).wf, fun p => ⟨fun h => absurd h (not_mem_zero p), fun h => absurd h.1 h.2⟩⟩, er, .zero _ _,
        (er.dom ha hx).wf, fun p => (or_iff_left (not_mem_zero p)).symm⟩
    · cases hk
      exact (Ev.ite_iff hL.lawful hsel o hi ha hb hx).1 er
  have hdd : Dom L.C o.ty d := by
    obtain ⟨n, hn⟩ := hd.1
    exact hn.of_pty o.ty fun p hp => hx.pty p ((hd.2 p).1 hp).1
  exact ⟨y, d, ra, rb, Lib.Use.gives hL ⟨hS, ⟨_, hi⟩, hx⟩ ey, hd, Lib.Use.gives hL ⟨hS, ⟨t, ha⟩, ey.dom hi hx⟩ ea, Lib.Use.gives hL ⟨hS, ⟨t, hb⟩, hdd⟩ eb, hr'⟩

/-- **C105 does not hold** for two branches which are the same homomorphism: the library then returns this homomorphism, which is applied to the operand as a whole. -/
theorem C105_negation : ∃ k y d ra rb r, hite DemoAny.env (.loc 1 (.fn 0 DemoAny.DU.g)) (.loc 1 (.fn 0 DemoAny.DU.d)) (.loc 1 (.fn 0 DemoAny.DU.d)) = .ok k ∧
    DemoAny.L.Use DemoAny.sc (.loc 1 (.fn 0 DemoAny.DU.g)) DemoAny.o (DemoAny.x2 [1, 2] [10]) ∧
    DemoAny.L.Use DemoAny.sc k DemoAny.o (DemoAny.x2 [1, 2] [10]) ∧
    DemoAny.L.Returns DemoAny.sc (.loc 1 (.fn 0 DemoAny.DU.g)) DemoAny.o (DemoAny.x2 [1, 2] [10]) y ∧
    (Is DemoAny.L.C d fun p => Mem DemoAny.L.C p (DemoAny.x2 [1, 2] [10]) ∧ ¬ Mem DemoAny.L.C p y) ∧
    DemoAny.L.Returns DemoAny.sc (.loc 1 (.fn 0 DemoAny.DU.d)) DemoAny.o y ra ∧ DemoAny.L.Returns DemoAny.sc (.loc 1 (.fn 0 DemoAny.DU.d)) DemoAny.o d rb ∧
    DemoAny.L.Returns DemoAny.sc k DemoAny.o (DemoAny.x2 [1, 2] [10]) r ∧ ¬ Is DemoAny.L.C r fun p => Mem DemoAny.L.C p ra ∨ Mem DemoAny.L.C p rb := by
  refine ⟨.loc 1 (.fn 0 DemoAny.DU.d), DemoAny.x2 [1] [10], DemoAny.x2 [2] [10], .zero, .zero, DemoAny.x2 [1, 2] [10], by decide +kernel,
    ⟨trivial, ⟨DemoAny.o.ty, .loc (by simp) DemoAny.ty_fn⟩, DemoAny.dom_x2⟩, ⟨trivial, ⟨DemoAny.o.ty, .loc (by simp) DemoAny.ty_fn⟩, DemoAny.dom_x2⟩,
    DemoAny.ret 50 (by decide +kernel), DemoAny.minus, DemoAny.ret 50 (by decide +kernel), DemoAny.ret 50 (by decide +kernel),
    DemoAny.ret 50 (by decide +kernel), fun h => ?_⟩
  have := Is.eq_zero h fun p hp => hp.elim (not_mem_zero p) (not_mem_zero p)
  simp [DemoAny.x2] at this

/-- A choice between two homomorphisms one of which is not additive. -/
example : hite DemoAny.env (.loc 1 (.fn 0 DemoAny.DU.g)) DemoAny.hc (.loc 1 (.fn 0 DemoAny.DU.d)) =
      .ok (.ite (.loc 1 (.fn 0 DemoAny.DU.g)) DemoAny.hc (.loc 1 (.fn 0 DemoAny.DU.d))) ∧
    (∀ h ∈ [.loc 1 (.fn 0 DemoAny.DU.g), DemoAny.hc, .loc 1 (.fn 0 DemoAny.DU.d)], HTy DemoAny.env DemoAny.L.C DemoAny.sc DemoAny.o h DemoAny.o.ty) ∧
    DemoAny.L.Returns DemoAny.sc (.loc 1 (.fn 0 DemoAny.DU.g)) DemoAny.o (DemoAny.x2 [1, 2] [10]) (DemoAny.x2 [1] [10]) ∧
    (Is DemoAny.L.C (DemoAny.x2 [2] [10]) fun p => Mem DemoAny.L.C p (DemoAny.x2 [1, 2] [10]) ∧ ¬ Mem DemoAny.L.C p (DemoAny.x2 [1] [10])) ∧
    DemoAny.L.Returns DemoAny.sc DemoAny.hc DemoAny.o (DemoAny.x2 [1] [10]) (DemoAny.x2 [5, 6] [10]) ∧
    DemoAny.L.Returns DemoAny.sc (.loc 1 (.fn 0 DemoAny.DU.d)) DemoAny.o (DemoAny.x2 [2] [10]) .zero ∧
    DemoAny.L.Returns DemoAny.sc (.ite (.loc 1 (.fn 0 DemoAny.DU.g)) DemoAny.hc (.loc 1 (.fn 0 DemoAny.DU.d))) DemoAny.o (DemoAny.x2 [1, 2] [10])
      (DemoAny.x2 [5, 6] [10]) := by
  refine ⟨by decide +kernel, fun h hh => ?_, DemoAny.ret 50 (by decide +kernel), DemoAny.minus, DemoAny.ret 50 (by decide +kernel), DemoAny.ret 50 (by decide +kernel),
    DemoAny.ret 50 (by decide +kernel)⟩
  simp only [List.mem_cons, List.not_mem_nil, or_false] at hh
  rcases hh with rfl | rfl | rfl
  · exact .loc (by simp) DemoAny.ty_fn
  · exact DemoAny.ty_hc
  · exact .loc (by simp) DemoAny.ty_fn

/-- Two branches which are the same homomorphism, and a predicate which keeps the operand. -/
example : hite DemoAny.env (.loc 1 (.fn 0 DemoAny.DU.d)) (.loc 1 (.fn 0 DemoAny.DU.e)) (.loc 1 (.fn 0 DemoAny.DU.e)) = .ok (.loc 1 (.fn 0 DemoAny.DU.e)) ∧
    HTy DemoAny.env DemoAny.L.C DemoAny.sc DemoAny.o (.loc 1 (.fn 0 DemoAny.DU.d)) DemoAny.o.ty ∧
    HTy DemoAny.env DemoAny.L.C DemoAny.sc DemoAny.o (.loc 1 (.fn 0 DemoAny.DU.e)) DemoAny.o.ty ∧
    DemoAny.L.Returns DemoAny.sc (.loc 1 (.fn 0 DemoAny.DU.d)) DemoAny.o (DemoAny.x2 [1, 2] [10]) (DemoAny.x2 [1, 2] [10]) ∧
    (∃ r, DemoAny.L.Returns DemoAny.sc (.loc 1 (.fn 0 DemoAny.DU.e)) DemoAny.o (DemoAny.x2 [1, 2] [10]) r ∧ r ≠ .zero) ∧ DemoAny.L.Returns DemoAny.sc (.loc 1 (.fn 0 DemoAny.DU.e)) DemoAny.o .zero .zero :=
  ⟨by decide +kernel, .loc (by simp) DemoAny.ty_fn, .loc (by simp) DemoAny.ty_fn, DemoAny.ret 50 (by decide +kernel),
    ⟨DemoAny.x2 [5, 6] [10], DemoAny.ret 50 (by decide +kernel), by simp [DemoAny.x2]⟩, DemoAny.ret 50 (by decide +kernel)⟩

end Verif
