import Verif.Hom.History
import Verif.Hom.Carrier
import Verif.Hom.Built
import Verif.Hom.InterAlone
import Verif.Hom.FixTerm
import Verif.Hom.Total
import Verif.Properties.Order
import Verif.Values.Concrete
import Mathlib.SetTheory.Cardinal.Order
/-!
# Properties of homomorphisms

`L.Returns sc h o x r`: with the library `L`, after some history of applications of homomorphisms, operations, resets of caches
(any of which may have raised or been stopped) and changes of addresses of freed nodes, the application of `h` to `x` under the order `o` returns `r`.

`Ad o h t`: `h` is made of additive user's functions and inductives (a function is additive when it maps a union to the union of the
images), its fixpoints contain the identity, its intersections are made of selectors (`HRel`); results have the shape `t`.
-/

set_option autoImplicit false
set_option linter.unusedSectionVars false

namespace Verif

variable {V E I U : Type} [DecidableEq V] [DecidableEq I] [DecidableEq U]

/-- `s` is the SDD of one path, of the order `o`. -/
def Single (C : Cfg V E) (o : OB I) (s : SDD V) (p : Path E) : Prop := Dom C o.ty s ∧ ∀ q, Mem C q s ↔ q = p

/-! ## A library for the examples -/

namespace DemoH

/-- User's functions and inductives. -/
inductive DU : Type where
  | inc
  | low
  | low2
  | named
  deriving DecidableEq

/-- `inc` increments values up to 3, `low` keeps values less than 2 and `low2` those different from 1; `named` replaces the path of a level by one which depends
on the identifier of this level. -/
def env : User NSet Nat DU where
  fn u v := match u with
    | .inc => ns (v.data.map fun a => if a < 3 then a + 1 else a)
    | .low => ns (v.data.filter (· < 2))
    | .low2 => ns (v.data.filter (· ≠ 1))
    | .named => v
  fnSel u := u == .low || u == .low2
  fnShift _ := false
  indOne _ := .one
  indF _ o _ := .const (.flat 0 [(ns [match o with | .node id _ _ => id.user | .nil => 0], .one)])
  indH _ _ _ := .id
  indSkip _ _ := false
  indSel _ := false

/-- A library with small caches. -/
def L : Lib NSet Nat Nat DU := ⟨env, natCfg none, fun k n => [k + n, 1], fun _ => 2, 2⟩

/-- An order: the level 0 contains the level 1, the level 2 contains the level 3, and the level 4 is flat. -/
def o : OB Nat := .node (OB.uid 0) (.node (OB.uid 1) .nil .nil) (.node (OB.uid 2) (.node (OB.uid 3) .nil .nil)
  (.node (OB.uid 4) .nil .nil))

/-- The same order with other identifiers. -/
def o' : OB Nat := .node (OB.uid 10) (.node (OB.uid 11) .nil .nil) (.node (OB.uid 12) (.node (OB.uid 13) .nil .nil)
  (.node (OB.uid 14) .nil .nil))

/-- A new manager. -/
def s0 : HMach NSet Nat DU := ⟨⟨fun _ => [], 0⟩, []⟩

/-- One flat level. -/
def f (l : List Nat) : SDD NSet := .flat 0 [(ns l, .one)]

/-- An operand. -/
def x : SDD NSet := .hier 2 [(f [1, 2], .hier 1 [(f [1], f [3])])]

/-- All the uses which do not involve inductives. -/
def sc : Scope Nat DU := ⟨fun _ => True, fun _ => False⟩

theorem vmem {a : Nat} {v : NSet} : L.C.vmem a v ↔ a ∈ v.data := Iff.rfl

theorem mem_ns {a : Nat} {l : List Nat} : a ∈ (ns l).data ↔ a ∈ l := FSet.mem_ofList natLt_st' a l

theorem honest : Honest env (natCfg none) where
  fnSel u hu v b hb := by
    cases u <;> simp [env] at hu
    · have : b ∈ (ns (v.data.filter (· < 2))).data := hb
      rw [mem_ns, List.mem_filter] at this
      exact this.1
    · have : b ∈ (ns (v.data.filter (· ≠ 1))).data := hb
      rw [mem_ns, List.mem_filter] at this
      exact this.1
  fnShift u hu := by simp [env] at hu
  indSel u hu := by simp [env] at hu

theorem ok : L.OK sc where
  lawful := natCfg_lawful none
  cap _ := by simp [L]
  hcap := by simp [L]
  honest := honest
  closed _ _ _ _ := ⟨trivial, trivial⟩
  transfer := Transfer.of_idFree fun _ h => h.elim

theorem sing : Sing L.C := ⟨⟨0⟩, fun a => ⟨ns [a], fun b => by rw [vmem, mem_ns]; simp⟩⟩

theorem dom_f {a : Nat} {l : List Nat} : Dom L.C (.flat 0 .nil) (f (a :: l)) := by
  refine .flat _ _ _ _ (by simp [Ty.flatNext]; rfl) ⟨by simp, ?_, by simp, by simp, by simp⟩ ?_
  · simp only [List.mem_singleton, forall_eq]
    exact ⟨a, vmem.2 (mem_ns.2 (by simp))⟩
  · simp only [List.mem_singleton, forall_eq]
    exact .one _ trivial

theorem dom_h {k : Nat} {n s : SDD NSet} {tn t : Ty} (hn : Dom L.C tn n) (hs : Dom L.C t s) (hn0 : n ≠ .zero) (hs0 : s ≠ .zero) :
    Dom L.C (.hier k tn t) (.hier k [(n, s)]) := by
  refine .hier _ tn t _ _ (by simp [Ty.hierNext]) ⟨by simp, ?_, by simpa using hs0, by simp, by simp⟩ ?_ ?_
  · simp only [List.mem_singleton, forall_eq]
    by_contra hc
    push Not at hc
    exact hn0 ((hn.zero_iff).2 hc)
  · simpa using hn
  · simpa using hs

theorem dom_x : Dom L.C o.ty x := dom_h dom_f (dom_h dom_f dom_f (by simp [f]) (by simp [f])) (by simp [f]) (by simp)

/-- The increment of the level 1, by `function(o, 1, inc)`. -/
def h1 : Hom NSet Nat DU := .loc 2 (.fn 0 .inc)
/-- The increment of the level 3. -/
def h3 : Hom NSet Nat DU := .loc 1 (.fn 0 .inc)
/-- The selection of small values at the level 1. -/
def k1 : Hom NSet Nat DU := .loc 2 (.fn 0 .low)
/-- Another selection at the level 1. -/
def j1 : Hom NSet Nat DU := .loc 2 (.fn 0 .low2)

theorem fnRel (u : DU) : ∃ g : Nat → Nat → Prop, ∀ v, (∃ a, L.C.vmem a v) →
    ∀ b, L.C.vmem b (env.fn u v) ↔ ∃ a, L.C.vmem a v ∧ g a b := by
  cases u with
  | inc =>
    refine ⟨fun a b => (if a < 3 then a + 1 else a) = b, fun v _ b => ?_⟩
    show b ∈ (ns _).data ↔ _
    rw [mem_ns, List.mem_map]
    exact exists_congr fun a => and_congr_right fun _ => Iff.rfl
  | low =>
    refine ⟨fun a b => b = a ∧ a < 2, fun v _ b => ?_⟩
    show b ∈ (ns _).data ↔ _
    rw [mem_ns, List.mem_filter]
    constructor
    · rintro ⟨h1, h2⟩; exact ⟨b, h1, rfl, by simpa using h2⟩
    · rintro ⟨a, h1, rfl, h2⟩; exact ⟨h1, by simpa using h2⟩
  | low2 =>
    refine ⟨fun a b => b = a ∧ a ≠ 1, fun v _ b => ?_⟩
    show b ∈ (ns _).data ↔ _
    rw [mem_ns, List.mem_filter]
    constructor
    · rintro ⟨h1, h2⟩; exact ⟨b, h1, rfl, by simpa using h2⟩
    · rintro ⟨a, h1, rfl, h2⟩; exact ⟨h1, by simpa using h2⟩
  | named =>
    refine ⟨fun a b => b = a, fun v _ b => ?_⟩
    constructor
    · intro h; exact ⟨b, h, rfl⟩
    · rintro ⟨a, h1, rfl⟩; exact h1

/-- The order, as an object of the library. -/
def ord : Ord Nat := match Ord.ofBuilder o with
  | .ok r => r
  | .error _ => ⟨[], none⟩

theorem ord_eq : Ord.ofBuilder o = .ok ord := rfl

/-- Functions on flat levels are additive. -/
theorem ad {i : Nat} (hi : FlatAt i o) {u : DU} {h : Hom NSet Nat DU} (hh : hfunction ord i u = some h) :
    Ad env L.C sc o h o.ty := by
  obtain ⟨vs, l, k, h1, h2, rfl⟩ := hfunction_spec ord_eq hi hh
  obtain ⟨g, hg⟩ := fnRel u
  exact ⟨_, Rl.function h1 rfl h2 g hg⟩

theorem ad_h1 : Ad env L.C sc o h1 o.ty := ad (i := 1) (u := .inc) (by simp [FlatAt, o, OB.uid]) rfl
theorem ad_h3 : Ad env L.C sc o h3 o.ty := ad (i := 3) (u := .inc) (by simp [FlatAt, o, OB.uid]) rfl
theorem ad_k1 : Ad env L.C sc o k1 o.ty := ad (i := 1) (u := .low) (by simp [FlatAt, o, OB.uid]) rfl
theorem ad_j1 : Ad env L.C sc o j1 o.ty := ad (i := 1) (u := .low2) (by simp [FlatAt, o, OB.uid]) rfl

theorem ad_h3' : Ad env L.C sc o' h3 o'.ty := by
  obtain ⟨vs, l, k, h1, h2, h3⟩ := hfunction_spec (V := NSet) (ob := o') (i := 13) (u := DU.inc) rfl (by simp [FlatAt, o', OB.uid]) rfl
  obtain ⟨g, hg⟩ := fnRel .inc
  have : Ad env L.C sc o' (vs.foldr .loc (.fn k .inc)) o'.ty := ⟨_, Rl.function h1 rfl h2 g hg⟩
  rwa [← h3] at this

/-- What is returned by a new manager. -/
theorem ret {h : Hom NSet Nat DU} {o : OB Nat} {x r : SDD NSet} (n : Nat) (he : (L.apply n h o x s0).1 = .ok r) :
    L.Returns sc h o x r := ⟨_, n, .init, he⟩

/-- Any type can be compared. -/
theorem exists_lt (α : Type) : ∃ lt : α → α → Bool, StrictTotal lt := by
  classical
  refine ⟨fun a b => decide (WellOrderingRel a b), fun a => ?_, fun a b c => ?_, fun a b => ?_⟩
  · simpa using irrefl_of WellOrderingRel a
  · simpa using fun h1 h2 => _root_.trans h1 h2
  · simpa using trichotomous_of WellOrderingRel a b

/-- The uses of the inductive `named` are allowed. -/
def scN : Scope Nat DU := ⟨fun _ => True, fun u => u = .named⟩

/-- The levels 1 and 3 have the same value. -/
def xN : SDD NSet := .hier 2 [(f [7], .hier 1 [(f [7], f [3])])]

theorem dom_xN : Dom L.C o.ty xN := dom_h dom_f (dom_h dom_f dom_f (by simp [f]) (by simp [f])) (by simp [f]) (by simp)

theorem hty_named (i : Nat) : HTy env L.C scN (.node (OB.uid i) .nil .nil) (.ind .named) (.flat 0 .nil) :=
  HTy.indF (nxt := .nil) rfl trivial rfl fun _ _ => .const (by trivial) dom_f

theorem use_named1 : L.Use scN (.loc 2 (.ind .named)) o xN :=
  ⟨trivial, ⟨_, HTy.loc (by simp) (hty_named 1)⟩, dom_xN⟩

theorem use_named3 : L.Use scN (.loc 1 (.ind .named)) o xN :=
  ⟨trivial, ⟨_, HTy.above (HTy.loc (by simp) (hty_named 3)) rfl⟩, dom_xN⟩

/-- Two arcs, the successors of which share a path. -/
def xI : SDD NSet := .hier 2 [(f [0], .hier 1 [(f [1], f [3])]), (f [1], .hier 1 [(f [1], f [3, 4])])]

theorem dom_xI : Dom L.C o.ty xI := by
  refine .hier _ (.flat 0 .nil) (.hier 1 (.flat 0 .nil) (.flat 0 .nil)) _ _ (by rfl) ⟨by simp, ?_, by simp, ?_, ?_⟩ ?_ ?_
  · simp only [List.mem_cons, List.not_mem_nil, or_false, forall_eq_or_imp, forall_eq]
    exact ⟨by_contra fun hc => by push Not at hc; exact absurd ((dom_f (a := 0) (l := [])).zero_iff.2 hc) (by simp [f]),
      by_contra fun hc => by push Not at hc; exact absurd ((dom_f (a := 1) (l := [])).zero_iff.2 hc) (by simp [f])⟩
  · simp only [List.pairwise_cons, List.mem_singleton, forall_eq, List.not_mem_nil, false_imp_iff, implies_true, List.Pairwise.nil, and_true]
    rintro p ⟨h1, h2⟩
    cases p with
    | flat y a q =>
      obtain ⟨_, arc, h1, h3, _⟩ := h1
      obtain ⟨_, arc', h2, h4, _⟩ := h2
      rw [List.mem_singleton] at h1 h2
      subst h1 h2
      rw [vmem, mem_ns, List.mem_singleton] at h3 h4
      omega
    | nil => simp [Mem, f] at h1
    | hier => simp [Mem, f] at h1
  · simp only [List.pairwise_cons, List.mem_singleton, forall_eq, List.not_mem_nil, false_imp_iff, implies_true, List.Pairwise.nil, and_true]
    rfl
  · simp only [List.mem_cons, List.not_mem_nil, or_false, forall_eq_or_imp, forall_eq]
    exact ⟨dom_f, dom_f⟩
  · simp only [List.mem_cons, List.not_mem_nil, or_false, forall_eq_or_imp, forall_eq]
    exact ⟨dom_h dom_f dom_f (by simp [f]) (by simp [f]), dom_h dom_f dom_f (by simp [f]) (by simp [f])⟩

/-- The sum of the identity and of `h1`. -/
theorem sum2 {lt : Hom NSet Nat DU → Hom NSet Nat DU → Bool} (hlt : StrictTotal lt) :
    hnary .sum lt id [.id, h1] = .sum [.id, h1] ∨ hnary .sum lt id [.id, h1] = .sum [h1, .id] := by
  rcases h : lt h1 .id with _ | _
  · rcases hlt.total .id h1 with h' | h' | h'
    · unfold h1 at h h' ⊢
      exact Or.inl (by simp [hnary, heightAll, Hom.height, hnaryN, hvisitAll, hvisit, HAcc.add, addLocal, insertBy, hloc, h, h', NAry.mk])
    · cases h'
    · rw [h] at h'; cases h'
  · unfold h1 at h ⊢
    exact Or.inr (by simp [hnary, heightAll, Hom.height, hnaryN, hvisitAll, hvisit, HAcc.add, addLocal, insertBy, hloc, h, NAry.mk])

end DemoH

variable {L : Lib V E I U} {sc : Scope I U}

theorem Ad.use (hL : L.OK sc) (hsg : Sing L.C) {o : OB I} (hS : sc.S o) {h : Hom V I U} {t : Ty} (ha : Ad L.env L.C sc o h t)
    {x : SDD V} (hx : Dom L.C o.ty x) : L.Use sc h o x := ⟨hS, ⟨t, (ha.rl hL.lawful hsg).hty⟩, hx⟩

/-! ## C17: results do not depend on the history -/

/-- **C17.** The result of an application depends neither on what was evaluated before, nor on the sizes of caches, on what they discard, on the
iteration of hash tables, nor on the presence of caches; and what was returned once is returned after any history (without limit on the number of
arcs).

What is missing: user's inductives must not use the identifiers of the order, or the orders in use of the same shape must be
equal (nested ones included); `C17_negation` shows that it is needed. -/
theorem C17_history_partial {env : User V I U} {C : Cfg V E} {orc orc' : Nat → Nat → List Nat} {cap cap' : OpKind → Nat} {hcap hcap' : Nat}
    (hC : C.Lawful) (hcp : ∀ k, 0 < cap k) (hcp' : ∀ k, 0 < cap' k) (hh : 0 < hcap) (hh' : 0 < hcap') (hon : Honest env C)
    (hcl : sc.Closed)
    (hid : (∀ u, sc.A u → IdFree env u) ∨ ∀ o o', sc.S o → sc.S o' → o.ty = o'.ty → o = o') {h : Hom V I U} {o : OB I} {x r : SDD V}
    (hu : Lib.Use ⟨env, C, orc, cap, hcap⟩ sc h o x) (hr : Lib.Returns ⟨env, C, orc, cap, hcap⟩ sc h o x r) :
    (∀ r', Lib.Returns ⟨env, C, orc', cap', hcap'⟩ sc h o x r' → r' = r) ∧
      (∀ c n r', homP env C c n h o x = .ok r' → r' = r) ∧
      (C.limit = none → ∃ N, ∀ n, N ≤ n → ∀ s, Lib.Reach sc ⟨env, C, orc', cap', hcap'⟩ s →
        (Lib.apply ⟨env, C, orc', cap', hcap'⟩ n h o x s).1 = .ok r) := by
  have htr : Transfer env C sc := hid.elim Transfer.of_idFree Transfer.of_inj
  have hL : Lib.OK ⟨env, C, orc, cap, hcap⟩ sc := ⟨hC, hcp, hh, hon, hcl, htr⟩
  have hL' : Lib.OK ⟨env, C, orc', cap', hcap'⟩ sc := ⟨hC, hcp', hh', hon, hcl, htr⟩
  have hu' : Lib.Use ⟨env, C, orc', cap', hcap'⟩ sc h o x := ⟨hu.order, hu.ty, hu.dom⟩
  have e := hr.ev hL hu
  refine ⟨fun r' hr' => (hr'.ev hL' hu').det hC e, fun c n r' hr' => ?_, fun hlim => hL'.total hlim hu' e⟩
  obtain ⟨t, ht⟩ := hu.ty
  have := runH_sat (L := plainLogic c V fun _ => True) hcl hC (Or.inr trivial) trivial hon
    (fun t ht => plain_dd hC (Or.inr trivial) t ht) plain_call n o h t x hu.order ht hu.dom
  have hr2 : runH env C (autoRun (runP C c)) (fun f => f) n h o x = .ok r' := hr'
  rw [hr2] at this
  exact Ev.det hC this e

/-- Two histories of one library: the result of `h1`. -/
example : DemoH.L.Returns DemoH.sc DemoH.h1 DemoH.o DemoH.x (.hier 2 [(DemoH.f [2, 3], .hier 1 [(DemoH.f [1], DemoH.f [3])])]) ∧
    DemoH.L.Use DemoH.sc DemoH.h1 DemoH.o DemoH.x :=
  ⟨DemoH.ret 50 rfl, DemoH.ad_h1.use DemoH.ok DemoH.sing trivial DemoH.dom_x⟩


/-- **C17 does not hold** for user's inductives which use the identifiers of the order: the cache of homomorphisms does not record the order. An inductive
which replaces the values of a level by the identifier of this level, applied to the level 3, returns another result once it was applied to the level 1. -/
theorem C17_negation : ∃ s r r', DemoH.L.Reach DemoH.scN s ∧ DemoH.L.Use DemoH.scN (.loc 1 (.ind .named)) DemoH.o DemoH.xN ∧
    (DemoH.L.apply 50 (.loc 1 (.ind .named)) DemoH.o DemoH.xN DemoH.s0).1 = .ok r ∧
    (DemoH.L.apply 50 (.loc 1 (.ind .named)) DemoH.o DemoH.xN s).1 = .ok r' ∧ r ≠ r' :=
  ⟨(DemoH.L.apply 50 (.loc 2 (.ind .named)) DemoH.o DemoH.xN DemoH.s0).2, .hier 2 [(DemoH.f [7], .hier 1 [(DemoH.f [3], DemoH.f [3])])], .hier 2 [(DemoH.f [7], .hier 1 [(DemoH.f [1], DemoH.f [3])])],
    .apply 50 .init DemoH.use_named1, DemoH.use_named3, by decide +kernel, by decide +kernel, by decide +kernel⟩

/-! ## C13: homomorphisms and addresses -/

/-- **C13**, for homomorphisms. In two libraries (for instance in two executions of a program) where nodes have different addresses, the
application of the same homomorphism to the same set of paths returns the same set of paths, whatever the histories. `Hom.Same` and `User.Same`
say that the SDDs held by the homomorphisms and given by the user's code are the same sets of paths; compositions may also be grouped
differently, `(a ∘ b) ∘ c` being the same as `a ∘ (b ∘ c)`. -/
theorem C13_homomorphisms {L' : Lib V E I U} (hL : L.OK sc) (hL' : L'.OK sc) (hv : L'.C.vmem = L.C.vmem) (hU : User.Same L.C L'.C L.env L'.env)
    (hc : L'.env.Canon L'.C) {h h' : Hom V I U} {o : OB I} {x x' r r' : SDD V} (hu : L.Use sc h o x) (hu' : L'.Use sc h' o x')
    (hh : Hom.Same L.C h h') (hx : ∀ p, Mem L.C p x ↔ Mem L.C p x') (hr : L.Returns sc h o x r) (hr' : L'.Returns sc h' o x' r') :
    ∀ p, Mem L.C p r ↔ Mem L.C p r' :=
  hr.same hL hL' hv hU hc hu hu' hh hx hr'

namespace DemoH

/-- Other addresses. -/
def ltR (a b : SDD NSet) : Bool := DemoH.L.C.lt b a

theorem ltR_st : StrictTotal ltR where
  irrefl a := ok.lawful.lt_st.irrefl a
  trans a b c h1 h2 := ok.lawful.lt_st.trans c b a h2 h1
  total a b := by
    rcases ok.lawful.lt_st.total a b with h | h | h
    · exact Or.inr (Or.inr h)
    · exact Or.inr (Or.inl h)
    · exact Or.inl h

/-- The library with other addresses. -/
def LR : Lib NSet Nat Nat DU := DemoH.L.withLt ltR env

theorem okR : LR.OK DemoH.sc where
  lawful := ok.lawful.withLt ltR_st
  cap := ok.cap
  hcap := ok.hcap
  honest := ⟨honest.fnSel, honest.fnShift, by intro u hu; simp [LR, Lib.withLt, env] at hu⟩
  closed := ok.closed
  transfer := Transfer.of_idFree fun _ h => h.elim

theorem same : User.Same DemoH.L.C LR.C env env :=
  ⟨rfl, rfl, rfl, rfl, fun _ => .refl _, fun _ _ _ => .refl _, fun _ _ _ _ _ _ _ => .id⟩

theorem canon : env.Canon LR.C where
  indOne _ := ⟨0, .one _ trivial⟩
  indF u o v s hs := by
    cases hs
    refine ⟨1, .flat _ (.any 0) _ _ rfl ⟨by simp, ?_, by simp, by simp, by simp⟩ (by simp only [List.mem_singleton, forall_eq]; exact .one _ trivial)⟩
    simp only [List.mem_singleton, forall_eq]
    exact ⟨_, vmem.2 (mem_ns.2 (List.mem_singleton.2 rfl))⟩
  indH u o v _ s hs := by cases hs

/-- The same set under the two addresses. -/
def y : SDD NSet := .flat 1 [(ns [1], f [1]), (ns [2], f [2])]
/-- The same set under the other addresses. -/
def yR : SDD NSet := .flat 1 [(ns [2], f [2]), (ns [1], f [1])]

/-- Two flat levels. -/
def o2 : OB Nat := .node (OB.uid 0) .nil (.node (OB.uid 1) .nil .nil)

theorem ns_disj {a b c : Nat} (h : a ≠ b) : ¬ (DemoH.L.C.vmem c (ns [a]) ∧ DemoH.L.C.vmem c (ns [b])) := by
  rw [vmem, vmem, mem_ns, mem_ns]
  simp only [List.mem_singleton]
  omega

theorem use_y : DemoH.L.Use DemoH.sc (.fn 1 .inc) o2 y := by
  refine ⟨trivial, ⟨_, .fn⟩, .flat _ (.flat 0 .nil) _ _ rfl ⟨by simp, ?_, by simp [f], ?_, ?_⟩ ?_⟩
  · simp only [List.mem_cons, List.not_mem_nil, or_false, forall_eq_or_imp, forall_eq]
    exact ⟨⟨1, vmem.2 (mem_ns.2 (by simp))⟩, ⟨2, vmem.2 (mem_ns.2 (by simp))⟩⟩
  · simp only [List.pairwise_cons, List.mem_singleton, forall_eq, List.not_mem_nil, false_imp_iff, implies_true, List.Pairwise.nil, and_true]
    exact fun c => ns_disj (by simp)
  · simp only [List.pairwise_cons, List.mem_singleton, forall_eq, List.not_mem_nil, false_imp_iff, implies_true, List.Pairwise.nil, and_true]
    decide +kernel
  · simp only [List.mem_cons, List.not_mem_nil, or_false, forall_eq_or_imp, forall_eq]
    exact ⟨dom_f, dom_f⟩

theorem use_yR : LR.Use DemoH.sc (.fn 1 .inc) o2 yR := by
  refine ⟨trivial, ⟨_, .fn⟩, .flat _ (.flat 0 .nil) _ _ rfl ⟨by simp, ?_, by simp [f], ?_, ?_⟩ ?_⟩
  · simp only [List.mem_cons, List.not_mem_nil, or_false, forall_eq_or_imp, forall_eq]
    exact ⟨⟨2, vmem.2 (mem_ns.2 (by simp))⟩, ⟨1, vmem.2 (mem_ns.2 (by simp))⟩⟩
  · simp only [List.pairwise_cons, List.mem_singleton, forall_eq, List.not_mem_nil, false_imp_iff, implies_true, List.Pairwise.nil, and_true]
    exact fun c => ns_disj (by simp)
  · simp only [List.pairwise_cons, List.mem_singleton, forall_eq, List.not_mem_nil, false_imp_iff, implies_true, List.Pairwise.nil, and_true]
    decide +kernel
  · have ha : Readdr DemoH.L.C LR.C := ⟨ok.lawful, okR.lawful, rfl⟩
    have hd : ∀ {a}, Dom LR.C (.flat 0 .nil) (f [a]) := fun {a} =>
      .flat _ _ _ _ (by simp [Ty.flatNext]; rfl) ⟨by simp, by simp only [List.mem_singleton, forall_eq]; exact ⟨a, vmem.2 (mem_ns.2 (by simp))⟩,
        by simp, by simp, by simp⟩ (by simp only [List.mem_singleton, forall_eq]; exact .one _ trivial)
    simp only [List.mem_cons, List.not_mem_nil, or_false, forall_eq_or_imp, forall_eq]
    exact ⟨hd, hd⟩

/-- Different terms for the same paths. -/
example : y ≠ yR ∧ (∀ p, Mem DemoH.L.C p y ↔ Mem DemoH.L.C p yR) := by
  refine ⟨by decide +kernel, fun p => ?_⟩
  cases p with
  | nil => simp [Mem, y, yR]
  | hier => simp [Mem, y, yR]
  | flat k a q => simp [Mem, y, yR, or_comm]

/-- The applications return, and the history of the second one contains a change of addresses. -/
example : DemoH.L.Returns DemoH.sc (.fn 1 .inc) o2 y (.flat 1 [(ns [2], f [1]), (ns [3], f [2])]) ∧
    LR.Returns DemoH.sc (.fn 1 .inc) o2 yR (.flat 1 [(ns [3], f [2]), (ns [2], f [1])]) :=
  ⟨⟨s0, 50, .init, by decide +kernel⟩,
    ⟨_, 50,
      .realloc ltR env (.resetDD (.resetHom (.apply 50 .init use_y))) ok ltR_st (by
        rintro a b (⟨k, e, he, _⟩ | ⟨e, he, _⟩) <;> simp at he) same canon,
      by decide +kernel⟩⟩

end DemoH

/-! ## What an application gives -/

/-- `h(o, x)` is `r`: after any history nothing else is returned, and if the number of arcs is not limited `r` is returned, after any history,
when the evaluation is not stopped. -/
def Lib.Gives (L : Lib V E I U) (sc : Scope I U) (h : Hom V I U) (o : OB I) (x r : SDD V) : Prop :=
  (∀ r', L.Returns sc h o x r' → r' = r) ∧
    (L.C.limit = none → ∃ N, ∀ n, N ≤ n → ∀ s, L.Reach sc s → (L.apply n h o x s).1 = .ok r)

theorem Lib.Use.gives (hL : L.OK sc) {h : Hom V I U} {o : OB I} {x r : SDD V} (hu : L.Use sc h o x) (e : Ev L.env L.C h o x r) :
    L.Gives sc h o x r := ⟨fun _ hr => (hr.ev hL hu).det hL.lawful e, fun hlim => hL.total hlim hu e⟩

/-- Two SDDs of the same paths are the same. -/
theorem Is.eq (hC : Cfg.Lawful L.C) {r r' : SDD V} {S : Path E → Prop} (h : Is L.C r S) (h' : Is L.C r' S) : r = r' :=
  canonical_ext hC h.1 h'.1 fun p => (h.2 p).trans (h'.2 p).symm

/-! ## C35: homomorphisms are path by path -/

/-- **C35.** For an additive homomorphism, the paths of `h(o, x)` are exactly those of the `h(o, {p})` for the paths `p` of `x`. -/
theorem C35_path_by_path (hL : L.OK sc) (hsg : Sing L.C) {o : OB I} (hS : sc.S o) {h : Hom V I U} {t : Ty}
    (ha : Ad L.env L.C sc o h t) {x r : SDD V} (hx : Dom L.C o.ty x) (hr : L.Returns sc h o x r) :
    (∀ p s r', Mem L.C p x → Single L.C o s p → L.Returns sc h o s r' → ∀ p', Mem L.C p' r' → Mem L.C p' r) ∧
      (∀ p', Mem L.C p' r → ∃ p, Mem L.C p x ∧ ∀ s r', Single L.C o s p → L.Returns sc h o s r' → Mem L.C p' r') := by
  have hrl := ha.rl hL.lawful hsg
  have h1 := hrl.image hx (hr.ev hL (ha.use hL hsg hS hx))
  have h2 : ∀ {p s r'}, Single L.C o s p → L.Returns sc h o s r' → ∀ p', Mem L.C p' r' ↔ relOf L.env L.C sc o h p p' := by
    intro p s r' hs hr' p'
    rw [hrl.image hs.1 (hr'.ev hL (ha.use hL hsg hS hs.1))]
    constructor
    · rintro ⟨q, hq, hR⟩; rwa [(hs.2 q).1 hq] at hR
    · intro hR; exact ⟨p, (hs.2 p).2 rfl, hR⟩
  refine ⟨fun p s r' hp hs hr' p' hp' => (h1 p').2 ⟨p, hp, (h2 hs hr' p').1 hp'⟩, fun p' hp' => ?_⟩
  obtain ⟨p, hp, hR⟩ := (h1 p').1 hp'
  exact ⟨p, hp, fun s r' hs hr' => (h2 hs hr' p').2 hR⟩

/-- **C35.** The image of a union is the union of the images; the same for any number of operands. -/
theorem C35_union (hL : L.OK sc) (hsg : Sing L.C) {o : OB I} (hS : sc.S o) {h : Hom V I U} {t : Ty}
    (ha : Ad L.env L.C sc o h t) {x r : SDD V} (hx : Dom L.C o.ty x) (hr : L.Returns sc h o x r) (ys : List (SDD V × SDD V))
    (hys : ∀ y ∈ ys, Dom L.C o.ty y.1 ∧ L.Returns sc h o y.1 y.2) (hu : ∀ p, Mem L.C p x ↔ ∃ y ∈ ys, Mem L.C p y.1) (p : Path E) :
    Mem L.C p r ↔ ∃ y ∈ ys, Mem L.C p y.2 := by
  have hrl := ha.rl hL.lawful hsg
  rw [hrl.image hx (hr.ev hL (ha.use hL hsg hS hx))]
  constructor
  · rintro ⟨q, hq, hR⟩
    obtain ⟨y, hy, hq⟩ := (hu q).1 hq
    exact ⟨y, hy, (hrl.image (hys y hy).1 ((hys y hy).2.ev hL (ha.use hL hsg hS (hys y hy).1)) p).2 ⟨q, hq, hR⟩⟩
  · rintro ⟨y, hy, hp⟩
    obtain ⟨q, hq, hR⟩ := (hrl.image (hys y hy).1 ((hys y hy).2.ev hL (ha.use hL hsg hS (hys y hy).1)) p).1 hp
    exact ⟨q, (hu q).2 ⟨y, hy, hq⟩, hR⟩

/-- **C35.** The additive homomorphisms are closed under the functions of the library: identity, constants, `function` of an additive user's
function, `local` and skipped levels, composition, sum, intersection of selectors, fixpoint (of a sum with the identity, or of a
selector), `if_then_else` and `rewrite`.  (For user's inductives, see `HRel.indF` and `HRel.indH`.) -/
theorem C35_additive_closed {env : User V I U} {C : Cfg V E} (hC : C.Lawful) (hsg : Sing C) {lt : Hom V I U → Hom V I U → Bool}
    (hlt : StrictTotal lt) {ord : List (Nat × List (Hom V I U)) → List (Nat × List (Hom V I U))} (hord : Iterates ord) (o : OB I) :
    Ad env C sc o .id o.ty ∧
    (∀ s t, t.IsShape → Dom C t s → Ad env C sc o (.const s) t) ∧
    (∀ (O : Ord I) i u h, Ord.ofBuilder o = .ok O → FlatAt i o → hfunction O i u = some h →
      (∃ f : E → E → Prop, ∀ v, (∃ a, C.vmem a v) → ∀ b, C.vmem b (env.fn u v) ↔ ∃ a, C.vmem a v ∧ f a b) → Ad env C sc o h o.ty) ∧
    (∀ id nst nxt h tn, o = .node id nst nxt → nst ≠ .nil → Ad env C sc nst h tn →
      Ad env C sc o (hloc nxt.lvl h) (.hier nxt.lvl tn nxt.ty)) ∧
    (∀ id nst nxt h t, o = .node id nst nxt → Hom.skip env nxt.lvl id h = true → Ad env C sc nxt h t →
      Ad env C sc o h (liftTy nst nxt t)) ∧
    (∀ a b t, Ad env C sc o b o.ty → Ad env C sc o a t → Ad env C sc o (hcomp a b) t) ∧
    (∀ hs k t, hsum lt ord hs = .ok k → (∀ h ∈ hs, Built env lt ord h ∧ Ad env C sc o h t) → Ad env C sc o k t) ∧
    (∀ hs k t, hinter lt ord hs = .ok k → (∀ h ∈ hs, Built env lt ord h ∧ Ad env C sc o h t ∧ SubIdOn o.ty (relOf env C sc o h)) →
      Ad env C sc o k t) ∧
    (∀ hs k, hsum lt ord hs = .ok k → .id ∈ hs → (∀ h ∈ hs, Built env lt ord h ∧ Ad env C sc o h o.ty) → Ad env C sc o (hfix k) o.ty) ∧
    (∀ h, Ad env C sc o h o.ty → SubIdOn o.ty (relOf env C sc o h) → Ad env C sc o (hfix h) o.ty) ∧
    (∀ i a b k t, hite env i a b = .ok k → Ad env C sc o i o.ty → SubIdOn o.ty (relOf env C sc o i) → Ad env C sc o a t →
      Ad env C sc o b t → Ad env C sc o k t) ∧
    (∀ h t, Built env lt ord h → Ad env C sc o h t → Ad env C sc o (hrewrite env lt ord o h) t) := by
  have hsumne : ∀ {hs k}, hsum lt ord hs = .ok k → hs ≠ [] ∧ k = hnary .sum lt ord hs := by
    intro hs k hk
    unfold hsum at hk
    split at hk
    · cases hk
    · rename_i h; cases hk; exact ⟨h, rfl⟩
  have hsum' : ∀ hs k t, hsum lt ord hs = .ok k → (∀ h ∈ hs, Built env lt ord h ∧ Ad env C sc o h t) →
      Rl env C sc o k t (NRel .sum hs (relOf env C sc o)) := by
    intro hs k t hk hb
    obtain ⟨h1, rfl⟩ := hsumne hk
    exact Rl.hnary hC hsg hlt hord hs h1 (fun h hh => (hb h hh).1.noEmpty hlt hord) fun h hh => ⟨(hb h hh).2, by intro h; cases h⟩
  refine ⟨⟨_, Rl.id⟩, fun s t h1 h2 => ⟨_, (HRel.const h1 h2).rl⟩, ?_, ?_, ?_, ?_, fun hs k t h1 h2 => ⟨_, hsum' hs k t h1 h2⟩, ?_, ?_,
    ?_, ?_, ?_⟩
  · rintro O i u h hO hi hh ⟨f, hf⟩
    obtain ⟨vs, l, k, h1, h2, rfl⟩ := hfunction_spec hO hi hh
    exact ⟨_, Rl.function h1 rfl h2 f hf⟩
  · rintro id nst nxt h tn rfl hne ⟨R, hR⟩
    exact ⟨_, (Rl.loc hne hR).hloc⟩
  · rintro id nst nxt h t rfl hsk hh
    exact hh.above hsk
  · rintro a b t ⟨Rb, hb⟩ ⟨Ra, ha⟩
    exact ⟨_, Rl.hcomp a b hb ha⟩
  · intro hs k t hk hb
    unfold hinter at hk
    split at hk
    · cases hk
    · rename_i h1
      cases hk
      exact ⟨_, Rl.hnary hC hsg hlt hord hs h1 (fun h hh => (hb h hh).1.noEmpty hlt hord) fun h hh => ⟨(hb h hh).2.1, fun _ => (hb h hh).2.2⟩⟩
  · intro hs k hk hid hb
    have := hsum' hs k _ hk hb
    refine ⟨_, (Rl.fix hsg o this ?_).hfix hC hsg⟩
    intro p hp
    refine ⟨.id, hid, ?_⟩
    exact ((Rl.id (env := env) (C := C) (sc := sc) (o := o)).relEq hC hsg p hp p).1 rfl
  · intro h hh hs
    exact ⟨_, (Rl.fixSel hsg o (hh.rl hC hsg) hs).hfix hC hsg⟩
  · intro i a b k t hk hi hs ha hb
    have hsel : i.selector env = true := by
      by_contra hc
      simp only [Bool.not_eq_true] at hc
      simp [hite, hc] at hk
    exact ⟨_, (Rl.ite hsg hsel o (hi.rl hC hsg) hs (ha.rl hC hsg) (hb.rl hC hsg)).hite hC hsg hk⟩
  · rintro h t hb ⟨R, hR⟩
    exact ⟨R, Rl.hrewrite hC hsg hlt hord o (hb.noEmpty hlt hord) hR⟩

/-- An additive homomorphism, an operand of two paths, a result. -/
example : Ad DemoH.env DemoH.L.C DemoH.sc DemoH.o DemoH.h1 DemoH.o.ty ∧ Dom DemoH.L.C DemoH.o.ty DemoH.x ∧
    DemoH.L.Returns DemoH.sc DemoH.h1 DemoH.o DemoH.x (.hier 2 [(DemoH.f [2, 3], .hier 1 [(DemoH.f [1], DemoH.f [3])])]) :=
  ⟨DemoH.ad_h1, DemoH.dom_x, DemoH.ret 50 rfl⟩


/-! ## C36: composition -/

/-- **C36.** `composition(a, b)(o, x)` is `a(o, b(o, x))`, in spite of the regrouping of locals. -/
theorem C36_composition (hL : L.OK sc) (hsg : Sing L.C) {o : OB I} (hS : sc.S o) {a b : Hom V I U} {t : Ty}
    (hb : Ad L.env L.C sc o b o.ty) (ha : Ad L.env L.C sc o a t) {x y z r : SDD V} (hx : Dom L.C o.ty x)
    (hy : L.Returns sc b o x y) (hz : L.Returns sc a o y z) (hr : L.Returns sc (hcomp a b) o x r) : r = z := by
  have eb := hy.ev hL (hb.use hL hsg hS hx)
  have hyd := eb.dom (hb.rl hL.lawful hsg).hty hx
  have ea := hz.ev hL (ha.use hL hsg hS hyd)
  have hc := Rl.hcomp a b (hb.rl hL.lawful hsg) (ha.rl hL.lawful hsg)
  have er := hr.ev hL ⟨hS, ⟨t, hc.hty⟩, hx⟩
  refine canonical_ext hL.lawful (er.dom hc.hty hx).wf (ea.dom (ha.rl hL.lawful hsg).hty hyd).wf fun p => ?_
  rw [hc.image hx er, (ha.rl hL.lawful hsg).image hyd ea]
  constructor
  · rintro ⟨q, hq, q', h1, h2⟩
    exact ⟨q', ((hb.rl hL.lawful hsg).image hx eb q').2 ⟨q, hq, h1⟩, h2⟩
  · rintro ⟨q', h1, h2⟩
    obtain ⟨q, hq, h1⟩ := ((hb.rl hL.lawful hsg).image hx eb q').1 h1
    exact ⟨q, hq, q', h1, h2⟩

/-- **C36.** When locals are not regrouped, the same for all homomorphisms (additive or not), and one is defined when the other is. -/
theorem C36_not_regrouped (hL : L.OK sc) {o : OB I} (hS : sc.S o) {a b : Hom V I U} {t : Ty} (hab : hcomp a b = hcompGen a b)
    (hb : HTy L.env L.C sc o b o.ty) (ha : HTy L.env L.C sc o a t) {x : SDD V} (hx : Dom L.C o.ty x) :
    (∀ y z, L.Returns sc b o x y → L.Returns sc a o y z → L.Gives sc (hcomp a b) o x z) ∧
      ∀ z, L.Returns sc (hcomp a b) o x z → ∃ y, L.Gives sc b o x y ∧ L.Gives sc a o y z := by
  have hk := HTy.hcompGen_of hb ha
  have hiff : ∀ z, Ev L.env L.C (hcompGen a b) o x z ↔ ∃ y, Ev L.env L.C b o x y ∧ Ev L.env L.C a o y z := by
    intro z
    unfold hcompGen
    split
    · rename_i h; subst h
      exact ⟨fun e => ⟨z, e, .id _ _⟩, fun ⟨y, h1, h2⟩ => by rw [h2.of_id]; exact h1⟩
    · split
      · rename_i h; subst h
        exact ⟨fun e => ⟨x, .id _ _, e⟩, fun ⟨y, h1, h2⟩ => by rwa [h1.of_id] at h2⟩
      · exact Ev.comp_iff hL.lawful o hb ha hx
  rw [hab]
  constructor
  · intro y z hy hz
    have eb := hy.ev hL ⟨hS, ⟨_, hb⟩, hx⟩
    have ea := hz.ev hL ⟨hS, ⟨_, ha⟩, eb.dom hb hx⟩
    exact Lib.Use.gives hL ⟨hS, ⟨t, hk⟩, hx⟩ ((hiff z).2 ⟨y, eb, ea⟩)
  · intro z hz
    obtain ⟨y, eb, ea⟩ := (hiff z).1 (hz.ev hL ⟨hS, ⟨t, hk⟩, hx⟩)
    exact ⟨y, Lib.Use.gives hL ⟨hS, ⟨_, hb⟩, hx⟩ eb, Lib.Use.gives hL ⟨hS, ⟨_, ha⟩, eb.dom hb hx⟩ ea⟩

/-- Two increments of the level 1 are regrouped. -/
example : hcomp DemoH.h1 DemoH.h1 = .loc 2 (.comp (.fn 0 .inc) (.fn 0 .inc)) ∧
    ∃ y z, DemoH.L.Returns DemoH.sc DemoH.h1 DemoH.o DemoH.x y ∧ DemoH.L.Returns DemoH.sc DemoH.h1 DemoH.o y z ∧
      DemoH.L.Returns DemoH.sc (hcomp DemoH.h1 DemoH.h1) DemoH.o DemoH.x z :=
  ⟨rfl, .hier 2 [(DemoH.f [2, 3], .hier 1 [(DemoH.f [1], DemoH.f [3])])], .hier 2 [(DemoH.f [3], .hier 1 [(DemoH.f [1], DemoH.f [3])])],
    DemoH.ret 50 rfl, DemoH.ret 50 rfl, DemoH.ret 50 rfl⟩

/-! ## C37, C38: sums and intersections -/

section
variable {lt : Hom V I U → Hom V I U → Bool} {ord : List (Nat × List (Hom V I U)) → List (Nat × List (Hom V I U))}

theorem hsum_ok {hs : List (Hom V I U)} {k : Hom V I U} (hk : hsum lt ord hs = .ok k) : hs ≠ [] ∧ k = hnary .sum lt ord hs := by
  unfold hsum at hk
  split at hk
  · cases hk
  · rename_i h; cases hk; exact ⟨h, rfl⟩

theorem hinter_ok {hs : List (Hom V I U)} {k : Hom V I U} (hk : hinter lt ord hs = .ok k) : hs ≠ [] ∧ k = hnary .inter lt ord hs := by
  unfold hinter at hk
  split at hk
  · cases hk
  · rename_i h; cases hk; exact ⟨h, rfl⟩

/-- **C37.** `sum(o, hs)(o, x)` is the union of the `h(o, x)`, in spite of flattening and of the regrouping of locals; `f h` is the result of the
operand `h`. -/
theorem C37_sum (hL : L.OK sc) (hlt : StrictTotal lt) (hord : Iterates ord) {o : OB I} (hS : sc.S o) {hs : List (Hom V I U)} {k : Hom V I U}
    (hk : hsum lt ord hs = .ok k) (hb : ∀ h ∈ hs, Built L.env lt ord h) {t : Ty} (ht : ∀ h ∈ hs, HTy L.env L.C sc o h t) {x : SDD V}
    (hx : Dom L.C o.ty x) (f : Hom V I U → SDD V) (hf : ∀ h ∈ hs, L.Returns sc h o x (f h)) :
    ∃ r, L.Gives sc k o x r ∧ Is L.C r fun p => ∃ h ∈ hs, Mem L.C p (f h) := by
  obtain ⟨hne, rfl⟩ := hsum_ok hk
  obtain ⟨hk, hiff⟩ := hsum_iff hL.lawful hL.honest hlt hord hne (fun h hh => (hb h hh).noEmpty hlt hord) ht
  have hev : ∀ h ∈ hs, Ev L.env L.C h o x (f h) := fun h hh => (hf h hh).ev hL ⟨hS, ⟨t, ht h hh⟩, hx⟩
  obtain ⟨r, hr⟩ := SumSpec.exists hL.lawful hk.shape ht hx fun h hh => ⟨_, hev h hh⟩
  refine ⟨r, Lib.Use.gives hL ⟨hS, ⟨t, hk⟩, hx⟩ ((hiff x r hx).2 hr), hr.2.1, fun p => ?_⟩
  rw [hr.2.2]
  constructor
  · rintro ⟨h, hh, hp⟩; exact ⟨h, hh, by rwa [evOf_eq hL.lawful (hev h hh)] at hp⟩
  · rintro ⟨h, hh, hp⟩; exact ⟨h, hh, by rwa [evOf_eq hL.lawful (hev h hh)]⟩

/-- **C37.** Conversely, when the sum returns then each operand has a result, and the sum is their union. -/
theorem C37_operands (hL : L.OK sc) (hlt : StrictTotal lt) (hord : Iterates ord) {o : OB I} (hS : sc.S o) {hs : List (Hom V I U)}
    {k : Hom V I U} (hk : hsum lt ord hs = .ok k) (hb : ∀ h ∈ hs, Built L.env lt ord h) {t : Ty} (ht : ∀ h ∈ hs, HTy L.env L.C sc o h t)
    {x r : SDD V} (hx : Dom L.C o.ty x) (hr : L.Returns sc k o x r) :
    ∃ f : Hom V I U → SDD V, (∀ h ∈ hs, L.Gives sc h o x (f h)) ∧ Is L.C r fun p => ∃ h ∈ hs, Mem L.C p (f h) := by
  obtain ⟨hne, rfl⟩ := hsum_ok hk
  obtain ⟨hk, hiff⟩ := hsum_iff hL.lawful hL.honest hlt hord hne (fun h hh => (hb h hh).noEmpty hlt hord) ht
  have hr := (hiff x r hx).1 (hr.ev hL ⟨hS, ⟨t, hk⟩, hx⟩)
  exact ⟨fun h => evOf L.env L.C h o x, fun h hh => Lib.Use.gives hL ⟨hS, ⟨t, ht h hh⟩, hx⟩ ((hr.1 h hh).ev hL.lawful), hr.2⟩

/-- **C37.** Without operands, `sum` raises `std::invalid_argument`; otherwise it returns. -/
theorem C37_empty (hs : List (Hom V I U)) : (hsum lt ord hs = .error .invalid ↔ hs = []) ∧ (hs ≠ [] → ∃ k, hsum lt ord hs = .ok k) := by
  unfold hsum
  split
  · rename_i h; exact ⟨⟨fun _ => h, fun _ => rfl⟩, fun h' => absurd h h'⟩
  · rename_i h; exact ⟨⟨fun h' => by (cases h'), fun h' => absurd h' h⟩, fun _ => ⟨_, rfl⟩⟩

/-- A sum of two locals of the same level, which are regrouped, and of another one. -/
example (lt : Hom NSet Nat DemoH.DU → Hom NSet Nat DemoH.DU → Bool) : ∃ k, hsum lt id [DemoH.h1, DemoH.h3, DemoH.k1] = .ok k ∧
    (∀ h ∈ [DemoH.h1, DemoH.h3, DemoH.k1], Built DemoH.env lt id h ∧ HTy DemoH.env DemoH.L.C DemoH.sc DemoH.o h DemoH.o.ty ∧
      ∃ r, DemoH.L.Returns DemoH.sc h DemoH.o DemoH.x r) := by
  refine ⟨_, rfl, fun h hh => ?_⟩
  simp only [List.mem_cons, List.not_mem_nil, or_false] at hh
  rcases hh with rfl | rfl | rfl
  · exact ⟨.loc 2 (.fn 0 DemoH.DU.inc), (DemoH.ad_h1.rl DemoH.ok.lawful DemoH.sing).hty, _, DemoH.ret 50 rfl⟩
  · exact ⟨.loc 1 (.fn 0 DemoH.DU.inc), (DemoH.ad_h3.rl DemoH.ok.lawful DemoH.sing).hty, _, DemoH.ret 50 rfl⟩
  · exact ⟨.loc 2 (.fn 0 DemoH.DU.low), (DemoH.ad_k1.rl DemoH.ok.lawful DemoH.sing).hty, _, DemoH.ret 50 rfl⟩

/-- **C38.** `intersection(o, hs)(o, x)` is the intersection of the `h(o, x)`.

What is missing: the locals of a level among the operands (those of nested intersections included) must be selectors, or the same one, and then this
must hold of the intersection it may contain (`LocFit`; `C38_negation` shows that something is needed: two locals of a level, one of which is not a selector),
and the operands of the nested intersections must have results: the library flattens them, and may then evaluate an operand which does not terminate and
which was not evaluated in the nested intersection. -/
theorem C38_intersection_partial (hL : L.OK sc) (hlt : StrictTotal lt) (hord : Iterates ord) {o : OB I} (hS : sc.S o) {hs : List (Hom V I U)}
    {k : Hom V I U} (hk : hinter lt ord hs = .ok k) (hb : ∀ h ∈ hs, Built L.env lt ord h) {t : Ty}
    (ht : ∀ h ∈ hs, HTy L.env L.C sc o h t) (hsel : LocFit L.env hs) {x : SDD V} (hx : Dom L.C o.ty x)
    (hd : ∀ g ∈ hdeepAll .inter hs, ∃ r, L.Returns sc g o x r) :
    ∃ (f : Hom V I U → SDD V) (r : SDD V), (∀ h ∈ hs, L.Gives sc h o x (f h)) ∧ L.Gives sc k o x r ∧
      Is L.C r fun p => ∀ h ∈ hs, Mem L.C p (f h) := by
  obtain ⟨hne, rfl⟩ := hinter_ok hk
  obtain ⟨hk, hiff⟩ := hinter_fit hL.lawful hL.honest hlt hord hne (fun h hh => (hb h hh).noEmpty hlt hord) hsel ht
  obtain ⟨h1, h2⟩ := hiff x hx fun g hg => by
    obtain ⟨h, hh, hg'⟩ := mem_hdeepAll.1 hg
    obtain ⟨r, hr⟩ := hd g hg
    exact ⟨r, hr.ev hL ⟨hS, ⟨t, (ht h hh).deep h g hg'⟩, hx⟩⟩
  obtain ⟨r, hr⟩ := InterSpec.exists hL.lawful hk.shape hne ht hx h1
  exact ⟨fun h => evOf L.env L.C h o x, r, fun h hh => Lib.Use.gives hL ⟨hS, ⟨t, ht h hh⟩, hx⟩ ((h1 h hh).ev hL.lawful),
    Lib.Use.gives hL ⟨hS, ⟨t, hk⟩, hx⟩ ((h2 r).2 hr), hr⟩

/-- **C38.** For additive homomorphisms which only remove paths (the operands of nested intersections may be undefined): when the intersection returns, its result
is the intersection of the results of the operands which return. -/
theorem C38_additive_selectors (hL : L.OK sc) (hsg : Sing L.C) (hlt : StrictTotal lt) (hord : Iterates ord) {o : OB I} (hS : sc.S o)
    {hs : List (Hom V I U)} {k : Hom V I U} (hk : hinter lt ord hs = .ok k) (hb : ∀ h ∈ hs, Built L.env lt ord h) {t : Ty}
    (ha : ∀ h ∈ hs, Ad L.env L.C sc o h t) (hsub : ∀ h ∈ hs, SubIdOn o.ty (relOf L.env L.C sc o h)) {x r : SDD V} (hx : Dom L.C o.ty x)
    (f : Hom V I U → SDD V) (hf : ∀ h ∈ hs, L.Returns sc h o x (f h)) (hr : L.Returns sc k o x r) :
    Is L.C r fun p => ∀ h ∈ hs, Mem L.C p (f h) := by
  obtain ⟨hne, rfl⟩ := hinter_ok hk
  have hrl := Rl.hnary hL.lawful hsg hlt hord hs hne (fun h hh => (hb h hh).noEmpty hlt hord) (o := o) (t := t) (K := .inter)
    fun h hh => ⟨ha h hh, fun _ => hsub h hh⟩
  have er := hr.ev hL ⟨hS, ⟨t, hrl.hty⟩, hx⟩
  refine ⟨(er.dom hrl.hty hx).wf, fun p => ?_⟩
  have hev : ∀ h ∈ hs, ∀ p', Mem L.C p' (f h) ↔ ∃ p, Mem L.C p x ∧ relOf L.env L.C sc o h p p' := fun h hh =>
    ((ha h hh).rl hL.lawful hsg).image hx ((hf h hh).ev hL ((ha h hh).use hL hsg hS hx))
  rw [hrl.image hx er]
  constructor
  · rintro ⟨q, hq, hR⟩ h hh
    exact (hev h hh p).2 ⟨q, hq, hR h hh⟩
  · intro h
    obtain ⟨g, hg⟩ := List.exists_mem_of_ne_nil _ hne
    obtain ⟨q, hq, hR⟩ := (hev g hg p).1 (h g hg)
    cases hsub g hg q (hx.pty q hq) p hR
    refine ⟨p, hq, fun h' hh' => ?_⟩
    obtain ⟨q', hq', hR'⟩ := (hev h' hh' p).1 (h h' hh')
    cases hsub h' hh' q' (hx.pty q' hq') p hR'
    exact hR'


/-- An intersection of two selections of the same level. -/
example (lt : Hom NSet Nat DemoH.DU → Hom NSet Nat DemoH.DU → Bool) : ∃ k, hinter lt id [DemoH.k1, DemoH.j1] = .ok k ∧
    (∀ h ∈ [DemoH.k1, DemoH.j1], Built DemoH.env lt id h ∧ HTy DemoH.env DemoH.L.C DemoH.sc DemoH.o h DemoH.o.ty) ∧
      LocFit DemoH.env [DemoH.k1, DemoH.j1] ∧ ∀ g ∈ hdeepAll .inter [DemoH.k1, DemoH.j1], ∃ r, DemoH.L.Returns DemoH.sc g DemoH.o DemoH.x r := by
  refine ⟨_, rfl, fun h hh => ?_, .mk _ (fun _ => false) (fun x g hg _ => ?_) (by simp) (by simp), fun g hg => ?_⟩
  · simp only [List.mem_cons, List.not_mem_nil, or_false] at hh
    rcases hh with rfl | rfl
    · exact ⟨.loc 2 (.fn 0 DemoH.DU.low), (DemoH.ad_k1.rl DemoH.ok.lawful DemoH.sing).hty⟩
    · exact ⟨.loc 2 (.fn 0 DemoH.DU.low2), (DemoH.ad_j1.rl DemoH.ok.lawful DemoH.sing).hty⟩
  · simp only [hflatAll, DemoH.k1, DemoH.j1, hflat, List.append_nil, List.cons_append, List.nil_append, List.mem_cons, List.not_mem_nil, or_false] at hg
    rcases hg with hg | hg <;> cases hg <;> rfl
  · simp only [hdeepAll, DemoH.k1, DemoH.j1, hdeep, List.map, List.append_nil, List.cons_append, List.nil_append, List.mem_cons,
      List.not_mem_nil, or_false] at hg
    rcases hg with rfl | rfl
    · exact ⟨_, DemoH.ret 50 rfl⟩
    · exact ⟨_, DemoH.ret 50 rfl⟩

/-- An intersection of two increments, which are not selectors, of different levels. -/
example (lt : Hom NSet Nat DemoH.DU → Hom NSet Nat DemoH.DU → Bool) : ∃ k, hinter lt id [DemoH.h1, DemoH.h3] = .ok k ∧
    (∀ h ∈ [DemoH.h1, DemoH.h3], Built DemoH.env lt id h ∧ HTy DemoH.env DemoH.L.C DemoH.sc DemoH.o h DemoH.o.ty) ∧
      LocFit DemoH.env [DemoH.h1, DemoH.h3] ∧ DemoH.h1.selector DemoH.env = false ∧ DemoH.h3.selector DemoH.env = false ∧
      ∀ g ∈ hdeepAll .inter [DemoH.h1, DemoH.h3], ∃ r, DemoH.L.Returns DemoH.sc g DemoH.o DemoH.x r := by
  refine ⟨_, rfl, fun h hh => ?_, .mk _ (fun _ => true) (by simp) (fun x g g' hg hg' _ => ?_) (fun x g hg _ => ?_), rfl, rfl, fun g hg => ?_⟩
  · simp only [List.mem_cons, List.not_mem_nil, or_false] at hh
    rcases hh with rfl | rfl
    · exact ⟨.loc 2 (.fn 0 DemoH.DU.inc), (DemoH.ad_h1.rl DemoH.ok.lawful DemoH.sing).hty⟩
    · exact ⟨.loc 1 (.fn 0 DemoH.DU.inc), (DemoH.ad_h3.rl DemoH.ok.lawful DemoH.sing).hty⟩
  · simp [hflatAll, DemoH.h1, DemoH.h3, hflat] at hg hg'
    rcases hg with ⟨rfl, rfl⟩ | ⟨rfl, rfl⟩ <;> simp at hg' <;> exact hg'.symm
  · simp [hflatAll, DemoH.h1, DemoH.h3, hflat] at hg
    have e : g = .fn 0 DemoH.DU.inc := by rcases hg with ⟨_, rfl⟩ | ⟨_, rfl⟩ <;> rfl
    subst e
    exact .mk _ (fun _ => false) (by simp [hflatAll, hflat]) (by simp) (by simp)
  · simp only [hdeepAll, DemoH.h1, DemoH.h3, hdeep, List.map, List.append_nil, List.cons_append, List.nil_append, List.mem_cons,
      List.not_mem_nil, or_false] at hg
    rcases hg with rfl | rfl
    · exact ⟨_, DemoH.ret 50 rfl⟩
    · exact ⟨_, DemoH.ret 50 rfl⟩

/-- An intersection of increments, which are not selectors, of different levels, one of which is in an intersection below its local. -/
example {lt : Hom NSet Nat DemoH.DU → Hom NSet Nat DemoH.DU → Bool} (hlt : StrictTotal lt) :
    ∃ i k, hinter lt id [.fn 0 DemoH.DU.inc, .fn 0 DemoH.DU.low] = .ok i ∧ hinter lt id [.loc 2 i, DemoH.h3] = .ok k ∧
    (∀ h ∈ [.loc 2 i, DemoH.h3], Built DemoH.env lt id h ∧ HTy DemoH.env DemoH.L.C DemoH.sc DemoH.o h DemoH.o.ty) ∧
      LocFit DemoH.env [.loc 2 i, DemoH.h3] ∧ i.selector DemoH.env = false ∧ DemoH.h3.selector DemoH.env = false ∧
      ∀ g ∈ hdeepAll .inter [.loc 2 i, DemoH.h3], ∃ r, DemoH.L.Returns DemoH.sc g DemoH.o DemoH.x r := by
  have hi : ∃ i, hinter lt id [.fn 0 DemoH.DU.inc, .fn 0 DemoH.DU.low] = .ok i ∧
      (i = .inter [.fn 0 .inc, .fn 0 .low] ∨ i = .inter [.fn 0 .low, .fn 0 .inc]) := by
    refine ⟨_, rfl, ?_⟩
    rcases hlt.total (.fn 0 DemoH.DU.inc) (.fn 0 DemoH.DU.low) with h | h | h
    · by_cases h' : lt (.fn 0 DemoH.DU.low) (.fn 0 DemoH.DU.inc) = true <;>
        simp [hnary, hnaryN, hvisitAll, hvisit, HAcc.add, insertBy, h, h', NAry.mk]
    · cases h
    · simp [hnary, hnaryN, hvisitAll, hvisit, HAcc.add, insertBy, h, NAry.mk]
  obtain ⟨i, hi, hi'⟩ := hi
  have hb : Built DemoH.env lt id i := .inter (by
    intro g hg
    simp only [List.mem_cons, List.not_mem_nil, or_false] at hg
    rcases hg with rfl | rfl
    · exact .fn 0 DemoH.DU.inc
    · exact .fn 0 DemoH.DU.low) hi
  have hf : hflat .inter i = hdeep .inter i := by rcases hi' with rfl | rfl <;> simp [hflat, hdeep, hflatAll, hdeepAll]
  have hm : ∀ g, g ∈ hdeep .inter i ↔ g = .fn 0 .inc ∨ g = .fn 0 .low := by
    intro g
    rcases hi' with rfl | rfl <;> simp [hdeep, hdeepAll, or_comm]
  refine ⟨i, _, hi, rfl, fun h hh => ?_, .mk _ (fun _ => true) (by simp) (fun x g g' hg hg' _ => ?_) (fun x g hg _ => ?_), ?_, rfl, fun g hg => ?_⟩
  · simp only [List.mem_cons, List.not_mem_nil, or_false] at hh
    rcases hh with rfl | rfl
    · have hl : hloc 2 i = .loc 2 i := if_neg (by rcases hi' with rfl | rfl <;> simp)
      refine ⟨hl ▸ .loc 2 hb, HTy.loc_of (gs := hdeep .inter i) (List.ne_nil_of_mem ((hm _).2 (Or.inl rfl))) (fun nst tn hg => ?_) _ fun g hg => ?_⟩
      · rcases hi' with rfl | rfl
        · exact HTy.nary (k := .inter) (by simp) nst fun g hg' => hg g (by simpa [hdeep, hdeepAll] using hg')
        · exact HTy.nary (k := .inter) (by simp) nst fun g hg' => hg g (by simpa [hdeep, hdeepAll] using hg')
      · rcases (hm g).1 hg with rfl | rfl
        · exact (DemoH.ad_h1.rl DemoH.ok.lawful DemoH.sing).hty
        · exact (DemoH.ad_k1.rl DemoH.ok.lawful DemoH.sing).hty
    · exact ⟨.loc 1 (.fn 0 DemoH.DU.inc), (DemoH.ad_h3.rl DemoH.ok.lawful DemoH.sing).hty⟩
  · simp [hflatAll, DemoH.h3, hflat] at hg hg'
    rcases hg with ⟨rfl, rfl⟩ | ⟨rfl, rfl⟩ <;> simp at hg' <;> exact hg'.symm
  · simp [hflatAll, DemoH.h3, hflat] at hg
    rcases hg with ⟨_, rfl⟩ | ⟨_, rfl⟩
    · exact .mk _ (fun _ => false) (fun x l hl => by
        rw [mem_hflatAll] at hl
        simp [hf, hm] at hl) (by simp) (by simp)
    · exact .mk _ (fun _ => false) (by simp [hflatAll, hflat]) (by simp) (by simp)
  · rcases hi' with rfl | rfl <;> rfl
  · rw [mem_hdeepAll] at hg
    simp [DemoH.h3, hdeep, hm] at hg
    rcases hg with (rfl | rfl) | rfl
    · exact ⟨_, DemoH.ret 50 rfl⟩
    · exact ⟨_, DemoH.ret 50 rfl⟩
    · exact ⟨_, DemoH.ret 50 rfl⟩

/-- **C38 does not hold** for locals which are not selectors: locals of the same level are regrouped, `local(x, f) ∩ local(x, g)` becomes
`local(x, f ∩ g)`, although `f` and `g` may give the same value for two different arcs. -/
theorem C38_negation {lt : Hom NSet Nat DemoH.DU → Hom NSet Nat DemoH.DU → Bool} (hlt : StrictTotal lt) :
    ∃ k r1 r2 r p, hinter lt id [DemoH.h1, DemoH.k1] = .ok k ∧ Built DemoH.env lt id DemoH.h1 ∧ Built DemoH.env lt id DemoH.k1 ∧
      Ad DemoH.env DemoH.L.C DemoH.sc DemoH.o DemoH.h1 DemoH.o.ty ∧ Ad DemoH.env DemoH.L.C DemoH.sc DemoH.o DemoH.k1 DemoH.o.ty ∧
      Dom DemoH.L.C DemoH.o.ty DemoH.xI ∧
      DemoH.L.Returns DemoH.sc DemoH.h1 DemoH.o DemoH.xI r1 ∧ DemoH.L.Returns DemoH.sc DemoH.k1 DemoH.o DemoH.xI r2 ∧
      DemoH.L.Returns DemoH.sc k DemoH.o DemoH.xI r ∧ Mem DemoH.L.C p r1 ∧ Mem DemoH.L.C p r2 ∧ ¬ Mem DemoH.L.C p r := by
  refine ⟨_, .hier 2 [(DemoH.f [1], .hier 1 [(DemoH.f [1], DemoH.f [3])]), (DemoH.f [2], .hier 1 [(DemoH.f [1], DemoH.f [3, 4])])],
    DemoH.xI, .zero, .hier 2 (.flat 0 1 .nil) (.hier 1 (.flat 0 1 .nil) (.flat 0 3 .nil)), rfl, .loc 2 (.fn 0 DemoH.DU.inc),
    .loc 2 (.fn 0 DemoH.DU.low), DemoH.ad_h1, DemoH.ad_k1, DemoH.dom_xI, DemoH.ret 50 (by decide +kernel), DemoH.ret 50 (by decide +kernel), ?_, ?_, ?_, not_mem_zero _⟩
  · have hk : hnary .inter lt id [DemoH.h1, DemoH.k1] = .loc 2 (.inter [.fn 0 .inc, .fn 0 .low]) ∨
        hnary .inter lt id [DemoH.h1, DemoH.k1] = .loc 2 (.inter [.fn 0 .low, .fn 0 .inc]) := by
      rcases h : lt (.fn 0 .low) (.fn 0 .inc) with _ | _
      · rcases hlt.total (.fn 0 .inc) (.fn 0 .low) with h' | h' | h'
        · exact Or.inl (by
            simp [hnary, heightAll, Hom.height, DemoH.h1, DemoH.k1, hnaryN, hvisitAll, hvisit, HAcc.add, addLocal, insertBy, hloc, h, h', NAry.mk])
        · cases h'
        · rw [h] at h'; cases h'
      · exact Or.inr (by
          simp [hnary, heightAll, Hom.height, DemoH.h1, DemoH.k1, hnaryN, hvisitAll, hvisit, HAcc.add, addLocal, insertBy, hloc, h, NAry.mk])
    rcases hk with h | h
    · rw [h]; exact DemoH.ret 50 (by decide +kernel)
    · rw [h]; exact DemoH.ret 50 (by decide +kernel)
  · exact ⟨rfl, _, .head _, ⟨rfl, _, .head _, DemoH.vmem.2 (DemoH.mem_ns.2 (by simp)), rfl⟩, rfl, _, .head _,
      ⟨rfl, _, .head _, DemoH.vmem.2 (DemoH.mem_ns.2 (by simp)), rfl⟩, rfl, _, .head _, DemoH.vmem.2 (DemoH.mem_ns.2 (by simp)), rfl⟩
  · exact ⟨rfl, _, .tail _ (.head _), ⟨rfl, _, .head _, DemoH.vmem.2 (DemoH.mem_ns.2 (by simp)), rfl⟩, rfl, _, .head _,
      ⟨rfl, _, .head _, DemoH.vmem.2 (DemoH.mem_ns.2 (by simp)), rfl⟩, rfl, _, .head _, DemoH.vmem.2 (DemoH.mem_ns.2 (by simp)), rfl⟩

end

/-! ## C39: choices -/

/-- **C39.** `if_then_else(p, t, e)(x)` is `t(p(x)) + e(x - p(x))`: `y` is `p(x)`, `d` is `x - y`.  When the two branches are the same homomorphism the library returns this homomorphism,
which must then be additive. -/
theorem C39_if_then_else (hL : L.OK sc) {o : OB I} (hS : sc.S o) {i a b k : Hom V I U} (hk : hite L.env i a b = .ok k) {t : Ty}
    (hi : HTy L.env L.C sc o i o.ty) (ha : HTy L.env L.C sc o a t) (hb : HTy L.env L.C sc o b t)
    (hab : a = b → Sing L.C ∧ Ad L.env L.C sc o a t) {x y d ra rb : SDD V} (hx : Dom L.C o.ty x) (hy : L.Returns sc i o x y)
    (hd : Is L.C d fun p => Mem L.C p x ∧ ¬ Mem L.C p y) (hra : L.Returns sc a o y ra) (hrb : L.Returns sc b o d rb) :
    (∀ r, L.Returns sc k o x r → Is L.C r fun p => Mem L.C p ra ∨ Mem L.C p rb) ∧
      (a ≠ b → ∃ r, L.Gives sc k o x r ∧ Is L.C r fun p => Mem L.C p ra ∨ Mem L.C p rb) := by
  have hkt := HTy.hite_of hk hi ha hb
  have ey := hy.ev hL ⟨hS, ⟨_, hi⟩, hx⟩
  have hyd := ey.dom hi hx
  have hdd : Dom L.C o.ty d := by
    obtain ⟨n, hn⟩ := hd.1
    exact hn.of_pty o.ty fun p hp => hx.pty p ((hd.2 p).1 hp).1
  have ea := hra.ev hL ⟨hS, ⟨_, ha⟩, hyd⟩
  have eb := hrb.ev hL ⟨hS, ⟨_, hb⟩, hdd⟩
  obtain ⟨r0, hr0, hr0d⟩ : ∃ r0, (Is L.C r0 fun p => Mem L.C p ra ∨ Mem L.C p rb) ∧ Dom L.C t r0 := by
    obtain ⟨r0, h1, h2⟩ := exists_union hL.lawful ha.shape [ra, rb] (by simpa using ⟨ea.dom ha hyd, eb.dom hb hdd⟩)
    exact ⟨r0, ⟨h1.wf, by simpa using h2⟩, h1⟩
  have hsel : i.selector L.env = true := by
    by_contra hc
    simp only [Bool.not_eq_true] at hc
    simp [hite, hc] at hk
  have main : a ≠ b → Ev L.env L.C k o x r0 := by
    intro hne
    simp only [hite, hsel, Bool.true_eq_false, if_false, hne] at hk
    split at hk
    · rename_i h; subst h; cases hk
      cases ey.of_id
      have : d = .zero := by
        rw [hdd.zero_iff]; intro p hp; exact ((hd.2 p).1 hp).2 ((hd.2 p).1 hp).1
      subst this
      cases eb.of_zero
      have : r0 = ra := canonical_ext hL.lawful hr0d.wf (ea.dom ha hyd).wf fun p => by
        rw [hr0.2]; exact or_iff_left (not_mem_zero p)
      rw [this]; exact ea
    · cases hk
      exact (Ev.ite_iff hL.lawful hsel o hi ha hb hx).2 ⟨y, d, ra, rb, ey, hd, ea, eb, hr0⟩
  refine ⟨fun r hr => ?_, fun hne => ⟨r0, Lib.Use.gives hL ⟨hS, ⟨t, hkt⟩, hx⟩ (main hne), hr0⟩⟩
  have er := hr.ev hL ⟨hS, ⟨t, hkt⟩, hx⟩
  by_cases hne : a = b
  · obtain ⟨hsg, had⟩ := hab hne
    subst hne
    have hka : k = a := by
      simp only [hite, hsel, Bool.true_eq_false, if_false, if_true] at hk
      split at hk <;> cases hk <;> rfl
    subst hka
    have hrl := had.rl hL.lawful hsg
    refine ⟨(er.dom ha hx).wf, fun p => ?_⟩
    beta_reduce
    rw [hrl.image hx er, hrl.image hyd ea, hrl.image hdd eb]
    have hsub := Ev.selector hL.honest ey hsel
    constructor
    · rintro ⟨q, hq, hR⟩
      by_cases hqy : Mem L.C q y
      · exact Or.inl ⟨q, hqy, hR⟩
      · exact Or.inr ⟨q, (hd.2 q).2 ⟨hq, hqy⟩, hR⟩
    · rintro (⟨q, hq, hR⟩ | ⟨q, hq, hR⟩)
      · exact ⟨q, hsub q hq, hR⟩
      · exact ⟨q, ((hd.2 q).1 hq).1, hR⟩
  · rw [er.det hL.lawful (main hne)]; exact hr0

/-- **C39.** A predicate which is not a selector is rejected, and only such a predicate. -/
theorem C39_rejected (env : User V I U) (i a b : Hom V I U) : (hite env i a b = .error .invalid ↔ i.selector env = false) ∧
    (i.selector env = true → ∃ k, hite env i a b = .ok k) := by
  unfold hite
  cases h : i.selector env with
  | false => simp
  | true =>
    simp only [Bool.true_eq_false, if_false, iff_false, forall_const]
    by_cases h1 : i = .id
    · simp [h1]
    · by_cases h2 : a = b <;> simp [h1, h2]

/-- A choice: the level 3 is incremented where the value of the level 1 is small, the level 1 elsewhere. -/
example : hite DemoH.env DemoH.k1 DemoH.h3 DemoH.h1 = .ok (.ite DemoH.k1 DemoH.h3 DemoH.h1) ∧
    ∃ y d ra rb, DemoH.L.Returns DemoH.sc DemoH.k1 DemoH.o DemoH.x y ∧
    (Is DemoH.L.C d fun p => Mem DemoH.L.C p DemoH.x ∧ ¬ Mem DemoH.L.C p y) ∧ DemoH.L.Returns DemoH.sc DemoH.h3 DemoH.o y ra ∧
      DemoH.L.Returns DemoH.sc DemoH.h1 DemoH.o d rb := by
  refine ⟨by decide +kernel, .hier 2 [(DemoH.f [1], .hier 1 [(DemoH.f [1], DemoH.f [3])])], .hier 2 [(DemoH.f [2], .hier 1 [(DemoH.f [1], DemoH.f [3])])],
    .hier 2 [(DemoH.f [1], .hier 1 [(DemoH.f [2], DemoH.f [3])])], .hier 2 [(DemoH.f [3], .hier 1 [(DemoH.f [1], DemoH.f [3])])],
    DemoH.ret 50 (by decide +kernel), ?_, DemoH.ret 50 (by decide +kernel), DemoH.ret 50 (by decide +kernel)⟩
  refine ⟨(DemoH.dom_h DemoH.dom_f (DemoH.dom_h DemoH.dom_f DemoH.dom_f (by simp [DemoH.f]) (by simp [DemoH.f])) (by simp [DemoH.f]) (by simp)).wf, ?_⟩
  intro p
  cases p with
  | hier z n q =>
    cases n with
    | flat w a m => 
      simp only [Mem, DemoH.x, DemoH.f, exists_eq_left, DemoH.vmem, DemoH.mem_ns, List.mem_cons, List.not_mem_nil, or_false]
      grind
    | nil => simp [Mem, DemoH.x, DemoH.f]
    | hier => simp [Mem, DemoH.x, DemoH.f]
  | nil => simp [Mem, DemoH.x]
  | flat => simp [Mem, DemoH.x]

/-! ## C40, C51: fixpoints -/

/-- The result of a fixpoint is a fixpoint, and an iterate. -/
theorem hfix_spec (hL : L.OK sc) {o : OB I} {h : Hom V I U} (ht : HTy L.env L.C sc o h o.ty) {x r : SDD V} (hx : Dom L.C o.ty x)
    (e : Ev L.env L.C (hfix h) o x r) : FixSpec L.env L.C h o x r := by
  unfold hfix at e
  split at e
  · exact ⟨0, fun _ => x, rfl, by simp, e.of_id.symm, .id _ _⟩
  · rename_i h'
    have hx' : HTy L.env L.C sc o h' o.ty := ht.fix_inv
    obtain ⟨n, c, h1, h2, h3, h4⟩ := (Ev.fix_iff hL.lawful o hx' hx).1 e
    have er : Ev L.env L.C (.fix h') o r r := by
      have hr : Dom L.C o.ty r := e.dom ht hx
      exact (Ev.fix_iff hL.lawful o hx' hr).2 ⟨0, fun _ => r, rfl, by simp, rfl, h4⟩
    exact ⟨1, fun i => if i = 0 then x else r, by simp, by simpa using e, by simp, er⟩
  · exact (Ev.fix_iff hL.lawful o ht hx).1 e

/-- **C40.** When `fixpoint(h)(x)` returns `r`, then `h(r)` is `r`, and `r` is an iterate of `h` on `x`. -/
theorem C40_fixpoint (hL : L.OK sc) {o : OB I} (hS : sc.S o) {h : Hom V I U} (ht : HTy L.env L.C sc o h o.ty) {x r : SDD V}
    (hx : Dom L.C o.ty x) (hr : L.Returns sc (hfix h) o x r) :
    L.Gives sc h o r r ∧ ∃ (n : Nat) (c : Nat → SDD V), c 0 = x ∧ c n = r ∧ ∀ i < n, L.Gives sc h o (c i) (c (i + 1)) := by
  obtain ⟨n, c, h1, h2, h3, h4⟩ := hfix_spec hL ht hx (hr.ev hL ⟨hS, ⟨_, HTy.hfix_of ht⟩, hx⟩)
  have hd : ∀ i, i ≤ n → Dom L.C o.ty (c i) := by
    intro i
    induction i with
    | zero => intro _; rw [h1]; exact hx
    | succ i ih => intro hi; exact (h2 i hi).dom ht (ih (by omega))
  exact ⟨Lib.Use.gives hL ⟨hS, ⟨_, ht⟩, h3 ▸ hd n le_rfl⟩ h4, n, c, h1, h3, fun i hi =>
    Lib.Use.gives hL ⟨hS, ⟨_, ht⟩, hd i hi.le⟩ (h2 i hi)⟩

/-- **C40.** When the homomorphism is a sum which contains the identity and is additive, the result is the least set which contains the operand and
is closed under the homomorphism. -/
theorem C40_least (hL : L.OK sc) (hsg : Sing L.C) {lt : Hom V I U → Hom V I U → Bool} (hlt : StrictTotal lt)
    {ord : List (Nat × List (Hom V I U)) → List (Nat × List (Hom V I U))} (hord : Iterates ord) {o : OB I} (hS : sc.S o)
    {hs : List (Hom V I U)} {k : Hom V I U} (hk : hsum lt ord hs = .ok k) (hid : .id ∈ hs)
    (hb : ∀ h ∈ hs, Built L.env lt ord h ∧ Ad L.env L.C sc o h o.ty) {x r : SDD V} (hx : Dom L.C o.ty x)
    (hr : L.Returns sc (hfix k) o x r) :
    (∀ p, Mem L.C p x → Mem L.C p r) ∧ L.Gives sc k o r r ∧
      ∀ z w, Dom L.C o.ty z → (∀ p, Mem L.C p x → Mem L.C p z) → L.Returns sc k o z w → (∀ p, Mem L.C p w → Mem L.C p z) →
        ∀ p, Mem L.C p r → Mem L.C p z := by
  obtain ⟨hne, rfl⟩ := hsum_ok hk
  have hrl := Rl.hnary hL.lawful hsg hlt hord hs hne (fun h hh => (hb h hh).1.noEmpty hlt hord) (o := o) (t := o.ty) (K := .sum)
    fun h hh => ⟨(hb h hh).2, by intro h; cases h⟩
  have hrefl : ∀ p, PTy o.ty p → NRel .sum hs (relOf L.env L.C sc o) p p := fun p hp =>
    ⟨.id, hid, ((Rl.id (env := L.env) (C := L.C) (sc := sc) (o := o)).relEq hL.lawful hsg p hp p).1 rfl⟩
  have ht := hrl.hty
  obtain ⟨n, c, h1, h2, h3, h4⟩ := hfix_spec hL ht hx (hr.ev hL ⟨hS, ⟨_, HTy.hfix_of ht⟩, hx⟩)
  have hd : ∀ i, i ≤ n → Dom L.C o.ty (c i) := by
    intro i
    induction i with
    | zero => intro _; rw [h1]; exact hx
    | succ i ih => intro hi; exact (h2 i hi).dom ht (ih (by omega))
  refine ⟨?_, Lib.Use.gives hL ⟨hS, ⟨_, ht⟩, h3 ▸ hd n le_rfl⟩ h4, ?_⟩
  · have : ∀ i, i ≤ n → ∀ p, Mem L.C p x → Mem L.C p (c i) := by
      intro i
      induction i with
      | zero => intro _ p hp; rw [h1]; exact hp
      | succ i ih =>
        intro hi p hp
        have hp' := ih (by omega) p hp
        exact (hrl.image (hd i (by omega)) (h2 i hi) p).2 ⟨p, hp', hrefl p ((hd i (by omega)).pty p hp')⟩
    rw [← h3]
    exact this n le_rfl
  · intro z w hz hxz hw hwz
    have ew := hw.ev hL ⟨hS, ⟨_, ht⟩, hz⟩
    have : ∀ i, i ≤ n → ∀ p, Mem L.C p (c i) → Mem L.C p z := by
      intro i
      induction i with
      | zero => intro _ p hp; rw [h1] at hp; exact hxz p hp
      | succ i ih =>
        intro hi p hp
        obtain ⟨q, hq, hR⟩ := (hrl.image (hd i (by omega)) (h2 i hi) p).1 hp
        exact hwz p ((hrl.image hz ew p).2 ⟨q, ih (by omega) q hq, hR⟩)
    rw [← h3]
    exact this n le_rfl

/-- The values reachable by increments of the level 1. -/
example (lt : Hom NSet Nat DemoH.DU → Hom NSet Nat DemoH.DU → Bool) (hlt : StrictTotal lt) : ∃ k, hsum lt id [.id, DemoH.h1] = .ok k ∧
    (∀ h ∈ [.id, DemoH.h1], Built DemoH.env lt id h ∧ Ad DemoH.env DemoH.L.C DemoH.sc DemoH.o h DemoH.o.ty) ∧
    DemoH.L.Returns DemoH.sc (hfix k) DemoH.o DemoH.x (.hier 2 [(DemoH.f [1, 2, 3], .hier 1 [(DemoH.f [1], DemoH.f [3])])]) := by
  refine ⟨_, rfl, ?_, ?_⟩
  · simp only [List.mem_cons, List.not_mem_nil, or_false, forall_eq_or_imp, forall_eq]
    exact ⟨⟨.id, _, Rl.id⟩, .loc 2 (.fn 0 DemoH.DU.inc), DemoH.ad_h1⟩
  · rcases DemoH.sum2 hlt with h | h
    · rw [h]; exact DemoH.ret 50 (by decide +kernel)
    · rw [h]; exact DemoH.ret 50 (by decide +kernel)

/-- **C51.** A fixpoint terminates when the iterates grow and stay in a finite set of paths (`S`): for instance for a sum which contains the identity, on an
order with a finite number of values. The hypothesis is on one application of `h`. -/
theorem C51_termination (hL : L.OK sc) (hlim : L.C.limit = none) {o : OB I} (hS : sc.S o) {h : Hom V I U} (ht : HTy L.env L.C sc o h o.ty)
    (S : List (Path E))
    (hd : ∀ y, Dom L.C o.ty y → (∀ p, Mem L.C p y → p ∈ S) →
      ∃ z, L.Returns sc h o y z ∧ (∀ p, Mem L.C p y → Mem L.C p z) ∧ ∀ p, Mem L.C p z → p ∈ S)
    {x : SDD V} (hx : Dom L.C o.ty x) (hxS : ∀ p, Mem L.C p x → p ∈ S) :
    ∃ r N, ∀ n, N ≤ n → ∀ s, L.Reach sc s → (L.apply n (hfix h) o x s).1 = .ok r := by
  have hd' : ∀ y, Dom L.C o.ty y → (∀ p, Mem L.C p y → p ∈ S) →
      ∃ z, Ev L.env L.C h o y z ∧ (∀ p, Mem L.C p y → Mem L.C p z) ∧ ∀ p, Mem L.C p z → p ∈ S := by
    intro y hy hyS
    obtain ⟨z, h1, h2⟩ := hd y hy hyS
    exact ⟨z, h1.ev hL ⟨hS, ⟨_, ht⟩, hy⟩, h2⟩
  have : ∃ r, Ev L.env L.C (hfix h) o x r := by
    unfold hfix
    split
    · exact ⟨x, .id _ _⟩
    · obtain ⟨z, h1, _⟩ := hd' x hx hxS; exact ⟨z, h1⟩
    · exact Ev.fix_finite hL.lawful ht S hd' x hx hxS
  obtain ⟨r, e⟩ := this
  exact ⟨r, hL.total hlim ⟨hS, ⟨_, HTy.hfix_of ht⟩, hx⟩ e⟩

/-- **C51.** The fixpoint of a sum which contains the identity terminates, when each operand returns and the values of its results stay in a finite set
(`vs`), as do those of the operand. -/
theorem C51_finite_values (hL : L.OK sc) (hlim : L.C.limit = none) {lt : Hom V I U → Hom V I U → Bool} (hlt : StrictTotal lt)
    {ord : List (Nat × List (Hom V I U)) → List (Nat × List (Hom V I U))} (hord : Iterates ord) {o : OB I} (hS : sc.S o)
    {hs : List (Hom V I U)} {k : Hom V I U} (hk : hsum lt ord hs = .ok k) (hid : .id ∈ hs) (hb : ∀ h ∈ hs, Built L.env lt ord h)
    (ht : ∀ h ∈ hs, HTy L.env L.C sc o h o.ty) (vs : List E)
    (hd : ∀ h ∈ hs, ∀ y, Dom L.C o.ty y → (∀ p, Mem L.C p y → ∀ a ∈ p.vals, a ∈ vs) →
      ∃ z, L.Returns sc h o y z ∧ ∀ p, Mem L.C p z → ∀ a ∈ p.vals, a ∈ vs)
    {x : SDD V} (hx : Dom L.C o.ty x) (hxv : ∀ p, Mem L.C p x → ∀ a ∈ p.vals, a ∈ vs) :
    ∃ r N, ∀ n, N ≤ n → ∀ s, L.Reach sc s → (L.apply n (hfix k) o x s).1 = .ok r := by
  obtain ⟨hne, rfl⟩ := hsum_ok hk
  obtain ⟨hkt, _⟩ := hsum_iff hL.lawful hL.honest hlt hord hne (fun h hh => (hb h hh).noEmpty hlt hord) ht
  refine C51_termination hL hlim hS hkt (o.ty.paths vs) ?_ hx ?_
  · intro y hy hyS
    have hyv : ∀ p, Mem L.C p y → ∀ a ∈ p.vals, a ∈ vs := by
      intro p hp
      exact Ty.paths_vals (hyS p hp)
    have : ∀ h, ∃ z, h ∈ hs → L.Returns sc h o y z ∧ ∀ p, Mem L.C p z → ∀ a ∈ p.vals, a ∈ vs := by
      intro h
      by_cases hh : h ∈ hs
      · obtain ⟨z, hz⟩ := hd h hh y hy hyv
        exact ⟨z, fun _ => hz⟩
      · exact ⟨.zero, fun h' => absurd h' hh⟩
    choose f hf using this
    obtain ⟨r, h1, h2⟩ := C37_sum hL hlt hord hS hk hb ht hy f fun h hh => (hf h hh).1
    obtain ⟨N, hN⟩ := h1.2 hlim
    have hret : L.Returns sc (hnary .sum lt ord hs) o y r := ⟨_, N, .init, hN N le_rfl _ .init⟩
    have hrd : Dom L.C o.ty r := (hret.ev hL ⟨hS, ⟨_, hkt⟩, hy⟩).dom hkt hy
    refine ⟨r, hret, fun p hp => (h2.2 p).2 ⟨.id, hid, ?_⟩, fun p hp => ?_⟩
    · rw [((hf _ hid).1.ev hL ⟨hS, ⟨_, ht _ hid⟩, hy⟩).of_id]; exact hp
    · refine Ty.mem_paths (OB.ty_shape o) (hrd.pty p hp) ?_
      obtain ⟨h, hh, hp⟩ := (h2.2 p).1 hp
      exact (hf h hh).2 p hp
  · intro p hp
    exact Ty.mem_paths (OB.ty_shape o) (hx.pty p hp) (hxv p hp)

/-! ## C41: rewriting -/

/-- **C41.** `rewrite(o, h)(o, x)` is `h(o, x)`, when both return. -/
theorem C41_rewrite (hL : L.OK sc) (hsg : Sing L.C) {lt : Hom V I U → Hom V I U → Bool} (hlt : StrictTotal lt)
    {ord : List (Nat × List (Hom V I U)) → List (Nat × List (Hom V I U))} (hord : Iterates ord) {o : OB I} (hS : sc.S o) {h : Hom V I U}
    (hb : Built L.env lt ord h) {t : Ty} (ha : Ad L.env L.C sc o h t) {x r r' : SDD V} (hx : Dom L.C o.ty x) (hr : L.Returns sc h o x r)
    (hr' : L.Returns sc (hrewrite L.env lt ord o h) o x r') : r' = r := by
  have h1 := ha.rl hL.lawful hsg
  have h2 := Rl.hrewrite hL.lawful hsg hlt hord o (hb.noEmpty hlt hord) h1
  exact h2.same hL.lawful h1 hx (hr'.ev hL ⟨hS, ⟨t, h2.hty⟩, hx⟩) (hr.ev hL ⟨hS, ⟨t, h1.hty⟩, hx⟩)

/-- A fixpoint is rewritten to a saturation. -/
example (lt : Hom NSet Nat DemoH.DU → Hom NSet Nat DemoH.DU → Bool) (hlt : StrictTotal lt) : ∃ k, hsum lt id [.id, DemoH.h1] = .ok k ∧
    Built DemoH.env lt id (hfix k) ∧ hrewrite DemoH.env lt id DemoH.o (hfix k) ≠ hfix k ∧ 
    Ad DemoH.env DemoH.L.C DemoH.sc DemoH.o (hfix k) DemoH.o.ty ∧
    ∃ r, DemoH.L.Returns DemoH.sc (hfix k) DemoH.o DemoH.x r ∧ DemoH.L.Returns DemoH.sc (hrewrite DemoH.env lt id DemoH.o (hfix k)) DemoH.o DemoH.x r := by
  have hb : ∀ h ∈ [.id, DemoH.h1], Built DemoH.env lt id h ∧ Ad DemoH.env DemoH.L.C DemoH.sc DemoH.o h DemoH.o.ty := by
    simp only [List.mem_cons, List.not_mem_nil, or_false, forall_eq_or_imp, forall_eq]
    exact ⟨⟨.id, _, Rl.id⟩, .loc 2 (.fn 0 DemoH.DU.inc), DemoH.ad_h1⟩
  have hk : hsum lt id [.id, DemoH.h1] = .ok (hnary .sum lt id [.id, DemoH.h1]) := rfl
  have hin : hnary .sum lt id [.fn 0 .inc, .id] = (.sum [.id, .fn 0 .inc] : Hom NSet Nat DemoH.DU) ∨
      hnary .sum lt id [.fn 0 .inc, .id] = (.sum [.fn 0 .inc, .id] : Hom NSet Nat DemoH.DU) := by
    rcases h : lt .id (.fn 0 .inc) with _ | _
    · rcases hlt.total .id (.fn 0 .inc) with h' | h' | h'
      · rw [h] at h'; cases h'
      · cases h'
      · exact Or.inr (by simp [hnary, heightAll, Hom.height, hnaryN, hvisitAll, hvisit, HAcc.add, insertBy, h, h', NAry.mk])
    · exact Or.inl (by simp [hnary, heightAll, Hom.height, hnaryN, hvisitAll, hvisit, HAcc.add, insertBy, h, NAry.mk])
  have key : hrewrite DemoH.env lt id DemoH.o (hfix (hnary .sum lt id [.id, DemoH.h1])) =
      .loc 2 (.satFix 0 .id [.fn 0 .inc] .id) := by
    have h1 : ∀ hs, hs = [.id, DemoH.h1] ∨ hs = [DemoH.h1, .id] →
        hrewrite DemoH.env lt id DemoH.o (hfix (.sum hs)) = .loc 2 (.satFix 0 .id [.fn 0 .inc] .id) := by
      rintro hs (rfl | rfl) <;> rcases hin with h' | h' <;>
        simp [hfix, DemoH.o, DemoH.h1, hrewrite, hparts, Hom.skip, OB.lvl, OB.level, h', hloc, hsatFix, homSet, insertBy, DemoH.env]
    rcases DemoH.sum2 hlt with h | h <;> rw [h]
    · exact h1 _ (Or.inl rfl)
    · exact h1 _ (Or.inr rfl)
  refine ⟨_, hk, .fix (.sum (fun h hh => (hb h hh).1) hk), ?_,
    (C35_additive_closed DemoH.ok.lawful DemoH.sing hlt (fun _ => .rfl) _).2.2.2.2.2.2.2.2.1 _ _ hk (by simp) hb,
    .hier 2 [(DemoH.f [1, 2, 3], .hier 1 [(DemoH.f [1], DemoH.f [3])])], ?_, ?_⟩
  · rw [key]; rcases DemoH.sum2 hlt with h | h <;> rw [h] <;> simp [hfix]
  · rcases DemoH.sum2 hlt with h | h <;> rw [h] <;> exact DemoH.ret 50 (by decide +kernel)
  · rw [key]; exact DemoH.ret 50 (by decide +kernel)

/-! ## C42, C43: selectors, skipped levels -/

/-- **C42.** The paths of the result of a selector are paths of the operand. -/
theorem C42_selector (hL : L.OK sc) {h : Hom V I U} {o : OB I} {x r : SDD V} (hu : L.Use sc h o x) (hsel : h.selector L.env = true)
    (hr : L.Returns sc h o x r) : ∀ p, Mem L.C p r → Mem L.C p x := Ev.selector hL.honest (hr.ev hL hu) hsel

example : DemoH.k1.selector DemoH.env = true ∧ DemoH.L.Use DemoH.sc DemoH.k1 DemoH.o DemoH.x ∧
    DemoH.L.Returns DemoH.sc DemoH.k1 DemoH.o DemoH.x (.hier 2 [(DemoH.f [1], .hier 1 [(DemoH.f [1], DemoH.f [3])])]) :=
  ⟨rfl, DemoH.ad_k1.use DemoH.ok DemoH.sing trivial DemoH.dom_x, DemoH.ret 50 (by decide +kernel)⟩

/-- **C43.** When the head level is skipped, its value in each path of the result comes from a path of the operand. -/
theorem C43_skipped (hL : L.OK sc) {h : Hom V I U} {id : OId I} {nst nxt : OB I} {x r : SDD V} (hu : L.Use sc h (.node id nst nxt) x)
    (hs : h.skip L.env nxt.lvl id = true) (hr : L.Returns sc h (.node id nst nxt) x r) :
    ∀ p', Mem L.C p' r → ∃ (hd : Head E) (q q' : Path E), p' = hd.cons q' ∧ Mem L.C (hd.cons q) x := by
  intro p' hp'
  obtain ⟨h1, h2⟩ := (Ev.skip_iff hL.lawful hs hu.dom).1 (hr.ev hL hu)
  obtain ⟨hd, s, q, rfl, h4, h5⟩ := (h2.2 p').1 hp'
  obtain ⟨q0, hq0⟩ := (h4.dom hu.dom).1.exists_mem (h4.dom hu.dom).2
  refine ⟨hd, q0, q, rfl, ?_⟩
  cases hd with
  | flat y a => cases x <;> simp only [ArcOf] at h4; obtain ⟨rfl, v, h6, h7⟩ := h4; exact ⟨rfl, _, h6, h7, hq0⟩
  | hier y n => cases x <;> simp only [ArcOf] at h4; obtain ⟨rfl, v, h6, h7⟩ := h4; exact ⟨rfl, _, h6, h7, hq0⟩

/-- **C43.** Exactly: below the values of the head level, the homomorphism is applied to the successor. -/
theorem C43_below (hL : L.OK sc) {h : Hom V I U} {id : OId I} {nst nxt : OB I} {x r : SDD V} (hu : L.Use sc h (.node id nst nxt) x)
    (hs : h.skip L.env nxt.lvl id = true) (hr : L.Returns sc h (.node id nst nxt) x r) :
    ∃ f : SDD V → SDD V, (∀ hd s, ArcOf L.C x hd s → L.Gives sc h nxt s (f s)) ∧
      ∀ p', Mem L.C p' r ↔ ∃ hd s q', p' = hd.cons q' ∧ ArcOf L.C x hd s ∧ Mem L.C q' (f s) := by
  obtain ⟨h1, h2⟩ := (Ev.skip_iff hL.lawful hs hu.dom).1 (hr.ev hL hu)
  obtain ⟨t, ht⟩ := hu.ty
  obtain ⟨t', _, ht'⟩ := ht.sk hs
  exact ⟨evOf L.env L.C h nxt, fun hd s ha => Lib.Use.gives hL ⟨(hL.closed _ _ _ hu.order).2, ⟨t', ht'⟩, (ha.dom hu.dom).1⟩
    ((h1 hd s ha).ev hL.lawful), h2.2⟩

/-- The increment of the level 3 skips the level 0. -/
example : DemoH.h3.skip DemoH.env 2 (OB.uid 0) = true ∧ DemoH.L.Use DemoH.sc DemoH.h3 DemoH.o DemoH.x ∧
    DemoH.L.Returns DemoH.sc DemoH.h3 DemoH.o DemoH.x (.hier 2 [(DemoH.f [1, 2], .hier 1 [(DemoH.f [2], DemoH.f [3])])]) :=
  ⟨rfl, DemoH.ad_h3.use DemoH.ok DemoH.sing trivial DemoH.dom_x, DemoH.ret 50 (by decide +kernel)⟩

/-! ## C44: access to levels -/

/-- **C44.** `function(o, i, f)` is built exactly when `i` is an identifier of the order. When `i` is a flat level, at any depth, applying it replaces the set of values `v` of each arc
of this level by `f(v)`, and leaves the other levels unchanged; and it always returns. -/
theorem C44_function (hL : L.OK sc) {o : OB I} (hS : sc.S o) {O : Ord I} (hO : Ord.ofBuilder o = .ok O) (i : I) (u : U) :
    ((hfunction O i u : Option (Hom V I U)) = none ↔ i ∉ o.userIds) ∧
    (FlatAt i o → ∀ h : Hom V I U, hfunction O i u = some h → ∀ x, Dom L.C o.ty x →
      L.Use sc h o x ∧ ∃ r, L.Gives sc h o x r ∧ Is L.C r (Img L.C i (L.env.fn u) o x)) := by
  constructor
  · by_cases hi : i ∈ o.userIds
    · obtain ⟨n, vs, l, m, h1, h2, h3⟩ := carrier_spec (V := V) (U := U) hO hi
      simp [hfunction, h1, h3, hi]
    · have := ((C28_identifiers o).2.2 O hO i).1.2 hi
      simp [hfunction, this, hi]
  · intro hf h hh x hx
    obtain ⟨vs, l, k, h1, h2, rfl⟩ := hfunction_spec hO hf hh
    have ht : HTy L.env L.C sc o (vs.foldr .loc (.fn k u)) o.ty := HTy.function h1 rfl
    have hn : ∀ vs : List Nat, (vs.foldr Hom.loc (.fn k u) : Hom V I U).noFix = true := by
      intro vs
      induction vs with
      | nil => rfl
      | cons _ _ ih => exact ih
    have hu : L.Use sc (vs.foldr .loc (.fn k u)) o x := ⟨hS, ⟨_, ht⟩, hx⟩
    have ht' : HTy L.env L.C ⟨fun _ => True, fun _ => False⟩ o (vs.foldr .loc (.fn k u)) o.ty := HTy.function h1 rfl
    obtain ⟨r, e⟩ := ht'.def hL.lawful (fun _ h => False.elim h) (fun _ h => False.elim h) (hn vs) hx
    exact ⟨hu, r, hu.gives hL e, (e.dom ht hx).wf, Ev.within_img hL.lawful h1 rfl h2 hx e⟩

/-- **C44.** When the function is additive (`f` on values), `function(o, i, f)` replaces the value of the level `i` of each path. -/
theorem C44_function_paths (hL : L.OK sc) {o : OB I} (hS : sc.S o) {O : Ord I} (hO : Ord.ofBuilder o = .ok O) {i : I} {u : U}
    (hi : FlatAt i o) {h : Hom V I U} (hh : hfunction O i u = some h) (f : E → E → Prop)
    (hf : ∀ v, (∃ a, L.C.vmem a v) → ∀ b, L.C.vmem b (L.env.fn u v) ↔ ∃ a, L.C.vmem a v ∧ f a b) {x r : SDD V} (hx : Dom L.C o.ty x)
    (hr : L.Returns sc h o x r) (p' : Path E) : Mem L.C p' r ↔ ∃ p, Mem L.C p x ∧ SetAt i f o p p' := by
  obtain ⟨vs, l, k, h1, h2, rfl⟩ := hfunction_spec hO hi hh
  have hrl := Rl.function (env := L.env) (sc := sc) h1 rfl h2 f hf
  exact hrl.image hx (hr.ev hL ⟨hS, ⟨_, hrl.hty⟩, hx⟩) p'

/-- **C44.** `carrier(o, i, h)` applies `h` to the SDDs of the level of `i` (the nested order to which `i` belongs) and leaves the other levels unchanged; `f y` is the
result of `h` on the SDD `y` of this level. -/
theorem C44_carrier (hL : L.OK sc) (hlim : L.C.limit = none) {o l : OB I} (hS : sc.S o) {O : Ord I} (hO : Ord.ofBuilder o = .ok O) {i : I} (hi : i ∈ o.userIds)
    (hl : LevelOf i o l) (hSl : sc.S l) {h h' : Hom V I U} (hne : h ≠ .id) (hh : carrier O i h = some h') (ht : HTy L.env L.C sc l h l.ty)
    {x r : SDD V} (hx : Dom L.C o.ty x) (hr : L.Returns sc h' o x r) (f : SDD V → SDD V)
    (hf : ∀ y z, Dom L.C l.ty y → L.Returns sc h l y z → f y = z) (p : Path E) :
    Mem L.C p r ↔ CarryImg L.C i (fun y q => Mem L.C q (f y)) o x p := by
  obtain ⟨vs, l', m, k, h1, h2, rfl⟩ := hcarrier_spec hO hi hne hh
  cases (h1.levelOf h2).unique h2 hl
  have ht' := HTy.carry h1 ht
  refine Ev.within_carry hL.lawful h1 (P := fun y q => Mem L.C q (f y)) ?_ h2 hx (hr.ev hL ⟨hS, ⟨_, ht'⟩, hx⟩) p
  intro y z hy e q
  rw [hf y z hy (hL.returns hlim ⟨hSl, ⟨_, ht⟩, hy⟩ e)]

/-- **C44.** `local(i, o, h)` is built exactly when `i` is an identifier of the order.  When `i` is a hierarchical element of the first level of the order,
it is `carrier(o, j, h)` for all the elements `j` of the order nested in `i`: it applies `h` to the SDDs nested in `i` and leaves the
other levels unchanged (`C44_carrier`). -/
theorem C44_local {o m : OB I} {O : Ord I} (hO : Ord.ofBuilder o = .ok O) (i : I) (h : Hom V I U) :
    (hlocal O i h = none ↔ i ∉ o.userIds) ∧
    ((OB.uid i, m) ∈ o.level → ∀ j, OB.uid j ∈ m.level.map Prod.fst → hlocal O i h = carrier O j h ∧ LevelOf j o m) := by
  constructor
  · by_cases hi : i ∈ o.userIds
    · obtain ⟨n, vs, l, m, h1, _⟩ := carrier_spec (V := V) (U := U) hO hi
      simp [hlocal, h1, hi]
    · have := ((C28_identifiers o).2.2 O hO i).1.2 hi
      simp [hlocal, this, hi]
  · intro hi j hj
    have hof := Ord.ofBuilder_spec o
    rw [hO] at hof
    have user : ∀ k, OB.uid k ∈ o.ids → k ∈ o.userIds := by
      intro k hk
      exact List.mem_map.2 ⟨_, List.mem_filter.2 ⟨hk, by simp [OB.uid]⟩, rfl⟩
    obtain ⟨x, he⟩ := Elem.of_level hi
    obtain ⟨⟨_, m'⟩, hm, rfl⟩ := List.mem_map.1 hj
    obtain ⟨x', he'⟩ := Elem.of_level hm
    have hw : Within (OB.uid j) o [x] m m' x' := by
      clear hi hof user hO
      generalize hq : OB.uid i = q at he
      induction he with
      | here => exact .nested (.here he')
      | next _ ih => exact .next (ih hj hm he')
    obtain ⟨n, vs, l, m1, h1, h2, _⟩ := carrier_spec (V := V) (U := U) hO (user _ he.mem)
    obtain ⟨n', vs', l', m2, h1', h2', h3'⟩ := carrier_spec (V := V) (U := U) hO (user _ hw.mem)
    obtain ⟨rfl, rfl, rfl, rfl⟩ := h2.unique (OnceIn.of_nodup hof.1) (.here he)
    obtain ⟨rfl, rfl, rfl, rfl⟩ := h2'.unique (OnceIn.of_nodup hof.1) hw
    refine ⟨?_, h2'.levelOf (OnceIn.of_nodup hof.1)⟩
    rw [h3', hlocal, h1]
    rfl

example : (hlocal DemoH.ord 2 DemoH.k1 = carrier DemoH.ord 3 DemoH.k1 ∧ LevelOf 3 DemoH.o (.node (OB.uid 3) .nil .nil)) ∧
    carrier DemoH.ord 3 DemoH.k1 = some (.loc 1 DemoH.k1) :=
  ⟨(C44_local DemoH.ord_eq 2 DemoH.k1).2 (by simp [DemoH.o, OB.level]) 3 (by simp [OB.level]), rfl⟩

/-- The level 3, nested in 2, is flat; the function is built and returns. -/
example : FlatAt 3 DemoH.o ∧ hfunction DemoH.ord 3 DemoH.DU.inc = some DemoH.h3 ∧ Ord.ofBuilder DemoH.o = .ok DemoH.ord ∧
    DemoH.L.Returns DemoH.sc DemoH.h3 DemoH.o DemoH.x (.hier 2 [(DemoH.f [1, 2], .hier 1 [(DemoH.f [2], DemoH.f [3])])]) :=
  ⟨by simp [FlatAt, DemoH.o, OB.uid], rfl, rfl, DemoH.ret 50 (by decide +kernel)⟩

theorem SetAt.vals {i : I} {f : E → E → Prop} {vs : List E} (hf : ∀ a b, f a b → a ∈ vs → b ∈ vs) (o : OB I) : ∀ {p p' : Path E},
    SetAt i f o p p' → (∀ a ∈ p.vals, a ∈ vs) → ∀ a ∈ p'.vals, a ∈ vs := by
  induction o with
  | nil => intro p p' h; simp [SetAt] at h
  | node id nst nxt ihn ih =>
    intro p p' h hp
    cases p <;> cases p' <;> simp only [SetAt] at h
    · simp only [Path.vals, List.mem_cons, forall_eq_or_imp] at hp ⊢
      obtain ⟨_, h⟩ := h
      split at h
      · exact ⟨hf _ _ h.1 hp.1, h.2 ▸ hp.2⟩
      · exact ⟨h.1 ▸ hp.1, ih h.2 hp.2⟩
    · simp only [Path.vals, List.mem_append] at hp ⊢
      obtain ⟨_, h | h⟩ := h
      · rintro a (ha | ha)
        · exact ihn h.1 (fun a ha => hp a (Or.inl ha)) a ha
        · exact hp a (Or.inr (h.2 ▸ ha))
      · rintro a (ha | ha)
        · exact hp a (Or.inl (h.1 ▸ ha))
        · exact ih h.2 (fun a ha => hp a (Or.inr ha)) a ha

/-- (C51) Increments of the level 1 have values less than 4; the fixpoint of `[id, h1]` terminates. -/
example (lt : Hom NSet Nat DemoH.DU → Hom NSet Nat DemoH.DU → Bool) (hlt : StrictTotal lt) : ∃ k, hsum lt id [.id, DemoH.h1] = .ok k ∧
    ∃ r N, ∀ n, N ≤ n → ∀ s, DemoH.L.Reach DemoH.sc s → (DemoH.L.apply n (hfix k) DemoH.o DemoH.x s).1 = .ok r := by
  refine ⟨_, rfl, C51_finite_values (hs := [.id, DemoH.h1]) (ord := id) DemoH.ok rfl hlt (fun _ => .rfl) trivial rfl (by simp) ?_ ?_ [0, 1, 2, 3] ?_ DemoH.dom_x ?_⟩
  · simp only [List.mem_cons, List.not_mem_nil, or_false, forall_eq_or_imp, forall_eq]
    exact ⟨.id, .loc 2 (.fn 0 DemoH.DU.inc)⟩
  · simp only [List.mem_cons, List.not_mem_nil, or_false, forall_eq_or_imp, forall_eq]
    exact ⟨.id _, (DemoH.ad_h1.rl DemoH.ok.lawful DemoH.sing).hty⟩
  · simp only [List.mem_cons (a := (_ : Hom NSet Nat DemoH.DU)), List.not_mem_nil, or_false, forall_eq_or_imp, forall_eq]
    refine ⟨fun y hy hyv => ⟨y, DemoH.ok.returns rfl ⟨trivial, ⟨_, .id _⟩, hy⟩ (.id _ _), hyv⟩, fun y hy hyv => ?_⟩
    have hi : FlatAt 1 DemoH.o := by simp [FlatAt, DemoH.o, OB.uid]
    obtain ⟨_, r, h1, _⟩ := (C44_function DemoH.ok (o := DemoH.o) trivial DemoH.ord_eq 1 DemoH.DU.inc).2 hi DemoH.h1 rfl y hy
    obtain ⟨N, hN⟩ := h1.2 rfl
    have hret : DemoH.L.Returns DemoH.sc DemoH.h1 DemoH.o y r := ⟨_, N, .init, hN N le_rfl _ .init⟩
    refine ⟨r, hret, fun p hp => ?_⟩
    have hg : ∀ v, (∃ a, DemoH.L.C.vmem a v) → ∀ b, DemoH.L.C.vmem b (DemoH.L.env.fn .inc v) ↔
        ∃ a, DemoH.L.C.vmem a v ∧ (if a < 3 then a + 1 else a) = b := by
      intro v _ b
      show b ∈ (ns _).data ↔ _
      rw [DemoH.mem_ns, List.mem_map]
      exact exists_congr fun a => and_congr_right fun _ => Iff.rfl
    obtain ⟨q, hq, hs⟩ := (C44_function_paths DemoH.ok trivial DemoH.ord_eq hi (u := .inc) rfl _ hg hy hret p).1 hp
    refine hs.vals ?_ _ (hyv q hq)
    intro a b (h : (if a < 3 then a + 1 else a) = b)
    simp only [List.mem_cons, List.not_mem_nil, or_false]
    split at h <;> omega
  · intro p hp
    have hf : ∀ l p, Mem DemoH.L.C p (DemoH.f l) → ∀ a ∈ p.vals, a ∈ l := by
      intro l p hp
      cases p with
      | flat z a q =>
        cases q <;> simp [Mem, DemoH.f, DemoH.vmem, DemoH.mem_ns] at hp
        simpa [Path.vals] using hp.2
      | nil => simp [Mem, DemoH.f] at hp
      | hier => simp [Mem, DemoH.f] at hp
    have hh : ∀ k n s p, Mem DemoH.L.C p (.hier k [(n, s)]) → ∃ q q', p.vals = q.vals ++ q'.vals ∧ Mem DemoH.L.C q n ∧ Mem DemoH.L.C q' s := by
      intro k n s p hp
      cases p with
      | hier z q q' =>
        obtain ⟨_, _, h1, h2, h3⟩ := hp
        cases List.mem_singleton.1 h1
        exact ⟨q, q', rfl, h2, h3⟩
      | nil => simp [Mem] at hp
      | flat => simp [Mem] at hp
    obtain ⟨q1, q2, h1, h2, h3⟩ := hh _ _ _ _ hp
    obtain ⟨q3, q4, h4, h5, h6⟩ := hh _ _ _ _ h3
    have a1 := hf _ _ h2
    have a2 := hf _ _ h5
    have a3 := hf _ _ h6
    rw [h1, h4]
    simp only [List.mem_append, List.mem_cons, List.not_mem_nil, or_false] at a1 a2 a3 ⊢
    rintro a (h | h | h)
    · have := a1 a h; omega
    · have := a2 a h; omega
    · have := a3 a h; omega

/-! ## C46: operands of sums and intersections -/

/-- **C46.** `sum` and `intersection` return the same homomorphism for any permutation or repetition of the operands, whatever the iteration of the
hash table which groups locals. -/
theorem C46_operands {lt : Hom V I U → Hom V I U → Bool} (hlt : StrictTotal lt)
    {ord ord' : List (Nat × List (Hom V I U)) → List (Nat × List (Hom V I U))} (hord : Iterates ord) (hord' : Iterates ord')
    {hs hs' : List (Hom V I U)} (hm : ∀ h, h ∈ hs ↔ h ∈ hs') :
    hsum lt ord hs = hsum lt ord' hs' ∧ hinter lt ord hs = hinter lt ord' hs' := by
  have he : hs = [] ↔ hs' = [] := by
    simp only [List.eq_nil_iff_forall_not_mem, hm]
  unfold hsum hinter
  by_cases h : hs = []
  · simp [h, he.1 h]
  · simp only [h, mt he.2 h, if_false]
    exact ⟨by rw [hnary_congr hlt hord hord' hm], by rw [hnary_congr hlt hord hord' hm]⟩

/-- A permutation with a repetition, and another iteration. -/
example : (∀ h, h ∈ [DemoH.h1, DemoH.h3, DemoH.k1] ↔ h ∈ [DemoH.k1, DemoH.h3, DemoH.k1, DemoH.h1]) ∧
    Iterates (id : List (Nat × List (Hom NSet Nat DemoH.DU)) → _) ∧ Iterates (List.reverse : List (Nat × List (Hom NSet Nat DemoH.DU)) → _) :=
  ⟨by intro h; simp; tauto, fun _ => .rfl, fun l => List.reverse_perm l⟩

/-! ## C53: results and orders -/

/-- **C53.** Without inductives which use identifiers, the result does not depend on the order, among those to which the operand conforms. -/
theorem C53_any_order (hL : L.OK sc) (hA : ∀ u, sc.A u → IdFree L.env u) {h : Hom V I U} {o o' : OB I} {x r : SDD V} (hu : L.Use sc h o x)
    (hu' : L.Use sc h o' x) (hr : L.Returns sc h o x r) : L.Gives sc h o' x r := by
  refine hu'.gives hL ?_
  by_cases h0 : x = .zero
  · subst h0
    cases (hr.ev hL hu).of_zero
    exact .zero _ _
  · obtain ⟨t, ht⟩ := hu.ty
    obtain ⟨t', ht'⟩ := hu'.ty
    exact (hr.ev hL hu).transfer hA (hu.dom.ty_unique hu'.dom (OB.ty_shape o) (OB.ty_shape o') h0) ht ht' hu.dom

/-- Two orders with different identifiers. -/
example : DemoH.L.Use DemoH.sc DemoH.h3 DemoH.o DemoH.x ∧ DemoH.L.Use DemoH.sc DemoH.h3 DemoH.o' DemoH.x ∧ DemoH.o ≠ DemoH.o' ∧
    (∀ u, DemoH.sc.A u → IdFree DemoH.L.env u) ∧
    DemoH.L.Returns DemoH.sc DemoH.h3 DemoH.o DemoH.x (.hier 2 [(DemoH.f [1, 2], .hier 1 [(DemoH.f [2], DemoH.f [3])])]) :=
  ⟨DemoH.ad_h3.use DemoH.ok DemoH.sing trivial DemoH.dom_x, DemoH.ad_h3'.use DemoH.ok DemoH.sing trivial DemoH.dom_x, by decide +kernel,
    fun _ h => h.elim, DemoH.ret 50 (by decide +kernel)⟩

/-! ## C57: termination -/

/-- **C57.** A homomorphism without fixpoint returns, on each SDD of the order under which it may be used, after any history (the inductives must not
return fixpoints either; there is no limit on the number of arcs). -/
theorem C57_returns (hL : L.OK sc) (hlim : L.C.limit = none)
    (hF : ∀ u, sc.A u → ∀ o v, (L.env.indF u o v).noFix = true) (hH : ∀ u, sc.A u → ∀ o v, (L.env.indH u o v).noFix = true)
    {h : Hom V I U} (hn : h.noFix = true) {o : OB I} {x : SDD V} (hu : L.Use sc h o x) :
    ∃ r N, ∀ n, N ≤ n → ∀ s, L.Reach sc s → (L.apply n h o x s).1 = .ok r := by
  obtain ⟨t, ht⟩ := hu.ty
  obtain ⟨r, e⟩ := ht.def hL.lawful hF hH hn hu.dom
  exact ⟨r, hL.total hlim hu e⟩

/-! ## C68: exceptions thrown by the code of the user -/

/-- **C68**, homomorphisms. An application during which the code of the user (functions, inductive homomorphisms, operations on values) throws, at
any point of the evaluation of any nested homomorphism or operation, either raises (this exception, or the exception on the number of arcs; or it is
stopped) or returns the right result; after it, as after any history, every application returns the right result. -/
theorem C68_homomorphisms (hL : L.OK sc) {s : HMach V I U} (hs : L.Reach sc s) {h : Hom V I U} {o : OB I} {x : SDD V} (hu : L.Use sc h o x)
    (stop : Nat → Option (Err V)) (n : Nat) {res : Except (Err V) (SDD V)} {s' : HMach V I U} (he : L.applyX stop n h o x s = (res, s')) :
    (match res with
      | .ok r => Ev L.env L.C h o x r
      | .error e => (∃ k, stop k = some e) ∨ e = .fuel ∨ e = .overflow ∧ L.C.limit ≠ none) ∧
    L.Reach sc s' ∧
    ∀ {h' : Hom V I U} {o' : OB I} {x' : SDD V}, L.Use sc h' o' x' →
      (∀ {n' r'}, (L.apply n' h' o' x' s').1 = .ok r' → Ev L.env L.C h' o' x' r') ∧
      ∀ {r'}, Ev L.env L.C h' o' x' r' → L.C.limit = none → ∃ N, ∀ n', N ≤ n' → (L.apply n' h' o' x' s').1 = .ok r' := by
  have hr : L.Reach sc s' := by
    have := Lib.Reach.thrown stop n hs hu
    rw [he] at this
    exact this
  refine ⟨?_, hr, fun hu' => ⟨fun h => Lib.Returns.ev hL ⟨_, _, hr, h⟩ hu', fun e hlim => ?_⟩⟩
  · have := (hL.satX (stop := stop) (n := n) (allow := fun e => (∃ k, stop k = some e) ∨ e = .fuel ∨ e = .overflow ∧ L.C.limit ≠ none)
      (by
        by_cases h : L.C.limit = none
        · exact Or.inl h
        · exact Or.inr (Or.inr (Or.inr ⟨rfl, h⟩))) (Or.inr (Or.inl rfl)) (fun k e h => Or.inl ⟨k, h⟩) hu s (hs.ok hL)).2
    rw [he] at this
    match res, this with
    | .ok r, h => exact h
    | .error e, h => exact h
  · obtain ⟨N, hN⟩ := hL.total hlim hu' e
    exact ⟨N, fun n' h => hN n' h _ hr⟩

/-- An exception thrown after the result of a nested application has been stored. -/
def DemoH.thrown : Except (Err NSet) (SDD NSet) × HMach NSet Nat DemoH.DU :=
  DemoH.L.applyX (fun k => if k = 11 then some .invalid else none) 50 DemoH.h3 DemoH.o DemoH.x DemoH.s0

/-- The application is a correct use and raises what the code of the user throws, with one entry in the cache; done again, it returns. -/
example : DemoH.L.Use DemoH.sc DemoH.h3 DemoH.o DemoH.x ∧ DemoH.thrown.1 = .error .invalid ∧ DemoH.thrown.2.homs.length = 1 ∧
    (DemoH.L.apply 50 DemoH.h3 DemoH.o DemoH.x DemoH.thrown.2).1 = .ok (.hier 2 [(DemoH.f [1, 2], .hier 1 [(DemoH.f [2], DemoH.f [3])])]) :=
  ⟨DemoH.ad_h3.use DemoH.ok DemoH.sing trivial DemoH.dom_x, by decide +kernel, by decide +kernel, by decide +kernel⟩

end Verif
