import Verif.Properties.Hom
/-!
# Targets of homomorphisms, and wrong uses
-/

set_option autoImplicit false
set_option linter.unusedSectionVars false

namespace Verif

section
variable {V E I U : Type} [DecidableEq V] [DecidableEq I] [DecidableEq U] {L : Lib V E I U} {sc : Scope I U}

/-- With an empty cache of homomorphisms, the application is an undefined behaviour. (Specification, not part of the code.) -/
def Lib.Undefined (L : Lib V E I U) (K : Nat) (h : Hom V I U) (o : OB I) (x : SDD V) : Prop :=
  ∀ n, K ≤ n → ∀ s, s.homs = [] → ∃ s', L.apply n h o x s = (.error .ub, s') ∧ s'.homs = []

/-- The evaluation which `Lib.apply` makes. (Proof device, not part of the code.) -/
def Lib.ev (L : Lib V E I U) (n : Nat) (h : Hom V I U) (o : OB I) (x : SDD V) : HM L.orc V I U (SDD V) :=
  homEval L.env L.C (fun op => HM.lift (autoRun (runC L.C L.orc L.cap) op)) n (L.apply n) h o x

theorem Lib.Undefined.mono {K K' : Nat} {h : Hom V I U} {o : OB I} {x : SDD V} (hu : L.Undefined K h o x) (hk : K ≤ K') : L.Undefined K' h o x :=
  fun n hn => hu n (Nat.le_trans hk hn)

theorem Lib.Undefined.step {K : Nat} {h : Hom V I U} {o : OB I} {x : SDD V} (h1 : h ≠ .id) (h2 : x ≠ .zero) (h3 : h.shouldCache = true)
    (he : ∀ n, K ≤ n → ∀ s, s.homs = [] → ∃ s', L.ev n h o x s = (.error .ub, s') ∧ s'.homs = []) : L.Undefined (K + 1) h o x := by
  intro n hn s hs
  obtain ⟨n, rfl⟩ : ∃ k, n = k + 1 := ⟨n - 1, by omega⟩
  obtain ⟨s', e, hs'⟩ := he n (by omega) s hs
  refine ⟨s', ?_, hs'⟩
  have hz : ¬ (h.isId || x.isZero) = true := by
    cases h <;> cases x <;> simp_all [Hom.isId, SDD.isZero]
  unfold Lib.ev at e
  unfold Lib.apply homC at e ⊢
  rw [runH, if_neg hz]
  simp only [homCache, h3, if_true, hs, lruFind, List.find?_nil, Option.map_none, e]

theorem perm_cons {α : Type} {l : List α} (hl : l ≠ []) (code : List Nat) : ∃ a ∈ l, ∃ l', permBy code l = a :: l' := by
  cases hp : permBy code l with
  | nil =>
    have := (permBy_perm l code).length_eq
    rw [hp] at this
    exact absurd (List.length_eq_zero_iff.1 this.symm) hl
  | cons a l' => exact ⟨a, (permBy_perm l code).subset (by rw [hp]; exact List.mem_cons_self), l', rfl⟩

/-- A level which is skipped. -/
theorem Lib.Undefined.skip {K : Nat} {h : Hom V I U} {id : OId I} {nst nxt : OB I} {x : SDD V} (h1 : h ≠ .id) (h2 : x ≠ .zero)
    (h3 : h.shouldCache = true) (hs : h.skip L.env nxt.lvl id = true) (hx : Dom L.C (OB.node id nst nxt).ty x)
    (hu : ∀ y, Dom L.C nxt.ty y → y ≠ .zero → L.Undefined K h nxt y) : L.Undefined (K + 1) h (.node id nst nxt) x := by
  refine .step h1 h2 h3 fun n hn s hs0 => ?_
  cases hx with
  | zero => exact absurd rfl h2
  | one _ ho => cases nst <;> simp [OB.ty, Ty.hasOne] at ho
  | flat _ t' y arcs hf hg hd =>
    obtain ⟨rfl, rfl⟩ : y = nxt.lvl ∧ t' = nxt.ty := by
      cases nst <;> simp only [OB.ty, Ty.flatNext] at hf
      · split at hf
        · rename_i e; cases hf; exact ⟨e.symm, rfl⟩
        · cases hf
      · cases hf
    obtain ⟨⟨v, a⟩, ha, l', hp⟩ := perm_cons hg.ne (L.orc s.dd.tick arcs.length)
    obtain ⟨s', e, hs'⟩ := hu a (hd _ ha) (hg.succNe _ ha) n hn { s with dd := { s.dd with tick := s.dd.tick + 1 } } hs0
    refine ⟨s', ?_, hs'⟩
    have hq : L.ev n h (.node id nst nxt) (.flat nxt.lvl arcs) = skipNode (m := HM L.orc V I U) L.C (flatKind L.C) (L.apply n h nxt) nxt.lvl arcs := by
      simp only [Lib.ev, homEval]
      rw [if_neg (fun h => h rfl), if_pos hs]
    rw [hq]
    simp only [skipNode, bind, DDMonad.ord, hp, skipArcs]
    rw [e]
  | hier _ tn t' y arcs hf hg hdn hd =>
    obtain ⟨rfl, rfl⟩ : y = nxt.lvl ∧ t' = nxt.ty := by
      cases nst <;> simp only [OB.ty, Ty.hierNext] at hf
      · cases hf
      · split at hf
        · rename_i e; cases hf; exact ⟨e.symm, rfl⟩
        · cases hf
    obtain ⟨⟨v, a⟩, ha, l', hp⟩ := perm_cons hg.ne (L.orc s.dd.tick arcs.length)
    obtain ⟨s', e, hs'⟩ := hu a (hd _ ha) (hg.succNe _ ha) n hn { s with dd := { s.dd with tick := s.dd.tick + 1 } } hs0
    refine ⟨s', ?_, hs'⟩
    have hq : L.ev n h (.node id nst nxt) (.hier nxt.lvl arcs) = skipNode (m := HM L.orc V I U) L.C (hierKind L.C fun op => HM.lift (autoRun (runC L.C L.orc L.cap) op)) (L.apply n h nxt) nxt.lvl arcs := by
      simp only [Lib.ev, homEval]
      rw [if_neg (fun h => h rfl), if_pos hs]
    rw [hq]
    simp only [skipNode, bind, DDMonad.ord, hp, skipArcs]
    rw [e]

/-- A nested level. -/
theorem Lib.Undefined.local {K : Nat} {h : Hom V I U} {id : OId I} {nst nxt : OB I} {x : SDD V} (h2 : x ≠ .zero) (hn : nst ≠ .nil)
    (hx : Dom L.C (OB.node id nst nxt).ty x) (hu : ∀ y, Dom L.C nst.ty y → y ≠ .zero → L.Undefined K h nst y) :
    L.Undefined (K + 1) (.loc nxt.lvl h) (.node id nst nxt) x := by
  refine .step (by simp) h2 rfl fun n hn s hs0 => ?_
  cases hx with
  | zero => exact absurd rfl h2
  | one _ ho => cases nst <;> simp [OB.ty, Ty.hasOne] at ho
  | flat _ t' y arcs hf hg hd => cases nst <;> simp_all [OB.ty, Ty.flatNext]
  | hier _ tn t' y arcs hf hg hdn hd =>
    obtain ⟨rfl, rfl⟩ : y = nxt.lvl ∧ tn = nst.ty := by
      cases nst <;> simp only [OB.ty, Ty.hierNext] at hf
      · cases hf
      · split at hf
        · rename_i e; cases hf; exact ⟨e.symm, rfl⟩
        · cases hf
    obtain ⟨⟨v, a⟩, ha, l', hp⟩ := perm_cons hg.ne (L.orc s.dd.tick arcs.length)
    have hv : v ≠ .zero := by
      rintro rfl
      obtain ⟨q, hq⟩ := hg.valNe _ ha
      cases q <;> simp [Mem] at hq
    obtain ⟨s', e, hs'⟩ := hu v (hdn _ ha) hv n hn { s with dd := { s.dd with tick := s.dd.tick + 1 } } hs0
    refine ⟨s', ?_, hs'⟩
    have hsk : (Hom.loc nxt.lvl h : Hom V I U).skip L.env nxt.lvl id = false := by simp [Hom.skip]
    have hq : L.ev n (.loc nxt.lvl h) (.node id nst nxt) (.hier nxt.lvl arcs) = homWork (m := HM L.orc V I U) L.env L.C
        (fun op => HM.lift (autoRun (runC L.C L.orc L.cap) op)) n (L.apply n) (.loc nxt.lvl h) (.node id nst nxt) (.hier nxt.lvl arcs) := by
      simp only [Lib.ev, homEval]
      rw [if_neg (fun h => h rfl), if_neg (by rw [hsk]; simp)]
    rw [hq]
    simp only [homWork, bind, DDMonad.ord, hp]
    by_cases hsel : h.selector L.env = true
    · refine Eq.trans (congrFun (if_pos hsel) _) ?_
      simp only [locSquare, bind]
      rw [e]
    · refine Eq.trans (congrFun (if_neg hsel) _) ?_
      simp only [locSum, bind]
      rw [e]

/-- A function whose target is hierarchical. -/
theorem Lib.Undefined.function {i : OId I} {o m : OB I} {k : Nat} (u : U) (he : Elem i o m k) (hm : m ≠ .nil) :
    ∃ K, ∀ x, Dom L.C o.ty x → x ≠ .zero → L.Undefined K (.fn k u) o x := by
  induction he with
  | @here m nxt =>
    refine ⟨1, fun x hx hne => .step (by simp) hne rfl fun n _ s hs => ⟨s, ?_, hs⟩⟩
    cases hx with
    | zero => exact absurd rfl hne
    | one _ ho => cases m <;> simp [OB.ty, Ty.hasOne] at ho
    | flat _ t' y arcs hf => cases m <;> simp_all [OB.ty, Ty.flatNext]
    | hier _ tn t' y arcs hf hg hdn hd =>
      simp only [Lib.ev, homEval]
      split
      · rfl
      · rw [if_neg (by simp [Hom.skip])]
        rfl
  | @next id nst nxt m k he ih =>
    obtain ⟨K, hK⟩ := ih hm
    have := he.lt
    exact ⟨K + 1, fun x hx hne => .skip (by simp) hne rfl (by simp only [Hom.skip, ne_eq, decide_eq_true_eq]; omega) hx hK⟩

/-- A local whose target is flat. -/
theorem Lib.Undefined.localFlat {i : OId I} {o m : OB I} {k : Nat} (h : Hom V I U) (he : Elem i o m k) (hm : m = .nil) :
    ∃ K, ∀ x, Dom L.C o.ty x → x ≠ .zero → L.Undefined K (.loc k h) o x := by
  induction he with
  | @here m nxt =>
    subst hm
    refine ⟨1, fun x hx hne => .step (by simp) hne rfl fun n _ s hs => ⟨s, ?_, hs⟩⟩
    cases hx with
    | zero => exact absurd rfl hne
    | one _ ho => simp [OB.ty, Ty.hasOne] at ho
    | hier _ tn t' y arcs hf => simp [OB.ty, Ty.hierNext] at hf
    | flat _ t' y arcs hf hg hd =>
      simp only [Lib.ev, homEval]
      split
      · rfl
      · rw [if_neg (by simp [Hom.skip])]
        rfl
  | @next id nst nxt m k he ih =>
    obtain ⟨K, hK⟩ := ih hm
    have := he.lt
    exact ⟨K + 1, fun x hx hne => .skip (by simp) hne rfl (by simp only [Hom.skip, ne_eq, decide_eq_true_eq]; omega) hx hK⟩

theorem Lib.Undefined.within {i : OId I} {o l m : OB I} {vs : List Nat} {k : Nat} (u : U) (hw : Within i o vs l m k) (hm : m ≠ .nil) :
    ∃ K, ∀ x, Dom L.C o.ty x → x ≠ .zero → L.Undefined K (vs.foldr .loc (.fn k u)) o x := by
  induction hw with
  | here he => exact Lib.Undefined.function u he hm
  | @next id nst nxt l m y vs k hw ih =>
    obtain ⟨K, hK⟩ := ih hm
    have := hw.lt
    exact ⟨K + 1, fun x hx hne => .skip (by simp) hne rfl
      (by simp only [List.foldr_cons, Hom.skip, ne_eq, decide_eq_true_eq]; omega) hx hK⟩
  | @nested id nst nxt l m vs k hw ih =>
    obtain ⟨K, hK⟩ := ih hm
    have hn : nst ≠ .nil := by
      rintro rfl
      cases hw with
      | here he => cases he
    exact ⟨K + 1, fun x hx hne => .local hne hn hx hK⟩

theorem Within.flatAt {i : I} {o l m : OB I} {vs : List Nat} {k : Nat} (hw : Within (OB.uid i) o vs l m k) (hm : m = .nil) : FlatAt i o := by
  have he : ∀ {o m : OB I} {k : Nat}, Elem (OB.uid i) o m k → m = .nil → FlatAt i o := by
    intro o m k he hm
    induction he with
    | here => exact Or.inl ⟨rfl, hm⟩
    | next _ ih => exact Or.inr (Or.inr (ih hm))
  induction hw with
  | here h => exact he h hm
  | next _ ih => exact Or.inr (Or.inr (ih hm))
  | nested _ ih => exact Or.inr (Or.inl (ih hm))

theorem user_mem {o : OB I} {k : I} (hk : OB.uid k ∈ o.ids) : k ∈ o.userIds :=
  List.mem_map.2 ⟨_, List.mem_filter.2 ⟨hk, by simp [OB.uid]⟩, rfl⟩

/-! ## C99 -/

/-- **C99**, partial. Whatever the history, an application of a homomorphism to an SDD of the order, when its parts have suitable targets (`Lib.Use`), either
returns what the homomorphism means, or reports that the number of arcs of a node is too large, or does not end; it has no undefined behaviour. `function` on a
flat identifier, and `local` on a hierarchical identifier of the first level, of a homomorphism which suits the nested order, are such; unknown
identifiers are reported.

What is missing: other targets (`C99_negation_function`, `C99_negation_local`, `C99_negation_nested`). -/
theorem C99_targets_partial (hL : L.OK sc) {o : OB I} (hS : sc.S o) {O : Ord I} (hO : Ord.ofBuilder o = .ok O) {x : SDD V} (hx : Dom L.C o.ty x) :
    (∀ n (h : Hom V I U) s, L.Use sc h o x → L.Reach sc s → (∃ r, (L.apply n h o x s).1 = .ok r ∧ L.Gives sc h o x r) ∨
      (L.apply n h o x s).1 = .error .fuel ∨ (L.apply n h o x s).1 = .error .overflow) ∧
    (∀ i u, i ∉ o.userIds → (hfunction O i u : Option (Hom V I U)) = none) ∧
    (∀ i (h : Hom V I U), i ∉ o.userIds → hlocal O i h = none ∧ carrier O i h = none) ∧
    (∀ i u, FlatAt i o → ∃ h : Hom V I U, hfunction O i u = some h ∧ L.Use sc h o x) ∧
    (∀ i nst (h : Hom V I U), (OB.uid i, nst) ∈ o.level → nst ≠ .nil → (∃ t, HTy L.env L.C sc nst h t) →
      ∃ h', hlocal O i h = some h' ∧ L.Use sc h' o x) := by
  refine ⟨fun n h s hu hs => ?_, fun i u hi => ((C44_function hL hS hO i u).1).2 hi, fun i h hi => ⟨((C44_local (m := o) hO i h).1).2 hi, ?_⟩, fun i u hi => ?_,
    fun i nst h hi hne ht => ?_⟩
  · have h1 := hL.sat (n := n) hu s (hs.ok hL)
    cases e : (L.apply n h o x s).1 with
    | ok r => exact Or.inl ⟨r, rfl, hu.gives hL (by have := h1.2; rwa [e] at this)⟩
    | error er =>
      have h2 : okErr er := by have := h1.2; rwa [e] at this
      rcases h2 with rfl | rfl <;> simp
  · have := ((C28_identifiers o).2.2 O hO i).1.2 hi
    simp [carrier, this]
  · obtain ⟨n, vs, l, m, h1, h2, h3⟩ := carrier_spec (V := V) (U := U) hO hi.mem
    have h4 : (hfunction O i u : Option (Hom V I U)) = some (vs.foldr hloc (.fn n.var u)) := by rw [hfunction, h1, Option.bind_some, h3]
    exact ⟨_, h4, ((C44_function hL hS hO i u).2 hi _ h4 x hx).1⟩
  · obtain ⟨k, he⟩ := Elem.of_level hi
    obtain ⟨n, vs, l, m, h1, h2, -⟩ := carrier_spec (V := V) (U := U) hO (user_mem he.mem)
    have hof := Ord.ofBuilder_spec o
    rw [hO] at hof
    obtain ⟨rfl, rfl, rfl, rfl⟩ := h2.unique (OnceIn.of_nodup hof.1) (.here he)
    refine ⟨hloc n.var h, by rw [hlocal, h1]; rfl, hS, ?_, hx⟩
    by_cases hid : h = .id
    · subst hid
      exact ⟨_, .id _⟩
    · rw [hloc, if_neg hid]
      clear h2 hx hof h1 hi hO hS
      generalize OB.uid i = q at he
      generalize n.var = k at he ⊢
      induction he with
      | here => exact ht.elim fun t ht => ⟨_, .loc hne ht⟩
      | next he ih =>
        obtain ⟨t, ht'⟩ := ih hne ht
        have := he.lt
        exact ⟨_, .skip (by simp) (by simp only [Hom.skip, ne_eq, decide_eq_true_eq]; omega) ht'⟩

/-- **C99**, negation. `function` accepts a hierarchical identifier, at any depth, of any order (`/repo/sdd/hom/function.hh:341`, "todo"): its application to any
SDD of this order, except |0|, is an undefined behaviour (`/repo/sdd/hom/function.hh:243-250`). -/
theorem C99_negation_function {o : OB I} {O : Ord I} (hO : Ord.ofBuilder o = .ok O) {i : I} (hi : i ∈ o.userIds) (hf : ¬ FlatAt i o) (u : U) :
    ∃ h : Hom V I U, hfunction O i u = some h ∧ ∃ K, ∀ x, Dom L.C o.ty x → x ≠ .zero → L.Undefined K h o x := by
  obtain ⟨n, vs, l, m, h1, h2, h3⟩ := carrier_spec (V := V) (U := U) hO hi
  have e : ∀ vs : List Nat, (vs.foldr hloc (.fn n.var u) : Hom V I U) = vs.foldr .loc (.fn n.var u) ∧ (vs.foldr .loc (.fn n.var u) : Hom V I U) ≠ .id := by
    intro vs
    induction vs with
    | nil => exact ⟨rfl, by simp⟩
    | cons v vs ih => exact ⟨by rw [List.foldr_cons, ih.1, hloc, if_neg ih.2]; rfl, by simp⟩
  refine ⟨vs.foldr .loc (.fn n.var u), ?_, Lib.Undefined.within u h2 fun hm => hf (h2.flatAt hm)⟩
  rw [hfunction, h1, Option.bind_some, h3, (e vs).1]

/-- **C99**, negation. `local` accepts a flat identifier (`/repo/sdd/hom/local.hh:148`, "todo"): its application to any SDD of the order, except |0|, is an
undefined behaviour (`/repo/sdd/hom/local.hh:75-83`). -/
theorem C99_negation_local {o : OB I} {O : Ord I} (hO : Ord.ofBuilder o = .ok O) {i : I} (hi : (OB.uid i, OB.nil) ∈ o.level) {h : Hom V I U} (hne : h ≠ .id) :
    ∃ h' : Hom V I U, hlocal O i h = some h' ∧ ∃ K, ∀ x, Dom L.C o.ty x → x ≠ .zero → L.Undefined K h' o x := by
  obtain ⟨k, he⟩ := Elem.of_level hi
  obtain ⟨n, vs, l, m, h1, h2, -⟩ := carrier_spec (V := V) (U := U) hO (user_mem he.mem)
  have hof := Ord.ofBuilder_spec o
  rw [hO] at hof
  obtain ⟨rfl, rfl, rfl, rfl⟩ := h2.unique (OnceIn.of_nodup hof.1) (.here he)
  refine ⟨.loc n.var h, by rw [hlocal, h1, Option.map_some, hloc, if_neg hne], Lib.Undefined.localFlat h he rfl⟩

/-- **C99**, negation. `local` ignores where its target is: two identifiers which have the same position in their levels give the same
homomorphism, whatever these levels are (`/repo/sdd/hom/local.hh:149`). On a witness: an order with the levels 0 and 4; 1 and 3 in 0; 2 in 1. `local` on 1 of the
increment of 2 increments 3, and leaves 2 unchanged. -/
theorem C99_negation_nested :
    (∀ (O : Ord I) (i j : I) (a b : ONode I) (h : Hom V I U), O.node i = some a → O.node j = some b → a.var = b.var → hlocal O i h = hlocal O j h) ∧
    ∃ (o : OB Nat) (O : Ord Nat) (h h' h'' : Hom NSet Nat DemoH.DU) (x : SDD NSet), Ord.ofBuilder o = .ok O ∧
      hlocal O 1 h = some h' ∧ carrier O 2 h = some h'' ∧
      DemoH.L.Returns DemoH.sc h' o x (.hier 1 [(.hier 1 [(DemoH.f [1], DemoH.f [2])], DemoH.f [1])]) ∧
      DemoH.L.Returns DemoH.sc h'' o x (.hier 1 [(.hier 1 [(DemoH.f [2], DemoH.f [1])], DemoH.f [1])]) := by
  refine ⟨fun O i j a b h ha hb e => by rw [hlocal, hlocal, ha, hb, Option.map_some, Option.map_some, e], ?_⟩
  refine ⟨.node (OB.uid 0) (.node (OB.uid 1) (.node (OB.uid 2) .nil .nil) (.node (OB.uid 3) .nil .nil)) (.node (OB.uid 4) .nil .nil), _, .fn 0 .inc, _, _,
    .hier 1 [(.hier 1 [(DemoH.f [1], DemoH.f [1])], DemoH.f [1])], rfl, rfl, rfl, DemoH.ret 50 (by decide +kernel), DemoH.ret 50 (by decide +kernel)⟩

/-! ## Concrete cases -/

/-- `C99_targets_partial`: a flat identifier (4) and a hierarchical one (2, whose nested level is 3) of the order of `DemoH`. -/
example : DemoH.L.OK DemoH.sc ∧ Ord.ofBuilder DemoH.o = .ok DemoH.ord ∧ Dom DemoH.L.C DemoH.o.ty DemoH.x ∧ FlatAt 4 DemoH.o ∧
    (OB.uid 2, .node (OB.uid 3) .nil .nil) ∈ DemoH.o.level ∧ 7 ∉ DemoH.o.userIds ∧
    HTy DemoH.L.env DemoH.L.C DemoH.sc (.node (OB.uid 3) .nil .nil) (.fn 0 .inc) (OB.node (OB.uid 3) .nil .nil).ty ∧
    hlocal DemoH.ord 2 (.fn 0 DemoH.DU.inc : Hom NSet Nat DemoH.DU) = some (.loc 1 (.fn 0 .inc)) :=
  ⟨DemoH.ok, rfl, DemoH.dom_x, by simp [FlatAt, DemoH.o, OB.uid], by simp [DemoH.o, OB.level], by decide, .fn, rfl⟩

/-- `C99_negation_function`: the identifier 2 is hierarchical. -/
example : 2 ∈ DemoH.o.userIds ∧ ¬ FlatAt 2 DemoH.o ∧ DemoH.x ≠ .zero ∧ hfunction DemoH.ord 2 DemoH.DU.inc = some (.fn 1 .inc : Hom NSet Nat DemoH.DU) ∧
    (DemoH.L.apply 50 (.fn 1 .inc) DemoH.o DemoH.x DemoH.s0).1.toOption = none :=
  ⟨by decide, by simp [FlatAt, DemoH.o, OB.uid], by simp [DemoH.x], rfl, by decide +kernel⟩

/-- `C99_negation_local`: the identifier 4 is flat. -/
example : (OB.uid 4, OB.nil) ∈ DemoH.o.level ∧ (.fn 0 .inc : Hom NSet Nat DemoH.DU) ≠ .id ∧
    (DemoH.L.apply 50 (.loc 0 (.fn 0 .inc)) DemoH.o DemoH.x DemoH.s0).1.toOption = none :=
  ⟨by simp [DemoH.o, OB.level], by simp, by decide +kernel⟩

end
end Verif
