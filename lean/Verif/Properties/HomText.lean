import Verif.Hom.Text
import Verif.Properties.Hom
import Verif.Properties.Text
/-!
# Properties of the textual output of homomorphisms
-/

set_option autoImplicit false
set_option linter.unusedSectionVars false

namespace Verif

variable {V E I U : Type} [DecidableEq V] [DecidableEq I] [DecidableEq U] {P : Printers V I U} {L : Lib V E I U} {sc : Scope I U}
  {S : OB I → Prop}

theorem Hom.WF.texts {C : Cfg V E} {h : Hom V I U} (hw : h.WF C) : ∀ s, Hom.Const s h → ∃ a, textSdd P.pv s = some a := by
  intro s hs
  obtain ⟨n, hn⟩ := hw s hs
  exact hn.text

/-- **C73**, definedness: a homomorphism whose sums and intersections have operands, whose `cons` have an order which is not empty and which
holds SDDs in canonical form has a text. -/
theorem C73_text_defined {C : Cfg V E} {h : Hom V I U} (hp : h.Printable) (hw : h.WF C) : ∃ x, h.text P = some x :=
  hp.text hw.texts

/-- **C73.** Two homomorphisms have the same text exactly when they differ only by the grouping of their compositions, as `(f ∘ g) ∘ h` and
`f ∘ (g ∘ h)`. Missing for the full statement: sums (and parts `G` of saturations) where an operand which is not the last one ends with the
saturation of a fixpoint without part `G`, whose text is not closed. -/
theorem C73_text_identifies_partial {C : Cfg V E} (hP : P.OK S) (hS : ∀ o, S o → o ≠ .nil) {h h' : Hom V I U} (hr : Hom.Readable S h)
    (hr' : Hom.Readable S h') (hw : h.WF C) (hw' : h'.WF C) :
    ∃ x x', h.text P = some x ∧ h'.text P = some x' ∧ (x = x' ↔ Hom.Assoc h h') := by
  obtain ⟨x, hx⟩ := C73_text_defined (P := P) (hr.printable hS) hw
  obtain ⟨x', hx'⟩ := C73_text_defined (P := P) (hr'.printable hS) hw'
  exact ⟨x, x', hx, hx', Hom.text_eq_iff hP hr hr' hx hx'⟩

/-- **C73**, results: homomorphisms with the same text can be applied to the same SDDs, and return the same SDD. -/
theorem C73_same_text_same_results_partial (hL : L.OK sc) (hc : L.env.Canon L.C) (hP : P.OK S) (hS : ∀ o, S o → o ≠ .nil)
    {h h' : Hom V I U} (hr : Hom.Readable S h) (hr' : Hom.Readable S h') (hw' : h'.WF L.C) (he : h.text P = h'.text P) {o : OB I} {x : SDD V}
    (hu : L.Use sc h o x) : L.Use sc h' o x ∧ ∀ r r', L.Returns sc h o x r → L.Returns sc h' o x r' → r = r' := by
  obtain ⟨t, ht⟩ := hu.ty
  obtain ⟨y, y', hy, hy', e⟩ := C73_text_identifies_partial hP hS hr hr' ht.wf hw'
  have ha := e.1 (by rw [he, hy'] at hy; exact (Option.some.inj hy).symm)
  obtain ⟨g1, g2⟩ := ha.ev (sc := sc) (o := o) hL.lawful hc
  have hu' : L.Use sc h' o x := ⟨hu.order, ⟨t, g1.1 ht⟩, hu.dom⟩
  exact ⟨hu', fun r r' h1 h2 => ((g2 ht hu.dom).1 (h1.ev hL hu)).det hL.lawful (h2.ev hL hu')⟩

/-- **C73**, results: grouping of compositions does not change what is returned, whether the text can be read or not. -/
theorem C73_grouping (hL : L.OK sc) (hlim : L.C.limit = none) (hc : L.env.Canon L.C) {h h' : Hom V I U} (ha : Hom.Assoc h h') {o : OB I}
    {x : SDD V} (hu : L.Use sc h o x) : L.Use sc h' o x ∧ (∀ r, L.Returns sc h o x r ↔ L.Returns sc h' o x r) ∧ h.text P = h'.text P := by
  obtain ⟨t, ht⟩ := hu.ty
  obtain ⟨g1, g2⟩ := ha.ev (sc := sc) (o := o) hL.lawful hc
  have hu' : L.Use sc h' o x := ⟨hu.order, ⟨t, g1.1 ht⟩, hu.dom⟩
  refine ⟨hu', fun r => ⟨fun h => ?_, fun h => ?_⟩, ha.text⟩
  · exact hL.returns hlim hu' ((g2 ht hu.dom).1 (h.ev hL hu))
  · exact hL.returns hlim hu ((g2 ht hu.dom).2 (h.ev hL hu'))

namespace DemoH

/-- Where functions are. -/
def addr : DU → List Char
  | .inc => ['0', 'x', '1', '0']
  | .low => ['0', 'x', '2', '0']
  | .low2 => ['0', 'x', '3', '0']
  | .named => ['0', 'x', '4', '0']

/-- The texts of the examples. -/
def pr : Printers NSet Nat DU := ⟨textNats, dec, dec, defaultText (· == .named) addr⟩

theorem pr_ok : pr.OK o.Within :=
  Printers.default_ok Demo.valText (by intro u v; cases u <;> cases v <;> simp [addr]) (by intro u; cases u <;> simp [addr])
    (by decide +kernel) (by decide +kernel)

/-- The increment at the level 4. -/
def h4 : Hom NSet Nat DU := .fn 0 .inc
/-- The selection of small values at the level 4. -/
def k4 : Hom NSet Nat DU := .fn 0 .low

theorem ad_h4 : Ad env DemoH.L.C DemoH.sc o h4 o.ty := ad (i := 4) (u := .inc) (by simp [FlatAt, o, OB.uid]) rfl
theorem ad_k4 : Ad env DemoH.L.C DemoH.sc o k4 o.ty := ad (i := 4) (u := .low) (by simp [FlatAt, o, OB.uid]) rfl

/-- The rewriting of `fixpoint(id + h1 + h4)`: its part `G` is empty. -/
def opn : Hom NSet Nat DU := .satFix 2 (.satFix 0 .id [.fn 0 .inc] .id) [] (.loc 2 (.satFix 0 .id [.fn 0 .inc] .id))
/-- The rewriting of `fixpoint(id + h1 + h4 + opn + k4 o k1)`. -/
def yA : Hom NSet Nat DU :=
  .satFix 2 (.satFix 0 .id [.fn 0 .inc] .id) [opn, .comp k4 k1] (.loc 2 (.satFix 0 .id [.fn 0 .inc] .id))
/-- The rewriting of `fixpoint(id + h1 + h4 + k4 o k1)`. -/
def yB : Hom NSet Nat DU :=
  .satFix 2 (.satFix 0 .id [.fn 0 .inc] .id) [.comp k4 k1] (.loc 2 (.satFix 0 .id [.fn 0 .inc] .id))
/-- The rewriting of `fixpoint(id + yA o k4)`. -/
def hA : Hom NSet Nat DU := .satFix 2 .id [.comp yA k4] .id
/-- The rewriting of `fixpoint(id + opn + yB o k4)`. -/
def hB : Hom NSet Nat DU := .satFix 2 .id [opn, .comp yB k4] .id

/-- Where homomorphisms are: a homomorphism which is before another one has a smaller address. -/
def rank (h : Hom NSet Nat DU) : Nat := [.id, h4, h1, opn, .comp k4 k1, .comp yA k4, .comp yB k4].idxOf h

/-- Addresses of homomorphisms. -/
def ltR2 (lt : Hom NSet Nat DU → Hom NSet Nat DU → Bool) (a b : Hom NSet Nat DU) : Bool :=
  if a = b then false else if rank a < rank b then true else if rank b < rank a then false else lt a b

theorem ltR2_st {lt : Hom NSet Nat DU → Hom NSet Nat DU → Bool} (h : StrictTotal lt) : StrictTotal (ltR2 lt) := by
  have key : ∀ a b, ltR2 lt a b = true ↔ a ≠ b ∧ (rank a < rank b ∨ rank a = rank b ∧ lt a b = true) := by
    intro a b
    unfold ltR2
    by_cases h1 : a = b
    · simp [h1]
    · by_cases h2 : rank a < rank b
      · simp [h1, h2]
      · by_cases h3 : rank b < rank a
        · simp only [h1, h2, h3, if_true, if_false, false_or]
          constructor
          · intro h; cases h
          · rintro ⟨_, h, _⟩; omega
        · simp only [h1, h2, h3, if_false, false_or]
          have : rank a = rank b := by omega
          simp [this, h1]
  refine ⟨fun a => ?_, fun a b c h1 h2 => ?_, fun a b => ?_⟩
  · simp [ltR2]
  · rw [key] at *
    obtain ⟨n1, h1⟩ := h1
    obtain ⟨n2, h2⟩ := h2
    refine ⟨?_, ?_⟩
    · rintro rfl
      rcases h1 with h1 | ⟨e1, h1⟩ <;> rcases h2 with h2 | ⟨e2, h2⟩ <;> try omega
      have := h.trans _ _ _ h1 h2
      rw [h.irrefl] at this
      cases this
    · rcases h1 with h1 | ⟨e1, h1⟩ <;> rcases h2 with h2 | ⟨e2, h2⟩
      · left; omega
      · left; omega
      · left; omega
      · right; exact ⟨by omega, h.trans _ _ _ h1 h2⟩
  · rw [key, key]
    by_cases e : a = b
    · exact .inr (.inl e)
    · rcases h.total a b with h1 | h1 | h1
      · by_cases h2 : rank b < rank a
        · exact .inr (.inr ⟨fun h => e h.symm, .inl h2⟩)
        · exact .inl ⟨e, (Nat.lt_or_ge (rank a) (rank b)).imp id fun h3 => ⟨by omega, h1⟩⟩
      · exact .inr (.inl h1)
      · by_cases h2 : rank a < rank b
        · exact .inl ⟨e, .inl h2⟩
        · exact .inr (.inr ⟨fun h => e h.symm, (Nat.lt_or_ge (rank b) (rank a)).imp id fun h3 => ⟨by omega, h1⟩⟩)

/-- An order between the homomorphisms which are not listed by `rank`. -/
noncomputable def ltW : Hom NSet Nat DU → Hom NSet Nat DU → Bool := Classical.choose (exists_lt (Hom NSet Nat DU))

/-- The addresses of the homomorphisms of the examples. -/
noncomputable def ltA : Hom NSet Nat DU → Hom NSet Nat DU → Bool := ltR2 ltW

theorem ltA_st : StrictTotal ltA := ltR2_st (Classical.choose_spec (exists_lt (Hom NSet Nat DU)))

/-- `rewrite(o, fixpoint(sum(hs)))`. -/
noncomputable def rfs (hs : List (Hom NSet Nat DU)) : Hom NSet Nat DU := hrewrite env ltA id o (hfix (hnary .sum ltA id hs))

theorem opn_eq : rfs [.id, h1, h4] = opn := by decide +kernel
theorem yA_eq : rfs [.id, h1, h4, opn, hcomp k4 k1] = yA := by decide +kernel
theorem yB_eq : rfs [.id, h1, h4, hcomp k4 k1] = yB := by decide +kernel
theorem hA_eq : rfs [.id, hcomp yA k4] = hA := by decide +kernel
theorem hB_eq : rfs [.id, opn, hcomp yB k4] = hB := by decide +kernel

/-- Built by the functions of the library, and additive on the order `o`. -/
def Good (h : Hom NSet Nat DU) : Prop := Built env ltA id h ∧ Ad env DemoH.L.C DemoH.sc o h o.ty

theorem Good.rfs {hs : List (Hom NSet Nat DU)} (hi : .id ∈ hs) (hg : ∀ h ∈ hs, Good h) : Good (rfs hs) := by
  have hC := C35_additive_closed (sc := DemoH.sc) (env := env) ok.lawful sing ltA_st (ord := id) (fun _ => .rfl) o
  have hk : hsum ltA id hs = .ok (hnary .sum ltA id hs) := by
    rw [hsum, if_neg (by rintro rfl; simp at hi)]
  have hb : Built env ltA id (hfix (hnary .sum ltA id hs)) := .fix (.sum (fun h hh => (hg h hh).1) hk)
  exact ⟨.rewrite o hb, hC.2.2.2.2.2.2.2.2.2.2.2 _ _ hb (hC.2.2.2.2.2.2.2.2.1 _ _ hk hi hg)⟩

theorem Good.comp {a b : Hom NSet Nat DU} (ha : Good a) (hb : Good b) : Good (hcomp a b) :=
  ⟨.comp ha.1 hb.1, (C35_additive_closed (sc := DemoH.sc) (env := env) ok.lawful sing ltA_st (ord := id) (fun _ => .rfl) o).2.2.2.2.2.1 _ _ _
    hb.2 ha.2⟩

theorem good_parts : Good opn ∧ Good h1 ∧ Good h4 := by
  have gi : Good .id := ⟨.id, _, Rl.id⟩
  have g1 : Good h1 := ⟨.loc 2 (.fn 0 DU.inc), ad_h1⟩
  have g4 : Good h4 := ⟨.fn 0 DU.inc, ad_h4⟩
  refine ⟨?_, g1, g4⟩
  rw [← opn_eq]
  exact .rfs (by simp) (by simp only [List.mem_cons, List.not_mem_nil, or_false, forall_eq_or_imp, forall_eq]; exact ⟨gi, g1, g4⟩)

theorem good : Good hA ∧ Good hB := by
  have gi : Good .id := ⟨.id, _, Rl.id⟩
  obtain ⟨go, g1, g4⟩ := good_parts
  have gk : Good k4 := ⟨.fn 0 DU.low, ad_k4⟩
  have gk1 : Good k1 := ⟨.loc 2 (.fn 0 DU.low), ad_k1⟩
  have gc := Good.comp gk gk1
  have ga : Good yA := by
    rw [← yA_eq]
    exact .rfs (by simp)
      (by simp only [List.mem_cons, List.not_mem_nil, or_false, forall_eq_or_imp, forall_eq]; exact ⟨gi, g1, g4, go, gc⟩)
  have gb : Good yB := by
    rw [← yB_eq]
    exact .rfs (by simp) (by simp only [List.mem_cons, List.not_mem_nil, or_false, forall_eq_or_imp, forall_eq]; exact ⟨gi, g1, g4, gc⟩)
  constructor
  · rw [← hA_eq]
    exact .rfs (by simp)
      (by simp only [List.mem_cons, List.not_mem_nil, or_false, forall_eq_or_imp, forall_eq]; exact ⟨gi, .comp ga gk⟩)
  · rw [← hB_eq]
    exact .rfs (by simp)
      (by simp only [List.mem_cons, List.not_mem_nil, or_false, forall_eq_or_imp, forall_eq]; exact ⟨gi, go, .comp gb gk⟩)

end DemoH

/-- **C73** is false of homomorphisms in general: the saturation of a fixpoint without part `G` is written without its closing `)*`, and what
follows can be read as its part `G`. Two homomorphisms built by the functions of the library have the same text and return different SDDs. -/
theorem C73_negation : ∃ lt, StrictTotal lt ∧ ∃ h h', Built DemoH.env lt id h ∧ Built DemoH.env lt id h' ∧
    (∃ x, h.text DemoH.pr = some x ∧ h'.text DemoH.pr = some x) ∧ DemoH.pr.OK DemoH.o.Within ∧
    DemoH.L.Use DemoH.sc h DemoH.o DemoH.x ∧ DemoH.L.Use DemoH.sc h' DemoH.o DemoH.x ∧
    ∃ r r', DemoH.L.Returns DemoH.sc h DemoH.o DemoH.x r ∧ DemoH.L.Returns DemoH.sc h' DemoH.o DemoH.x r' ∧ r ≠ r' := by
  obtain ⟨ga, gb⟩ := DemoH.good
  refine ⟨_, DemoH.ltA_st, DemoH.hA, DemoH.hB, ga.1, gb.1, ⟨_, rfl, by decide +kernel⟩, DemoH.pr_ok,
    ga.2.use DemoH.ok DemoH.sing trivial DemoH.dom_x, gb.2.use DemoH.ok DemoH.sing trivial DemoH.dom_x,
    DemoH.x, .hier 2 [(DemoH.f [1, 2, 3], .hier 1 [(DemoH.f [1], DemoH.f [3])])], DemoH.ret 50 (by decide +kernel),
    DemoH.ret 50 (by decide +kernel), by decide +kernel⟩

/-- The common text. -/
example : (DemoH.hA.text DemoH.pr).map String.ofList = some ("Sat(@2,  Id + Id + Sat(@2,  Sat(@0,  Id + Id + fun(0, function(0x10)))* + " ++
    "@(2, Sat(@0,  Id + Id + fun(0, function(0x10)))*) + Sat(@2,  Sat(@0,  Id + Id + fun(0, function(0x10)))* + " ++
    "@(2, Sat(@0,  Id + Id + fun(0, function(0x10)))*) + fun(0, function(0x20)) o @(2, fun(0, function(0x20))))* o fun(0, function(0x20)))*") := by
  decide +kernel

/-- A homomorphism whose text can be read, with saturations without part `G`. -/
theorem DemoH.readable_opn : Hom.Readable DemoH.o.Within DemoH.opn := by
  have h0 : Hom.Readable DemoH.o.Within (.satFix 0 .id [.fn 0 DemoH.DU.inc] .id : Hom NSet Nat DemoH.DU) := by
    refine .satFix .id (by intro y h; cases h) ?_ (by simp) ?_ .id (.inl rfl)
    · simp only [List.mem_singleton, forall_eq]; exact .fn
    · simp only [List.head?_cons, Option.mem_def, Option.some.injEq, forall_eq']
      intro a ha
      simp only [Hom.factors, List.head?_cons, Option.some.injEq] at ha
      subst ha
      exact ⟨by simp, fun y g h => by cases h⟩
  exact .satFix h0 (by intro y h; cases h) (by simp) (by simp) (by simp) (.loc h0) (.inr ⟨_, rfl⟩)

/-- User's code of the examples, on the canonical SDDs of `L`. -/
theorem DemoH.canonL : DemoH.L.env.Canon DemoH.L.C where
  indOne _ := ⟨0, .one _ trivial⟩
  indF u o v s hs := by
    cases hs
    refine ⟨1, .flat _ (.any 0) _ _ rfl ⟨by simp, ?_, by simp, by simp, by simp⟩ (by simp only [List.mem_singleton, forall_eq]; exact .one _ trivial)⟩
    simp only [List.mem_singleton, forall_eq]
    exact ⟨_, DemoH.vmem.2 (mem_ns.2 (List.mem_singleton.2 rfl))⟩
  indH u o v _ s hs := by cases hs

/-- The hypotheses of `C73_text_identifies_partial` and of `C73_same_text_same_results_partial` are met by two groupings of a composition. -/
example : ∃ h h' : Hom NSet Nat DemoH.DU, h ≠ h' ∧ Hom.Readable DemoH.o.Within h ∧ Hom.Readable DemoH.o.Within h' ∧
    h.text DemoH.pr = h'.text DemoH.pr ∧ DemoH.L.Use DemoH.sc h DemoH.o DemoH.x ∧
    ∃ r, DemoH.L.Returns DemoH.sc h DemoH.o DemoH.x r ∧ DemoH.L.Returns DemoH.sc h' DemoH.o DemoH.x r ∧ r ≠ DemoH.x := by
  have r1 : Hom.Readable DemoH.o.Within DemoH.h1 := .loc .fn
  have r4 : Hom.Readable DemoH.o.Within DemoH.h4 := .fn
  obtain ⟨go, g1, g4⟩ := DemoH.good_parts
  have gu := (DemoH.Good.comp (DemoH.Good.comp g4 g1) go).2.use DemoH.ok DemoH.sing trivial DemoH.dom_x
  have gu' := (DemoH.Good.comp g4 (DemoH.Good.comp g1 go)).2.use DemoH.ok DemoH.sing trivial DemoH.dom_x
  have e1 : hcomp (hcomp DemoH.h4 DemoH.h1) DemoH.opn = .comp (.comp DemoH.h4 DemoH.h1) DemoH.opn := by decide +kernel
  have e2 : hcomp DemoH.h4 (hcomp DemoH.h1 DemoH.opn) = .comp DemoH.h4 (.comp DemoH.h1 DemoH.opn) := by decide +kernel
  rw [e1] at gu
  rw [e2] at gu'
  have ra := Hom.Readable.comp (.comp r4 r1) DemoH.readable_opn
  have rb := Hom.Readable.comp r4 (.comp r1 DemoH.readable_opn)
  have et : (Hom.comp (.comp DemoH.h4 DemoH.h1) DemoH.opn).text DemoH.pr = (Hom.comp DemoH.h4 (.comp DemoH.h1 DemoH.opn)).text DemoH.pr := by
    decide +kernel
  refine ⟨_, _, by decide +kernel, ra, rb, et, gu,
    .hier 2 [(DemoH.f [2, 3], .hier 1 [(DemoH.f [1], DemoH.f [3])])], ?_, ?_, by decide +kernel⟩
  · exact DemoH.ret 50 (by decide +kernel)
  · exact DemoH.ret 50 (by decide +kernel)

end Verif
