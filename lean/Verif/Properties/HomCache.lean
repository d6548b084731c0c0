import Verif.Properties.Hom
import Verif.Hom.Memo
/-!
# Properties of the cache of homomorphisms
-/

set_option autoImplicit false
set_option linter.unusedSectionVars false

namespace Verif

variable {V E I U : Type} [DecidableEq V] [DecidableEq I] [DecidableEq U] {L : Lib V E I U} {sc : Scope I U}

/-- **C15**, homomorphisms. After any history of applications of homomorphisms and of operations on SDDs (which return, raise or are stopped
by exceptions of the user's code at any point), resets of the caches and changes of addresses, the cache of homomorphisms holds at
most as many entries as its capacity, no application twice, and each stored result is what the stored application gives, under all the orders under which it may be
used. The caches of operations are within their capacities too, without duplicate. -/
theorem C15_homomorphisms (hL : L.OK sc) {s : HMach V I U} (hs : L.Reach sc s) :
    s.homs.length ≤ L.hcap ∧ (s.homs.map Prod.fst).Nodup ∧
    (∀ e ∈ s.homs, (∃ o, L.Use sc e.1.1 o e.1.2) ∧ ∀ o, L.Use sc e.1.1 o e.1.2 → L.Gives sc e.1.1 o e.1.2 e.2) ∧
    ∀ k, (s.dd.cache k).length ≤ L.cap k ∧ ((s.dd.cache k).map Prod.fst).Nodup := by
  have hg := hs.good hL
  refine ⟨hg.size, hg.nodup, fun e he => ?_, fun k => ⟨hg.dd.size k, hg.dd.nodup k⟩⟩
  obtain ⟨o, t, hS, ht, hx, h0, hev⟩ := hg.ok e he
  refine ⟨⟨o, hS, ⟨t, ht⟩, hx⟩, fun o' hu => hu.gives hL ?_⟩
  obtain ⟨t', ht'⟩ := hu.ty
  exact hL.transfer o o' _ t t' _ _ hS hu.order (hx.ty_unique hu.dom (OB.ty_shape o) (OB.ty_shape o') h0) ht ht' hx hev

/- After three applications the cache, of capacity 2, holds two entries. -/
example : ((DemoH.L.apply 50 DemoH.h3 DemoH.o DemoH.x (DemoH.L.apply 50 DemoH.h1 DemoH.o DemoH.x DemoH.s0).2).2.homs.length = 2) ∧
    DemoH.L.Reach DemoH.sc (DemoH.L.apply 50 DemoH.h3 DemoH.o DemoH.x (DemoH.L.apply 50 DemoH.h1 DemoH.o DemoH.x DemoH.s0).2).2 :=
  ⟨by decide +kernel, .apply 50 (.apply 50 .init (DemoH.ad_h1.use DemoH.ok DemoH.sing trivial DemoH.dom_x))
    (DemoH.ad_h3.use DemoH.ok DemoH.sing trivial DemoH.dom_x)⟩

/-- **C83.** `log` are the applications evaluated by successive applications which return (those whose result is stored by the cache: all
homomorphisms but `Cons` and `Constant`); recording them changes nothing. Unless more different applications are evaluated than the cache can store, in addition
to its initial entries, nothing is evaluated twice, even in the iterations of fixpoints; and an application done again evaluates nothing, whatever the size of the cache. -/
theorem C83_evaluated_once (hL : L.OK sc) {s : HMach V I U} (hs : L.Reach sc s) :
    (∀ n h o x (l : HLS V I U), (L.applyL n h o x l).1 = (L.apply n h o x l.m).1 ∧ (L.applyL n h o x l).2.m = (L.apply n h o x l.m).2) ∧
    (∀ (as : List (Hom V I U × OB I × SDD V)) (l : HLS V I U), Applies L sc ⟨s, []⟩ as l →
      (∀ d : List (Hom V I U × SDD V), d.Nodup → (∀ k ∈ d, k ∈ l.log) → s.homs.length + d.length ≤ L.hcap) → l.log.Nodup) ∧
    (∀ n h o x (l : HLS V I U) (r : SDD V), (L.applyL n h o x l).1 = .ok r →
      (∃ r', (L.applyL n h o x (L.applyL n h o x l).2).1 = .ok r') ∧
      (L.applyL n h o x (L.applyL n h o x l).2).2.log = (L.applyL n h o x l).2.log) := by
  refine ⟨fun n h o x l => L.applyL_apply n h o x l, fun as l ha hroom => ?_, fun n h o x l r hr => ?_⟩
  · have := (ha.memo (c0 := s.homs.length) hL ⟨hs.ok hL, .inl ⟨by simp, by simp, by simp⟩⟩).2
    rcases this with h | h
    · exact h.nodup
    · have := hroom l.log.dedup (List.nodup_dedup _) fun k hk => by simpa using hk
      exact absurd h (by unfold HOver; omega)
  · obtain ⟨r', h1, h2⟩ := L.applyL_again n (h := h) (o := o) (x := x) (s := l) (s1 := (L.applyL n h o x l).2) (r := r)
      (Prod.ext hr rfl)
    exact ⟨⟨r', h1⟩, h2⟩

namespace DemoH

/-- A larger cache of homomorphisms. -/
def LB : Lib NSet Nat Nat DU := { DemoH.L with hcap := 20 }

theorem okB : LB.OK DemoH.sc := ⟨ok.lawful, ok.cap, by decide, ok.honest, ok.closed, ok.transfer⟩

/-- The values reachable by increments of the level 1. -/
def fixB : Hom NSet Nat DU := .fix (.sum [.id, h1])

theorem use_fixB : LB.Use DemoH.sc fixB o x :=
  ⟨trivial, ⟨_, .fix_of o (.sum (OB.ty_shape o) (show Hom.skip _ _ _ _ = false by decide +kernel) fun h hh => by
    simp only [List.mem_cons, List.not_mem_nil, or_false] at hh
    rcases hh with rfl | rfl
    · exact .id _
    · obtain ⟨_, h⟩ := ad_h1
      exact h.hty)⟩, dom_x⟩

theorem use_h3B : LB.Use DemoH.sc h3 o x := ad_h3.use okB sing trivial dom_x

/-- A fixpoint, another homomorphism and the fixpoint again. -/
theorem applies : ∃ l, Applies LB DemoH.sc ⟨s0, []⟩ [(fixB, o, x), (h3, o, x), (fixB, o, x)] l ∧ l.log.length = 10 :=
  ⟨_, .cons (n := 50) (r := .hier 2 [(f [1, 2, 3], .hier 1 [(f [1], f [3])])]) use_fixB (by decide +kernel)
    (.cons (n := 50) (r := .hier 2 [(f [1, 2], .hier 1 [(f [2], f [3])])]) use_h3B (by decide +kernel)
    (.cons (n := 50) (r := .hier 2 [(f [1, 2, 3], .hier 1 [(f [1], f [3])])]) use_fixB (by decide +kernel) (.nil _))), by decide +kernel⟩

end DemoH

/- The fixpoint, iterated three times, another homomorphism, and the fixpoint again: 10 evaluations, all different. -/
example : ∃ l, Applies DemoH.LB DemoH.sc ⟨DemoH.s0, []⟩ [(DemoH.fixB, DemoH.o, DemoH.x), (DemoH.h3, DemoH.o, DemoH.x),
      (DemoH.fixB, DemoH.o, DemoH.x)] l ∧ l.log.Nodup := by
  obtain ⟨l, h, hn⟩ := DemoH.applies
  refine ⟨l, h, (C83_evaluated_once DemoH.okB .init).2.1 _ _ h fun d hd hs => ?_⟩
  have := (hd.subperm hs).length_le
  show 0 + d.length ≤ 20
  omega

end Verif
