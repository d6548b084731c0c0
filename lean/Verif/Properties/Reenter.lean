import Verif.Properties.HomCache
import Verif.Properties.Cache
/-!
# Properties of programs the code of which uses the library while the library calls it
-/

set_option autoImplicit false
set_option linter.unusedSectionVars false

namespace Verif

variable {V E I U : Type} [DecidableEq V] [DecidableEq I] [DecidableEq U] {L : Lib V E I U} {sc : Scope I U}

open Classical in
/-- Code of the user which, each time it is called, applies `h` to `x` if this application does not need one in progress, compares the result
with `r`, and throws `e` if it is different. (Model of the environment: what the user or the system does.) -/
noncomputable def Lib.probe (L : Lib V E I U) (act : Acts V I U) (stop : Nat → Option (Err V)) (n : Nat) (h : Hom V I U) (o : OB I)
    (x r : SDD V) (e : Err V) : Acts V I U := fun st _ s =>
  if L.Free st h o x then
    match L.applyR act stop n h o x st s with
    | (.ok r', s') => (if r' = r then none else some e, s')
    | (.error _, s') => (none, s')
  else (none, s)

/-- Code of the user which, each time it is called, calls an operation on SDDs and throws `e` when the result is not `r`.
(Model of the environment: what the user or the system does.) -/
def Lib.probeCall (L : Lib V E I U) (stop : Nat → Option (Err V)) (c : Call V) (r : SDD V) (e : Err V) : Acts V I U := fun _ _ s =>
  match c.runX L.C L.orc L.cap stop s.dd with
  | (.ok r', m) => (if r' = r then none else some e, { s with dd := m })
  | (.error _, m) => (none, { s with dd := m })

theorem Lib.probe_nested {act : Acts V I U} (hact : ∀ st k s, L.Nested sc st s (act st k s).2) {stop : Nat → Option (Err V)} {n : Nat}
    {h : Hom V I U} {o : OB I} {x r : SDD V} {e : Err V} (hu : L.Use sc h o x) (st : List (Hom V I U × SDD V)) (k : Nat) (s : HMach V I U) :
    L.Nested sc st s (L.probe act stop n h o x r e st k s).2 := by
  unfold Lib.probe
  split
  · rename_i hf
    have := Lib.Nested.apply act stop n (.refl st s) hact hu hf
    split
    · rename_i he; rw [he] at this; exact this
    · rename_i he; rw [he] at this; exact this
  · exact .refl st s

theorem Lib.probeCall_nested {stop : Nat → Option (Err V)} {c : Call V} (hw : ∀ x ∈ c.args, WF L.C x) {r : SDD V} {e : Err V}
    (st : List (Hom V I U × SDD V)) (k : Nat) (s : HMach V I U) : L.Nested sc st s (L.probeCall stop c r e st k s).2 := by
  have := Lib.Nested.call (L := L) (sc := sc) stop c (.refl st s) hw
  unfold Lib.probeCall
  split
  · rename_i he; rw [he] at this; exact this
  · rename_i he; rw [he] at this; exact this

/-- **C96.** The functions and the inductive homomorphisms of the user may use the library when the library calls them: apply homomorphisms, which may
again call code which uses the library, call operations on SDDs, clear the caches, and throw. If they do not evaluate an application
which is in progress, then:
* the application during which they are called returns the right result, or raises what they throw (or the exception on the number of arcs; or it is
  stopped);
* it terminates, if the meaning is defined and they do not throw;
* the results of the applications and of the operations that they call are right: code which checks these results never finds a wrong one;
* after it, as after any history, every application returns the right result, and the caches hold nothing twice and nothing more than their
  capacities.

What is missing: evaluations of applications in progress, for which the claim is false (`C96_negation`). -/
theorem C96_reentrant_partial (hL : L.OK sc) {s : HMach V I U} (hs : L.Reach sc s) {h : Hom V I U} {o : OB I} {x : SDD V} (hu : L.Use sc h o x)
    (act : Acts V I U) (hact : ∀ st k s, L.Nested sc st s (act st k s).2) (stop : Nat → Option (Err V)) :
    (∀ n, (match (L.applyR act stop n h o x [] s).1 with
      | .ok r => L.Gives sc h o x r
      | .error e => (∃ st k s, (act st k s).1 = some e) ∨ (∃ k, stop k = some e) ∨ e = .fuel ∨ e = .overflow ∧ L.C.limit ≠ none) ∧
      L.Reach sc (L.applyR act stop n h o x [] s).2 ∧
      (L.applyR act stop n h o x [] s).2.homs.length ≤ L.hcap ∧ ((L.applyR act stop n h o x [] s).2.homs.map Prod.fst).Nodup ∧
      ∀ {h' : Hom V I U} {o' : OB I} {x' r' : SDD V} {n' : Nat}, L.Use sc h' o' x' →
        (L.apply n' h' o' x' (L.applyR act stop n h o x [] s).2).1 = .ok r' → L.Gives sc h' o' x' r') ∧
    (L.C.limit = none → (∀ k, stop k = none) → (∀ st k s, (act st k s).1 = none) → ∀ r, L.Returns sc h o x r →
      ∃ N, ∀ n, N ≤ n → (L.applyR act stop n h o x [] s).1 = .ok r) ∧
    ∀ (n n' : Nat) (stop' : Nat → Option (Err V)) (e : Err V), (∀ k, stop k ≠ some e) → e ≠ .fuel → e ≠ .overflow →
      (∀ {h' : Hom V I U} {o' : OB I} {x' r' : SDD V}, L.Use sc h' o' x' → L.Returns sc h' o' x' r' →
        (L.applyR (L.probe act stop' n' h' o' x' r' e) stop n h o x [] s).1 ≠ .error e) ∧
      ∀ {c : Call V} {r' : SDD V}, (∀ x ∈ c.args, WF L.C x) → WF L.C r' → (∀ p, Mem L.C p r' ↔ c.Spec L.C p) →
        (L.applyR (L.probeCall stop' c r' e) stop n h o x [] s).1 ≠ .error e := by
  have hok := hs.ok hL
  refine ⟨fun n => ?_, fun hlim hst herr r hr => ?_, fun n n' stop' e h1 h2 h3 => ⟨fun {h' o' x' r'} hu' hr' => ?_, fun {c r'} hw hr' hm => ?_⟩⟩
  · have hr : L.Reach sc (L.applyR act stop n h o x [] s).2 := .reenter act stop n hs hact hu
    have hg := hr.good hL
    refine ⟨?_, hr, hg.size, hg.nodup, fun hu' he => hu'.gives hL (Lib.Returns.ev hL ⟨_, _, hr, he⟩ hu')⟩
    have := (hL.satR (act := act) (stop := stop) (n := n)
      (allow := fun e => (∃ st k s, (act st k s).1 = some e) ∨ (∃ k, stop k = some e) ∨ e = .fuel ∨ e = .overflow ∧ L.C.limit ≠ none)
      (by
        by_cases h : L.C.limit = none
        · exact Or.inl h
        · exact Or.inr (Or.inr (Or.inr (Or.inr ⟨rfl, h⟩)))) (Or.inr (Or.inr (Or.inl rfl))) (fun k e h => Or.inr (Or.inl ⟨k, h⟩))
      (fun st k s hs => (hact st k s).ok hL hs) (fun st k s e _ h => Or.inl ⟨st, k, s, h⟩) hu [] s hok).2
    match hq : (L.applyR act stop n h o x [] s).1, this with
    | .ok r, h => exact hu.gives hL h
    | .error e, h => exact h
  · obtain ⟨N, hN⟩ := hL.totalR hlim hst (fun st k s hs => (hact st k s).ok hL hs) herr hu (hr.ev hL hu)
    exact ⟨N, fun n hn => hN n hn [] s hok⟩
  · intro he
    have := (hL.satR (act := L.probe act stop' n' h' o' x' r' e) (stop := stop) (n := n) (allow := fun e' => e' ≠ e) (Or.inr h3.symm) h2.symm
      (fun k e' hk he' => h1 k (he' ▸ hk)) (fun st k s hs => (Lib.probe_nested hact hu' st k s).ok hL hs) (fun st k s e' hs hq he' => ?_)
      hu [] s hok).2
    · rw [he] at this
      exact this rfl
    · unfold Lib.probe at hq
      split at hq
      · have hsat := (hL.satR (act := act) (stop := stop') (n := n') (allow := fun _ => True) (Or.inr trivial) trivial (fun _ _ _ => trivial)
          (fun st k s hs => (hact st k s).ok hL hs) (fun _ _ _ _ _ _ => trivial) hu' st s hs).2
        split at hq
        · rename_i r2 s2 hr2
          rw [hr2] at hsat
          rw [if_pos (hsat.det hL.lawful (hr'.ev hL hu'))] at hq
          simp at hq
        · simp at hq
      · simp at hq
  · intro he
    have := (hL.satR (act := L.probeCall stop' c r' e) (stop := stop) (n := n) (allow := fun e' => e' ≠ e) (Or.inr h3.symm) h2.symm
      (fun k e' hk he' => h1 k (he' ▸ hk)) (fun st k s hs => (Lib.probeCall_nested (sc := sc) hw st k s).ok hL hs) (fun st k s e' hs hq he' => ?_)
      hu [] s hok).2
    · rw [he] at this
      exact this rfl
    · unfold Lib.probeCall at hq
      have hsat := (Call.runX_sat (orc := L.orc) (stop := stop') (allow := fun _ => True) hL.lawful hL.cap (Or.inr trivial)
        (.all fun _ _ => trivial) (fun _ _ _ => trivial) hw s.dd hs.1).2
      split at hq
      · rename_i r2 s2 hr2
        rw [hr2] at hsat
        have : r2 = r' := canonical_ext hL.lawful hsat.1 hr' fun p => (hsat.2 p).trans (hm p).symm
        rw [if_pos this] at hq
        simp at hq
      · simp at hq

/-! ## A program -/

namespace DemoR
open DemoH

/-- Code which does nothing. -/
def idle : Acts NSet Nat DU := fun _ _ s => (none, s)

/-- A function applied by the code of the user. -/
def hn : Hom NSet Nat DU := .fn 0 .inc

/-- The order of its operand. -/
def on : OB Nat := .node (OB.uid 4) .nil .nil

/-- Code which, each time it is called, applies `hn` unless it is in progress, and sums two SDDs; the sixth time, it clears the cache of homomorphisms too. -/
def act : Acts NSet Nat DU := fun st k s =>
  let s1 := if (hn, f [2]) ∈ st then s else (LB.applyR idle (fun _ => none) 50 hn on (f [2]) st s).2
  let s2 : HMach NSet Nat DU := { s1 with dd := ((Call.sum [f [1], f [2]]).runX LB.C LB.orc LB.cap (fun _ => none) s1.dd).2 }
  (none, if k = 6 then { s2 with homs := [] } else s2)

theorem use_hn : LB.Use DemoH.sc hn on (f [2]) := ⟨trivial, ⟨_, .fn⟩, dom_f⟩

theorem free_hn {st : List (Hom NSet Nat DU × SDD NSet)} (h : (hn, f [2]) ∉ st) : LB.Free st hn on (f [2]) := by
  intro o' h' x' hc
  cases hc with
  | refl => exact h
  | step h1 _ => cases h1 with
    | skip _ _ h => exact absurd h (by decide)

theorem wf_f {a : Nat} {l : List Nat} : WF LB.C (f (a :: l)) := (dom_f (a := a) (l := l)).wf

theorem idle_nested (st : List (Hom NSet Nat DU × SDD NSet)) (k : Nat) (s : HMach NSet Nat DU) :
    LB.Nested DemoH.sc st s (idle st k s).2 := .refl st s

theorem act_nested (st : List (Hom NSet Nat DU × SDD NSet)) (k : Nat) (s : HMach NSet Nat DU) : LB.Nested DemoH.sc st s (act st k s).2 := by
  have h1 : LB.Nested DemoH.sc st s (if (hn, f [2]) ∈ st then s else (LB.applyR idle (fun _ => none) 50 hn on (f [2]) st s).2) := by
    split
    · exact .refl st s
    · rename_i h
      exact .apply idle _ 50 (.refl st s) idle_nested use_hn (free_hn h)
  have h2 := Lib.Nested.call (fun _ => none) (Call.sum [f [1], f [2]]) h1 (by
    simp only [Call.args, List.mem_cons, List.not_mem_nil, or_false, forall_eq_or_imp, forall_eq]
    exact ⟨wf_f, wf_f⟩)
  unfold act
  simp only
  split
  · exact .resetHom h2
  · exact h2

/-- The application of `h3` during which `act` is called. -/
def res : Except (Err NSet) (SDD NSet) × HMach NSet Nat DU := LB.applyR act (fun _ => none) 50 h3 o x [] s0

/-- The use is correct, the application returns what it returns when nothing is done by the code of the user, and the applications made by
this code are in the cache. -/
example : LB.OK DemoH.sc ∧ LB.Use DemoH.sc h3 o x ∧ LB.Reach DemoH.sc s0 ∧
    res.1 = .ok (.hier 2 [(f [1, 2], .hier 1 [(f [2], f [3])])]) ∧ (LB.apply 50 h3 o x s0).1 = res.1 ∧
    (hn, f [2]) ∈ res.2.homs.map Prod.fst ∧ (hn, f [2]) ∉ (LB.apply 50 h3 o x s0).2.homs.map Prod.fst :=
  ⟨okB, ad_h3.use (L := LB) okB DemoH.sing trivial DemoH.dom_x, .init, by decide +kernel, by decide +kernel, by decide +kernel, by decide +kernel⟩

/-- Code which, the first time it is called during the evaluation of `h1` on `x`, applies `h1` to `x`. -/
def again : Acts NSet Nat DU := fun st k s =>
  if k = 1 then (none, (LB.applyR idle (fun _ => none) 50 h1 o x st s).2) else (none, s)

end DemoR

/-- **C96** is false when the code of the user evaluates an application in progress, by correct uses of the library, even if this terminates:
* the results of these uses are stored twice in the cache;
* with two entries for the same operation, the hash table of the cache may hold an entry which is destroyed: after the eviction of one of
  them, the other one is not any more in the table, which holds the one which is destroyed (the table removes the first entry
  which is *equal* to the evicted one, `/repo/sdd/mem/hash_table.hh:180`). -/
theorem C96_negation :
    (DemoH.LB.OK DemoH.sc ∧ DemoH.LB.Use DemoH.sc DemoH.h1 DemoH.o DemoH.x ∧
      (∀ st k s, DemoR.again st k s = (none, s) ∨
        DemoR.again st k s = (none, (DemoH.LB.applyR DemoR.idle (fun _ => none) 50 DemoH.h1 DemoH.o DemoH.x st s).2)) ∧
      ¬ ((DemoH.LB.applyR DemoR.again (fun _ => none) 50 DemoH.h1 DemoH.o DemoH.x [] DemoH.s0).2.homs.map Prod.fst).Nodup) ∧
    ∃ c0 c1 c2 c3 c4 c5 c6 c7 c8 c9 : Cache.State Nat Nat, Cache.new 4 = some c0 ∧
      Cache.lookup id 1 c0 = some (none, c1) ∧                          -- the application begins
      Cache.lookup id 1 c1 = some (none, c2) ∧                          -- the code of the user does it too
      Cache.store id 1 10 c2 = some (none, c3) ∧ Cache.store id 1 10 c3 = some (none, c4) ∧
      Cache.lookup id 1 c4 = some (some 10, c5) ∧                       -- done again
      Cache.lookup id 2 c5 = some (none, c6) ∧ Cache.store id 2 20 c6 = some (none, c7) ∧
      Cache.lookup id 3 c7 = some (none, c8) ∧ Cache.evict id c8 = some (1, c9) ∧
      ∃ e ∈ c9.table.elems, c9.slots e.1 = none := by
  refine ⟨⟨DemoH.okB, DemoH.ad_h1.use (L := DemoH.LB) DemoH.okB DemoH.sing trivial DemoH.dom_x, fun st k s => ?_, by decide +kernel⟩,
    _, _, _, _, _, _, _, _, _, _, rfl, rfl, rfl, rfl, rfl, rfl, rfl, rfl, rfl, rfl, (1, 1), by decide +kernel, by decide +kernel⟩
  unfold DemoR.again
  split
  · exact Or.inr rfl
  · exact Or.inl rfl

end Verif
