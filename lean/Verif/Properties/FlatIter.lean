import Verif.Values.FlatIter
import Verif.Values.Concrete
/-!
# Properties of the iterators of `flat_set`
-/

set_option autoImplicit false
set_option linter.unusedSectionVars false

namespace Verif
open FlatIter

section
variable {E : Type} {lt : E → E → Bool} [DecidableEq E] (h : StrictTotal lt) {cap : Nat → Nat} {n : Nat}

/-- **C85**, what holds. In every state of every program on `flat_set`s: iterators obtained by moving `begin()`, by `find` and by `lower_bound` can be dereferenced and give the
elements of the set; an iterator to an element of a set gives the same element after any statement, if some handle (the same or another) still has this set. `insert` gives the
right set, tells whether the element is new, and changes no other handle; the iterator it returns can be dereferenced (it then gives the element) exactly when the element is new, the buffer
of the copy has exactly the needed capacity, and no handle had the resulting set already.
Missing: the iterator returned by `insert` in the other cases, see `C85_negation`. -/
theorem C85_iterators_partial {s : FMem E lt} (hr : Reach h cap n s) {v : Nat} {d : FSet E lt} (hd : s.set v = some d) :
    (∀ i, ∃ it, iter s v i = some it ∧ deref s it = d.data[i]?) ∧
    (∀ x, ∃ it, find s v x = some it ∧ (deref s it = if x ∈ d.data then some x else none)) ∧
    (∀ x, ∃ it, lower s v x = some it ∧ deref s it = (d.lowerBound x).head?) ∧
    (∀ i it a, iter s v i = some it → deref s it = some a → ∀ op o s' w, exec h cap s op = some (o, s') → s'.set w = some d →
      deref s' it = some a) ∧
    (∀ x o s', exec h cap s (.insert v x) = some (o, s') → ∃ it b d', o = .insertion it b ∧ (b = true ↔ x ∉ d.data) ∧
      s'.set v = some d' ∧ (∀ y, y ∈ d'.data ↔ y = x ∨ y ∈ d.data) ∧ (∀ w, w ≠ v → s'.set w = s.set w) ∧
      (x ∉ d.data ∧ cap (d.size + 1) = d.size + 1 ∧ (∀ w, s.set w ≠ some d') → deref s' it = some x) ∧
      (¬ (x ∉ d.data ∧ cap (d.size + 1) = d.size + 1 ∧ ∀ w, s.set w ≠ some d') → deref s' it = none)) := by
  have hi := hr.inv
  obtain ⟨b, hv, hb⟩ := (set_eq hi).1 hd
  have hat := (FMem.at_eq hi).2 hb
  have hj : s.vars[v]?.join = some b := by rw [hv]; rfl
  have hlow : ∀ (p : E → Bool) (l : List E), l[(l.takeWhile p).length]? = (l.dropWhile p).head? := by
    intro p l
    induction l with
    | nil => rfl
    | cons a l ih =>
      rw [List.takeWhile_cons, List.dropWhile_cons]
      cases p a
      · rfl
      · simpa using ih
  refine ⟨fun i => ⟨(b, i), by unfold iter; rw [hj]; rfl, by unfold deref; rw [hat]; rfl⟩, fun x => ?_, fun x => ?_, ?_,
    fun x o s' he => insert_ins hi hd he⟩
  · refine ⟨_, by unfold find; rw [hj, Option.bind_some, hat]; rfl, ?_⟩
    unfold deref
    rw [hat, Option.bind_some]
    obtain ⟨f1, f2⟩ := FSet.find_spec h d x
    show d.data[if (d.find x).isSome then position d x else d.size]? = _
    by_cases hx : x ∈ d.data
    · rw [f1 hx, if_pos hx]
      exact getElem?_position_of_mem h d hx
    · rw [f2 hx, if_neg hx]
      exact List.getElem?_eq_none (le_refl _)
  · refine ⟨_, by unfold lower; rw [hj, Option.bind_some, hat]; rfl, ?_⟩
    unfold deref
    rw [hat, Option.bind_some]
    exact hlow _ _
  · intro i it a hit ha op o s' w he hw
    obtain ⟨hi', hk⟩ := exec_spec hi he
    obtain ⟨b', -, hb'⟩ := (set_eq hi').1 hw
    unfold iter at hit
    rw [hj] at hit
    cases hit
    unfold deref at ha ⊢
    rw [hat] at ha
    rw [(FMem.at_eq hi').2 (hk _ hb _ hb')]
    exact ha

end

/-- **C85**, negation: after the insertion of an element which is in the set, whatever the container does, the iterator returned cannot be dereferenced. The same holds for new elements
when another handle has the resulting set, and, unless the container happens to have allocated exactly the needed capacity, for all new elements. -/
theorem C85_negation (cap : Nat → Nat) :
    (∃ s s' it, Reach natLt_st' cap 1 s ∧ s.set 0 = some (ns [1, 2]) ∧ exec natLt_st' cap s (.insert 0 2) = some (.insertion it false, s') ∧
      deref s' it = none) ∧
    (∃ s s' it, Reach natLt_st' cap 2 s ∧ s.set 0 = some (ns [1]) ∧ s.set 1 = some (ns [1, 2]) ∧
      exec natLt_st' cap s (.insert 0 2) = some (.insertion it true, s') ∧ deref s' it = none) ∧
    (cap 2 ≠ 2 → ∃ s s' it, Reach natLt_st' cap 1 s ∧ s.set 0 = some (ns [1]) ∧
      exec natLt_st' cap s (.insert 0 2) = some (.insertion it true, s') ∧ deref s' it = none) := by
  have mem_ns : ∀ {a : Nat} {l : List Nat}, a ∈ (ns l).data ↔ a ∈ l := fun {a l} => FSet.mem_ofList natLt_st' a l
  have key : ∀ {n : Nat} {s : FMem Nat natLt} {l : List Nat}, Reach natLt_st' cap n s → s.set 0 = some (ns l) → ∀ x : Nat,
      (x ∈ l ∨ cap ((ns l).size + 1) ≠ (ns l).size + 1 ∨ ∃ w, s.set w = some (ns (x :: l))) →
      ∃ s' it b, exec natLt_st' cap s (.insert 0 x) = some (.insertion it b, s') ∧ (b = true ↔ x ∉ l) ∧ deref s' it = none := by
    intro n s l hr hs x hx
    obtain ⟨-, -, -, -, h5⟩ := C85_iterators_partial natLt_st' hr hs
    have : ∃ o s', exec natLt_st' cap s (.insert 0 x) = some (o, s') := by
      show ∃ o s', FlatIter.insert natLt_st' cap 0 x s = some (o, s')
      unfold FlatIter.insert
      rw [hs]
      exact ⟨_, _, rfl⟩
    obtain ⟨o, s', he⟩ := this
    obtain ⟨it, b, d', rfl, hb, -, hm, -, -, hn⟩ := h5 x o s' he
    refine ⟨s', it, b, he, by rw [hb, mem_ns], hn ?_⟩
    rintro ⟨g1, g2, g3⟩
    rcases hx with hx | hx | ⟨w, hw⟩
    · exact g1 (mem_ns.2 hx)
    · exact hx g2
    · refine g3 w (hw.trans (congrArg some (FSet.ext natLt_st' fun y => ?_)))
      show y ∈ (ns (x :: l)).data ↔ y ∈ d'.data
      rw [hm, mem_ns, mem_ns, List.mem_cons]
  have mk : ∀ {n : Nat} {s : FMem Nat natLt} (v : Nat) (l : List Nat), Reach natLt_st' cap n s → s.vars[v]? = some none →
      ∃ s', Reach natLt_st' cap n s' ∧ s'.set v = some (ns l) ∧ (∀ w, w ≠ v → s'.set w = s.set w) ∧
        ∀ w, w ≠ v → s'.vars[w]? = s.vars[w]? := by
    intro n s v l hr hv
    have he : exec natLt_st' cap s (.make v l) = some (.unit, assign v (unify s.next (FSet.ofList natLt_st' l) { s with next := s.next + 1 }).1
        (unify s.next (FSet.ofList natLt_st' l) { s with next := s.next + 1 }).2) := by
      simp only [exec, if_pos hv]
    have hlen := (List.getElem?_eq_some_iff.1 hv).1
    obtain ⟨-, h2, h3, -⟩ := unify_assign hr.inv hlen (le_refl s.next) (Nat.lt_succ_self _) (FSet.ofList natLt_st' l) rfl
    refine ⟨_, .step hr he, h2, h3, fun w hw => ?_⟩
    obtain ⟨hp, hm, hvars, -⟩ := unify_spec hr.inv (le_refl s.next) (Nat.lt_succ_self _) (FSet.ofList natLt_st' l)
    rw [(assign_spec (by rw [hvars]; exact hlen) hp (List.mem_map.2 ⟨_, hm, rfl⟩)).2.1, hvars, List.getElem?_set_ne (Ne.symm hw)]
  refine ⟨?_, ?_, fun hc => ?_⟩
  · obtain ⟨s, hr, hs, -⟩ := mk (n := 1) 0 [1, 2] .init rfl
    obtain ⟨s', it, b, h1, h2, h3⟩ := key hr hs 2 (.inl (by decide))
    obtain rfl : b = false := by
      rcases b with _ | _
      · rfl
      · exact absurd (by decide) (h2.1 rfl)
    exact ⟨s, s', it, hr, hs, h1, h3⟩
  · obtain ⟨s, hr, hs, -, hv⟩ := mk (n := 2) 1 [1, 2] .init rfl
    obtain ⟨t, ht, hs0, hs1, -⟩ := mk 0 [1] hr ((hv 0 (by decide)).trans rfl)
    have hs1' := (hs1 1 (by decide)).trans hs
    obtain ⟨s', it, b, h1, h2, h3⟩ := key ht hs0 2 (.inr (.inr ⟨1, hs1'.trans (by decide +kernel)⟩))
    obtain rfl : b = true := h2.2 (by decide)
    exact ⟨t, s', it, ht, hs0, hs1', h1, h3⟩
  · obtain ⟨s, hr, hs, -⟩ := mk (n := 1) 0 [1] .init rfl
    obtain ⟨s', it, b, h1, h2, h3⟩ := key hr hs 2 (.inr (.inl hc))
    obtain rfl : b = true := h2.2 (by decide)
    exact ⟨s, s', it, hr, hs, h1, h3⟩

/-- A state of a program: two handles, the first one has `{1, 2}` after an insertion; `find(2)` gives an iterator to 2, and an iterator to 1 is still valid when the other handle is
made. -/
example : ((exec natLt_st' id (init 2) (.make 0 [1])).bind fun r => (exec natLt_st' id r.2 (.insert 0 2)).bind fun r =>
      (exec natLt_st' id r.2 (.make 1 [7])).map fun r' => (r.2.set 0 == some (ns [1, 2]), (find r.2 0 2).bind (deref r.2), (iter r.2 0 0).bind (deref r'.2))) =
    some (true, some 2, some 1) := by decide +kernel

end Verif
