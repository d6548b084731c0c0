import Verif.Values.FlatSet
/-!
# `flat_set` when comparisons of elements or allocations throw

`/repo/sdd/values/flat_set.hh:60-223,280-320,470-515`.

The comparison of elements belongs to the user and may throw, allocations may fail. Some functions of `flat_set` are `noexcept`: an exception which would leave them terminates the
program.
-/

set_option autoImplicit false
set_option linter.unusedSectionVars false

namespace Verif
namespace FlatX

variable {E X : Type}

/-- The comparison of elements and the allocation of a buffer for `n` elements, which may throw. (Model of the environment: what the user or the system does.) -/
structure Env (E X : Type) where
  cmp : E → E → Except X Bool
  alloc : Nat → Option X

/-- What a call gives: a result, an exception which reaches the caller, or the end of the program by `std::terminate`. (The behaviour of C++; see the functions
marked `noexcept` in `/repo/sdd/values/flat_set.hh`.) -/
inductive Out (X α : Type) : Type where
  | ok (a : α)
  | raised (e : X)
  | terminated
  deriving DecidableEq

/-- A function which is not `noexcept`. (The behaviour of C++, for `insert`, `erase`, `find`, `lower_bound` and constructors of `/repo/sdd/values/flat_set.hh`.) -/
def plain {α : Type} : Except X α → Out X α
  | .ok a => .ok a
  | .error e => .raised e

/-- A `noexcept` function. (The behaviour of C++, for `/repo/sdd/values/flat_set.hh`, lines 194, 478, 493 and 508.) -/
def noexcept {α : Type} : Except X α → Out X α
  | .ok a => .ok a
  | .error _ => .terminated

/-- The allocation of a buffer. (`boost::container::flat_set` and `unique_table::allocate`, used at `/repo/sdd/values/flat_set.hh:91-97,316-317`.) -/
def Env.take (env : Env E X) (n : Nat) : Except X Unit :=
  match env.alloc n with
  | some e => .error e
  | none => .ok ()

/-- The binary search of `boost::container::flat_set` between the positions `first` and `first + len`, used by `insert`, `erase`, `find`, `count` and `lower_bound`.
(`/repo/sdd/values/flat_set.hh`, lines 92, 187, 196, 204 and 214.) -/
def search (env : Env E X) (d : List E) (x : E) (first len : Nat) : Except X Nat :=
  if len = 0 then .ok first
  else
    match d[first + len / 2]? with
    | none => .ok first
    | some y =>
      match env.cmp y x with
      | .error e => .error e
      | .ok true => search env d x (first + len / 2 + 1) (len - (len / 2 + 1))
      | .ok false => search env d x first (len / 2)
  termination_by len

/-- The position of an element, and whether it is there: the search, then one more comparison. (`boost::container::flat_set`, used at
`/repo/sdd/values/flat_set.hh`, lines 92, 187, 196 and 204.) -/
def locate (env : Env E X) (d : List E) (x : E) : Except X (Nat × Bool) :=
  match search env d x 0 d.length with
  | .error e => .error e
  | .ok p =>
    match d[p]? with
    | none => .ok (p, false)
    | some y =>
      match env.cmp x y with
      | .error e => .error e
      | .ok b => .ok (p, !b)

/-- The insertion of an element in the container. (`boost::container::flat_set::insert`, used at `/repo/sdd/values/flat_set.hh:92`.) -/
def put (env : Env E X) (d : List E) (x : E) : Except X (List E × Bool) :=
  match locate env d x with
  | .error e => .error e
  | .ok (_, true) => .ok (d, false)
  | .ok (p, false) =>
    match env.take (d.length + 1) with
    | .error e => .error e
    | .ok () => .ok (d.take p ++ x :: d.drop p, true)

/-- The insertion with the end as a hint, as done by `std::inserter`: one comparison with the last element, then an ordinary insertion if the hint is
wrong. (`/repo/sdd/values/flat_set.hh`, lines 483, 498 and 513.) -/
def push (env : Env E X) (d : List E) (x : E) : Except X (List E) :=
  match d.getLast? with
  | none => (put env d x).map Prod.fst
  | some y =>
    match env.cmp y x with
    | .error e => .error e
    | .ok true => (env.take (d.length + 1)).map fun _ => d ++ [x]
    | .ok false => (put env d x).map Prod.fst

/-- The insertion of the remaining elements of a range. (`std::copy` in the algorithms of the standard library; construction from a range, `/repo/sdd/values/flat_set.hh:292`.) -/
def pushAll (env : Env E X) : List E → List E → Except X (List E)
  | d, [] => .ok d
  | d, x :: l => (push env d x).bind fun d' => pushAll env d' l

/-- `std::set_union` with an inserter, used at `/repo/sdd/values/flat_set.hh:511-513`. -/
def union (env : Env E X) (d : List E) : List E → List E → Except X (List E)
  | [], r => pushAll env d r
  | a :: l, [] => pushAll env d (a :: l)
  | a :: l, b :: r =>
    match env.cmp a b with
    | .error e => .error e
    | .ok true => (push env d a).bind fun d' => union env d' l (b :: r)
    | .ok false =>
      match env.cmp b a with
      | .error e => .error e
      | .ok true => (push env d b).bind fun d' => union env d' (a :: l) r
      | .ok false => (push env d a).bind fun d' => union env d' l r
  termination_by l r => l.length + r.length

/-- `std::set_intersection` with an inserter, used at `/repo/sdd/values/flat_set.hh:496-498`. -/
def meet (env : Env E X) (d : List E) : List E → List E → Except X (List E)
  | [], _ => .ok d
  | _ :: _, [] => .ok d
  | a :: l, b :: r =>
    match env.cmp a b with
    | .error e => .error e
    | .ok true => meet env d l (b :: r)
    | .ok false =>
      match env.cmp b a with
      | .error e => .error e
      | .ok true => meet env d (a :: l) r
      | .ok false => (push env d a).bind fun d' => meet env d' l r
  termination_by l r => l.length + r.length

/-- `std::set_difference` with an inserter, used at `/repo/sdd/values/flat_set.hh:481-483`. -/
def minus (env : Env E X) (d : List E) : List E → List E → Except X (List E)
  | [], _ => .ok d
  | a :: l, [] => pushAll env d (a :: l)
  | a :: l, b :: r =>
    match env.cmp a b with
    | .error e => .error e
    | .ok true => (push env d a).bind fun d' => minus env d' l (b :: r)
    | .ok false =>
      match env.cmp b a with
      | .error e => .error e
      | .ok true => minus env d (a :: l) r
      | .ok false => minus env d l r
  termination_by l r => l.length + r.length

/-- `create` and `unify`, `/repo/sdd/values/flat_set.hh:297-320`: the unified set, for which memory is needed unless the set is empty. The hash of
elements is supposed not to throw. -/
def create (env : Env E X) (d : List E) : Except X (List E) :=
  match d with
  | [] => .ok []
  | _ :: _ => (env.take 1).map fun _ => d

/-- `sum`, `/repo/sdd/values/flat_set.hh:505-515`. -/
def sum (env : Env E X) (v w : List E) : Out X (List E) := noexcept ((union env [] v w).bind (create env))

/-- `intersection`, `/repo/sdd/values/flat_set.hh:490-500`. -/
def inter (env : Env E X) (v w : List E) : Out X (List E) := noexcept ((meet env [] v w).bind (create env))

/-- `difference`, `/repo/sdd/values/flat_set.hh:475-485`. -/
def diff (env : Env E X) (v w : List E) : Out X (List E) := noexcept ((minus env [] v w).bind (create env))

/-- Construction from a range, `/repo/sdd/values/flat_set.hh:72-81,282-294`. -/
def ofRange (env : Env E X) (l : List E) : Out X (List E) := plain ((pushAll env [] l).bind (create env))

/-- `count`, `/repo/sdd/values/flat_set.hh:192-197`. -/
def count (env : Env E X) (v : List E) (x : E) : Out X Nat := noexcept ((locate env v x).map fun r => if r.2 then 1 else 0)

/-- `find`, `/repo/sdd/values/flat_set.hh:183-188`: the element, if it is there. -/
def find (env : Env E X) (v : List E) (x : E) : Out X (Option E) := plain ((locate env v x).map fun r => if r.2 then v[r.1]? else none)

/-- `lower_bound`, `/repo/sdd/values/flat_set.hh:209-215`: the elements from the iterator to the end. -/
def lowerBound (env : Env E X) (v : List E) (x : E) : Out X (List E) := plain ((search env v x 0 v.length).map fun p => v.drop p)

/-- `insert`, `/repo/sdd/values/flat_set.hh:88-100`: the set of the handle after the call, and whether the element is new. The copy, the insertion, `shrink_to_fit` and the unification may throw, in
this order; the handle is assigned last. -/
def insert (env : Env E X) (v : List E) (x : E) : List E × Out X Bool :=
  match (env.take v.length).bind fun _ => put env v x with
  | .error e => (v, .raised e)
  | .ok (_, false) => (v, .ok false)
  | .ok (fs, true) =>
    match (env.take fs.length).bind fun _ => create env fs with
    | .error e => (v, .raised e)
    | .ok d => (d, .ok true)

/-- `erase`, `/repo/sdd/values/flat_set.hh:199-207`: the set of the handle after the call, and the number of erased elements. -/
def erase (env : Env E X) (v : List E) (x : E) : List E × Out X Nat :=
  match (env.take v.length).bind fun _ => locate env v x with
  | .error e => (v, .raised e)
  | .ok (p, found) =>
    match create env (if found then v.take p ++ v.drop (p + 1) else v) with
    | .error e => (v, .raised e)
    | .ok d => (d, .ok (if found then 1 else 0))

/-! ## What these functions return -/

/-- The comparisons which return are those of the order. (Specification or proof device, not part of the code.) -/
def Env.Honest (env : Env E X) (lt : E → E → Bool) : Prop := ∀ a b r, env.cmp a b = .ok r → r = lt a b

/-- An exception thrown by a comparison or an allocation. (Specification or proof device, not part of the code.) -/
def Env.Throws (env : Env E X) (e : X) : Prop := (∃ a b, env.cmp a b = .error e) ∨ ∃ n, env.alloc n = some e

/-- A result which satisfies `P`, or an exception of the environment. (Specification or proof device, not part of the code.) -/
def Sat {α : Type} (env : Env E X) (m : Except X α) (P : α → Prop) : Prop :=
  match m with
  | .ok a => P a
  | .error e => env.Throws e

theorem Sat.bind {α β : Type} {env : Env E X} {m : Except X α} {f : α → Except X β} {P : α → Prop} {Q : β → Prop} (h : Sat env m P)
    (hf : ∀ a, P a → Sat env (f a) Q) : Sat env (m.bind f) Q := by
  cases m with
  | ok a => exact hf a h
  | error e => exact h

theorem Sat.map {α β : Type} {env : Env E X} {m : Except X α} {f : α → β} {P : α → Prop} {Q : β → Prop} (h : Sat env m P)
    (hf : ∀ a, P a → Q (f a)) : Sat env (m.map f) Q := by
  cases m with
  | ok a => exact hf a h
  | error e => exact h

variable {lt : E → E → Bool} {env : Env E X}

theorem take_spec (n : Nat) : Sat env (env.take n) fun _ => True := by
  unfold Env.take
  split
  · rename_i e h
    exact .inr ⟨n, h⟩
  · trivial

theorem search_spec (ho : env.Honest lt) (h : StrictTotal lt) {d : List E} (hd : d.Pairwise fun a b => lt a b = true) (x : E) :
    ∀ (len first : Nat), first + len ≤ d.length → (∀ (i : Nat) y, i < first → d[i]? = some y → lt y x = true) →
      (∀ (i : Nat) y, first + len ≤ i → d[i]? = some y → lt y x = false) →
      Sat env (search env d x first len) fun p => p ≤ d.length ∧ (∀ (i : Nat) y, i < p → d[i]? = some y → lt y x = true) ∧
        ∀ (i : Nat) y, p ≤ i → d[i]? = some y → lt y x = false := by
  intro len
  induction len using Nat.strong_induction_on with
  | _ len ih =>
    intro first hl h1 h2
    unfold search
    split
    · rename_i h0
      subst h0
      exact ⟨hl, h1, h2⟩
    · rename_i h0
      have hget : ∀ (i j : Nat) y z, i < j → d[i]? = some y → d[j]? = some z → lt y z = true := by
        intro i j y z hij hy hz
        obtain ⟨hi, rfl⟩ := List.getElem?_eq_some_iff.1 hy
        obtain ⟨hj, rfl⟩ := List.getElem?_eq_some_iff.1 hz
        exact List.pairwise_iff_getElem.1 hd i j hi hj hij
      split
      · rename_i hn
        rw [List.getElem?_eq_none_iff] at hn
        omega
      · rename_i y hy
        split
        · rename_i e he
          exact .inl ⟨_, _, he⟩
        · rename_i he
          have := ho _ _ _ he
          refine ih _ (by omega) _ (by omega) (fun i z hi hz => ?_) fun i z hi hz => h2 i z (by omega) hz
          rcases Nat.lt_or_ge i (first + len / 2) with h3 | h3
          · exact h.trans _ _ _ (hget i _ z y h3 hz hy) this.symm
          · obtain rfl : i = first + len / 2 := by omega
            rw [hy] at hz
            cases hz
            exact this.symm
        · rename_i he
          have := ho _ _ _ he
          refine ih _ (by omega) _ (by omega) h1 fun i z hi hz => ?_
          rcases Nat.lt_or_ge (first + len / 2) i with h3 | h3
          · cases e : lt z x
            · rfl
            · rw [h.trans _ _ _ (hget _ i y z h3 hy hz) e] at this
              cases this
          · obtain rfl : i = first + len / 2 := by omega
            rw [hy] at hz
            cases hz
            exact this.symm

theorem locate_spec (ho : env.Honest lt) (h : StrictTotal lt) {d : List E} (hd : d.Pairwise fun a b => lt a b = true) (x : E) :
    Sat env (locate env d x) fun r => (r.2 = true ↔ x ∈ d) ∧ (r.2 = true → d[r.1]? = some x) ∧
      (∀ y ∈ d.take r.1, lt y x = true) ∧ ∀ y ∈ d.drop r.1, lt y x = false := by
  have hs := search_spec ho h hd x d.length 0 (by simp) (by simp) (fun i y hi hy => by
    rw [List.getElem?_eq_none (by omega)] at hy
    cases hy)
  unfold locate
  cases e : search env d x 0 d.length with
  | error a =>
    rw [e] at hs
    exact hs
  | ok p =>
    rw [e] at hs
    obtain ⟨hp, h1, h2⟩ := hs
    have h1' : ∀ y ∈ d.take p, lt y x = true := fun y hy => by
      obtain ⟨i, hi⟩ := List.mem_iff_getElem?.1 hy
      rw [List.getElem?_take] at hi
      split at hi
      · rename_i h3
        exact h1 i y h3 hi
      · cases hi
    have h2' : ∀ y ∈ d.drop p, lt y x = false := fun y hy => by
      obtain ⟨i, hi⟩ := List.mem_iff_getElem?.1 hy
      rw [List.getElem?_drop] at hi
      exact h2 _ y (by omega) hi
    have hmem : x ∈ d → d[p]? = some x := fun hx => by
      obtain ⟨i, hi⟩ := List.mem_iff_getElem?.1 hx
      have : p ≤ i := by
        by_contra hc
        have := h1 i x (by omega) hi
        rw [h.irrefl] at this
        cases this
      rcases Nat.lt_or_ge p i with h3 | h3
      · exfalso
        obtain ⟨hi', hi⟩ := List.getElem?_eq_some_iff.1 hi
        have h4 := List.pairwise_iff_getElem.1 hd p i (by omega) hi' h3
        rw [hi, h2 p _ (le_refl p) (List.getElem?_eq_getElem (by omega))] at h4
        cases h4
      · obtain rfl : i = p := by omega
        exact hi
    simp only
    cases e' : d[p]? with
    | none =>
      refine ⟨⟨fun h => (by cases h), fun hx => ?_⟩, fun h => (by cases h), h1', h2'⟩
      rw [hmem hx] at e'
      cases e'
    | some y =>
      simp only
      cases e2 : env.cmp x y with
      | error a => exact .inl ⟨_, _, e2⟩
      | ok b =>
        have hb := ho _ _ _ e2
        have hy := h2 p y (le_refl p) e'
        have key : b = false → x = y := fun hb' => by
          rw [hb'] at hb
          rcases h.total x y with h3 | h3 | h3
          · rw [← hb] at h3
            cases h3
          · exact h3
          · rw [hy] at h3
            cases h3
        refine ⟨⟨fun h3 => ?_, fun hx => ?_⟩, fun h3 => ?_, h1', h2'⟩
        · rw [key (by simpa using h3)]
          exact List.mem_of_getElem? e'
        · have := hmem hx
          rw [e'] at this
          cases this
          rw [hb, h.irrefl]
          rfl
        · rw [key (by simpa using h3)]
          exact e'

/-- A sorted list with given elements. (Specification or proof device, not part of the code.) -/
def IsSet (lt : E → E → Bool) (S : E → Prop) (d : List E) : Prop := (d.Pairwise fun a b => lt a b = true) ∧ ∀ z, z ∈ d ↔ S z

theorem put_spec (ho : env.Honest lt) (h : StrictTotal lt) {d : List E} (hd : d.Pairwise fun a b => lt a b = true) (x : E) :
    Sat env (put env d x) fun r => IsSet lt (fun z => z = x ∨ z ∈ d) r.1 ∧ (r.2 = true ↔ x ∉ d) ∧ (r.2 = false → r.1 = d) := by
  have hl := locate_spec ho h hd x
  unfold put
  cases e : locate env d x with
  | error a =>
    rw [e] at hl
    exact hl
  | ok r =>
    rw [e] at hl
    obtain ⟨p, b⟩ := r
    obtain ⟨h1, h2, h3, h4⟩ := hl
    cases b with
    | true =>
      refine ⟨⟨hd, fun z => ⟨.inr, fun hz => hz.elim (fun e => e ▸ h1.1 rfl) id⟩⟩, ⟨fun h => (by cases h), fun h => absurd (h1.1 rfl) h⟩, fun _ => rfl⟩
    | false =>
      have hx : x ∉ d := fun hx => by have := h1.2 hx; cases this
      simp only
      have ht := take_spec (env := env) (d.length + 1)
      cases e2 : env.take (d.length + 1) with
      | error a =>
        rw [e2] at ht
        exact ht
      | ok u =>
        have hd' := hd
        rw [← List.take_append_drop p d, List.pairwise_append] at hd'
        refine ⟨⟨List.pairwise_append.2 ⟨hd'.1, List.pairwise_cons.2 ⟨fun y hy => ?_, hd'.2.1⟩, fun a ha b hb => ?_⟩, fun z => ?_⟩,
          ⟨fun _ => hx, fun _ => rfl⟩, fun h => (by cases h)⟩
        · rcases h.total x y with h5 | h5 | h5
          · exact h5
          · exact absurd (h5 ▸ List.mem_of_mem_drop hy) hx
          · rw [h4 y hy] at h5
            cases h5
        · rcases List.mem_cons.1 hb with rfl | hb
          · exact h3 a ha
          · exact hd'.2.2 a ha b hb
        · conv_rhs => rw [← List.take_append_drop p d]
          simp only [List.mem_append, List.mem_cons]
          tauto

theorem push_spec (ho : env.Honest lt) (h : StrictTotal lt) {d : List E} (hd : d.Pairwise fun a b => lt a b = true) (x : E) :
    Sat env (push env d x) (IsSet lt fun z => z = x ∨ z ∈ d) := by
  have hp := (put_spec ho h hd x).map (f := Prod.fst) (Q := IsSet lt fun z => z = x ∨ z ∈ d) fun r hr => hr.1
  unfold push
  split
  · exact hp
  · rename_i y hy
    split
    · rename_i e he
      exact .inl ⟨_, _, he⟩
    · rename_i he
      have hyx := (ho _ _ _ he).symm
      refine (take_spec _).map fun _ _ => ?_
      obtain ⟨d', rfl⟩ := List.getLast?_eq_some_iff.1 hy
      rw [List.pairwise_append] at hd
      refine ⟨List.pairwise_append.2 ⟨List.pairwise_append.2 hd, by simp, fun a ha b hb => ?_⟩, fun z => by simp only [List.mem_append, List.mem_singleton]; tauto⟩
      simp only [List.mem_singleton] at hb
      subst hb
      rcases List.mem_append.1 ha with ha | ha
      · exact h.trans _ _ _ (hd.2.2 a ha y (by simp)) hyx
      · simp only [List.mem_singleton] at ha
        subst ha
        exact hyx
    · exact hp

theorem IsSet.congr {S T : E → Prop} {d : List E} (hd : IsSet lt S d) (h : ∀ z, S z ↔ T z) : IsSet lt T d := ⟨hd.1, fun z => (hd.2 z).trans (h z)⟩

theorem Sat.mono {α : Type} {m : Except X α} {P Q : α → Prop} (h : Sat env m P) (hPQ : ∀ a, P a → Q a) : Sat env m Q := by
  cases m with
  | ok a => exact hPQ a h
  | error e => exact h

theorem pushAll_spec (ho : env.Honest lt) (h : StrictTotal lt) : ∀ (l d : List E), (d.Pairwise fun a b => lt a b = true) →
    Sat env (pushAll env d l) (IsSet lt fun z => z ∈ d ∨ z ∈ l)
  | [], d, hd => ⟨hd, by simp⟩
  | x :: l, d, hd => by
    unfold pushAll
    refine (push_spec ho h hd x).bind fun d' hd' => ?_
    refine (pushAll_spec ho h l d' hd'.1).mono fun r hr => ?_
    refine hr.congr fun z => ?_
    rw [hd'.2, List.mem_cons]
    tauto

theorem union_spec (ho : env.Honest lt) (h : StrictTotal lt) : ∀ (l r d : List E), (d.Pairwise fun a b => lt a b = true) →
    Sat env (union env d l r) (IsSet lt fun z => z ∈ d ∨ z ∈ setUnion lt l r)
  | [], r, d, hd => by
    unfold union setUnion
    exact pushAll_spec ho h r d hd
  | a :: l, [], d, hd => by
    unfold union setUnion
    exact pushAll_spec ho h _ d hd
  | a :: l, b :: r, d, hd => by
    unfold union setUnion
    split
    · rename_i e he
      exact .inl ⟨_, _, he⟩
    · rename_i he
      rw [if_pos (ho _ _ _ he).symm]
      refine (push_spec ho h hd a).bind fun d' hd' => ?_
      refine (union_spec ho h l (b :: r) d' hd'.1).mono fun s hs => ?_
      refine hs.congr fun z => ?_
      rw [hd'.2, List.mem_cons]
      tauto
    · rename_i he
      rw [if_neg (by rw [← ho _ _ _ he]; simp)]
      split
      · rename_i e he
        exact .inl ⟨_, _, he⟩
      · rename_i he
        rw [if_pos (ho _ _ _ he).symm]
        refine (push_spec ho h hd b).bind fun d' hd' => ?_
        refine (union_spec ho h (a :: l) r d' hd'.1).mono fun s hs => ?_
        refine hs.congr fun z => ?_
        rw [hd'.2, List.mem_cons]
        tauto
      · rename_i he
        rw [if_neg (by rw [← ho _ _ _ he]; simp)]
        refine (push_spec ho h hd a).bind fun d' hd' => ?_
        refine (union_spec ho h l r d' hd'.1).mono fun s hs => ?_
        refine hs.congr fun z => ?_
        rw [hd'.2, List.mem_cons]
        tauto
  termination_by l r => l.length + r.length

theorem meet_spec (ho : env.Honest lt) (h : StrictTotal lt) : ∀ (l r d : List E), (d.Pairwise fun a b => lt a b = true) →
    Sat env (meet env d l r) (IsSet lt fun z => z ∈ d ∨ z ∈ setInter lt l r)
  | [], r, d, hd => by
    unfold meet setInter
    exact ⟨hd, by simp⟩
  | a :: l, [], d, hd => by
    unfold meet setInter
    exact ⟨hd, by simp⟩
  | a :: l, b :: r, d, hd => by
    unfold meet setInter
    split
    · rename_i e he
      exact .inl ⟨_, _, he⟩
    · rename_i he
      rw [if_pos (ho _ _ _ he).symm]
      exact meet_spec ho h l (b :: r) d hd
    · rename_i he
      rw [if_neg (by rw [← ho _ _ _ he]; simp)]
      split
      · rename_i e he
        exact .inl ⟨_, _, he⟩
      · rename_i he
        rw [if_pos (ho _ _ _ he).symm]
        exact meet_spec ho h (a :: l) r d hd
      · rename_i he
        rw [if_neg (by rw [← ho _ _ _ he]; simp)]
        refine (push_spec ho h hd a).bind fun d' hd' => ?_
        refine (meet_spec ho h l r d' hd'.1).mono fun s hs => ?_
        refine hs.congr fun z => ?_
        rw [hd'.2, List.mem_cons]
        tauto
  termination_by l r => l.length + r.length

theorem minus_spec (ho : env.Honest lt) (h : StrictTotal lt) : ∀ (l r d : List E), (d.Pairwise fun a b => lt a b = true) →
    Sat env (minus env d l r) (IsSet lt fun z => z ∈ d ∨ z ∈ setDiff lt l r)
  | [], r, d, hd => by
    unfold minus setDiff
    exact ⟨hd, by simp⟩
  | a :: l, [], d, hd => by
    unfold minus setDiff
    exact pushAll_spec ho h _ d hd
  | a :: l, b :: r, d, hd => by
    unfold minus setDiff
    split
    · rename_i e he
      exact .inl ⟨_, _, he⟩
    · rename_i he
      rw [if_pos (ho _ _ _ he).symm]
      refine (push_spec ho h hd a).bind fun d' hd' => ?_
      refine (minus_spec ho h l (b :: r) d' hd'.1).mono fun s hs => ?_
      refine hs.congr fun z => ?_
      rw [hd'.2, List.mem_cons]
      tauto
    · rename_i he
      rw [if_neg (by rw [← ho _ _ _ he]; simp)]
      split
      · rename_i e he
        exact .inl ⟨_, _, he⟩
      · rename_i he
        rw [if_pos (ho _ _ _ he).symm]
        exact minus_spec ho h (a :: l) r d hd
      · rename_i he
        rw [if_neg (by rw [← ho _ _ _ he]; simp)]
        exact minus_spec ho h l r d hd
  termination_by l r => l.length + r.length

theorem create_spec {S : E → Prop} {d : List E} (hd : IsSet lt S d) : Sat env (create env d) (IsSet lt S) := by
  unfold create
  split
  · exact hd
  · exact (take_spec 1).map fun _ _ => hd

end FlatX
end Verif
