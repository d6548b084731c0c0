import Verif.Values.Throw
import Verif.Values.Concrete
/-!
# Properties of `flat_set` when comparisons of elements or allocations throw
-/

set_option autoImplicit false
set_option linter.unusedSectionVars false

namespace Verif
open FlatX

section
variable {E X : Type} {lt : E → E → Bool} {env : Env E X}

theorem FlatX.IsSet.eq (h : StrictTotal lt) {S : E → Prop} {d : List E} (hd : IsSet lt S d) {v : FSet E lt} (hv : ∀ z, z ∈ v.data ↔ S z) : d = v.data :=
  sorted_ext (r := fun a b => lt a b = true) (fun a => by simp [h.irrefl]) (fun a b c => h.trans a b c) hd.1 v.sorted
    fun z => (hd.2 z).trans (hv z).symm

theorem FlatX.drop_eq_dropWhile {p : E → Bool} : ∀ {l : List E} {n : Nat}, n ≤ l.length → (∀ (i : Nat) y, i < n → l[i]? = some y → p y = true) →
    (∀ (i : Nat) y, n ≤ i → l[i]? = some y → p y = false) → l.drop n = l.dropWhile p
  | [], n, _, _, _ => by simp
  | a :: l, 0, _, _, h2 => by
    rw [List.dropWhile_cons, h2 0 a (le_refl 0) rfl]
    rfl
  | a :: l, n + 1, hn, h1, h2 => by
    rw [List.dropWhile_cons, h1 0 a (Nat.succ_pos n) rfl, List.drop_succ_cons]
    exact drop_eq_dropWhile (by simpa using hn) (fun i y hi hy => h1 (i + 1) y (by omega) (by simpa using hy))
      fun i y hi hy => h2 (i + 1) y (by omega) (by simpa using hy)

/-- **C86**, what holds. `env` is any comparison of elements, which throws on any pairs but is right when it returns, and any allocator. A call of a function of `flat_set` which returns gives what it gives without exceptions,
which is the union, intersection… of sets (C25). Constructors, `insert`, `erase`, `find` and `lower_bound`, when they do not return, raise an exception of the comparison or of the allocator, and
`insert` and `erase` then leave the set unchanged. `sum`, `intersection`, `difference` and `count` return whenever nothing throws.
Missing: exceptions during `sum`, `intersection`, `difference` and `count` do not reach the caller, see `C86_negation`. -/
theorem C86_exceptions_partial (h : StrictTotal lt) (ho : ∀ a b r, env.cmp a b = .ok r → r = lt a b) (v w : FSet E lt) (x : E) :
    (∀ d, FlatX.sum env v.data w.data = .ok d → d = (v.sum h w).data) ∧
    (∀ d, FlatX.inter env v.data w.data = .ok d → d = (v.inter h w).data) ∧
    (∀ d, FlatX.diff env v.data w.data = .ok d → d = (v.diff h w).data) ∧
    (∀ n, FlatX.count env v.data x = .ok n → n = v.count x) ∧
    ((∀ a b, ∃ r, env.cmp a b = .ok r) → (∀ n, env.alloc n = none) →
      (∃ d, FlatX.sum env v.data w.data = .ok d) ∧ (∃ d, FlatX.inter env v.data w.data = .ok d) ∧
      (∃ d, FlatX.diff env v.data w.data = .ok d) ∧ ∃ n, FlatX.count env v.data x = .ok n) ∧
    (∀ l, FlatX.ofRange env l = .ok (FSet.ofList h l).data ∨ ∃ e, FlatX.ofRange env l = .raised e ∧ env.Throws e) ∧
    (FlatX.find env v.data x = .ok (v.find x) ∨ ∃ e, FlatX.find env v.data x = .raised e ∧ env.Throws e) ∧
    (FlatX.lowerBound env v.data x = .ok (v.lowerBound x) ∨ ∃ e, FlatX.lowerBound env v.data x = .raised e ∧ env.Throws e) ∧
    (FlatX.insert env v.data x = ((v.insert h x).1.data, .ok (v.insert h x).2) ∨
      ∃ e, FlatX.insert env v.data x = (v.data, .raised e) ∧ env.Throws e) ∧
    (FlatX.erase env v.data x = ((v.erase x).1.data, .ok (v.erase x).2) ∨
      ∃ e, FlatX.erase env v.data x = (v.data, .raised e) ∧ env.Throws e) := by
  have hsum : Sat env ((union env [] v.data w.data).bind (create env)) fun d => d = (v.sum h w).data :=
    (union_spec ho h v.data w.data [] (by simp)).bind fun d hd => (create_spec hd).mono fun d hd => hd.eq h fun z => by
      rw [show (z ∈ (v.sum h w).data ↔ _) from FSet.mem_ofList h z _]
      simp
  have hinter : Sat env ((meet env [] v.data w.data).bind (create env)) fun d => d = (v.inter h w).data :=
    (meet_spec ho h v.data w.data [] (by simp)).bind fun d hd => (create_spec hd).mono fun d hd => hd.eq h fun z => by
      rw [show (z ∈ (v.inter h w).data ↔ _) from FSet.mem_ofList h z _]
      simp
  have hdiff : Sat env ((minus env [] v.data w.data).bind (create env)) fun d => d = (v.diff h w).data :=
    (minus_spec ho h v.data w.data [] (by simp)).bind fun d hd => (create_spec hd).mono fun d hd => hd.eq h fun z => by
      rw [show (z ∈ (v.diff h w).data ↔ _) from FSet.mem_ofList h z _]
      simp
  have hloc := locate_spec ho h v.sorted x
  have hcount : Sat env ((locate env v.data x).map fun r => if r.2 then 1 else 0) fun n => n = v.count x := hloc.map fun r hr => by
    classical
    obtain ⟨c1, c2⟩ := FSet.count_spec h v x
    by_cases hx : x ∈ v.data
    · rw [if_pos (hr.1.2 hx), c1 hx]
    · rw [if_neg fun h => hx (hr.1.1 h), c2 hx]
  have hok : ∀ {α : Type} {m : Except X α} {P : α → Prop} {a : α}, Sat env m P → noexcept m = .ok a → P a := by
    intro α m P a hm e
    cases m with
    | ok b =>
      cases e
      exact hm
    | error b => cases e
  have hnt : ∀ {α : Type} {m : Except X α} {P : α → Prop}, (∀ a b, ∃ r, env.cmp a b = .ok r) → (∀ n, env.alloc n = none) → Sat env m P →
      ∃ a, noexcept m = .ok a := by
    intro α m P hc ha hm
    cases m with
    | ok b => exact ⟨b, rfl⟩
    | error e =>
      rcases hm with ⟨a, b, e⟩ | ⟨n, e⟩
      · obtain ⟨r, hr⟩ := hc a b
        rw [hr] at e
        cases e
      · rw [ha n] at e
        cases e
  have hpl : ∀ {α : Type} {m : Except X α} {a : α}, (Sat env m fun b => b = a) → plain m = .ok a ∨ ∃ e, plain m = .raised e ∧ env.Throws e := by
    intro α m a hm
    cases m with
    | ok b =>
      left
      rw [show b = a from hm]
      rfl
    | error e => exact .inr ⟨e, rfl, hm⟩
  refine ⟨fun d => hok hsum, fun d => hok hinter, fun d => hok hdiff, fun n => hok hcount,
    fun hc ha => ⟨hnt hc ha hsum, hnt hc ha hinter, hnt hc ha hdiff, hnt hc ha hcount⟩, fun l => hpl ?_, hpl ?_, hpl ?_, ?_, ?_⟩
  · exact (pushAll_spec ho h l [] (by simp)).bind fun d hd => (create_spec hd).mono fun d hd => hd.eq h fun z => by
      rw [show (z ∈ (FSet.ofList h l).data ↔ _) from FSet.mem_ofList h z _]
      simp
  · refine hloc.map fun r hr => ?_
    obtain ⟨f1, f2⟩ := FSet.find_spec h v x
    by_cases hx : x ∈ v.data
    · rw [if_pos (hr.1.2 hx), f1 hx, hr.2.1 (hr.1.2 hx)]
    · rw [if_neg fun h => hx (hr.1.1 h), f2 hx]
  · refine (search_spec ho h v.sorted x v.data.length 0 (by simp) (by simp) (fun i y hi hy => by
      rw [List.getElem?_eq_none (by omega)] at hy
      cases hy)).map fun p hp => ?_
    exact drop_eq_dropWhile hp.1 hp.2.1 hp.2.2
  · unfold FlatX.insert
    have hp := (take_spec v.data.length).bind (f := fun _ => put env v.data x) fun _ _ => put_spec ho h v.sorted x
    obtain ⟨i1, i2⟩ := FSet.insert_spec h v x
    cases e : (env.take v.data.length).bind fun _ => put env v.data x with
    | error a =>
      rw [e] at hp
      exact .inr ⟨a, rfl, hp⟩
    | ok r =>
      rw [e] at hp
      obtain ⟨fs, b⟩ := r
      obtain ⟨h1, h2, h3⟩ := hp
      cases b with
      | false =>
        left
        have hb : (v.insert h x).2 = false := by
          cases e2 : (v.insert h x).2
          · rfl
          · exact absurd (h2.2 (i2.1 e2)) (by simp)
        have hx : x ∈ v.data := by
          by_contra hx
          have := h2.2 hx
          cases this
        rw [hb]
        refine Prod.ext ?_ rfl
        exact (IsSet.eq h ⟨v.sorted, fun z => Iff.rfl⟩ fun z => (i1 z).trans ⟨fun hz => hz.elim (fun e => e ▸ hx) id, .inr⟩)
      | true =>
        have hb : (v.insert h x).2 = true := i2.2 (h2.1 rfl)
        have hc := (take_spec fs.length).bind (f := fun _ => create env fs) fun _ _ => create_spec (env := env) h1
        simp only
        cases e2 : (env.take fs.length).bind fun _ => create env fs with
        | error a =>
          rw [e2] at hc
          exact .inr ⟨a, rfl, hc⟩
        | ok d =>
          rw [e2] at hc
          left
          rw [hb]
          exact Prod.ext (IsSet.eq h hc i1) rfl
  · unfold FlatX.erase
    have hp := (take_spec v.data.length).bind (f := fun _ => locate env v.data x) fun _ _ => hloc
    obtain ⟨i1, i2, i3⟩ := FSet.erase_spec h v x
    cases e : (env.take v.data.length).bind fun _ => locate env v.data x with
    | error a =>
      rw [e] at hp
      exact .inr ⟨a, rfl, hp⟩
    | ok r =>
      rw [e] at hp
      obtain ⟨p, b⟩ := r
      obtain ⟨h1, h2, h3, h4⟩ := hp
      have hd : IsSet lt (fun z => z ≠ x ∧ z ∈ v.data) (if b = true then v.data.take p ++ v.data.drop (p + 1) else v.data) := by
        split
        · rename_i hb
          have hlen := (List.getElem?_eq_some_iff.1 (h2 hb))
          obtain ⟨hp, hx⟩ := hlen
          have hsplit : v.data = v.data.take p ++ x :: v.data.drop (p + 1) := by
            conv_lhs => rw [← List.take_append_drop p v.data, List.drop_eq_getElem_cons hp, hx]
          have hs := v.sorted
          rw [hsplit, List.pairwise_append, List.pairwise_cons] at hs
          refine ⟨List.pairwise_append.2 ⟨hs.1, hs.2.1.2, fun a ha b hb => hs.2.2 a ha b (List.mem_cons_of_mem _ hb)⟩, fun z => ?_⟩
          have hn : x ∉ v.data.take p ∧ x ∉ v.data.drop (p + 1) := by
            refine ⟨fun hx' => ?_, fun hx' => ?_⟩
            · have := hs.2.2 x hx' x (by simp)
              rw [h.irrefl] at this
              cases this
            · have := hs.2.1.1 x hx'
              rw [h.irrefl] at this
              cases this
          conv_rhs => rw [hsplit]
          simp only [List.mem_append, List.mem_cons]
          constructor
          · rintro (hz | hz)
            · exact ⟨fun e => hn.1 (e ▸ hz), .inl hz⟩
            · exact ⟨fun e => hn.2 (e ▸ hz), .inr (.inr hz)⟩
          · rintro ⟨h5, h6 | h6 | h6⟩
            · exact .inl h6
            · exact absurd h6 h5
            · exact .inr h6
        · rename_i hb
          exact ⟨v.sorted, fun z => ⟨fun hz => ⟨fun e => hb (h1.2 (e ▸ hz)), hz⟩, And.right⟩⟩
      have hc := create_spec (env := env) hd
      simp only
      cases e2 : create env (if b = true then v.data.take p ++ v.data.drop (p + 1) else v.data) with
      | error a =>
        rw [e2] at hc
        exact .inr ⟨a, rfl, hc⟩
      | ok d =>
        rw [e2] at hc
        left
        refine Prod.ext (IsSet.eq h hc i1) (congrArg Out.ok ?_)
        have hlen : (v.erase x).1.data.length = if b = true then v.data.length - 1 else v.data.length := by
          rw [← IsSet.eq h hd i1]
          split
          · rename_i hb
            obtain ⟨hp, -⟩ := List.getElem?_eq_some_iff.1 (h2 hb)
            rw [List.length_append, List.length_take, List.length_drop]
            omega
          · rfl
        rw [i2]
        unfold FSet.size
        rw [hlen]
        split
        · rename_i hb
          obtain ⟨hp, -⟩ := List.getElem?_eq_some_iff.1 (h2 hb)
          omega
        · omega

end

/-- The comparison of a type of elements which throws on 7. -/
def cmp7 (a b : Nat) : Except Unit Bool := if a = 7 ∨ b = 7 then .error () else .ok (natLt a b)

/-- **C86**, negation: an exception thrown by the comparison of two elements in `sum`, `intersection`, `difference` or `count`, or a failed allocation in `sum`, ends the program. -/
theorem C86_negation : (∃ env : Env Nat Unit, (∀ a b r, env.cmp a b = .ok r → r = natLt a b) ∧
      FlatX.sum env (ns [1, 7]).data (ns [2]).data = .terminated ∧ FlatX.inter env (ns [1, 7]).data (ns [2]).data = .terminated ∧
      FlatX.diff env (ns [1, 7]).data (ns [2]).data = .terminated ∧ FlatX.count env (ns [1, 7]).data 2 = .terminated) ∧
    ∃ env : Env Nat Unit, (∀ a b, env.cmp a b = .ok (natLt a b)) ∧ FlatX.sum env (ns [1]).data (ns [2]).data = .terminated := by
  refine ⟨⟨⟨cmp7, fun _ => none⟩, fun a b r hr => ?_, by decide +kernel, by decide +kernel, by decide +kernel, by decide +kernel⟩,
    ⟨fun a b => .ok (natLt a b), fun n => if n = 2 then some () else none⟩, fun a b => rfl, by decide +kernel⟩
  simp only [cmp7] at hr
  split at hr
  · cases hr
  · cases hr
    rfl

/- Insertions with the comparison which throws on 7: 3 is inserted, then 7 is refused with an exception. -/
example : (FlatX.insert (X := Unit) ⟨cmp7, fun _ => none⟩ (ns [1, 2]).data 3 = ([1, 2, 3], .ok true)) ∧
    (FlatX.insert (X := Unit) ⟨cmp7, fun _ => none⟩ (ns [1, 2, 3]).data 7 = ([1, 2, 3], .raised ())) := by decide +kernel

end Verif
