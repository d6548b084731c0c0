import Verif.DD.Dot
/-!
# Iterators kept while exporting to the DOT format

`/repo/sdd/tools/dot/sdd.hh`: the visitor looks for a node in its `std::unordered_set`, visits the arcs, which inserts other nodes, then gives
the iterator of the failed search to `emplace_hint`.  In the C++ standard, an insertion invalidates the iterators when the number of elements
becomes greater than the number of buckets (the maximal load factor is 1 by default): the container is rehashed.  Here, the use of an
invalidated iterator is an error (`none`).  `DD/Dot` is the model in which the hint is always valid.
-/

set_option autoImplicit false
set_option linter.unusedSectionVars false

namespace Verif
namespace Dot
section
variable {V E I : Type} [DecidableEq V]

/-- The state of the visitor, with the number of times its `std::unordered_set` was rehashed and its number of buckets.
(`/repo/sdd/tools/dot/sdd.hh`, lines 20-34.) -/
structure StI (V I : Type) where
  st : St V I
  gen : Nat
  buckets : Nat

/-- What is written to the stream. (`os_ << …`, `/repo/sdd/tools/dot/sdd.hh:43,57,71,75,90,97-101`.) -/
def StI.write (l : List (Line V I)) (σ : StI V I) : StI V I := { σ with st := ⟨σ.st.visited, σ.st.out ++ l⟩ }

/-- `visited_.emplace_hint(search, &n)`, `/repo/sdd/tools/dot/sdd.hh:44,58,78,105`, with an iterator `search` made when the container had been rehashed
`g` times; `grow n` is the number of buckets chosen by the implementation for `n` elements. -/
def StI.emplaceHint (grow : Nat → Nat) (g : Nat) (s : SDD V) (σ : StI V I) : Option (StI V I) :=
  if g = σ.gen then
    if σ.st.visited.length + 1 ≤ σ.buckets then some ⟨⟨s :: σ.st.visited, σ.st.out⟩, σ.gen, σ.buckets⟩
    else some ⟨⟨s :: σ.st.visited, σ.st.out⟩, σ.gen + 1, grow (σ.st.visited.length + 1)⟩
  else none

variable (addr : SDD V → List Char) (grow : Nat → Nat)

mutual
/-- `to_dot_visitor`, `/repo/sdd/tools/dot/sdd.hh:36-109`: `none` when the head of an empty order, or an invalidated iterator, is used. -/
def dotVI : SDD V → OB I → StI V I → Option (StI V I)
  | .zero, _, σ =>
    if .zero ∈ σ.st.visited then some σ else (σ.write [.terminal (name addr .zero) 0]).emplaceHint grow σ.gen .zero
  | .one, _, σ =>
    if .one ∈ σ.st.visited then some σ else (σ.write [.terminal (name addr .one) 1]).emplaceHint grow σ.gen .one
  | .flat x arcs, o, σ =>
    if .flat x arcs ∈ σ.st.visited then some σ
    else match o with
      | .nil => none
      | .node id _ nxt =>
        (dotFI (name addr (.flat x arcs)) nxt arcs (σ.write [.vertex (name addr (.flat x arcs)) id])).bind fun σ' =>
          σ'.emplaceHint grow σ.gen (.flat x arcs)
  | .hier x arcs, o, σ =>
    if .hier x arcs ∈ σ.st.visited then some σ
    else match o with
      | .nil => none
      | .node id nst nxt =>
        (dotHI (.hier x arcs) nst nxt arcs (σ.write [.vertex (name addr (.hier x arcs)) id])).bind fun σ' =>
          σ'.emplaceHint grow σ.gen (.hier x arcs)
/-- The loop on the arcs of a flat node, `/repo/sdd/tools/dot/sdd.hh:73-77`. -/
def dotFI (node : List Char) (nxt : OB I) : List (V × SDD V) → StI V I → Option (StI V I)
  | [], σ => some σ
  | (v, s) :: arcs, σ =>
    (dotVI s nxt σ).bind fun σ1 => dotFI node nxt arcs (σ1.write [.arc node (name addr s) v])
/-- The loop on the arcs of a hierarchical node, `/repo/sdd/tools/dot/sdd.hh:92-104`. -/
def dotHI (n : SDD V) (nst nxt : OB I) : List (SDD V × SDD V) → StI V I → Option (StI V I)
  | [], σ => some σ
  | (v, s) :: arcs, σ =>
    (dotVI s nxt σ).bind fun σ1 =>
      (dotVI v nst σ1).bind fun σ2 =>
        dotHI n nst nxt arcs (σ2.write
          [.ghost (ghostName addr n (name addr s)), .toGhost (name addr n) (ghostName addr n (name addr s)),
           .fromGhost (ghostName addr n (name addr s)) (name addr s),
           .nested (ghostName addr n (name addr s)) (name addr v)])
end

/-- `tools::dot`, `/repo/sdd/tools/dot/sdd.hh:134-161` (without the first and last lines), when a default constructed `std::unordered_set` has `b`
buckets. -/
def dotI (b : Nat) (x : SDD V) (o : OB I) : Option (List (Line V I)) :=
  (dotVI addr grow x o ⟨⟨[], []⟩, 0, b⟩).map fun σ => σ.st.out

variable {addr grow}

/-- An execution which is not stopped. (Specification or proof device, not part of the code.) -/
structure DStep (σ σ' : StI V I) : Prop where
  gen : σ.gen ≤ σ'.gen
  len : σ.st.visited.length ≤ σ'.st.visited.length
  same : σ'.gen = σ.gen → σ'.buckets = σ.buckets ∧ (σ.st.visited.length ≤ σ.buckets → σ'.st.visited.length ≤ σ'.buckets)

theorem DStep.refl (σ : StI V I) : DStep σ σ := ⟨le_rfl, le_rfl, fun _ => ⟨rfl, id⟩⟩

theorem DStep.trans {a b c : StI V I} (h1 : DStep a b) (h2 : DStep b c) : DStep a c := by
  have g1 := h1.gen
  have g2 := h2.gen
  refine ⟨g1.trans g2, h1.len.trans h2.len, fun h => ?_⟩
  obtain ⟨b1, l1⟩ := h1.same (by omega)
  obtain ⟨b2, l2⟩ := h2.same (by omega)
  exact ⟨b2.trans b1, fun h => l2 (l1 h)⟩

theorem DStep.write (l : List (Line V I)) (σ : StI V I) : DStep σ (σ.write l) := ⟨le_rfl, le_rfl, fun _ => ⟨rfl, id⟩⟩

theorem emplaceHint_spec {g : Nat} {s : SDD V} {σ σ' : StI V I} (h : σ.emplaceHint grow g s = some σ') :
    g = σ.gen ∧ σ'.st = ⟨s :: σ.st.visited, σ.st.out⟩ ∧ DStep σ σ' := by
  unfold StI.emplaceHint at h
  split at h
  · rename_i hg
    refine ⟨hg, ?_⟩
    split at h
    · rename_i hl
      cases h
      exact ⟨rfl, le_rfl, by simp, fun _ => ⟨rfl, fun _ => by simpa using hl⟩⟩
    · cases h
      exact ⟨rfl, Nat.le_succ _, by simp, fun h => absurd h (Nat.succ_ne_self _)⟩
  · cases h

/-- An execution which does not use an invalidated iterator gives the result of `DD/Dot`. -/
theorem dotVI_sound (s : SDD V) : ∀ (o : OB I) (σ σ' : StI V I), dotVI addr grow s o σ = some σ' →
    dotV addr s o σ.st = some σ'.st ∧ DStep σ σ' := by
  induction s using SDD.ind with
  | h0 =>
    intro o σ σ' h
    rw [dotVI] at h
    rw [dotV]
    split at h
    · rename_i hm
      cases h
      exact ⟨by rw [if_pos hm], .refl _⟩
    · rename_i hm
      obtain ⟨-, e, h2⟩ := emplaceHint_spec h
      exact ⟨by rw [if_neg hm, e]; rfl, (DStep.write _ _).trans h2⟩
  | h1 =>
    intro o σ σ' h
    rw [dotVI] at h
    rw [dotV]
    split at h
    · rename_i hm
      cases h
      exact ⟨by rw [if_pos hm], .refl _⟩
    · rename_i hm
      obtain ⟨-, e, h2⟩ := emplaceHint_spec h
      exact ⟨by rw [if_neg hm, e]; rfl, (DStep.write _ _).trans h2⟩
  | hf x arcs ih =>
    intro o σ σ' h
    cases o with
    | nil =>
      rw [dotVI] at h
      rw [dotV]
      split at h
      · rename_i hm
        cases h
        exact ⟨by rw [if_pos hm], .refl _⟩
      · cases h
    | node id nst nxt =>
      rw [dotVI] at h
      rw [dotV]
      split at h
      · rename_i hm
        cases h
        exact ⟨by rw [if_pos hm], .refl _⟩
      · rename_i hm
        rw [if_neg hm]
        have loop : ∀ (node : List Char) (l : List (V × SDD V)), (∀ a ∈ l, a ∈ arcs) → ∀ (σ σ' : StI V I),
            dotFI addr grow node nxt l σ = some σ' → dotF addr node nxt l σ.st = some σ'.st ∧ DStep σ σ' := by
          intro node l
          induction l with
          | nil => intro _ σ σ' h; rw [dotFI] at h; cases h; exact ⟨by rw [dotF], .refl _⟩
          | cons e l ihl =>
            obtain ⟨v, s⟩ := e
            intro hl σ σ' h
            rw [dotFI] at h
            obtain ⟨σ1, e1, e2⟩ := Option.bind_eq_some_iff.1 h
            obtain ⟨r1, r2⟩ := ih (v, s) (hl _ (by simp)) _ _ _ e1
            obtain ⟨r3, r4⟩ := ihl (fun a ha => hl a (by simp [ha])) _ _ e2
            dsimp only at r1
            exact ⟨by rw [dotF, r1]; exact r3, r2.trans ((DStep.write _ _).trans r4)⟩
        obtain ⟨σ1, e1, e2⟩ := Option.bind_eq_some_iff.1 h
        obtain ⟨r1, r2⟩ := loop _ arcs (fun _ h => h) _ _ e1
        obtain ⟨-, e, h2⟩ := emplaceHint_spec e2
        exact ⟨by rw [e]; rw [StI.write] at r1; rw [r1]; rfl, (DStep.write _ _).trans (r2.trans h2)⟩
  | hh x arcs ih =>
    intro o σ σ' h
    cases o with
    | nil =>
      rw [dotVI] at h
      rw [dotV]
      split at h
      · rename_i hm
        cases h
        exact ⟨by rw [if_pos hm], .refl _⟩
      · cases h
    | node id nst nxt =>
      rw [dotVI] at h
      rw [dotV]
      split at h
      · rename_i hm
        cases h
        exact ⟨by rw [if_pos hm], .refl _⟩
      · rename_i hm
        rw [if_neg hm]
        have loop : ∀ (n : SDD V) (l : List (SDD V × SDD V)), (∀ a ∈ l, a ∈ arcs) → ∀ (σ σ' : StI V I),
            dotHI addr grow n nst nxt l σ = some σ' → dotH addr n nst nxt l σ.st = some σ'.st ∧ DStep σ σ' := by
          intro node l
          induction l with
          | nil => intro _ σ σ' h; rw [dotHI] at h; cases h; exact ⟨by rw [dotH], .refl _⟩
          | cons e l ihl =>
            obtain ⟨v, s⟩ := e
            intro hl σ σ' h
            rw [dotHI] at h
            obtain ⟨σ1, e1, h⟩ := Option.bind_eq_some_iff.1 h
            obtain ⟨σ2, e2, e3⟩ := Option.bind_eq_some_iff.1 h
            obtain ⟨r1, r2⟩ := (ih (v, s) (hl _ (by simp))).2 _ _ _ e1
            obtain ⟨r5, r6⟩ := (ih (v, s) (hl _ (by simp))).1 _ _ _ e2
            obtain ⟨r3, r4⟩ := ihl (fun a ha => hl a (by simp [ha])) _ _ e3
            dsimp only at r1 r5
            refine ⟨?_, r2.trans (r6.trans ((DStep.write _ _).trans r4))⟩
            rw [dotH, r1, Option.bind_some, r5]
            exact r3
        obtain ⟨σ1, e1, e2⟩ := Option.bind_eq_some_iff.1 h
        obtain ⟨r1, r2⟩ := loop _ arcs (fun _ h => h) _ _ e1
        obtain ⟨-, e, h2⟩ := emplaceHint_spec e2
        exact ⟨by rw [e]; rw [StI.write] at r1; rw [r1]; rfl, (DStep.write _ _).trans (r2.trans h2)⟩

theorem emplaceHint_few {s : SDD V} {σ : StI V I} (h : σ.st.visited.length + 1 ≤ σ.buckets) :
    σ.emplaceHint grow σ.gen s = some ⟨⟨s :: σ.st.visited, σ.st.out⟩, σ.gen, σ.buckets⟩ := by
  unfold StI.emplaceHint
  rw [if_pos rfl, if_pos h]

/-- The number of visited SDDs does not decrease, and no iterator is invalidated when there are enough buckets. -/
theorem dotVI_few (s : SDD V) : ∀ (o : OB I) (σ τ : St V I) (g b : Nat), dotV addr s o σ = some τ →
    σ.visited.length ≤ τ.visited.length ∧ (τ.visited.length ≤ b → dotVI addr grow s o ⟨σ, g, b⟩ = some ⟨τ, g, b⟩) := by
  induction s using SDD.ind with
  | h0 =>
    intro o σ τ g b h
    rw [dotV] at h
    rw [dotVI]
    split at h
    · rename_i hm
      cases h
      exact ⟨le_rfl, fun _ => by rw [if_pos hm]⟩
    · rename_i hm
      cases h
      exact ⟨by simp, fun hb => by rw [if_neg hm]; exact emplaceHint_few (σ := StI.write _ ⟨σ, g, b⟩) (by simpa [StI.write] using hb)⟩
  | h1 =>
    intro o σ τ g b h
    rw [dotV] at h
    rw [dotVI]
    split at h
    · rename_i hm
      cases h
      exact ⟨le_rfl, fun _ => by rw [if_pos hm]⟩
    · rename_i hm
      cases h
      exact ⟨by simp, fun hb => by rw [if_neg hm]; exact emplaceHint_few (σ := StI.write _ ⟨σ, g, b⟩) (by simpa [StI.write] using hb)⟩
  | hf x arcs ih =>
    intro o σ τ g b h
    cases o with
    | nil =>
      rw [dotV] at h
      rw [dotVI]
      split at h
      · rename_i hm
        cases h
        exact ⟨le_rfl, fun _ => by rw [if_pos hm]⟩
      · cases h
    | node id nst nxt =>
      rw [dotV] at h
      rw [dotVI]
      split at h
      · rename_i hm
        cases h
        exact ⟨le_rfl, fun _ => by rw [if_pos hm]⟩
      · rename_i hm
        rw [if_neg hm]
        have loop : ∀ (node : List Char) (l : List (V × SDD V)), (∀ a ∈ l, a ∈ arcs) → ∀ (σ τ : St V I),
            dotF addr node nxt l σ = some τ → σ.visited.length ≤ τ.visited.length ∧
              (τ.visited.length ≤ b → dotFI addr grow node nxt l ⟨σ, g, b⟩ = some ⟨τ, g, b⟩) := by
          intro node l
          induction l with
          | nil => intro _ σ σ' h; rw [dotF] at h; cases h; exact ⟨le_rfl, fun _ => by rw [dotFI]⟩
          | cons e l ihl =>
            obtain ⟨v, s⟩ := e
            intro hl σ σ' h
            rw [dotF] at h
            obtain ⟨σ1, e1, e2⟩ := Option.bind_eq_some_iff.1 h
            obtain ⟨r1, r2⟩ := ih (v, s) (hl _ (by simp)) _ _ _ g b e1
            obtain ⟨r3, r4⟩ := ihl (fun a ha => hl a (by simp [ha])) _ _ e2
            refine ⟨r1.trans r3, fun hb => ?_⟩
            have r2 := r2 (r3.trans hb)
            dsimp only at r2
            rw [dotFI, r2]
            exact r4 hb
        obtain ⟨σ1, e1, e2⟩ := Option.map_eq_some_iff.1 h
        obtain ⟨r1, r2⟩ := loop _ arcs (fun _ h => h) _ _ e1
        subst e2
        refine ⟨r1.trans (by simp), fun hb => ?_⟩
        have r2 := r2 (le_trans (by simp) hb)
        rw [StI.write]
        dsimp only
        rw [r2]
        exact emplaceHint_few (σ := ⟨σ1, g, b⟩) (by simpa using hb)
  | hh x arcs ih =>
    intro o σ τ g b h
    cases o with
    | nil =>
      rw [dotV] at h
      rw [dotVI]
      split at h
      · rename_i hm
        cases h
        exact ⟨le_rfl, fun _ => by rw [if_pos hm]⟩
      · cases h
    | node id nst nxt =>
      rw [dotV] at h
      rw [dotVI]
      split at h
      · rename_i hm
        cases h
        exact ⟨le_rfl, fun _ => by rw [if_pos hm]⟩
      · rename_i hm
        rw [if_neg hm]
        have loop : ∀ (n : SDD V) (l : List (SDD V × SDD V)), (∀ a ∈ l, a ∈ arcs) → ∀ (σ τ : St V I),
            dotH addr n nst nxt l σ = some τ → σ.visited.length ≤ τ.visited.length ∧
              (τ.visited.length ≤ b → dotHI addr grow n nst nxt l ⟨σ, g, b⟩ = some ⟨τ, g, b⟩) := by
          intro node l
          induction l with
          | nil => intro _ σ σ' h; rw [dotH] at h; cases h; exact ⟨le_rfl, fun _ => by rw [dotHI]⟩
          | cons e l ihl =>
            obtain ⟨v, s⟩ := e
            intro hl σ σ' h
            rw [dotH] at h
            obtain ⟨σ1, e1, h⟩ := Option.bind_eq_some_iff.1 h
            obtain ⟨σ2, e2, e3⟩ := Option.bind_eq_some_iff.1 h
            obtain ⟨r1, r2⟩ := (ih (v, s) (hl _ (by simp))).2 _ _ _ g b e1
            obtain ⟨r5, r6⟩ := (ih (v, s) (hl _ (by simp))).1 _ _ _ g b e2
            obtain ⟨r3, r4⟩ := ihl (fun a ha => hl a (by simp [ha])) _ _ e3
            refine ⟨r1.trans (r5.trans r3), fun hb => ?_⟩
            have r2 := r2 (r5.trans (r3.trans hb))
            have r6 := r6 (r3.trans hb)
            dsimp only at r2 r6
            rw [dotHI, r2, Option.bind_some, r6]
            exact r4 hb
        obtain ⟨σ1, e1, e2⟩ := Option.map_eq_some_iff.1 h
        obtain ⟨r1, r2⟩ := loop _ arcs (fun _ h => h) _ _ e1
        subst e2
        refine ⟨r1.trans (by simp), fun hb => ?_⟩
        have r2 := r2 (le_trans (by simp) hb)
        rw [StI.write]
        dsimp only
        rw [r2]
        exact emplaceHint_few (σ := ⟨σ1, g, b⟩) (by simpa using hb)

theorem dotFI_sound (node : List Char) (nxt : OB I) (l : List (V × SDD V)) : ∀ (σ σ' : StI V I), dotFI addr grow node nxt l σ = some σ' →
    dotF addr node nxt l σ.st = some σ'.st ∧ DStep σ σ' := by
  induction l with
  | nil => intro σ σ' h; rw [dotFI] at h; cases h; exact ⟨by rw [dotF], .refl _⟩
  | cons e l ihl =>
    obtain ⟨v, s⟩ := e
    intro σ σ' h
    rw [dotFI] at h
    obtain ⟨σ1, e1, e2⟩ := Option.bind_eq_some_iff.1 h
    obtain ⟨r1, r2⟩ := dotVI_sound _ _ _ _ e1
    obtain ⟨r3, r4⟩ := ihl _ _ e2
    exact ⟨by rw [dotF, r1]; exact r3, r2.trans ((DStep.write _ _).trans r4)⟩

theorem dotHI_sound (n : SDD V) (nst nxt : OB I) (l : List (SDD V × SDD V)) : ∀ (σ σ' : StI V I), dotHI addr grow n nst nxt l σ = some σ' →
    dotH addr n nst nxt l σ.st = some σ'.st ∧ DStep σ σ' := by
  induction l with
  | nil => intro σ σ' h; rw [dotHI] at h; cases h; exact ⟨by rw [dotH], .refl _⟩
  | cons e l ihl =>
    obtain ⟨v, s⟩ := e
    intro σ σ' h
    rw [dotHI] at h
    obtain ⟨σ1, e1, h⟩ := Option.bind_eq_some_iff.1 h
    obtain ⟨σ2, e2, e3⟩ := Option.bind_eq_some_iff.1 h
    obtain ⟨r1, r2⟩ := dotVI_sound _ _ _ _ e1
    obtain ⟨r5, r6⟩ := dotVI_sound _ _ _ _ e2
    obtain ⟨r3, r4⟩ := ihl _ _ e3
    refine ⟨?_, r2.trans (r6.trans ((DStep.write _ _).trans r4))⟩
    rw [dotH, r1, Option.bind_some, r5]
    exact r3

theorem dotFI_few (node : List Char) (nxt : OB I) (l : List (V × SDD V)) (g b : Nat) : ∀ (σ τ : St V I), dotF addr node nxt l σ = some τ →
    σ.visited.length ≤ τ.visited.length ∧ (τ.visited.length ≤ b → dotFI addr grow node nxt l ⟨σ, g, b⟩ = some ⟨τ, g, b⟩) := by
  induction l with
  | nil => intro σ σ' h; rw [dotF] at h; cases h; exact ⟨le_rfl, fun _ => by rw [dotFI]⟩
  | cons e l ihl =>
    obtain ⟨v, s⟩ := e
    intro σ σ' h
    rw [dotF] at h
    obtain ⟨σ1, e1, e2⟩ := Option.bind_eq_some_iff.1 h
    obtain ⟨r1, r2⟩ := dotVI_few (grow := grow) _ _ _ _ g b e1
    obtain ⟨r3, r4⟩ := ihl _ _ e2
    refine ⟨r1.trans r3, fun hb => ?_⟩
    rw [dotFI, r2 (r3.trans hb)]
    exact r4 hb

theorem dotHI_few (n : SDD V) (nst nxt : OB I) (l : List (SDD V × SDD V)) (g b : Nat) : ∀ (σ τ : St V I), dotH addr n nst nxt l σ = some τ →
    σ.visited.length ≤ τ.visited.length ∧ (τ.visited.length ≤ b → dotHI addr grow n nst nxt l ⟨σ, g, b⟩ = some ⟨τ, g, b⟩) := by
  induction l with
  | nil => intro σ σ' h; rw [dotH] at h; cases h; exact ⟨le_rfl, fun _ => by rw [dotHI]⟩
  | cons e l ihl =>
    obtain ⟨v, s⟩ := e
    intro σ σ' h
    rw [dotH] at h
    obtain ⟨σ1, e1, h⟩ := Option.bind_eq_some_iff.1 h
    obtain ⟨σ2, e2, e3⟩ := Option.bind_eq_some_iff.1 h
    obtain ⟨r1, r2⟩ := dotVI_few (grow := grow) _ _ _ _ g b e1
    obtain ⟨r5, r6⟩ := dotVI_few (grow := grow) _ _ _ _ g b e2
    obtain ⟨r3, r4⟩ := ihl _ _ e3
    refine ⟨r1.trans (r5.trans r3), fun hb => ?_⟩
    rw [dotHI, r2 (r5.trans (r3.trans hb)), Option.bind_some, r6 (r3.trans hb)]
    exact r4 hb

/-- The end of the visit of the root. -/
theorem root_emplace {s : SDD V} {r : Option (StI V I)} {σ1 : St V I} {b : Nat} (hf : σ1.visited.length ≤ b → r = some ⟨σ1, 0, b⟩)
    (hs : ∀ σ', r = some σ' → σ'.st = σ1 ∧ (σ'.gen = 0 → σ'.st.visited.length ≤ b)) :
    (r.bind fun σ' => σ'.emplaceHint grow 0 s).map (fun σ => σ.st.out) = if (s :: σ1.visited).length ≤ b + 1 then some σ1.out else none := by
  rw [List.length_cons]
  split
  · rename_i hl
    rw [hf (by omega), Option.bind_some, StI.emplaceHint, if_pos rfl]
    split <;> rfl
  · rename_i hl
    cases hr : r with
    | none => rfl
    | some σ' =>
      obtain ⟨e, h⟩ := hs σ' hr
      rw [Option.bind_some, StI.emplaceHint, if_neg, Option.map_none]
      intro h0
      have := h h0.symm
      rw [e] at this
      omega

/-- When the export is defined. -/
theorem dotI_eq {x : SDD V} {o : OB I} {τ : St V I} (h : dotV addr x o ⟨[], []⟩ = some τ) (b : Nat) :
    dotI addr grow b x o = if τ.visited.length ≤ b + 1 then some τ.out else none := by
  unfold dotI
  cases x with
  | zero =>
    rw [dotV] at h
    rw [dotVI]
    cases h
    by_cases hb : 1 ≤ b <;> simp [StI.write, StI.emplaceHint, hb]
  | one =>
    rw [dotV] at h
    rw [dotVI]
    cases h
    by_cases hb : 1 ≤ b <;> simp [StI.write, StI.emplaceHint, hb]
  | flat x arcs =>
    cases o with
    | nil => simp [dotV] at h
    | node id nst nxt =>
      rw [dotV, if_neg (by simp)] at h
      rw [dotVI, if_neg (by simp)]
      obtain ⟨σ1, e1, rfl⟩ := Option.map_eq_some_iff.1 h
      refine root_emplace (fun hb => (dotFI_few _ _ _ _ _ _ _ e1).2 hb) fun σ' h' => ?_
      obtain ⟨r1, r2⟩ := dotFI_sound _ _ _ _ _ h'
      have e2 := e1.symm.trans r1
      refine ⟨(Option.some.inj e2).symm, fun h0 => ?_⟩
      obtain ⟨h1, h2⟩ := r2.same h0
      have := h2 (Nat.zero_le _)
      rwa [h1] at this
  | hier x arcs =>
    cases o with
    | nil => simp [dotV] at h
    | node id nst nxt =>
      rw [dotV, if_neg (by simp)] at h
      rw [dotVI, if_neg (by simp)]
      obtain ⟨σ1, e1, rfl⟩ := Option.map_eq_some_iff.1 h
      refine root_emplace (fun hb => (dotHI_few _ _ _ _ _ _ _ _ e1).2 hb) fun σ' h' => ?_
      obtain ⟨r1, r2⟩ := dotHI_sound _ _ _ _ _ _ h'
      have e2 := e1.symm.trans r1
      refine ⟨(Option.some.inj e2).symm, fun h0 => ?_⟩
      obtain ⟨h1, h2⟩ := r2.same h0
      have := h2 (Nat.zero_le _)
      rwa [h1] at this

end
end Dot
end Verif
