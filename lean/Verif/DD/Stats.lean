import Verif.DD.Count
import Mathlib.Data.Nat.ModEq
import Mathlib.Algebra.BigOperators.Group.List.Basic
/-!
# Statistics on nodes and arcs

`/repo/sdd/tools/nodes.hh`, `/repo/sdd/tools/arcs.hh`.
-/

set_option autoImplicit false
set_option linter.unusedSectionVars false

namespace Verif

section
variable {V : Type} [DecidableEq V]

/-- Number of values of `unsigned int`. (`/repo/sdd/tools/nodes.hh`, line 21; `/repo/sdd/tools/arcs.hh`, lines 19-22.) -/
def uintMod : Nat := 2 ^ 32

/-- `accumulate_pair`, `/repo/sdd/tools/nodes.hh:85-91`. -/
def accPair (l r : Nat × Nat) : Nat × Nat := ((l.1 + r.1) % uintMod, (l.2 + r.2) % uintMod)

mutual
/-- `nb_nodes_visitor`, `/repo/sdd/tools/nodes.hh:18-92`.  The set of visited addresses is a list of
nodes, since nodes are unified. -/
def nodesV : SDD V → List (SDD V) → (Nat × Nat) × List (SDD V)
  | .zero, vis => ((0, 0), vis)
  | .one, vis => ((0, 0), vis)
  | .flat x arcs, vis =>
    if .flat x arcs ∈ vis then ((0, 0), vis) else nodesF arcs (1, 0) (.flat x arcs :: vis)
  | .hier x arcs, vis =>
    if .hier x arcs ∈ vis then ((0, 0), vis) else nodesH arcs (0, 1) (.hier x arcs :: vis)
/-- The loop on the arcs of a flat node, `/repo/sdd/tools/nodes.hh:51-54`. -/
def nodesF : List (V × SDD V) → Nat × Nat → List (SDD V) → (Nat × Nat) × List (SDD V)
  | [], res, vis => (res, vis)
  | (_, s) :: arcs, res, vis =>
    let r := nodesV s vis
    nodesF arcs (accPair res r.1) r.2
/-- The loop on the arcs of a hierarchical node, `/repo/sdd/tools/nodes.hh:70-74`. -/
def nodesH : List (SDD V × SDD V) → Nat × Nat → List (SDD V) → (Nat × Nat) × List (SDD V)
  | [], res, vis => (res, vis)
  | (v, s) :: arcs, res, vis =>
    let r := nodesV v vis
    let r' := nodesV s r.2
    nodesH arcs (accPair (accPair res r.1) r'.1) r'.2
end

/-- `tools::nodes`, `/repo/sdd/tools/nodes.hh:100-105`. -/
def nodes (s : SDD V) : Nat × Nat := (nodesV s []).1

/-- `arcs_frequency_type`, `/repo/sdd/tools/arcs.hh:19-22`: a map from numbers of arcs to the
frequencies among flat and hierarchical nodes. -/
abbrev Freq := List (Nat × (Nat × Nat))

/-- `map_[k]`: look-up, absent keys being created with `(0, 0)`. (`std::map::operator[]` in `/repo/sdd/tools/arcs.hh`, lines 56 and 70.) -/
def Freq.get (f : Freq) (k : Nat) : Nat × Nat := ((f.find? fun e => e.1 = k).map Prod.snd).getD (0, 0)

/-- `map_[k].first += a; map_[k].second += b`. (`/repo/sdd/tools/arcs.hh`, lines 56 and 70.) -/
def Freq.add : Freq → Nat → Nat × Nat → Freq
  | [], k, d => [(k, accPair (0, 0) d)]
  | (k', e) :: f, k, d => if k' = k then (k', accPair e d) :: f else (k', e) :: Freq.add f k d

mutual
/-- `arcs_visitor`, `/repo/sdd/tools/arcs.hh:27-78`.  `n.size()` is the number of arcs of the node (see
`truncSize` for nodes having more arcs than `alpha_size_type` can count). -/
def arcsV : SDD V → List (SDD V) × Freq → List (SDD V) × Freq
  | .zero, σ => σ
  | .one, σ => σ
  | .flat x arcs, σ =>
    if .flat x arcs ∈ σ.1 then σ
    else arcsF arcs (.flat x arcs :: σ.1, σ.2.add arcs.length (1, 0))
  | .hier x arcs, σ =>
    if .hier x arcs ∈ σ.1 then σ
    else arcsH arcs (.hier x arcs :: σ.1, σ.2.add arcs.length (0, 1))
/-- The loop on the arcs of a flat node, `/repo/sdd/tools/arcs.hh:57-60`. -/
def arcsF : List (V × SDD V) → List (SDD V) × Freq → List (SDD V) × Freq
  | [], σ => σ
  | (_, s) :: arcs, σ => arcsF arcs (arcsV s σ)
/-- The loop on the arcs of a hierarchical node, `/repo/sdd/tools/arcs.hh:71-75`. -/
def arcsH : List (SDD V × SDD V) → List (SDD V) × Freq → List (SDD V) × Freq
  | [], σ => σ
  | (v, s) :: arcs, σ => arcsH arcs (arcsV s (arcsV v σ))
end

/-- `tools::arcs`, `/repo/sdd/tools/arcs.hh:86-93`. -/
def arcsFreq (s : SDD V) : Freq := (arcsV s ([], [])).2

/-- `tools::number_of_arcs`, `/repo/sdd/tools/arcs.hh:99-111`. -/
def numberOfArcs (f : Freq) : Nat × Nat :=
  f.foldl (fun res kv => accPair res (kv.1 * kv.2.1, kv.1 * kv.2.2)) (0, 0)

/-! ## Specification: the list of the distinct nodes -/

/-- Is it a flat node? (Specification, not part of the code.) -/
def SDD.isFlat : SDD V → Bool
  | .flat _ _ => true
  | _ => false

/-- Is it a hierarchical node? (Specification, not part of the code.) -/
def SDD.isHier : SDD V → Bool
  | .hier _ _ => true
  | _ => false

/-- Number of arcs of a node. (Specification, not part of the code.) -/
def SDD.nbArcs : SDD V → Nat
  | .flat _ arcs => arcs.length
  | .hier _ arcs => arcs.length
  | _ => 0

mutual
/-- The traversal common to the visitors. (Specification or proof device, not part of the code.) -/
def trav : SDD V → List (SDD V) → List (SDD V)
  | .zero, vis => vis
  | .one, vis => vis
  | .flat x arcs, vis =>
    if .flat x arcs ∈ vis then vis else travF arcs (.flat x arcs :: vis)
  | .hier x arcs, vis =>
    if .hier x arcs ∈ vis then vis else travH arcs (.hier x arcs :: vis)
/-- Flat arcs. (Specification or proof device, not part of the code.) -/
def travF : List (V × SDD V) → List (SDD V) → List (SDD V)
  | [], vis => vis
  | (_, s) :: arcs, vis => travF arcs (trav s vis)
/-- Hierarchical arcs. (Specification or proof device, not part of the code.) -/
def travH : List (SDD V × SDD V) → List (SDD V) → List (SDD V)
  | [], vis => vis
  | (v, s) :: arcs, vis => travH arcs (trav s (trav v vis))
end

/-- What a traversal adds: distinct new nodes, all satisfying `Q`. (Specification or proof device, not part of the code.) -/
def Adds (Q : SDD V → Prop) (vis vis' : List (SDD V)) : Prop :=
  ∃ new, vis' = new ++ vis ∧ new.Nodup ∧ (∀ a ∈ new, a ∉ vis) ∧
    ∀ a ∈ new, Q a ∧ (a.isFlat || a.isHier) = true

theorem Adds.refl (Q : SDD V → Prop) (vis : List (SDD V)) : Adds Q vis vis := ⟨[], by simp⟩

theorem Adds.trans {Q : SDD V → Prop} {a b c : List (SDD V)} (h1 : Adds Q a b) (h2 : Adds Q b c) :
    Adds Q a c := by
  obtain ⟨n1, rfl, d1, m1, q1⟩ := h1
  obtain ⟨n2, rfl, d2, m2, q2⟩ := h2
  refine ⟨n2 ++ n1, by simp, ?_, ?_, ?_⟩
  · rw [List.nodup_append]
    refine ⟨d2, d1, fun a ha b hb hab => m2 a ha ?_⟩
    subst hab
    simp [hb]
  · intro a ha
    rw [List.mem_append] at ha
    rcases ha with ha | ha
    · intro h; exact m2 a ha (by simp [h])
    · exact m1 a ha
  · intro a ha
    rw [List.mem_append] at ha
    rcases ha with ha | ha
    · exact q2 a ha
    · exact q1 a ha

theorem Adds.mono {Q Q' : SDD V → Prop} {a b : List (SDD V)} (h : Adds Q a b) (hQ : ∀ s, Q s → Q' s) :
    Adds Q' a b := by
  obtain ⟨n1, e, d1, m1, q1⟩ := h
  exact ⟨n1, e, d1, m1, fun a ha => ⟨hQ a (q1 a ha).1, (q1 a ha).2⟩⟩

theorem Adds.cons {Q : SDD V → Prop} {s : SDD V} {vis : List (SDD V)} (h : s ∉ vis) (hq : Q s)
    (hn : (s.isFlat || s.isHier) = true) : Adds Q vis (s :: vis) :=
  ⟨[s], rfl, by simp, by simpa using h, fun a ha => by
    rw [List.mem_singleton] at ha; subst ha; exact ⟨hq, hn⟩⟩

theorem Adds.subset {Q : SDD V → Prop} {a b : List (SDD V)} (h : Adds Q a b) : ∀ s ∈ a, s ∈ b := by
  obtain ⟨n1, rfl, _⟩ := h
  intro s hs; simp [hs]

/-- The visited set contains everything below its elements, except those of `P` (in progress).
(Specification or proof device, not part of the code.) -/
def Closed (P : SDD V → Prop) (vis : List (SDD V)) : Prop :=
  ∀ v ∈ vis, ¬ P v → ∀ a, Sub a v → (a.isFlat || a.isHier) = true → a ∈ vis

/-- All the nodes below `s` have been visited. (Specification or proof device, not part of the code.) -/
def Covers (vis : List (SDD V)) (s : SDD V) : Prop :=
  ∀ a, Sub a s → (a.isFlat || a.isHier) = true → a ∈ vis

theorem Sub.trans {a b c : SDD V} (h1 : Sub a b) (h2 : Sub b c) : Sub a c := by
  induction h2 with
  | refl => exact h1
  | flat x arcs arc ha _ ih => exact .flat x arcs arc ha ih
  | hierVal x arcs arc ha _ ih => exact .hierVal x arcs arc ha ih
  | hierSucc x arcs arc ha _ ih => exact .hierSucc x arcs arc ha ih

/-- Nothing of `P` below `s`. (Specification or proof device, not part of the code.) -/
def Apart (P : SDD V → Prop) (s : SDD V) : Prop := ∀ a, P a → ¬ Sub a s

theorem trav_ok (s : SDD V) : ∀ (P : SDD V → Prop) (vis : List (SDD V)), Apart P s → Closed P vis →
    Adds (fun a => Sub a s) vis (trav s vis) ∧ Closed P (trav s vis) ∧ Covers (trav s vis) s := by
  induction s using SDD.ind with
  | h0 =>
    intro P vis _ hc
    refine ⟨.refl _ _, hc, ?_⟩
    intro a ha h
    cases ha; simp [SDD.isFlat, SDD.isHier] at h
  | h1 =>
    intro P vis _ hc
    refine ⟨.refl _ _, hc, ?_⟩
    intro a ha h
    cases ha; simp [SDD.isFlat, SDD.isHier] at h
  | hf x arcs ih =>
    intro P vis hP hc
    rw [trav]
    by_cases hm : SDD.flat x arcs ∈ vis
    · rw [if_pos hm]
      exact ⟨.refl _ _, hc, fun a ha h => hc _ hm (fun hp => hP _ hp .refl) a ha h⟩
    · rw [if_neg hm]
      have hc1 : Closed (fun a => P a ∨ a = .flat x arcs) (.flat x arcs :: vis) := by
        intro v hv hn a ha h
        rw [List.mem_cons] at hv
        rcases hv with rfl | hv
        · exact absurd (Or.inr rfl) hn
        · exact List.mem_cons_of_mem _ (hc v hv (fun h => hn (.inl h)) a ha h)
      have loop : ∀ (l : List (V × SDD V)) (vis' : List (SDD V)), (∀ e ∈ l, e ∈ arcs) →
          Closed (fun a => P a ∨ a = .flat x arcs) vis' →
          Adds (fun a => Sub a (.flat x arcs)) vis' (travF l vis') ∧
          Closed (fun a => P a ∨ a = .flat x arcs) (travF l vis') ∧
          ∀ e ∈ l, Covers (travF l vis') e.2 := by
        intro l
        induction l with
        | nil => intro vis' _ h; exact ⟨.refl _ _, h, by simp⟩
        | cons e l ihl =>
          obtain ⟨v, s⟩ := e
          intro vis' hl h
          have he := hl (v, s) (by simp)
          have hap : Apart (fun a => P a ∨ a = .flat x arcs) s := by
            rintro a (ha | rfl) hs
            · exact hP a ha (.flat x arcs _ he hs)
            · have := hs.sizeOf_le
              have := sizeOf_flat_lt (x := x) he
              simp at *
              omega
          obtain ⟨a1, c1, v1⟩ := ih _ he _ vis' hap h
          obtain ⟨a2, c2, v2⟩ := ihl _ (fun e he => hl e (by simp [he])) c1
          rw [travF]
          refine ⟨(a1.mono fun b hb => .flat x arcs _ he hb).trans a2, c2, ?_⟩
          intro e' he'
          rw [List.mem_cons] at he'
          rcases he' with rfl | he'
          · exact fun a ha hn => a2.subset _ (v1 a ha hn)
          · exact v2 e' he'
      obtain ⟨a2, c2, v2⟩ := loop arcs _ (fun _ h => h) hc1
      have cov : Covers (travF arcs (.flat x arcs :: vis)) (.flat x arcs) := by
        intro a ha h
        cases ha with
        | refl => exact a2.subset _ (by simp)
        | flat _ _ arc he hs => exact v2 arc he a hs h
      refine ⟨(Adds.cons hm .refl rfl).trans a2, ?_, cov⟩
      intro v hv hn a ha h
      by_cases hvv : v = .flat x arcs
      · subst hvv; exact cov a ha h
      · exact c2 v hv (by simp [hn, hvv]) a ha h
  | hh x arcs ih =>
    intro P vis hP hc
    rw [trav]
    by_cases hm : SDD.hier x arcs ∈ vis
    · rw [if_pos hm]
      exact ⟨.refl _ _, hc, fun a ha h => hc _ hm (fun hp => hP _ hp .refl) a ha h⟩
    · rw [if_neg hm]
      have hc1 : Closed (fun a => P a ∨ a = .hier x arcs) (.hier x arcs :: vis) := by
        intro v hv hn a ha h
        rw [List.mem_cons] at hv
        rcases hv with rfl | hv
        · exact absurd (Or.inr rfl) hn
        · exact List.mem_cons_of_mem _ (hc v hv (fun h => hn (.inl h)) a ha h)
      have loop : ∀ (l : List (SDD V × SDD V)) (vis' : List (SDD V)), (∀ e ∈ l, e ∈ arcs) →
          Closed (fun a => P a ∨ a = .hier x arcs) vis' →
          Adds (fun a => Sub a (.hier x arcs)) vis' (travH l vis') ∧
          Closed (fun a => P a ∨ a = .hier x arcs) (travH l vis') ∧
          ∀ e ∈ l, Covers (travH l vis') e.1 ∧ Covers (travH l vis') e.2 := by
        intro l
        induction l with
        | nil => intro vis' _ h; exact ⟨.refl _ _, h, by simp⟩
        | cons e l ihl =>
          obtain ⟨v, s⟩ := e
          intro vis' hl h
          have he := hl (v, s) (by simp)
          have hap1 : Apart (fun a => P a ∨ a = .hier x arcs) v := by
            rintro a (ha | rfl) hs
            · exact hP a ha (.hierVal x arcs _ he hs)
            · have := hs.sizeOf_le
              have := sizeOf_hier_lt (x := x) he
              simp at *
              omega
          have hap2 : Apart (fun a => P a ∨ a = .hier x arcs) s := by
            rintro a (ha | rfl) hs
            · exact hP a ha (.hierSucc x arcs _ he hs)
            · have := hs.sizeOf_le
              have := sizeOf_hier_lt (x := x) he
              simp at *
              omega
          obtain ⟨a0, c0, v0⟩ := (ih _ he).1 _ vis' hap1 h
          obtain ⟨a1, c1, v1⟩ := (ih _ he).2 _ _ hap2 c0
          obtain ⟨a2, c2, v2⟩ := ihl _ (fun e he => hl e (by simp [he])) c1
          rw [travH]
          refine ⟨((a0.mono fun b hb => .hierVal x arcs _ he hb).trans
            (a1.mono fun b hb => .hierSucc x arcs _ he hb)).trans a2, c2, ?_⟩
          intro e' he'
          rw [List.mem_cons] at he'
          rcases he' with rfl | he'
          · exact ⟨fun a ha hn => a2.subset _ (a1.subset _ (v0 a ha hn)),
              fun a ha hn => a2.subset _ (v1 a ha hn)⟩
          · exact v2 e' he'
      obtain ⟨a2, c2, v2⟩ := loop arcs _ (fun _ h => h) hc1
      have cov : Covers (travH arcs (.hier x arcs :: vis)) (.hier x arcs) := by
        intro a ha h
        cases ha with
        | refl => exact a2.subset _ (by simp)
        | hierVal _ _ arc he hs => exact (v2 arc he).1 a hs h
        | hierSucc _ _ arc he hs => exact (v2 arc he).2 a hs h
      refine ⟨(Adds.cons hm .refl rfl).trans a2, ?_, cov⟩
      intro v hv hn a ha h
      by_cases hvv : v = .hier x arcs
      · subst hvv; exact cov a ha h
      · exact c2 v hv (by simp [hn, hvv]) a ha h

/-- The distinct nodes of an SDD. (Specification or proof device, not part of the code.) -/
def distinctNodes (s : SDD V) : List (SDD V) := trav s []

theorem distinctNodes_spec (s : SDD V) : (distinctNodes s).Nodup ∧
    ∀ a, a ∈ distinctNodes s ↔ Sub a s ∧ (a.isFlat || a.isHier) = true := by
  obtain ⟨⟨new, e, d, _, q⟩, _, c⟩ := trav_ok s (fun _ => False) [] (by intro a h; exact h.elim)
    (by intro v hv; simp at hv)
  unfold distinctNodes
  rw [List.append_nil] at e
  rw [e] at c ⊢
  exact ⟨d, fun a => ⟨q a, fun h => c a h.1 h.2⟩⟩

/-! ## The visitors follow the traversal -/

/-- Numbers of flat and hierarchical nodes of a list. (Specification or proof device, not part of the code.) -/
def counts (l : List (SDD V)) : Nat × Nat := (l.countP SDD.isFlat, l.countP SDD.isHier)

theorem accPair_congr {a b c d : Nat × Nat} (h1 : a.1 ≡ b.1 [MOD uintMod])
    (h2 : a.2 ≡ b.2 [MOD uintMod]) (h3 : c.1 ≡ d.1 [MOD uintMod]) (h4 : c.2 ≡ d.2 [MOD uintMod]) :
    (accPair a c).1 ≡ b.1 + d.1 [MOD uintMod] ∧ (accPair a c).2 ≡ b.2 + d.2 [MOD uintMod] :=
  ⟨(Nat.mod_modEq _ _).trans (h1.add h3), (Nat.mod_modEq _ _).trans (h2.add h4)⟩

/-- Congruence of pairs of counters. (Specification or proof device, not part of the code.) -/
def PEq (a b : Nat × Nat) : Prop :=
  a.1 ≡ b.1 [MOD uintMod] ∧ a.2 ≡ b.2 [MOD uintMod] ∧ a.1 < uintMod ∧ a.2 < uintMod

theorem PEq.acc {a b c d : Nat × Nat} (h1 : PEq a b) (h2 : PEq c d) :
    PEq (accPair a c) (b.1 + d.1, b.2 + d.2) :=
  ⟨(accPair_congr h1.1 h1.2.1 h2.1 h2.2.1).1, (accPair_congr h1.1 h1.2.1 h2.1 h2.2.1).2,
    Nat.mod_lt _ (by decide), Nat.mod_lt _ (by decide)⟩

theorem PEq.cast {a b c : Nat × Nat} (h1 : PEq a b) (h : b = c) : PEq a c := h ▸ h1

theorem PEq.eq {a b : Nat × Nat} (h : PEq a b) : a = (b.1 % uintMod, b.2 % uintMod) := by
  obtain ⟨h1, h2, h3, h4⟩ := h
  ext
  · exact (Nat.mod_eq_of_lt h3).symm.trans h1
  · exact (Nat.mod_eq_of_lt h4).symm.trans h2

theorem counts_append (a b : List (SDD V)) :
    counts (a ++ b) = ((counts a).1 + (counts b).1, (counts a).2 + (counts b).2) := by
  simp [counts, List.countP_append]

theorem nodesV_ok (s : SDD V) : ∀ vis, ∃ new, trav s vis = new ++ vis ∧ (nodesV s vis).2 = trav s vis ∧
    PEq (nodesV s vis).1 (counts new) := by
  have z : PEq (0, 0) (counts ([] : List (SDD V))) := ⟨rfl, rfl, by decide, by decide⟩
  induction s using SDD.ind with
  | h0 => intro vis; exact ⟨[], rfl, rfl, z⟩
  | h1 => intro vis; exact ⟨[], rfl, rfl, z⟩
  | hf x arcs ih =>
    intro vis
    rw [trav, nodesV]
    by_cases hm : SDD.flat x arcs ∈ vis
    · rw [if_pos hm, if_pos hm]; exact ⟨[], rfl, rfl, z⟩
    · rw [if_neg hm, if_neg hm]
      have loop : ∀ (l : List (V × SDD V)) (res : Nat × Nat) (n0 vis : List (SDD V)),
          (∀ e ∈ l, e ∈ arcs) → PEq res (counts n0) →
          ∃ new, travF l vis = new ++ vis ∧ (nodesF l res vis).2 = travF l vis ∧
            PEq (nodesF l res vis).1 (counts (new ++ n0)) := by
        intro l
        induction l with
        | nil => intro res n0 vis _ h; exact ⟨[], rfl, rfl, h⟩
        | cons e l ihl =>
          obtain ⟨v, s⟩ := e
          intro res n0 vis hl h
          obtain ⟨new, e1, e2, e3⟩ := ih (v, s) (hl _ (by simp)) vis
          obtain ⟨new', f1, f2, f3⟩ := ihl (accPair res (nodesV s vis).1) (new ++ n0) (trav s vis)
            (fun e he => hl e (by simp [he])) ((h.acc e3).cast (by
              rw [counts_append]; ext <;> simp [Nat.add_comm]))
          refine ⟨new' ++ new, ?_, ?_, ?_⟩
          · rw [travF, f1]
            simp only at e1
            rw [e1]; simp
          · rw [nodesF, travF]
            simp only at e2
            simp only [e2]; exact f2
          · rw [nodesF]
            simp only at e2
            simp only [e2]; simpa using f3
      obtain ⟨new, f1, f2, f3⟩ := loop arcs (1, 0) [.flat x arcs] (.flat x arcs :: vis)
        (fun _ h => h) ⟨rfl, rfl, by decide, by decide⟩
      exact ⟨new ++ [.flat x arcs], by rw [f1]; simp, f2, f3⟩
  | hh x arcs ih =>
    intro vis
    rw [trav, nodesV]
    by_cases hm : SDD.hier x arcs ∈ vis
    · rw [if_pos hm, if_pos hm]; exact ⟨[], rfl, rfl, z⟩
    · rw [if_neg hm, if_neg hm]
      have loop : ∀ (l : List (SDD V × SDD V)) (res : Nat × Nat) (n0 vis : List (SDD V)),
          (∀ e ∈ l, e ∈ arcs) → PEq res (counts n0) →
          ∃ new, travH l vis = new ++ vis ∧ (nodesH l res vis).2 = travH l vis ∧
            PEq (nodesH l res vis).1 (counts (new ++ n0)) := by
        intro l
        induction l with
        | nil => intro res n0 vis _ h; exact ⟨[], rfl, rfl, h⟩
        | cons e l ihl =>
          obtain ⟨v, s⟩ := e
          intro res n0 vis hl h
          obtain ⟨new0, d1, d2, d3⟩ := (ih (v, s) (hl _ (by simp))).1 vis
          obtain ⟨new, e1, e2, e3⟩ := (ih (v, s) (hl _ (by simp))).2 (trav v vis)
          simp only at d1 d2 d3 e1 e2 e3
          obtain ⟨new', f1, f2, f3⟩ := ihl
            (accPair (accPair res (nodesV v vis).1) (nodesV s (trav v vis)).1) (new ++ new0 ++ n0)
            (trav s (trav v vis))
            (fun e he => hl e (by simp [he])) (((h.acc d3).acc e3).cast (by
              rw [counts_append, counts_append]; ext <;> simp <;> omega))
          refine ⟨new' ++ new ++ new0, ?_, ?_, ?_⟩
          · rw [travH, f1, e1, d1]; simp
          · rw [nodesH, travH]
            simp only [d2, e2]; exact f2
          · rw [nodesH]
            simp only [d2, e2]; simpa using f3
      obtain ⟨new, f1, f2, f3⟩ := loop arcs (0, 1) [.hier x arcs] (.hier x arcs :: vis)
        (fun _ h => h) ⟨rfl, rfl, by decide, by decide⟩
      exact ⟨new ++ [.hier x arcs], by rw [f1]; simp, f2, f3⟩

theorem nodes_eq (s : SDD V) : nodes s = ((distinctNodes s).countP SDD.isFlat % uintMod,
    (distinctNodes s).countP SDD.isHier % uintMod) := by
  obtain ⟨new, e1, _, e3⟩ := nodesV_ok s []
  rw [List.append_nil] at e1
  unfold nodes distinctNodes
  rw [e1]
  exact e3.eq

/-- Frequencies of a list of nodes. (Specification or proof device, not part of the code.) -/
def freqOf (l : List (SDD V)) (k : Nat) : Nat × Nat :=
  (l.countP fun a => a.isFlat && a.nbArcs == k, l.countP fun a => a.isHier && a.nbArcs == k)

theorem Freq.get_add (f : Freq) (k k' : Nat) (d : Nat × Nat) :
    (f.add k d).get k' = if k = k' then accPair (f.get k) d else f.get k' := by
  induction f with
  | nil =>
    by_cases h : k = k' <;> simp [Freq.add, Freq.get, h]
  | cons e f ih =>
    obtain ⟨j, e⟩ := e
    rw [Freq.add]
    by_cases h1 : j = k
    · rw [if_pos h1]
      by_cases h2 : k = k'
      · subst h1; subst h2; simp [Freq.get]
      · have : j ≠ k' := fun h => h2 (h1.symm.trans h)
        simp [Freq.get, h2, this]
    · rw [if_neg h1]
      by_cases h2 : j = k'
      · have : k ≠ k' := fun h => h1 (h2.trans h.symm)
        simp [Freq.get, this, h2]
      · have h3 : Freq.get ((j, e) :: Freq.add f k d) k' = Freq.get (Freq.add f k d) k' := by
          simp [Freq.get, h2]
        have h4 : ∀ i, j ≠ i → Freq.get ((j, e) :: f) i = Freq.get f i := by
          intro i hi; simp [Freq.get, hi]
        rw [h3, ih, h4 _ h1, h4 _ h2]

/-- The map holds the frequencies of the visited nodes. (Specification or proof device, not part of the code.) -/
def FreqOK (f : Freq) (vis : List (SDD V)) : Prop :=
  (f.map Prod.fst).Nodup ∧ (∀ k, PEq (f.get k) (freqOf vis k)) ∧
    ∀ a ∈ vis, a.nbArcs ∈ f.map Prod.fst

theorem Freq.keys_add (f : Freq) (k : Nat) (d : Nat × Nat) :
    (f.add k d).map Prod.fst = if k ∈ f.map Prod.fst then f.map Prod.fst else f.map Prod.fst ++ [k] := by
  induction f with
  | nil => simp [Freq.add]
  | cons e f ih =>
    obtain ⟨j, e⟩ := e
    rw [Freq.add]
    by_cases h1 : j = k
    · simp [h1]
    · rw [if_neg h1, List.map_cons, ih]
      by_cases h : k ∈ f.map Prod.fst
      · rw [if_pos h, if_pos (by simp at h ⊢; exact .inr h)]; simp
      · rw [if_neg h, if_neg (by simp at h ⊢; exact ⟨Ne.symm h1, h⟩)]; simp

theorem FreqOK.flat {f : Freq} {vis : List (SDD V)} (h : FreqOK f vis) (x : Nat)
    (arcs : List (V × SDD V)) : FreqOK (f.add arcs.length (1, 0)) (.flat x arcs :: vis) := by
  refine ⟨?_, fun k => ?_, fun a ha => ?_⟩
  · rw [Freq.keys_add]
    split
    · exact h.1
    · next hn => rw [List.nodup_append]; exact ⟨h.1, by simp, by
        intro a ha b hb; rw [List.mem_singleton] at hb; subst hb; rintro rfl; exact hn ha⟩
  · rw [Freq.get_add]
    split
    · next hk =>
      refine ((h.2.1 _).acc (c := (1, 0)) (d := (1, 0)) ⟨rfl, rfl, by decide, by decide⟩).cast ?_
      subst hk
      simp [freqOf, SDD.isFlat, SDD.isHier, SDD.nbArcs]
    · next hk =>
      refine (h.2.1 _).cast ?_
      simp [freqOf, SDD.isFlat, SDD.isHier, SDD.nbArcs, hk]
  · have : a.nbArcs = arcs.length ∨ a.nbArcs ∈ f.map Prod.fst := by
      rw [List.mem_cons] at ha
      rcases ha with rfl | ha
      · exact .inl rfl
      · exact .inr (h.2.2 a ha)
    rw [Freq.keys_add]
    split
    · next hk => rcases this with e | e
                 · rw [e]; exact hk
                 · exact e
    · rw [List.mem_append, List.mem_singleton]; exact this.symm

theorem FreqOK.hier {f : Freq} {vis : List (SDD V)} (h : FreqOK f vis) (x : Nat)
    (arcs : List (SDD V × SDD V)) : FreqOK (f.add arcs.length (0, 1)) (.hier x arcs :: vis) := by
  refine ⟨?_, fun k => ?_, fun a ha => ?_⟩
  · rw [Freq.keys_add]
    split
    · exact h.1
    · next hn => rw [List.nodup_append]; exact ⟨h.1, by simp, by
        intro a ha b hb; rw [List.mem_singleton] at hb; subst hb; rintro rfl; exact hn ha⟩
  · rw [Freq.get_add]
    split
    · next hk =>
      refine ((h.2.1 _).acc (c := (0, 1)) (d := (0, 1)) ⟨rfl, rfl, by decide, by decide⟩).cast ?_
      subst hk
      simp [freqOf, SDD.isFlat, SDD.isHier, SDD.nbArcs]
    · next hk =>
      refine (h.2.1 _).cast ?_
      simp [freqOf, SDD.isFlat, SDD.isHier, SDD.nbArcs, hk]
  · have : a.nbArcs = arcs.length ∨ a.nbArcs ∈ f.map Prod.fst := by
      rw [List.mem_cons] at ha
      rcases ha with rfl | ha
      · exact .inl rfl
      · exact .inr (h.2.2 a ha)
    rw [Freq.keys_add]
    split
    · next hk => rcases this with e | e
                 · rw [e]; exact hk
                 · exact e
    · rw [List.mem_append, List.mem_singleton]; exact this.symm

theorem arcsV_ok (s : SDD V) : ∀ σ : List (SDD V) × Freq, FreqOK σ.2 σ.1 →
    (arcsV s σ).1 = trav s σ.1 ∧ FreqOK (arcsV s σ).2 (trav s σ.1) := by
  induction s using SDD.ind with
  | h0 => intro σ h; exact ⟨rfl, h⟩
  | h1 => intro σ h; exact ⟨rfl, h⟩
  | hf x arcs ih =>
    intro σ h
    rw [trav, arcsV]
    by_cases hm : SDD.flat x arcs ∈ σ.1
    · rw [if_pos hm, if_pos hm]; exact ⟨rfl, h⟩
    · rw [if_neg hm, if_neg hm]
      have loop : ∀ (l : List (V × SDD V)) (σ : List (SDD V) × Freq), (∀ e ∈ l, e ∈ arcs) →
          FreqOK σ.2 σ.1 → (arcsF l σ).1 = travF l σ.1 ∧ FreqOK (arcsF l σ).2 (travF l σ.1) := by
        intro l
        induction l with
        | nil => intro σ _ h; exact ⟨rfl, h⟩
        | cons e l ihl =>
          obtain ⟨v, s⟩ := e
          intro σ hl h
          obtain ⟨e1, e2⟩ := ih (v, s) (hl _ (by simp)) σ h
          rw [arcsF, travF]
          simp only at e1 e2
          rw [← e1] at e2 ⊢
          exact ihl _ (fun e he => hl e (by simp [he])) e2
      exact loop arcs _ (fun _ h => h) (h.flat x arcs)
  | hh x arcs ih =>
    intro σ h
    rw [trav, arcsV]
    by_cases hm : SDD.hier x arcs ∈ σ.1
    · rw [if_pos hm, if_pos hm]; exact ⟨rfl, h⟩
    · rw [if_neg hm, if_neg hm]
      have loop : ∀ (l : List (SDD V × SDD V)) (σ : List (SDD V) × Freq), (∀ e ∈ l, e ∈ arcs) →
          FreqOK σ.2 σ.1 → (arcsH l σ).1 = travH l σ.1 ∧ FreqOK (arcsH l σ).2 (travH l σ.1) := by
        intro l
        induction l with
        | nil => intro σ _ h; exact ⟨rfl, h⟩
        | cons e l ihl =>
          obtain ⟨v, s⟩ := e
          intro σ hl h
          obtain ⟨d1, d2⟩ := (ih (v, s) (hl _ (by simp))).1 σ h
          simp only at d1 d2
          rw [← d1] at d2
          obtain ⟨e1, e2⟩ := (ih (v, s) (hl _ (by simp))).2 _ d2
          rw [arcsH, travH]
          simp only at e1 e2
          rw [← d1, ← e1]
          rw [← e1] at e2
          exact ihl _ (fun e he => hl e (by simp [he])) e2
      exact loop arcs _ (fun _ h => h) (h.hier x arcs)

theorem arcsFreq_ok (s : SDD V) : FreqOK (arcsFreq s) (distinctNodes s) := by
  have := arcsV_ok s ([], []) ⟨by simp, fun k => ⟨rfl, rfl, by simp [Freq.get, uintMod], by simp [Freq.get, uintMod]⟩, by simp⟩
  exact this.2

/-- Sum of the arcs of the nodes satisfying `p`. (Specification or proof device, not part of the code.) -/
def sumArcsOf (p : SDD V → Bool) (l : List (SDD V)) : Nat := ((l.filter p).map SDD.nbArcs).sum

theorem sum_freq {p : SDD V → Bool} : ∀ (l : List (SDD V)) (ks : List Nat), ks.Nodup →
    (∀ a ∈ l, p a = true → a.nbArcs ∈ ks) →
    (ks.map fun k => k * l.countP fun a => p a && a.nbArcs == k).sum = sumArcsOf p l := by
  intro l
  induction l with
  | nil => intro ks _ _; simp [sumArcsOf]
  | cons a l ih =>
    intro ks hk h
    have ih := ih ks hk fun b hb => h b (by simp [hb])
    by_cases hp : p a = true
    · have hin := h a (by simp) hp
      have : (ks.map fun k => k * (a :: l).countP fun a => p a && a.nbArcs == k) =
          ks.map fun k => (k * l.countP fun a => p a && a.nbArcs == k) +
            if a.nbArcs = k then k else 0 := by
        refine List.map_congr_left fun k _ => ?_
        by_cases e : a.nbArcs = k <;> simp [hp, e, Nat.mul_add]
      rw [this, List.sum_map_add, ih]
      have h2 : ∀ (ks : List Nat), ks.Nodup → a.nbArcs ∈ ks →
          (ks.map fun k => if a.nbArcs = k then k else 0).sum = a.nbArcs := by
        intro ks
        induction ks with
        | nil => simp
        | cons k ks ihk =>
          intro hn hm
          rw [List.nodup_cons] at hn
          by_cases e : a.nbArcs = k
          · subst e
            have : (ks.map fun k => if a.nbArcs = k then k else 0).sum = 0 := by
              rw [List.sum_eq_zero]
              intro x hx
              obtain ⟨k, hk, rfl⟩ := List.mem_map.1 hx
              rw [if_neg]
              rintro rfl
              exact hn.1 hk
            simp [this]
          · simp only [List.map_cons, List.sum_cons, if_neg e]
            rw [ihk hn.2 (by simpa [e] using hm)]; simp
      rw [h2 ks hk hin]
      simp [sumArcsOf, hp, Nat.add_comm]
    · have : (ks.map fun k => k * (a :: l).countP fun a => p a && a.nbArcs == k) =
          ks.map fun k => k * l.countP fun a => p a && a.nbArcs == k := by
        refine List.map_congr_left fun k _ => ?_
        simp [hp]
      rw [this, ih]
      simp [sumArcsOf, hp]

theorem Freq.get_of_mem {f : Freq} (hf : (f.map Prod.fst).Nodup) {e : Nat × (Nat × Nat)} (he : e ∈ f) :
    f.get e.1 = e.2 := by
  induction f with
  | nil => simp at he
  | cons d f ih =>
    rw [List.map_cons, List.nodup_cons] at hf
    rw [List.mem_cons] at he
    rcases he with rfl | he
    · simp [Freq.get]
    · have : d.1 ≠ e.1 := by
        intro h
        exact hf.1 (h ▸ List.mem_map_of_mem he)
      have h2 : Freq.get (d :: f) e.1 = Freq.get f e.1 := by simp [Freq.get, this]
      rw [h2, ih hf.2 he]

theorem numberOfArcs_fold (f : Freq) : ∀ (res b : Nat × Nat), PEq res b →
    PEq (f.foldl (fun res kv => accPair res (kv.1 * kv.2.1, kv.1 * kv.2.2)) res)
      (b.1 + (f.map fun e => e.1 * e.2.1).sum, b.2 + (f.map fun e => e.1 * e.2.2).sum) := by
  induction f with
  | nil => intro res b h; simpa using h
  | cons e f ih =>
    intro res b h
    rw [List.foldl_cons]
    have : PEq (accPair res (e.1 * e.2.1, e.1 * e.2.2)) (b.1 + e.1 * e.2.1, b.2 + e.1 * e.2.2) :=
      ⟨(accPair_congr h.1 h.2.1 rfl rfl).1, (accPair_congr h.1 h.2.1 rfl rfl).2,
        Nat.mod_lt _ (by decide), Nat.mod_lt _ (by decide)⟩
    refine (ih _ _ this).cast ?_
    ext <;> simp <;> omega

theorem sum_modEq {α : Type} {m : Nat} {l : List α} {f g : α → Nat}
    (h : ∀ a ∈ l, f a ≡ g a [MOD m]) : (l.map f).sum ≡ (l.map g).sum [MOD m] := by
  induction l with
  | nil => exact rfl
  | cons a l ih =>
    simp only [List.map_cons, List.sum_cons]
    exact (h a (by simp)).add (ih fun b hb => h b (by simp [hb]))

theorem numberOfArcs_eq (s : SDD V) : numberOfArcs (arcsFreq s) =
    (sumArcsOf SDD.isFlat (distinctNodes s) % uintMod,
      sumArcsOf SDD.isHier (distinctNodes s) % uintMod) := by
  obtain ⟨h1, h2, h3⟩ := arcsFreq_ok s
  have h := numberOfArcs_fold (arcsFreq s) (0, 0) (0, 0) ⟨rfl, rfl, by decide, by decide⟩
  have e1 : ((arcsFreq s).map fun e => e.1 * e.2.1).sum ≡
      sumArcsOf SDD.isFlat (distinctNodes s) [MOD uintMod] := by
    rw [← sum_freq (p := SDD.isFlat) (distinctNodes s) _ h1 (fun a ha _ => h3 a ha), List.map_map]
    refine sum_modEq fun e he => Nat.ModEq.mul_left _ ?_
    have := (h2 e.1).1
    rwa [Freq.get_of_mem h1 he] at this
  have e2 : ((arcsFreq s).map fun e => e.1 * e.2.2).sum ≡
      sumArcsOf SDD.isHier (distinctNodes s) [MOD uintMod] := by
    rw [← sum_freq (p := SDD.isHier) (distinctNodes s) _ h1 (fun a ha _ => h3 a ha), List.map_map]
    refine sum_modEq fun e he => Nat.ModEq.mul_left _ ?_
    have := (h2 e.1).2.1
    rwa [Freq.get_of_mem h1 he] at this
  refine PEq.eq (b := (sumArcsOf SDD.isFlat (distinctNodes s),
    sumArcsOf SDD.isHier (distinctNodes s))) ⟨h.1.trans ?_, h.2.1.trans ?_, h.2.2.1, h.2.2.2⟩
  · simpa using e1
  · simpa using e2

theorem arcsFreq_get (s : SDD V) (k : Nat) : (arcsFreq s).get k =
    ((freqOf (distinctNodes s) k).1 % uintMod, (freqOf (distinctNodes s) k).2 % uintMod) :=
  ((arcsFreq_ok s).2.1 k).eq

end
end Verif
