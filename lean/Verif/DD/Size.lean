import Verif.DD.Stats
/-!
# Memory usage of SDDs

`/repo/sdd/tools/size.hh`.
-/

set_option autoImplicit false
set_option linter.unusedSectionVars false

namespace Verif
section
variable {V : Type} [DecidableEq V]

/-- Number of values of `std::size_t`. (`std::size_t` on the 64-bit platforms of `/repo/sdd/util/next_power.hh`.) -/
def sizeMod : Nat := 2 ^ 64

/-- The sizes of types, given by the compiler: of the terminals, of `ref_counted`, of the arcs of flat and hierarchical nodes.
(`sizeof` in `/repo/sdd/tools/size.hh`, lines 30-95.) -/
structure Sizes where
  zero : Nat
  one : Nat
  unique : Nat
  flatArc : Nat
  hierArc : Nat

mutual
/-- `size_visitor`, `/repo/sdd/tools/size.hh:18-96`. The set of visited addresses is a list of SDDs, since they are unified. -/
def sizeV (z : Sizes) : SDD V → List (SDD V) → Nat × List (SDD V)
  | .zero, vis => if .zero ∈ vis then (0, vis) else (z.zero % sizeMod, .zero :: vis)
  | .one, vis => if .one ∈ vis then (0, vis) else (z.one % sizeMod, .one :: vis)
  | .flat x arcs, vis =>
    if .flat x arcs ∈ vis then (0, vis)
    else sizeF z arcs ((z.unique + arcs.length * z.flatArc) % sizeMod) (.flat x arcs :: vis)
  | .hier x arcs, vis =>
    if .hier x arcs ∈ vis then (0, vis)
    else sizeH z arcs ((z.unique + arcs.length * z.hierArc) % sizeMod) (.hier x arcs :: vis)
/-- The loop on the arcs of a flat node, `/repo/sdd/tools/size.hh:64-67`. -/
def sizeF (z : Sizes) : List (V × SDD V) → Nat → List (SDD V) → Nat × List (SDD V)
  | [], res, vis => (res, vis)
  | (_, s) :: arcs, res, vis =>
    let r := sizeV z s vis
    sizeF z arcs ((res + r.1) % sizeMod) r.2
/-- The loop on the arcs of a hierarchical node, `/repo/sdd/tools/size.hh:84-88`. -/
def sizeH (z : Sizes) : List (SDD V × SDD V) → Nat → List (SDD V) → Nat × List (SDD V)
  | [], res, vis => (res, vis)
  | (v, s) :: arcs, res, vis =>
    let r := sizeV z v vis
    let r' := sizeV z s r.2
    sizeH z arcs (((res + r.1) % sizeMod + r'.1) % sizeMod) r'.2
end

/-- `tools::size`, `/repo/sdd/tools/size.hh:100-106`. -/
def sizeBytes (z : Sizes) (s : SDD V) : Nat := (sizeV z s []).1

/-- Specification: what one datum takes. -/
def Sizes.weight (z : Sizes) : SDD V → Nat
  | .zero => z.zero
  | .one => z.one
  | .flat _ arcs => z.unique + arcs.length * z.flatArc
  | .hier _ arcs => z.unique + arcs.length * z.hierArc

/-- What a visit adds: new elements, below `s`, with their total weight. (Specification or proof device, not part of the code.) -/
structure SAdds (z : Sizes) (Q : SDD V → Prop) (vis : List (SDD V)) (w : Nat) (vis' : List (SDD V)) (w' : Nat) : Prop where
  ex : ∃ new, vis' = new ++ vis ∧ new.Nodup ∧ (∀ a ∈ new, a ∉ vis ∧ Q a) ∧
    w' % sizeMod = (w + (new.map z.weight).sum) % sizeMod

theorem SAdds.refl (z : Sizes) (Q : SDD V → Prop) (vis : List (SDD V)) (w : Nat) : SAdds z Q vis w vis w :=
  ⟨[], by simp⟩

theorem SAdds.trans {z : Sizes} {Q : SDD V → Prop} {a b c : List (SDD V)} {w1 w2 w3 : Nat} (h1 : SAdds z Q a w1 b w2)
    (h2 : SAdds z Q b w2 c w3) : SAdds z Q a w1 c w3 := by
  obtain ⟨n1, rfl, d1, m1, q1⟩ := h1
  obtain ⟨n2, rfl, d2, m2, q2⟩ := h2
  refine ⟨n2 ++ n1, by simp, ?_, ?_, ?_⟩
  · rw [List.nodup_append]
    exact ⟨d2, d1, fun x hx y hy e => (m2 x hx).1 (by simp [e, hy])⟩
  · intro x hx
    rw [List.mem_append] at hx
    rcases hx with hx | hx
    · exact ⟨fun h => (m2 x hx).1 (by simp [h]), (m2 x hx).2⟩
    · exact m1 x hx
  · rw [q2, List.map_append, List.sum_append, Nat.add_mod, q1, ← Nat.add_mod]
    congr 1
    omega

theorem SAdds.mono {z : Sizes} {Q Q' : SDD V → Prop} {a b : List (SDD V)} {w w' : Nat} (h : SAdds z Q a w b w')
    (hQ : ∀ s, Q s → Q' s) : SAdds z Q' a w b w' := by
  obtain ⟨n1, e, d1, m1, q1⟩ := h
  exact ⟨n1, e, d1, fun a ha => ⟨(m1 a ha).1, hQ a (m1 a ha).2⟩, q1⟩

theorem SAdds.subset {z : Sizes} {Q : SDD V → Prop} {a b : List (SDD V)} {w w' : Nat} (h : SAdds z Q a w b w') :
    ∀ s ∈ a, s ∈ b := by
  obtain ⟨n1, rfl, _⟩ := h
  intro s hs; simp [hs]

theorem SAdds.shift {z : Sizes} {Q : SDD V → Prop} {a b : List (SDD V)} {w' : Nat} (h : SAdds z Q a 0 b w') (k : Nat) :
    SAdds z Q a k b ((k + w') % sizeMod) := by
  obtain ⟨n1, e, d1, m1, q1⟩ := h
  refine ⟨n1, e, d1, m1, ?_⟩
  rw [Nat.mod_mod, Nat.add_mod, q1, ← Nat.add_mod]
  congr 1
  omega

theorem SAdds.cons {z : Sizes} {Q : SDD V → Prop} {s : SDD V} {vis : List (SDD V)} (h : s ∉ vis) (hq : Q s) :
    SAdds z Q vis 0 (s :: vis) (z.weight s % sizeMod) :=
  ⟨[s], rfl, by simp, fun a ha => by rw [List.mem_singleton] at ha; subst ha; exact ⟨h, hq⟩, by simp⟩

/-- The visited set contains everything below its elements, except those of `P` (in progress).
(Specification or proof device, not part of the code.) -/
def SClosed (P : SDD V → Prop) (vis : List (SDD V)) : Prop :=
  ∀ v ∈ vis, ¬ P v → ∀ a, Sub a v → a ∈ vis

theorem sizeV_ok (z : Sizes) (s : SDD V) : ∀ (P : SDD V → Prop) (vis : List (SDD V)), Apart P s → SClosed P vis →
    SAdds z (fun a => Sub a s) vis 0 (sizeV z s vis).2 (sizeV z s vis).1 ∧ SClosed P (sizeV z s vis).2 ∧
      ∀ a, Sub a s → a ∈ (sizeV z s vis).2 := by
  induction s using SDD.ind with
  | h0 =>
    intro P vis hP hc
    rw [sizeV]
    by_cases hm : (SDD.zero : SDD V) ∈ vis
    · rw [if_pos hm]
      exact ⟨.refl _ _ _ _, hc, fun a ha => by cases ha; exact hm⟩
    · rw [if_neg hm]
      refine ⟨SAdds.cons (s := .zero) hm .refl, ?_, fun a ha => by cases ha; simp⟩
      intro v hv hn a ha
      rw [List.mem_cons] at hv
      rcases hv with rfl | hv
      · cases ha; simp
      · exact List.mem_cons_of_mem _ (hc v hv hn a ha)
  | h1 =>
    intro P vis hP hc
    rw [sizeV]
    by_cases hm : (SDD.one : SDD V) ∈ vis
    · rw [if_pos hm]
      exact ⟨.refl _ _ _ _, hc, fun a ha => by cases ha; exact hm⟩
    · rw [if_neg hm]
      refine ⟨SAdds.cons (s := .one) hm .refl, ?_, fun a ha => by cases ha; simp⟩
      intro v hv hn a ha
      rw [List.mem_cons] at hv
      rcases hv with rfl | hv
      · cases ha; simp
      · exact List.mem_cons_of_mem _ (hc v hv hn a ha)
  | hf x arcs ih =>
    intro P vis hP hc
    rw [sizeV]
    by_cases hm : SDD.flat x arcs ∈ vis
    · rw [if_pos hm]
      exact ⟨.refl _ _ _ _, hc, fun a ha => hc _ hm (fun hp => hP _ hp .refl) a ha⟩
    · rw [if_neg hm]
      have hc1 : SClosed (fun a => P a ∨ a = .flat x arcs) (.flat x arcs :: vis) := by
        intro v hv hn a ha
        rw [List.mem_cons] at hv
        rcases hv with rfl | hv
        · exact absurd (Or.inr rfl) hn
        · exact List.mem_cons_of_mem _ (hc v hv (fun h => hn (.inl h)) a ha)
      have loop : ∀ (l : List (V × SDD V)) (w : Nat) (vis' : List (SDD V)), (∀ e ∈ l, e ∈ arcs) →
          SClosed (fun a => P a ∨ a = .flat x arcs) vis' →
          SAdds z (fun a => Sub a (.flat x arcs)) vis' w (sizeF z l w vis').2 (sizeF z l w vis').1 ∧
          SClosed (fun a => P a ∨ a = .flat x arcs) (sizeF z l w vis').2 ∧
          ∀ e ∈ l, ∀ a, Sub a e.2 → a ∈ (sizeF z l w vis').2 := by
        intro l
        induction l with
        | nil => intro w vis' _ h; exact ⟨.refl _ _ _ _, h, by simp⟩
        | cons e l ihl =>
          obtain ⟨v, s⟩ := e
          intro w vis' hl h
          have he := hl (v, s) (by simp)
          have hap : Apart (fun a => P a ∨ a = .flat x arcs) s := by
            rintro a (ha | rfl) hs
            · exact hP a ha (.flat x arcs _ he hs)
            · have := hs.sizeOf_le
              have := sizeOf_flat_lt (x := x) he
              simp at *
              omega
          obtain ⟨a1, c1, v1⟩ := ih _ he _ vis' hap h
          obtain ⟨a2, c2, v2⟩ := ihl ((w + (sizeV z s vis').1) % sizeMod) _ (fun e he => hl e (by simp [he])) c1
          rw [sizeF]
          refine ⟨((a1.mono fun b hb => .flat x arcs _ he hb).shift w).trans a2, c2, ?_⟩
          intro e' he'
          rw [List.mem_cons] at he'
          rcases he' with rfl | he'
          · exact fun a ha => a2.subset _ (v1 a ha)
          · exact v2 e' he'
      obtain ⟨a2, c2, v2⟩ := loop arcs ((z.unique + arcs.length * z.flatArc) % sizeMod) _ (fun _ h => h) hc1
      have cov : ∀ a, Sub a (.flat x arcs) →
          a ∈ (sizeF z arcs ((z.unique + arcs.length * z.flatArc) % sizeMod) (.flat x arcs :: vis)).2 := by
        intro a ha
        cases ha with
        | refl => exact a2.subset _ (by simp)
        | flat _ _ arc he hs => exact v2 arc he a hs
      refine ⟨(SAdds.cons (s := .flat x arcs) hm .refl).trans a2, ?_, cov⟩
      intro v hv hn a ha
      by_cases hvv : v = .flat x arcs
      · subst hvv; exact cov a ha
      · exact c2 v hv (by simp [hn, hvv]) a ha
  | hh x arcs ih =>
    intro P vis hP hc
    rw [sizeV]
    by_cases hm : SDD.hier x arcs ∈ vis
    · rw [if_pos hm]
      exact ⟨.refl _ _ _ _, hc, fun a ha => hc _ hm (fun hp => hP _ hp .refl) a ha⟩
    · rw [if_neg hm]
      have hc1 : SClosed (fun a => P a ∨ a = .hier x arcs) (.hier x arcs :: vis) := by
        intro v hv hn a ha
        rw [List.mem_cons] at hv
        rcases hv with rfl | hv
        · exact absurd (Or.inr rfl) hn
        · exact List.mem_cons_of_mem _ (hc v hv (fun h => hn (.inl h)) a ha)
      have loop : ∀ (l : List (SDD V × SDD V)) (w : Nat) (vis' : List (SDD V)), (∀ e ∈ l, e ∈ arcs) →
          SClosed (fun a => P a ∨ a = .hier x arcs) vis' →
          SAdds z (fun a => Sub a (.hier x arcs)) vis' w (sizeH z l w vis').2 (sizeH z l w vis').1 ∧
          SClosed (fun a => P a ∨ a = .hier x arcs) (sizeH z l w vis').2 ∧
          ∀ e ∈ l, (∀ a, Sub a e.1 → a ∈ (sizeH z l w vis').2) ∧ ∀ a, Sub a e.2 → a ∈ (sizeH z l w vis').2 := by
        intro l
        induction l with
        | nil => intro w vis' _ h; exact ⟨.refl _ _ _ _, h, by simp⟩
        | cons e l ihl =>
          obtain ⟨v, s⟩ := e
          intro w vis' hl h
          have he := hl (v, s) (by simp)
          have hap1 : Apart (fun a => P a ∨ a = .hier x arcs) v := by
            rintro a (ha | rfl) hs
            · exact hP a ha (.hierVal x arcs _ he hs)
            · have := hs.sizeOf_le
              have := sizeOf_hier_lt (x := x) he
              simp at *
              omega
          have hap2 : Apart (fun a => P a ∨ a = .hier x arcs) s := by
            rintro a (ha | rfl) hs
            · exact hP a ha (.hierSucc x arcs _ he hs)
            · have := hs.sizeOf_le
              have := sizeOf_hier_lt (x := x) he
              simp at *
              omega
          obtain ⟨a0, c0, v0⟩ := (ih _ he).1 _ vis' hap1 h
          obtain ⟨a1, c1, v1⟩ := (ih _ he).2 _ _ hap2 c0
          obtain ⟨a2, c2, v2⟩ := ihl (((w + (sizeV z v vis').1) % sizeMod + (sizeV z s (sizeV z v vis').2).1) % sizeMod) _
            (fun e he => hl e (by simp [he])) c1
          rw [sizeH]
          refine ⟨(((a0.mono fun b hb => .hierVal x arcs _ he hb).shift w).trans
            ((a1.mono fun b hb => .hierSucc x arcs _ he hb).shift _)).trans a2, c2, ?_⟩
          intro e' he'
          rw [List.mem_cons] at he'
          rcases he' with rfl | he'
          · exact ⟨fun a ha => a2.subset _ (a1.subset _ (v0 a ha)), fun a ha => a2.subset _ (v1 a ha)⟩
          · exact v2 e' he'
      obtain ⟨a2, c2, v2⟩ := loop arcs ((z.unique + arcs.length * z.hierArc) % sizeMod) _ (fun _ h => h) hc1
      have cov : ∀ a, Sub a (.hier x arcs) →
          a ∈ (sizeH z arcs ((z.unique + arcs.length * z.hierArc) % sizeMod) (.hier x arcs :: vis)).2 := by
        intro a ha
        cases ha with
        | refl => exact a2.subset _ (by simp)
        | hierVal _ _ arc he hs => exact (v2 arc he).1 a hs
        | hierSucc _ _ arc he hs => exact (v2 arc he).2 a hs
      refine ⟨(SAdds.cons (s := .hier x arcs) hm .refl).trans a2, ?_, cov⟩
      intro v hv hn a ha
      by_cases hvv : v = .hier x arcs
      · subst hvv; exact cov a ha
      · exact c2 v hv (by simp [hn, hvv]) a ha

theorem sizeV_lt (z : Sizes) : (∀ (s : SDD V) vis, (sizeV z s vis).1 < sizeMod) := by
  have h0 : 0 < sizeMod := by decide
  have hf : ∀ (l : List (V × SDD V)) w vis, w < sizeMod → (sizeF z l w vis).1 < sizeMod := by
    intro l
    induction l with
    | nil => intro w vis h; exact h
    | cons e l ih => intro w vis h; rw [sizeF]; exact ih _ _ (Nat.mod_lt _ h0)
  have hh : ∀ (l : List (SDD V × SDD V)) w vis, w < sizeMod → (sizeH z l w vis).1 < sizeMod := by
    intro l
    induction l with
    | nil => intro w vis h; exact h
    | cons e l ih => intro w vis h; rw [sizeH]; exact ih _ _ (Nat.mod_lt _ h0)
  intro s vis
  cases s with
  | zero => rw [sizeV]; split <;> [exact h0; exact Nat.mod_lt _ h0]
  | one => rw [sizeV]; split <;> [exact h0; exact Nat.mod_lt _ h0]
  | flat x arcs => rw [sizeV]; split <;> [exact h0; exact hf _ _ _ (Nat.mod_lt _ h0)]
  | hier x arcs => rw [sizeV]; split <;> [exact h0; exact hh _ _ _ (Nat.mod_lt _ h0)]

/-- Every datum is counted once. -/
theorem sizeBytes_spec (z : Sizes) (s : SDD V) : ∃ l : List (SDD V), l.Nodup ∧ (∀ a, a ∈ l ↔ Sub a s) ∧
    sizeBytes z s = (l.map z.weight).sum % sizeMod := by
  obtain ⟨⟨new, e, d, m, q⟩, _, c⟩ := sizeV_ok z s (fun _ => False) [] (by intro a h; exact h.elim)
    (by intro v hv; simp at hv)
  rw [List.append_nil] at e
  rw [e] at c
  refine ⟨new, d, fun a => ⟨fun h => (m a h).2, c a⟩, ?_⟩
  rw [Nat.zero_add, Nat.mod_eq_of_lt (sizeV_lt z s [])] at q
  exact q

end
end Verif
