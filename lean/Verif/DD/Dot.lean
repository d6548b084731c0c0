import Verif.DD.Stats
import Verif.Order.Init
/-!
# Export of SDDs to the DOT format

`/repo/sdd/tools/dot/sdd.hh`.
-/

set_option autoImplicit false
set_option linter.unusedSectionVars false

namespace Verif
namespace Dot
section
variable {V E I : Type} [DecidableEq V]

/-- A line of the text. Names of vertices are texts; the identifiers of the order and the values of arcs are printed by the user's
`operator<<`, they are kept as they are. (`/repo/sdd/tools/dot/sdd.hh`, lines 36-161.) -/
inductive Line (V I : Type) : Type where
  /-- `name [shape=square,label="0"];` or `"1"`, lines 43, 57 -/
  | terminal (name : List Char) (value : Nat)
  /-- `name [label="identifier"];`, lines 71, 90 -/
  | vertex (name : List Char) (id : OId I)
  /-- `name -> name [label="values"];`, line 75 -/
  | arc (src dst : List Char) (v : V)
  /-- `name [shape=point,label="",height=0,width=0];`, line 97 -/
  | ghost (name : List Char)
  /-- `name -> ghost [arrowhead=none];`, line 99 -/
  | toGhost (src ghost : List Char)
  /-- `ghost -> name;`, line 100 -/
  | fromGhost (ghost dst : List Char)
  /-- `ghost -> name [style=dotted];`, line 101 -/
  | nested (ghost dst : List Char)

/-- The state of the visitor, `/repo/sdd/tools/dot/sdd.hh:20-34`: the visited addresses (nodes are unified: they are SDDs) and the
lines written. -/
structure St (V I : Type) where
  visited : List (SDD V)
  out : List (Line V I)

/-- `node_string`, `/repo/sdd/tools/dot/sdd.hh:113-120`; `addr` is the text of an address. -/
def name (addr : SDD V → List Char) (n : SDD V) : List Char := 'n' :: addr n

/-- `ghost_string`, `/repo/sdd/tools/dot/sdd.hh:122-129`. -/
def ghostName (addr : SDD V → List Char) (n : SDD V) (suffix : List Char) : List Char := 'g' :: (addr n ++ suffix)

variable (addr : SDD V → List Char)

mutual
/-- `to_dot_visitor`, `/repo/sdd/tools/dot/sdd.hh:36-109`: `none` when the head of an empty order is used. -/
def dotV : SDD V → OB I → St V I → Option (St V I)
  | .zero, _, σ =>
    if .zero ∈ σ.visited then some σ else some ⟨.zero :: σ.visited, σ.out ++ [.terminal (name addr .zero) 0]⟩
  | .one, _, σ =>
    if .one ∈ σ.visited then some σ else some ⟨.one :: σ.visited, σ.out ++ [.terminal (name addr .one) 1]⟩
  | .flat x arcs, o, σ =>
    if .flat x arcs ∈ σ.visited then some σ
    else match o with
      | .nil => none
      | .node id _ nxt =>
        (dotF (name addr (.flat x arcs)) nxt arcs ⟨σ.visited, σ.out ++ [.vertex (name addr (.flat x arcs)) id]⟩).map fun σ' =>
          ⟨.flat x arcs :: σ'.visited, σ'.out⟩
  | .hier x arcs, o, σ =>
    if .hier x arcs ∈ σ.visited then some σ
    else match o with
      | .nil => none
      | .node id nst nxt =>
        (dotH (.hier x arcs) nst nxt arcs ⟨σ.visited, σ.out ++ [.vertex (name addr (.hier x arcs)) id]⟩).map fun σ' =>
          ⟨.hier x arcs :: σ'.visited, σ'.out⟩
/-- The loop on the arcs of a flat node, `/repo/sdd/tools/dot/sdd.hh:73-77`. -/
def dotF (node : List Char) (nxt : OB I) : List (V × SDD V) → St V I → Option (St V I)
  | [], σ => some σ
  | (v, s) :: arcs, σ =>
    (dotV s nxt σ).bind fun σ1 =>
      dotF node nxt arcs ⟨σ1.visited, σ1.out ++ [.arc node (name addr s) v]⟩
/-- The loop on the arcs of a hierarchical node, `/repo/sdd/tools/dot/sdd.hh:92-104`. -/
def dotH (n : SDD V) (nst nxt : OB I) : List (SDD V × SDD V) → St V I → Option (St V I)
  | [], σ => some σ
  | (v, s) :: arcs, σ =>
    (dotV s nxt σ).bind fun σ1 =>
      (dotV v nst σ1).bind fun σ2 =>
        dotH n nst nxt arcs ⟨σ2.visited, σ2.out ++
          [.ghost (ghostName addr n (name addr s)), .toGhost (name addr n) (ghostName addr n (name addr s)),
           .fromGhost (ghostName addr n (name addr s)) (name addr s),
           .nested (ghostName addr n (name addr s)) (name addr v)]⟩
end

/-- `tools::dot`, `/repo/sdd/tools/dot/sdd.hh:134-161` (without the first and last lines). -/
def dot (x : SDD V) (o : OB I) : Option (List (Line V I)) := (dotV addr x o ⟨[], []⟩).map St.out

/-! ## Specification -/

/-- `Occ o x a o'`: from the SDD `x` of order `o`, following arcs and valuations leads to `a`, whose order is `o'`.
(Specification or proof device, not part of the code.) -/
inductive Occ : OB I → SDD V → SDD V → OB I → Prop where
  | here {o : OB I} {x : SDD V} : Occ o x x o
  | flat {id : OId I} {nst nxt : OB I} {x : Nat} {arcs : List (V × SDD V)} {arc : V × SDD V} {a : SDD V} {o' : OB I} :
      arc ∈ arcs → Occ nxt arc.2 a o' → Occ (.node id nst nxt) (.flat x arcs) a o'
  | hierVal {id : OId I} {nst nxt : OB I} {x : Nat} {arcs : List (SDD V × SDD V)} {arc : SDD V × SDD V} {a : SDD V}
      {o' : OB I} : arc ∈ arcs → Occ nst arc.1 a o' → Occ (.node id nst nxt) (.hier x arcs) a o'
  | hierSucc {id : OId I} {nst nxt : OB I} {x : Nat} {arcs : List (SDD V × SDD V)} {arc : SDD V × SDD V} {a : SDD V}
      {o' : OB I} : arc ∈ arcs → Occ nxt arc.2 a o' → Occ (.node id nst nxt) (.hier x arcs) a o'

/-- The lines expected for an SDD, when labelled with the head of an order: a vertex, and one edge by arc (which goes through an
intermediate vertex for hierarchical nodes). (Specification or proof device, not part of the code.) -/
def block : SDD V × OB I → List (Line V I)
  | (.zero, _) => [.terminal (name addr .zero) 0]
  | (.one, _) => [.terminal (name addr .one) 1]
  | (.flat x arcs, .node id _ _) =>
    .vertex (name addr (.flat x arcs)) id :: arcs.map fun a => .arc (name addr (.flat x arcs)) (name addr a.2) a.1
  | (.hier x arcs, .node id _ _) =>
    .vertex (name addr (.hier x arcs)) id :: arcs.flatMap fun a =>
      [.ghost (ghostName addr (.hier x arcs) (name addr a.2)),
       .toGhost (name addr (.hier x arcs)) (ghostName addr (.hier x arcs) (name addr a.2)),
       .fromGhost (ghostName addr (.hier x arcs) (name addr a.2)) (name addr a.2),
       .nested (ghostName addr (.hier x arcs) (name addr a.2)) (name addr a.1)]
  | (_, .nil) => []

/-- The name declared by a line. (Specification or proof device, not part of the code.) -/
def Line.declared : Line V I → Option (List Char)
  | .terminal n _ => some n
  | .vertex n _ => some n
  | .ghost n => some n
  | _ => none

theorem Occ.sub {o o' : OB I} {x a : SDD V} (h : Occ o x a o') : Sub a x := by
  induction h with
  | here => exact .refl
  | flat h _ ih => exact .flat _ _ _ h ih
  | hierVal h _ ih => exact .hierVal _ _ _ h ih
  | hierSucc h _ ih => exact .hierSucc _ _ _ h ih

/-- The type of a flat node under an order. -/
theorem dom_flat {C : Cfg V E} {o : OB I} {x : Nat} {arcs : List (V × SDD V)} (h : Dom C o.ty (.flat x arcs)) :
    ∃ id nxt, o = .node id .nil nxt ∧ x = nxt.level.length ∧ GoodArcs C C.vmem arcs ∧ ∀ arc ∈ arcs, Dom C nxt.ty arc.2 := by
  cases h with
  | flat _ t' _ _ hn hg ha =>
    cases o with
    | nil => simp [OB.ty, Ty.flatNext] at hn
    | node id nst nxt =>
      cases nst with
      | nil =>
        simp only [OB.ty, Ty.flatNext] at hn
        split at hn
        · rename_i e
          cases hn
          exact ⟨id, nxt, rfl, e.symm, hg, ha⟩
        · cases hn
      | node a b c => simp [OB.ty, Ty.flatNext] at hn

/-- The type of a hierarchical node under an order. -/
theorem dom_hier {C : Cfg V E} {o : OB I} {x : Nat} {arcs : List (SDD V × SDD V)} (h : Dom C o.ty (.hier x arcs)) :
    ∃ id nst nxt, o = .node id nst nxt ∧ nst ≠ .nil ∧ x = nxt.level.length ∧ GoodArcs C (Mem C) arcs ∧
      (∀ arc ∈ arcs, Dom C nst.ty arc.1) ∧ ∀ arc ∈ arcs, Dom C nxt.ty arc.2 := by
  cases h with
  | hier _ tn t' _ _ hn hg ha hb =>
    cases o with
    | nil => simp [OB.ty, Ty.hierNext] at hn
    | node id nst nxt =>
      cases nst with
      | nil => simp [OB.ty, Ty.hierNext] at hn
      | node a b c =>
        simp only [OB.ty, Ty.hierNext] at hn
        split at hn
        · rename_i e
          cases hn
          exact ⟨id, _, nxt, rfl, by simp, e.symm, hg, ha, hb⟩
        · cases hn

/-- What occurs in an SDD of an order has the type of its order. -/
theorem Occ.dom {C : Cfg V E} {o o' : OB I} {x a : SDD V} (h : Occ o x a o') : Dom C o.ty x → Dom C o'.ty a := by
  induction h with
  | here => exact fun h => h
  | flat hm _ ih =>
    intro hd
    obtain ⟨_, _, e, _, _, h⟩ := dom_flat hd
    cases e
    exact ih (h _ hm)
  | hierVal hm _ ih =>
    intro hd
    obtain ⟨_, _, _, e, _, _, _, h, _⟩ := dom_hier hd
    cases e
    exact ih (h _ hm)
  | hierSucc hm _ ih =>
    intro hd
    obtain ⟨_, _, _, e, _, _, _, _, h⟩ := dom_hier hd
    cases e
    exact ih (h _ hm)

/-! ## The invariant -/

/-- What a part of the visit adds. (Specification or proof device, not part of the code.) -/
def DAdds (Q : SDD V → OB I → Prop) (extra : List (Line V I)) (σ σ' : St V I) : Prop :=
  ∃ new : List (SDD V × OB I), σ'.visited = new.map Prod.fst ++ σ.visited ∧ (new.map Prod.fst).Nodup ∧
    (∀ e ∈ new, e.1 ∉ σ.visited ∧ Q e.1 e.2) ∧
    ∃ lines, σ'.out = σ.out ++ lines ∧ lines.Perm (new.flatMap (block addr) ++ extra)

variable {addr}

theorem DAdds.refl (Q : SDD V → OB I → Prop) (σ : St V I) : DAdds addr Q [] σ σ := ⟨[], by simp⟩

theorem DAdds.line (Q : SDD V → OB I → Prop) (σ : St V I) (l : List (Line V I)) :
    DAdds addr Q l σ ⟨σ.visited, σ.out ++ l⟩ := ⟨[], by simp⟩

theorem DAdds.trans {Q : SDD V → OB I → Prop} {a b c : St V I} {e1 e2 : List (Line V I)} (h1 : DAdds addr Q e1 a b)
    (h2 : DAdds addr Q e2 b c) : DAdds addr Q (e1 ++ e2) a c := by
  obtain ⟨n1, v1, d1, m1, l1, o1, p1⟩ := h1
  obtain ⟨n2, v2, d2, m2, l2, o2, p2⟩ := h2
  refine ⟨n2 ++ n1, by rw [v2, v1]; simp, ?_, ?_, l1 ++ l2, by rw [o2, o1]; simp, ?_⟩
  · rw [List.map_append, List.nodup_append]
    refine ⟨d2, d1, ?_⟩
    intro x hx y hy e
    rw [List.mem_map] at hx
    obtain ⟨z, hz, rfl⟩ := hx
    exact (m2 z hz).1 (by rw [v1, e]; simp only [List.mem_append]; exact .inl hy)
  · intro x hx
    rw [List.mem_append] at hx
    rcases hx with hx | hx
    · exact ⟨fun h => (m2 x hx).1 (by rw [v1]; simp [h]), (m2 x hx).2⟩
    · exact m1 x hx
  · rw [List.flatMap_append]
    refine (p1.append p2).trans ?_
    simp only [List.append_assoc]
    refine (List.perm_append_comm_assoc _ _ _).trans ?_
    have : (n1.flatMap (block addr) ++ (e1 ++ (n2.flatMap (block addr) ++ e2))).Perm
        (n2.flatMap (block addr) ++ (n1.flatMap (block addr) ++ (e1 ++ e2))) := by
      have h3 : (e1 ++ (n2.flatMap (block addr) ++ e2)).Perm (n2.flatMap (block addr) ++ (e1 ++ e2)) :=
        List.perm_append_comm_assoc _ _ _
      exact (h3.append_left _).trans (List.perm_append_comm_assoc _ _ _)
    exact (List.perm_append_comm_assoc _ _ _).trans this

theorem DAdds.mono {Q Q' : SDD V → OB I → Prop} {a b : St V I} {ex : List (Line V I)} (h : DAdds addr Q ex a b)
    (hQ : ∀ s o, Q s o → Q' s o) : DAdds addr Q' ex a b := by
  obtain ⟨n1, v1, d1, m1, r⟩ := h
  exact ⟨n1, v1, d1, fun e he => ⟨(m1 e he).1, hQ _ _ (m1 e he).2⟩, r⟩

theorem DAdds.subset {Q : SDD V → OB I → Prop} {a b : St V I} {ex : List (Line V I)} (h : DAdds addr Q ex a b) :
    ∀ s ∈ a.visited, s ∈ b.visited := by
  obtain ⟨n1, v1, _⟩ := h
  intro s hs; rw [v1]; simp [hs]

/-- The end of the visit of a node. -/
theorem DAdds.node {Q Q' : SDD V → OB I → Prop} {a b : St V I} {ex : List (Line V I)} {n : SDD V} {o : OB I}
    (h : DAdds addr Q ex a b) (hn : n ∉ a.visited) (hQ : ∀ s o, Q s o → Q' s o ∧ s ≠ n) (hq : Q' n o)
    (he : block addr (n, o) = ex) : DAdds addr Q' [] a ⟨n :: b.visited, b.out⟩ := by
  obtain ⟨n1, v1, d1, m1, l1, o1, p1⟩ := h
  refine ⟨(n, o) :: n1, by simp [v1], ?_, ?_, l1, o1, ?_⟩
  · rw [List.map_cons, List.nodup_cons]
    refine ⟨?_, d1⟩
    rw [List.mem_map]
    rintro ⟨e, he, h⟩
    exact (hQ _ _ (m1 e he).2).2 h
  · intro e he
    rw [List.mem_cons] at he
    rcases he with rfl | he
    · exact ⟨hn, hq⟩
    · exact ⟨(m1 e he).1, (hQ _ _ (m1 e he).2).1⟩
  · rw [List.flatMap_cons, he, List.append_nil]
    exact p1.trans List.perm_append_comm

/-- The visited set contains everything below its elements. (Specification or proof device, not part of the code.) -/
def DClosed (vis : List (SDD V)) : Prop := ∀ v ∈ vis, ∀ a, Sub a v → a ∈ vis

theorem dotV_ok {C : Cfg V E} (s : SDD V) : ∀ (o : OB I) (σ : St V I), Dom C o.ty s → DClosed σ.visited →
    ∃ σ', dotV addr s o σ = some σ' ∧ DAdds addr (fun a o' => Occ o s a o') [] σ σ' ∧ DClosed σ'.visited ∧
      s ∈ σ'.visited := by
  induction s using SDD.ind with
  | h0 =>
    intro o σ _ hc
    rw [dotV]
    by_cases hm : (SDD.zero : SDD V) ∈ σ.visited
    · rw [if_pos hm]
      exact ⟨_, rfl, .refl _ _, hc, hm⟩
    · rw [if_neg hm]
      refine ⟨_, rfl, ?_, ?_, by simp⟩
      · exact ((DAdds.line (fun _ _ => False) σ _).node hm (fun _ _ h => h.elim) (Q' := fun a o' => Occ o .zero a o')
          (n := .zero) (o := o) .here rfl)
      · intro v hv a ha
        simp only [List.mem_cons] at hv ⊢
        rcases hv with rfl | hv
        · cases ha; exact .inl rfl
        · exact .inr (hc v hv a ha)
  | h1 =>
    intro o σ _ hc
    rw [dotV]
    by_cases hm : (SDD.one : SDD V) ∈ σ.visited
    · rw [if_pos hm]
      exact ⟨_, rfl, .refl _ _, hc, hm⟩
    · rw [if_neg hm]
      refine ⟨_, rfl, ?_, ?_, by simp⟩
      · exact ((DAdds.line (fun _ _ => False) σ _).node hm (fun _ _ h => h.elim) (Q' := fun a o' => Occ o .one a o')
          (n := .one) (o := o) .here rfl)
      · intro v hv a ha
        simp only [List.mem_cons] at hv ⊢
        rcases hv with rfl | hv
        · cases ha; exact .inl rfl
        · exact .inr (hc v hv a ha)
  | hf x arcs ih =>
    intro o σ hd hc
    obtain ⟨id, nxt, rfl, _, _, hdom⟩ := dom_flat hd
    rw [dotV]
    by_cases hm : SDD.flat x arcs ∈ σ.visited
    · rw [if_pos hm]
      exact ⟨_, rfl, .refl _ _, hc, hm⟩
    · rw [if_neg hm]
      have loop : ∀ (l : List (V × SDD V)) (σ1 : St V I), (∀ e ∈ l, e ∈ arcs) → DClosed σ1.visited →
          ∃ σ', dotF addr (name addr (.flat x arcs)) nxt l σ1 = some σ' ∧
            DAdds addr (fun a o' => ∃ arc ∈ arcs, Occ nxt arc.2 a o')
              (l.map fun a => .arc (name addr (.flat x arcs)) (name addr a.2) a.1) σ1 σ' ∧
            DClosed σ'.visited ∧ ∀ e ∈ l, e.2 ∈ σ'.visited := by
        intro l
        induction l with
        | nil => intro σ1 _ h; exact ⟨_, rfl, .refl _ _, h, by simp⟩
        | cons e l ihl =>
          obtain ⟨v, s⟩ := e
          intro σ1 hl h
          have he := hl (v, s) (by simp)
          obtain ⟨σ2, e2, a2, c2, s2⟩ := ih _ he nxt σ1 (hdom _ he) h
          obtain ⟨σ3, e3, a3, c3, s3⟩ := ihl ⟨σ2.visited, σ2.out ++ [.arc (name addr (.flat x arcs)) (name addr s) v]⟩
            (fun e he => hl e (by simp [he])) c2
          refine ⟨σ3, ?_, ?_, c3, ?_⟩
          · rw [dotF]
            dsimp only at e2
            rw [e2, Option.bind_some, e3]
          · have := ((a2.mono fun a o' h => ⟨_, he, h⟩).trans (DAdds.line _ σ2
              [.arc (name addr (.flat x arcs)) (name addr s) v])).trans a3
            simpa using this
          · intro e' he'
            rw [List.mem_cons] at he'
            rcases he' with rfl | he'
            · exact a3.subset _ s2
            · exact s3 e' he'
      obtain ⟨σ', e1, a1, c1, s1⟩ := loop arcs ⟨σ.visited, σ.out ++ [.vertex (name addr (.flat x arcs)) id]⟩ (fun _ h => h) hc
      refine ⟨_, by rw [e1]; rfl, ?_, ?_, List.mem_cons_self⟩
      · have := (DAdds.line (addr := addr) _ σ [.vertex (name addr (.flat x arcs)) id]).trans a1
        refine this.node hm ?_ .here rfl
        rintro s o ⟨arc, ha, ho⟩
        refine ⟨.flat ha ho, ?_⟩
        rintro rfl
        have := ho.sub.sizeOf_le
        have := sizeOf_flat_lt (x := x) ha
        omega
      · intro v hv a ha
        simp only [List.mem_cons] at hv ⊢
        rcases hv with rfl | hv
        · cases ha with
          | refl => exact .inl rfl
          | flat _ _ arc he hs => exact .inr (c1 _ (s1 arc he) a hs)
        · exact .inr (c1 v hv a ha)
  | hh x arcs ih =>
    intro o σ hd hc
    obtain ⟨id, nst, nxt, rfl, _, _, _, hdv, hds⟩ := dom_hier hd
    rw [dotV]
    by_cases hm : SDD.hier x arcs ∈ σ.visited
    · rw [if_pos hm]
      exact ⟨_, rfl, .refl _ _, hc, hm⟩
    · rw [if_neg hm]
      have loop : ∀ (l : List (SDD V × SDD V)) (σ1 : St V I), (∀ e ∈ l, e ∈ arcs) → DClosed σ1.visited →
          ∃ σ', dotH addr (.hier x arcs) nst nxt l σ1 = some σ' ∧
            DAdds addr (fun a o' => ∃ arc ∈ arcs, Occ nxt arc.2 a o' ∨ Occ nst arc.1 a o')
              (l.flatMap fun a => [.ghost (ghostName addr (.hier x arcs) (name addr a.2)),
                .toGhost (name addr (.hier x arcs)) (ghostName addr (.hier x arcs) (name addr a.2)),
                .fromGhost (ghostName addr (.hier x arcs) (name addr a.2)) (name addr a.2),
                .nested (ghostName addr (.hier x arcs) (name addr a.2)) (name addr a.1)]) σ1 σ' ∧
            DClosed σ'.visited ∧ ∀ e ∈ l, e.1 ∈ σ'.visited ∧ e.2 ∈ σ'.visited := by
        intro l
        induction l with
        | nil => intro σ1 _ h; exact ⟨_, rfl, .refl _ _, h, by simp⟩
        | cons e l ihl =>
          obtain ⟨v, s⟩ := e
          intro σ1 hl h
          have he := hl (v, s) (by simp)
          obtain ⟨σ2, e2, a2, c2, s2⟩ := (ih _ he).2 nxt σ1 (hds _ he) h
          obtain ⟨σ4, e4, a4, c4, s4⟩ := (ih _ he).1 nst σ2 (hdv _ he) c2
          obtain ⟨σ3, e3, a3, c3, s3⟩ := ihl ⟨σ4.visited, σ4.out ++
              [.ghost (ghostName addr (.hier x arcs) (name addr s)),
               .toGhost (name addr (.hier x arcs)) (ghostName addr (.hier x arcs) (name addr s)),
               .fromGhost (ghostName addr (.hier x arcs) (name addr s)) (name addr s),
               .nested (ghostName addr (.hier x arcs) (name addr s)) (name addr v)]⟩
            (fun e he => hl e (by simp [he])) c4
          refine ⟨σ3, ?_, ?_, c3, ?_⟩
          · rw [dotH]
            dsimp only at e2 e4
            rw [e2, Option.bind_some, e4, Option.bind_some, e3]
          · have := (((a2.mono fun a o' h => ⟨_, he, .inl h⟩).trans (a4.mono fun a o' h => ⟨_, he, .inr h⟩)).trans
              (DAdds.line _ σ4 _)).trans a3
            simpa using this
          · intro e' he'
            rw [List.mem_cons] at he'
            rcases he' with rfl | he'
            · exact ⟨a3.subset _ s4, a3.subset _ (a4.subset _ s2)⟩
            · exact s3 e' he'
      obtain ⟨σ', e1, a1, c1, s1⟩ := loop arcs ⟨σ.visited, σ.out ++ [.vertex (name addr (.hier x arcs)) id]⟩ (fun _ h => h) hc
      refine ⟨_, by rw [e1]; rfl, ?_, ?_, List.mem_cons_self⟩
      · have := (DAdds.line (addr := addr) _ σ [.vertex (name addr (.hier x arcs)) id]).trans a1
        refine this.node hm ?_ .here rfl
        rintro s o ⟨arc, ha, ho | ho⟩
        · refine ⟨.hierSucc ha ho, ?_⟩
          rintro rfl
          have := ho.sub.sizeOf_le
          have := sizeOf_hier_lt (x := x) ha
          omega
        · refine ⟨.hierVal ha ho, ?_⟩
          rintro rfl
          have := ho.sub.sizeOf_le
          have := sizeOf_hier_lt (x := x) ha
          omega
      · intro v hv a ha
        simp only [List.mem_cons] at hv ⊢
        rcases hv with rfl | hv
        · cases ha with
          | refl => exact .inl rfl
          | hierVal _ _ arc he hs => exact .inr (c1 _ (s1 arc he).1 a hs)
          | hierSucc _ _ arc he hs => exact .inr (c1 _ (s1 arc he).2 a hs)
        · exact .inr (c1 v hv a ha)

/-- The names declared for an SDD. (Specification or proof device, not part of the code.) -/
def names (addr : SDD V → List Char) : SDD V → List (List Char)
  | .hier x arcs => name addr (.hier x arcs) :: arcs.map fun a => ghostName addr (.hier x arcs) (name addr a.2)
  | n => [name addr n]

theorem declared_block (addr : SDD V → List Char) (e : SDD V × OB I) :
    ((block addr e).filterMap Line.declared).Sublist (names addr e.1) := by
  obtain ⟨s, o⟩ := e
  cases s with
  | zero => simp [block, names, Line.declared]
  | one => simp [block, names, Line.declared]
  | flat x arcs =>
    cases o with
    | nil => simp [block, names]
    | node id nst nxt =>
      have : (arcs.map fun a => (Line.arc (name addr (.flat x arcs)) (name addr a.2) a.1 : Line V I)).filterMap
          Line.declared = [] := by
        rw [List.filterMap_eq_nil_iff]
        intro l hl
        rw [List.mem_map] at hl
        obtain ⟨a, _, rfl⟩ := hl
        rfl
      simp only [block, names, List.filterMap_cons, Line.declared]
      rw [this]
  | hier x arcs =>
    cases o with
    | nil => simp [block, names]
    | node id nst nxt =>
      have : ∀ l : List (SDD V × SDD V), (l.flatMap fun a =>
          [(Line.ghost (ghostName addr (.hier x arcs) (name addr a.2)) : Line V I),
           .toGhost (name addr (.hier x arcs)) (ghostName addr (.hier x arcs) (name addr a.2)),
           .fromGhost (ghostName addr (.hier x arcs) (name addr a.2)) (name addr a.2),
           .nested (ghostName addr (.hier x arcs) (name addr a.2)) (name addr a.1)]).filterMap Line.declared =
          l.map fun a => ghostName addr (.hier x arcs) (name addr a.2) := by
        intro l
        induction l with
        | nil => rfl
        | cons e l ih =>
          rw [List.flatMap_cons, List.filterMap_append, ih]
          simp [Line.declared]
      simp only [block, names, List.filterMap_cons, Line.declared]
      rw [this]

theorem split_n {a b c d : List Char} (ha : 'n' ∉ a) (hc : 'n' ∉ c) (h : a ++ 'n' :: b = c ++ 'n' :: d) : a = c ∧ b = d := by
  induction a generalizing c with
  | nil =>
    cases c with
    | nil => simpa using h
    | cons y c =>
      simp only [List.nil_append, List.cons_append, List.cons.injEq] at h
      exact absurd (h.1 ▸ List.mem_cons_self) hc
  | cons x a ih =>
    cases c with
    | nil =>
      simp only [List.nil_append, List.cons_append, List.cons.injEq] at h
      exact absurd (h.1 ▸ List.mem_cons_self) ha
    | cons y c =>
      simp only [List.cons_append, List.cons.injEq] at h
      obtain ⟨h1, h2⟩ := ih (fun h => ha (by simp [h])) (fun h => hc (by simp [h])) h.2
      exact ⟨by rw [h.1, h1], h2⟩

/-- The export of an SDD. -/
theorem dot_spec {C : Cfg V E} (hC : C.Lawful) {x : SDD V} {o : OB I} (hd : Dom C o.ty x)
    (hinj : ∀ a b, Sub a x → Sub b x → addr a = addr b → a = b) (hn : ∀ a, 'n' ∉ addr a) :
    ∃ out, dot addr x o = some out ∧ ∃ l : List (SDD V × OB I), (l.map Prod.fst).Nodup ∧
      (∀ a, a ∈ l.map Prod.fst ↔ Sub a x) ∧ (∀ e ∈ l, Occ o x e.1 e.2) ∧ out.Perm (l.flatMap (block addr)) ∧
      (out.filterMap Line.declared).Nodup := by
  obtain ⟨σ', e, ⟨l, v, d, m, lines, ho, hp⟩, hc, hs⟩ := dotV_ok (addr := addr) (C := C) x o ⟨[], []⟩ hd
    (by intro v hv; simp at hv)
  simp only [List.append_nil, List.nil_append] at v ho hp
  have hsub : ∀ a, a ∈ l.map Prod.fst ↔ Sub a x := by
    intro a
    constructor
    · intro h
      rw [List.mem_map] at h
      obtain ⟨e, he, rfl⟩ := h
      exact (m e he).2.sub
    · intro h
      rw [← v]
      exact hc x hs a h
  refine ⟨σ'.out, by unfold dot; rw [e]; rfl, l, d, hsub, fun e he => (m e he).2, ho ▸ hp, ?_⟩
  rw [ho]
  refine ((hp.filterMap _).nodup_iff).2 ?_
  rw [List.filterMap_flatMap, List.nodup_flatMap]
  have memn : ∀ (a : SDD V) (c : List Char), c ∈ names addr a → c = name addr a ∨
      ∃ y arcs arc, a = .hier y arcs ∧ arc ∈ arcs ∧ c = ghostName addr a (name addr arc.2) := by
    intro a c h
    cases a with
    | hier y arcs =>
      simp only [names, List.mem_cons, List.mem_map] at h
      rcases h with h | ⟨arc, ha, h⟩
      · exact .inl h
      · exact .inr ⟨y, arcs, arc, rfl, ha, h.symm⟩
    | _ => simp only [names, List.mem_singleton] at h; exact .inl h
  constructor
  · intro e he
    refine (declared_block addr e).nodup ?_
    have hsx := (m e he).2.sub
    have hde := (m e he).2.dom hd
    cases h : e.1 with
    | zero => simp [names]
    | one => simp [names]
    | flat y arcs => simp [names]
    | hier y arcs =>
      rw [h] at hsx hde
      simp only [names, List.nodup_cons, List.mem_map, not_exists, not_and]
      refine ⟨fun arc _ hh => by simp [name, ghostName] at hh, ?_⟩
      obtain ⟨_, _, _, _, _, _, hg, _, _⟩ := dom_hier hde
      rw [List.nodup_iff_pairwise_ne, List.pairwise_map]
      refine hg.sorted.imp_of_mem ?_
      intro a b ha hb hlt hh
      simp only [ghostName, List.cons.injEq, true_and, List.append_cancel_left_eq, name] at hh
      have := hinj _ _ ((Sub.hierSucc y arcs a ha .refl).trans hsx) ((Sub.hierSucc y arcs b hb .refl).trans hsx) hh
      rw [this, hC.lt_st.irrefl] at hlt
      cases hlt
  · rw [List.nodup_iff_pairwise_ne, List.pairwise_map] at d
    refine d.imp_of_mem ?_
    intro e f he hf hne c hce hcf
    have h1 := memn _ _ ((declared_block addr e).subset hce)
    have h2 := memn _ _ ((declared_block addr f).subset hcf)
    have hse := (m e he).2.sub
    have hsf := (m f hf).2.sub
    apply hne
    rcases h1 with h1 | ⟨y, arcs, arc, h1, ha, h1'⟩ <;> rcases h2 with h2 | ⟨y', arcs', arc', h2, ha', h2'⟩
    · rw [h1] at h2
      simp only [name, List.cons.injEq, true_and] at h2
      exact hinj _ _ hse hsf h2
    · rw [h1] at h2'
      simp [name, ghostName] at h2'
    · rw [h2] at h1'
      simp [name, ghostName] at h1'
    · rw [h1'] at h2'
      simp only [ghostName, List.cons.injEq, true_and, name] at h2'
      exact hinj _ _ hse hsf (split_n (hn _) (hn _) h2').1

end
end Dot
end Verif
