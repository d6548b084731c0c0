import Verif.Hom.Syntax
/-!
# Export of homomorphisms

`/repo/sdd/tools/dot/homomorphism.hh` (DOT format) and `/repo/sdd/tools/js.hh` (JSON).
-/

set_option autoImplicit false
set_option linter.unusedSectionVars false

namespace Verif
namespace HExp
section
variable {V I U : Type} [DecidableEq V] [DecidableEq I] [DecidableEq U]

/-- The decimal text of an unsigned integer, as written by `operator<<` and by `std::to_string`. (Standard library.) -/
def dec (n : Nat) : List Char := Nat.toDigits 10 n

theorem dec_inj {a b : Nat} (h : dec a = dec b) : a = b := by
  have := congrArg (fun l => Nat.ofDigitChars 10 l 0) h
  simpa [dec, Nat.ofDigitChars_ten_toDigits] using this

/-- A line of the text: `name [label="…"];` (lines 41, 56, 69, 79, 89, 102, 129, 145), or `name -> name [label="…"];` (lines 43, 45,
91, 106, 112, 117, 148, 151, 154), without label for the operands of a fixpoint and of a sum (lines 58, 133). Spaces and semicolons,
which vary from one line to another, are not kept. (`/repo/sdd/tools/dot/homomorphism.hh`.) -/
inductive Line : Type where
  | vertex (name label : List Char)
  | edge (src dst : List Char) (label : Option (List Char))
deriving DecidableEq

/-- The state of the visitor, `/repo/sdd/tools/dot/homomorphism.hh:20-33`: the visited addresses (homomorphisms are unified: they are
terms), the static counter `i` of line 78, and the lines written. -/
structure St (V I U : Type) where
  visited : List (Hom V I U)
  next : Nat
  out : List Line

variable (addr : Hom V I U → List Char) (ft : U → List Char)

/-- `node("h", &h)`, `/repo/sdd/tools/dot/homomorphism.hh:178-186`; `addr` is the text of an address. -/
def name (h : Hom V I U) : List Char := 'h' :: addr h

/-- The name of the vertex of an identity, `/repo/sdd/tools/dot/homomorphism.hh:79-80`. -/
def idName (i : Nat) : List Char := 'i' :: 'd' :: dec i

/-- `operator<<` of a function, `/repo/sdd/hom/function.hh:318-325`; `ft` is the text of the user's function (186-206). -/
def fnText (x : Nat) (u : U) : List Char := "fun(".toList ++ dec x ++ ", ".toList ++ ft u ++ ")".toList

/-- `visited` when it inserts, and the first line of a handler, for instance `/repo/sdd/tools/dot/homomorphism.hh:39-41`. -/
def start (h : Hom V I U) (lab : List Char) (σ : St V I U) : St V I U :=
  ⟨h :: σ.visited, σ.next, σ.out ++ [.vertex (name addr h) lab]⟩

/-- The line written after the visit of an operand, for instance `/repo/sdd/tools/dot/homomorphism.hh:43`. -/
def link (h : Hom V I U) (lab : Option (List Char)) (r : List Char × St V I U) : St V I U :=
  ⟨r.2.visited, r.2.next, r.2.out ++ [.edge (name addr h) r.1 lab]⟩

mutual
/-- `hom_to_dot_visitor`, `/repo/sdd/tools/dot/homomorphism.hh:35-165`: the name returned and the new state. -/
def hv : Hom V I U → St V I U → List Char × St V I U
  | .comp l r, σ =>
    if .comp l r ∈ σ.visited then (name addr (.comp l r), σ)
    else (name addr (.comp l r),
      link addr (.comp l r) (some ['r']) (hv r
        (link addr (.comp l r) (some ['l']) (hv l (start addr (.comp l r) ['o'] σ)))))
  | .fix h, σ =>
    if .fix h ∈ σ.visited then (name addr (.fix h), σ)
    else (name addr (.fix h), link addr (.fix h) none (hv h (start addr (.fix h) ['*'] σ)))
  | .fn x u, σ =>
    if .fn x u ∈ σ.visited then (name addr (.fn x u), σ)
    else (name addr (.fn x u), start addr (.fn x u) (fnText ft x u) σ)
  | .id, σ => (idName σ.next, ⟨σ.visited, σ.next + 1, σ.out ++ [.vertex (idName σ.next) ['i', 'd']]⟩)
  | .loc x h, σ =>
    if .loc x h ∈ σ.visited then (name addr (.loc x h), σ)
    else (name addr (.loc x h), link addr (.loc x h) (some (dec x)) (hv h (start addr (.loc x h) ['@'] σ)))
  | .satFix x F G L, σ =>
    if .satFix x F G L ∈ σ.visited then (name addr (.satFix x F G L), σ)
    else
      let σ0 := start addr (.satFix x F G L) ['$', '*'] σ
      let σ1 := if F = .id then σ0 else link addr (.satFix x F G L) (some ['F']) (hv F σ0)
      let σ2 := hvG (.satFix x F G L) 0 G σ1
      (name addr (.satFix x F G L), if L = .id then σ2 else link addr (.satFix x F G L) (some ['L']) (hv L σ2))
  | .sum hs, σ =>
    if .sum hs ∈ σ.visited then (name addr (.sum hs), σ)
    else (name addr (.sum hs), hvS (.sum hs) hs (start addr (.sum hs) ['+'] σ))
  | .ite i t e, σ =>
    if .ite i t e ∈ σ.visited then (name addr (.ite i t e), σ)
    else (name addr (.ite i t e),
      link addr (.ite i t e) (some ['e', 'l', 's', 'e']) (hv e
        (link addr (.ite i t e) (some ['t', 'h', 'e', 'n']) (hv t
          (link addr (.ite i t e) (some ['i', 'f']) (hv i (start addr (.ite i t e) ['I', 'T', 'E'] σ)))))))
  | h, σ => (name addr h, σ)
/-- The loop on the parts `g`, `/repo/sdd/tools/dot/homomorphism.hh:108-113`. -/
def hvG (h : Hom V I U) : Nat → List (Hom V I U) → St V I U → St V I U
  | _, [], σ => σ
  | i, g :: gs, σ => hvG h (i + 1) gs (link addr h (some ('g' :: dec i)) (hv g σ))
/-- The loop on the operands of a sum, `/repo/sdd/tools/dot/homomorphism.hh:130-134`. -/
def hvS (h : Hom V I U) : List (Hom V I U) → St V I U → St V I U
  | [], σ => σ
  | g :: gs, σ => hvS h gs (link addr h none (hv g σ))
end

/-- `tools::dot`, `/repo/sdd/tools/dot/homomorphism.hh:191-215` (without the first and last lines): the lines written and the value of
the static counter afterwards, which depends on the previous exports. -/
def dot (h : Hom V I U) (n0 : Nat) : List Line × Nat :=
  let σ := (hv addr ft h ⟨[], n0, []⟩).2
  (σ.out, σ.next)

/-! ## Specification of the DOT export -/

/-- The operands expected in a drawing, with the labels of the edges leading to them. The identities `F` and `L` of a saturation
fixpoint are not drawn. (Specification or proof device, not part of the code.) -/
def kids : Hom V I U → List (Option (List Char) × Hom V I U)
  | .comp l r => [(some ['l'], l), (some ['r'], r)]
  | .fix h => [(none, h)]
  | .loc x h => [(some (dec x), h)]
  | .satFix _ F G L =>
    (if F = .id then [] else [(some ['F'], F)]) ++ (G.zipIdx.map fun e => (some ('g' :: dec e.2), e.1)) ++
      (if L = .id then [] else [(some ['L'], L)])
  | .sum hs => hs.map fun h => (none, h)
  | .ite i t e => [(some ['i', 'f'], i), (some ['t', 'h', 'e', 'n'], t), (some ['e', 'l', 's', 'e'], e)]
  | _ => []

/-- The labels of the vertices; `none` for the kinds which are not drawn. (Specification or proof device, not part of the code.) -/
def label : Hom V I U → Option (List Char)
  | .comp _ _ => some ['o']
  | .fix _ => some ['*']
  | .fn x u => some (fnText ft x u)
  | .id => some ['i', 'd']
  | .loc _ _ => some ['@']
  | .satFix _ _ _ _ => some ['$', '*']
  | .sum _ => some ['+']
  | .ite _ _ _ => some ['I', 'T', 'E']
  | _ => none

/-- `Below h g`: `g` is reached from `h` by drawn operands. (Specification or proof device, not part of the code.) -/
inductive Below : Hom V I U → Hom V I U → Prop where
  | refl {h : Hom V I U} : Below h h
  | step {h g : Hom V I U} {k : Option (List Char) × Hom V I U} : k ∈ kids h → Below k.2 g → Below h g

/-- The edges of `src`, `ns` being the numbers given to its operands which are the identity: each one has its own vertex.
(Specification or proof device, not part of the code.) -/
def kidLines (src : List Char) : List (Option (List Char) × Hom V I U) → List Nat → List Line
  | [], _ => []
  | (lab, .id) :: ks, n :: ns =>
    .vertex (idName n) ['i', 'd'] :: .edge src (idName n) lab :: kidLines src ks ns
  | (_, .id) :: ks, [] => kidLines src ks []
  | (lab, k) :: ks, ns => .edge src (name addr k) lab :: kidLines src ks ns

/-- The lines of a homomorphism: its vertex, and its edges. (Specification or proof device, not part of the code.) -/
def block (e : Hom V I U × List Nat) : List Line :=
  match label ft e.1 with
  | some lab => .vertex (name addr e.1) lab :: kidLines addr (name addr e.1) (kids e.1) e.2
  | none => []

/-- The number of operands which are the identity. (Specification or proof device, not part of the code.) -/
def idKids (ks : List (Option (List Char) × Hom V I U)) : Nat := ks.countP fun k => decide (k.2 = .id)

/-- The name declared by a line. (Specification or proof device, not part of the code.) -/
def Line.declared : Line → Option (List Char)
  | .vertex n _ => some n
  | .edge _ _ _ => none

/-! ## The visitor, seen through the operands -/

variable {addr ft}

theorem kids_ind {P : Hom V I U → Prop} (step : ∀ h, (∀ k ∈ kids h, P k.2) → P h) : ∀ h, P h := by
  intro h
  induction h using Hom.induct with
  | id => exact step _ (by simp [kids])
  | comp l r h1 h2 => exact step _ (by simp [kids, h1, h2])
  | consF o v n h => exact step _ (by simp [kids])
  | consH o v n h => exact step _ (by simp [kids])
  | const s => exact step _ (by simp [kids])
  | fix h ih => exact step _ (by simp [kids, ih])
  | fn x u => exact step _ (by simp [kids])
  | ite i t e h1 h2 h3 => exact step _ (by simp [kids, h1, h2, h3])
  | ind u => exact step _ (by simp [kids])
  | inter hs ih => exact step _ (by simp [kids])
  | loc x h ih => exact step _ (by simp [kids, ih])
  | satFix x F G L h1 h2 h3 =>
    refine step _ ?_
    intro k hk
    simp only [kids, List.mem_append, List.mem_map] at hk
    rcases hk with (hk | ⟨e, he, rfl⟩) | hk
    · split at hk
      · simp at hk
      · simp at hk; rw [hk]; exact h1
    · exact h2 _ (List.fst_mem_of_mem_zipIdx he)
    · split at hk
      · simp at hk
      · simp at hk; rw [hk]; exact h3
  | satInter x F G L h1 h2 h3 => exact step _ (by simp [kids])
  | satSum x F G L h1 h2 h3 => exact step _ (by simp [kids])
  | sum hs ih =>
    refine step _ ?_
    intro k hk
    simp only [kids, List.mem_map] at hk
    obtain ⟨h, hh, rfl⟩ := hk
    exact ih h hh

/-- The visit of operands in turn. (The loops of `/repo/sdd/tools/dot/homomorphism.hh`, lines 56-160.) -/
def hvK (addr : Hom V I U → List Char) (ft : U → List Char) (h : Hom V I U) :
    List (Option (List Char) × Hom V I U) → St V I U → St V I U
  | [], σ => σ
  | (lab, k) :: ks, σ => hvK addr ft h ks (link addr h lab (hv addr ft k σ))

theorem hvK_append (h : Hom V I U) (a b : List (Option (List Char) × Hom V I U)) (σ : St V I U) :
    hvK addr ft h (a ++ b) σ = hvK addr ft h b (hvK addr ft h a σ) := by
  induction a generalizing σ with
  | nil => rfl
  | cons e a ih => obtain ⟨lab, k⟩ := e; simp only [List.cons_append, hvK, ih]

theorem hvS_eq (h : Hom V I U) (hs : List (Hom V I U)) (σ : St V I U) :
    hvS addr ft h hs σ = hvK addr ft h (hs.map fun h => (none, h)) σ := by
  induction hs generalizing σ with
  | nil => simp [hvS, hvK]
  | cons g gs ih => simp only [hvS, List.map_cons, hvK, ih]

theorem hvG_eq (h : Hom V I U) (hs : List (Hom V I U)) (i : Nat) (σ : St V I U) :
    hvG addr ft h i hs σ = hvK addr ft h ((hs.zipIdx i).map fun e => (some ('g' :: dec e.2), e.1)) σ := by
  induction hs generalizing σ i with
  | nil => simp [hvG, hvK]
  | cons g gs ih => simp only [hvG, List.zipIdx_cons, List.map_cons, hvK, ih]

theorem hv_eq {h : Hom V I U} (hid : h ≠ .id) {lab : List Char} (hl : label ft h = some lab) (σ : St V I U) :
    hv addr ft h σ = if h ∈ σ.visited then (name addr h, σ)
      else (name addr h, hvK addr ft h (kids h) (start addr h lab σ)) := by
  cases h <;> simp only [label, Option.some.injEq, reduceCtorEq] at hl <;>
    first
    | exact absurd rfl hid
    | (subst hl; simp only [hv, kids, hvK])
  · rename_i x F G L
    congr 2
    rw [hvK_append, hvK_append, hvG_eq]
    by_cases hF : F = .id <;> by_cases hL : L = .id <;> simp only [hF, hL, if_true, if_false, hvK]
  · rw [hvS_eq]

theorem hv_undrawn {h : Hom V I U} (hl : label ft h = none) (σ : St V I U) : hv addr ft h σ = (name addr h, σ) := by
  cases h <;> simp only [label, reduceCtorEq] at hl <;> simp [hv]

/-! ## The invariant -/

/-- What a part of the visit adds: new homomorphisms with their lines, and further lines and numbers.
(Specification or proof device, not part of the code.) -/
def Adds (addr : Hom V I U → List Char) (ft : U → List Char) (Q : Hom V I U → Prop) (extra : List Line) (nums : List Nat)
    (σ σ' : St V I U) : Prop :=
  ∃ new : List (Hom V I U × List Nat), σ'.visited = new.map Prod.fst ++ σ.visited ∧ (new.map Prod.fst).Nodup ∧
    (∀ e ∈ new, e.1 ∉ σ.visited ∧ Q e.1 ∧ e.1 ≠ .id ∧ (label ft e.1).isSome ∧ e.2.length = idKids (kids e.1)) ∧
    (∃ lines, σ'.out = σ.out ++ lines ∧ lines.Perm (new.flatMap (block addr ft) ++ extra)) ∧
    ∃ c, σ'.next = σ.next + c ∧ (new.flatMap Prod.snd ++ nums).Perm (List.range' σ.next c)

theorem Adds.refl (Q : Hom V I U → Prop) (σ : St V I U) : Adds addr ft Q [] [] σ σ :=
  ⟨[], by simp, by simp, by simp, ⟨[], by simp, by simp⟩, 0, by simp, by simp⟩

theorem perm_shuffle {α : Type} {a b a1 b1 a2 b2 : List α} (h1 : a.Perm (a1 ++ a2)) (h2 : b.Perm (b1 ++ b2)) :
    (a ++ b).Perm ((b1 ++ a1) ++ (a2 ++ b2)) := by
  refine (h1.append h2).trans ?_
  rw [List.append_assoc, List.append_assoc]
  refine List.Perm.trans ?_ (List.perm_append_comm_assoc _ _ _)
  refine List.Perm.append_left _ ?_
  rw [← List.append_assoc]
  refine (List.perm_append_comm.append_right _).trans ?_
  rw [List.append_assoc]

theorem Adds.trans {Q : Hom V I U → Prop} {a b c : St V I U} {e1 e2 : List Line} {n1 n2 : List Nat}
    (h1 : Adds addr ft Q e1 n1 a b) (h2 : Adds addr ft Q e2 n2 b c) : Adds addr ft Q (e1 ++ e2) (n1 ++ n2) a c := by
  obtain ⟨w1, v1, d1, m1, ⟨l1, o1, p1⟩, c1, x1, y1⟩ := h1
  obtain ⟨w2, v2, d2, m2, ⟨l2, o2, p2⟩, c2, x2, y2⟩ := h2
  refine ⟨w2 ++ w1, by rw [v2, v1]; simp, ?_, ?_, ⟨l1 ++ l2, by rw [o2, o1]; simp, ?_⟩, c1 + c2, by omega, ?_⟩
  · rw [List.map_append, List.nodup_append]
    refine ⟨d2, d1, ?_⟩
    intro x hx y hy e
    rw [List.mem_map] at hx
    obtain ⟨z, hz, rfl⟩ := hx
    exact (m2 z hz).1 (by rw [v1, e]; simp only [List.mem_append]; exact .inl hy)
  · intro x hx
    rw [List.mem_append] at hx
    rcases hx with hx | hx
    · exact ⟨fun h => (m2 x hx).1 (by rw [v1]; simp [h]), (m2 x hx).2⟩
    · exact m1 x hx
  · rw [List.flatMap_append]
    exact perm_shuffle p1 p2
  · rw [List.flatMap_append]
    have := perm_shuffle y1.symm y2.symm
    rw [x1, List.range'_append_1] at this
    exact this.symm

theorem Adds.mono {Q Q' : Hom V I U → Prop} {a b : St V I U} {ex : List Line} {ns : List Nat} (h : Adds addr ft Q ex ns a b)
    (hQ : ∀ g, Q g → Q' g) : Adds addr ft Q' ex ns a b := by
  obtain ⟨w, v, d, m, r⟩ := h
  exact ⟨w, v, d, fun e he => ⟨(m e he).1, hQ _ (m e he).2.1, (m e he).2.2⟩, r⟩

theorem Adds.subset {Q : Hom V I U → Prop} {a b : St V I U} {ex : List Line} {ns : List Nat} (h : Adds addr ft Q ex ns a b) :
    ∀ g ∈ a.visited, g ∈ b.visited := by
  obtain ⟨w, v, _⟩ := h
  intro s hs; rw [v]; simp [hs]

/-- Writing the edge to an operand which is not the identity. -/
theorem Adds.link (Q : Hom V I U → Prop) (h : Hom V I U) (lab : Option (List Char)) (n : List Char) (σ : St V I U) :
    Adds addr ft Q [.edge (name addr h) n lab] [] σ (link addr h lab (n, σ)) :=
  ⟨[], by simp [HExp.link], by simp, by simp, ⟨_, rfl, by simp⟩, 0, by simp [HExp.link], by simp⟩

/-- The visit of the identity, and the edge to it. -/
theorem Adds.idKid (Q : Hom V I U → Prop) (h : Hom V I U) (lab : Option (List Char)) (σ : St V I U) :
    Adds addr ft Q [.vertex (idName σ.next) ['i', 'd'], .edge (name addr h) (idName σ.next) lab] [σ.next] σ
      (HExp.link addr h lab (hv addr ft .id σ)) :=
  ⟨[], by simp [HExp.link, hv], by simp, by simp, ⟨_, by simp only [HExp.link, hv, List.append_assoc]; rfl, by simp⟩, 1,
    by simp [HExp.link, hv], by simp⟩

/-- The end of the visit of a homomorphism. -/
theorem Adds.node {Q Q' : Hom V I U → Prop} {a b : St V I U} {ns : List Nat} {h : Hom V I U} {lab : List Char}
    (hl : label ft h = some lab) (hid : h ≠ .id)
    (H : Adds addr ft Q (kidLines addr (name addr h) (kids h) ns) ns (start addr h lab a) b) (hn : h ∉ a.visited)
    (hQ : ∀ g, Q g → Q' g) (hq : Q' h) (hc : ns.length = idKids (kids h)) : Adds addr ft Q' [] [] a b := by
  obtain ⟨w, v, d, m, ⟨l, o, p⟩, c, x, y⟩ := H
  refine ⟨w ++ [(h, ns)], by simp [v, start], ?_, ?_, ⟨.vertex (name addr h) lab :: l, by simp [o, start], ?_⟩, c, x, ?_⟩
  · rw [List.map_append, List.nodup_append]
    refine ⟨d, by simp, ?_⟩
    intro g hg g' hg' e
    simp only [List.map_cons, List.map_nil, List.mem_singleton] at hg'
    rw [List.mem_map] at hg
    obtain ⟨z, hz, rfl⟩ := hg
    exact (m z hz).1 (by simp [start, e, hg'])
  · intro e he
    rw [List.mem_append] at he
    rcases he with he | he
    · obtain ⟨h1, h2, h3⟩ := m e he
      exact ⟨fun h => h1 (by simp [start, h]), hQ _ h2, h3⟩
    · simp only [List.mem_singleton] at he
      subst he
      exact ⟨hn, hq, hid, by simp [hl], hc⟩
  · rw [List.flatMap_append, List.append_nil]
    simp only [List.flatMap_cons, List.flatMap_nil, List.append_nil, block, hl]
    exact (p.cons _).trans List.perm_middle.symm
  · rw [List.flatMap_append, List.append_nil]
    simpa [start] using y

/-- The drawn operands of the visited homomorphisms are visited, but for the homomorphisms being visited.
(Specification or proof device, not part of the code.) -/
def Closed (ft : U → List Char) (P : Hom V I U → Prop) (vis : List (Hom V I U)) : Prop :=
  ∀ v ∈ vis, ¬ P v → ∀ k ∈ kids v, k.2 ≠ .id → (label ft k.2).isSome → k.2 ∈ vis

theorem hv_ok (h : Hom V I U) : ∀ (P : Hom V I U → Prop) (σ : St V I U), h ≠ .id → Closed ft P σ.visited →
    (hv addr ft h σ).1 = name addr h ∧ Adds addr ft (Below h) [] [] σ (hv addr ft h σ).2 ∧
      Closed ft P (hv addr ft h σ).2.visited ∧ ((label ft h).isSome → h ∈ (hv addr ft h σ).2.visited) := by
  induction h using kids_ind with
  | step h ih =>
    intro P σ hid hc
    cases hl : label ft h with
    | none => rw [hv_undrawn hl]; exact ⟨rfl, .refl _ _, hc, by simp⟩
    | some lab =>
      rw [hv_eq hid hl]
      by_cases hm : h ∈ σ.visited
      · rw [if_pos hm]; exact ⟨rfl, .refl _ _, hc, fun _ => hm⟩
      · rw [if_neg hm]
        have loop : ∀ (ks : List (Option (List Char) × Hom V I U)) (σ1 : St V I U), (∀ k ∈ ks, k ∈ kids h) →
            Closed ft (fun g => P g ∨ g = h) σ1.visited →
            ∃ ns, ns.length = idKids ks ∧
              Adds addr ft (fun g => ∃ k ∈ kids h, Below k.2 g) (kidLines addr (name addr h) ks ns) ns σ1 (hvK addr ft h ks σ1) ∧
              Closed ft (fun g => P g ∨ g = h) (hvK addr ft h ks σ1).visited ∧
              ∀ k ∈ ks, k.2 ≠ .id → (label ft k.2).isSome → k.2 ∈ (hvK addr ft h ks σ1).visited := by
          intro ks
          induction ks with
          | nil => intro σ1 _ hc1; exact ⟨[], rfl, .refl _ _, hc1, by simp⟩
          | cons e ks ihk =>
            obtain ⟨el, k⟩ := e
            intro σ1 hk hc1
            have hke := hk (el, k) (by simp)
            by_cases hki : k = .id
            · subst hki
              obtain ⟨ns, h1, h2, h3, h4⟩ := ihk (link addr h el (hv addr ft .id σ1)) (fun k hk' => hk k (by simp [hk']))
                (by simpa [link, hv] using hc1)
              refine ⟨σ1.next :: ns, by simp [idKids, h1], ?_, h3, ?_⟩
              · exact (Adds.idKid _ h el σ1).trans h2
              · intro k' hk' hi' hd'
                rw [List.mem_cons] at hk'
                rcases hk' with rfl | hk'
                · exact absurd rfl hi'
                · exact h4 k' hk' hi' hd'
            · obtain ⟨e1, a1, c1, m1⟩ := ih _ hke (fun g => P g ∨ g = h) σ1 hki hc1
              dsimp only at e1 a1 c1 m1
              obtain ⟨ns, h1, h2, h3, h4⟩ := ihk (link addr h el (hv addr ft k σ1)) (fun k hk' => hk k (by simp [hk'])) c1
              have hl2 : link addr h el (hv addr ft k σ1) = link addr h el (name addr k, (hv addr ft k σ1).2) := by
                rw [← e1]
              refine ⟨ns, by rw [h1]; simp [idKids, hki], ?_, h3, ?_⟩
              · have := ((a1.mono fun g hg => (⟨_, hke, hg⟩ : ∃ k ∈ kids h, Below k.2 g)).trans
                  (Adds.link _ h el (name addr k) _)).trans (hl2 ▸ h2)
                rw [← hl2] at this
                have hkl : kidLines addr (name addr h) ((el, k) :: ks) ns =
                    .edge (name addr h) (name addr k) el :: kidLines addr (name addr h) ks ns := by
                  cases k <;> first | exact absurd rfl hki | rfl
                rw [hkl]
                exact this
              · intro k' hk' hi' hd'
                rw [List.mem_cons] at hk'
                rcases hk' with rfl | hk'
                · exact h2.subset _ (m1 hd')
                · exact h4 k' hk' hi' hd'
        obtain ⟨ns, h1, h2, h3, h4⟩ := loop (kids h) (start addr h lab σ) (fun _ h => h) (by
          intro v hv hp k hk hi hd
          simp only [start, List.mem_cons] at hv ⊢
          rcases hv with rfl | hv
          · exact absurd (.inr rfl) hp
          · exact .inr (hc v hv (fun h => hp (.inl h)) k hk hi hd))
        refine ⟨rfl, ?_, ?_, fun _ => h2.subset _ (by simp [start])⟩
        · exact h2.node hl hid hm (fun g ⟨k, hk, hb⟩ => .step hk hb) .refl h1
        · intro v hv hp k hk hi hd
          by_cases hvh : v = h
          · subst hvh; exact h4 k hk hi hd
          · exact h3 v hv (fun h => h.elim hp hvh) k hk hi hd

theorem Below.trans {a b c : Hom V I U} (h1 : Below a b) (h2 : Below b c) : Below a c := by
  induction h1 with
  | refl => exact h2
  | step hk _ ih => exact .step hk (ih h2)

/-- Below, the last step apart. -/
theorem Below.cases_last {a c : Hom V I U} (h : Below a c) :
    a = c ∨ ∃ b, Below a b ∧ ∃ k ∈ kids b, k.2 = c := by
  induction h with
  | refl => exact .inl rfl
  | step hk hb ih =>
    rcases ih with rfl | ⟨b, hb, r⟩
    · exact .inr ⟨_, .refl, _, hk, rfl⟩
    · exact .inr ⟨b, .step hk hb, r⟩

theorem undrawn_kids {h : Hom V I U} (hl : label ft h = none) : kids h = [] := by
  cases h <;> simp only [label, reduceCtorEq] at hl <;> rfl

/-- What is exported. -/
theorem dot_ok (h : Hom V I U) (n0 : Nat) (hid : h ≠ .id) :
    ∃ l : List (Hom V I U × List Nat), (l.map Prod.fst).Nodup ∧
      (∀ g, g ∈ l.map Prod.fst ↔ Below h g ∧ g ≠ .id ∧ (label ft g).isSome) ∧
      (∀ e ∈ l, e.2.length = idKids (kids e.1)) ∧ (dot addr ft h n0).1.Perm (l.flatMap (block addr ft)) ∧
      ∃ c, (dot addr ft h n0).2 = n0 + c ∧ (l.flatMap Prod.snd).Perm (List.range' n0 c) := by
  obtain ⟨_, ⟨l, v, d, m, ⟨ls, o, p⟩, c, x, y⟩, hc, hm⟩ := hv_ok (addr := addr) (ft := ft) h (fun _ => False) ⟨[], n0, []⟩ hid
    (by intro v hv; simp at hv)
  simp only [List.append_nil] at v p y
  refine ⟨l, d, ?_, fun e he => (m e he).2.2.2.2, ?_, c, x, y⟩
  · intro g
    constructor
    · intro hg
      rw [List.mem_map] at hg
      obtain ⟨e, he, rfl⟩ := hg
      exact ⟨(m e he).2.1, (m e he).2.2.1, (m e he).2.2.2.1⟩
    · rintro ⟨hb, hi, hs⟩
      rw [← v]
      have key : ∀ a b : Hom V I U, Below a b → a ∈ (hv addr ft h ⟨[], n0, []⟩).2.visited → b ≠ .id → (label ft b).isSome →
          b ∈ (hv addr ft h ⟨[], n0, []⟩).2.visited := by
        intro a b hab
        induction hab with
        | refl => exact fun h _ _ => h
        | step hk hb ih =>
          intro ha hi hs
          rename_i a b k
          by_cases hki : k.2 = .id
          · rw [hki] at hb
            cases hb with
            | refl => exact absurd rfl hi
            | step hk' _ => simp [kids] at hk'
          · by_cases hks : (label ft k.2).isSome
            · exact ih (hc _ ha (fun h => h) k hk hki hks) hi hs
            · have : label ft k.2 = none := by simpa using hks
              generalize hkk : k.2 = kk at *
              cases hb with
              | refl => exact absurd hs hks
              | step hk' _ => rw [undrawn_kids this] at hk'; simp at hk'
      by_cases hls : (label ft h).isSome
      · exact key h g hb (hm hls) hi hs
      · have : label ft h = none := by simpa using hls
        cases hb with
        | refl => exact absurd hs hls
        | step hk' _ => rw [undrawn_kids this] at hk'; simp at hk'
  · have : (dot addr ft h n0).1 = ls := by simpa [dot] using o
    rw [this]; exact p

/-! ## Names -/

theorem idName_ne_name (i : Nat) (g : Hom V I U) : idName i ≠ name addr g := by simp [idName, name]

theorem idName_inj {i j : Nat} (h : idName i = idName j) : i = j := by
  simp only [idName, List.cons.injEq, true_and] at h
  exact dec_inj h

/-- The names declared among the edges of a homomorphism. -/
theorem kidLines_declared (src : List Char) (ks : List (Option (List Char) × Hom V I U)) : ∀ ns : List Nat,
    ns.length = idKids ks → (kidLines addr src ks ns).filterMap Line.declared = ns.map idName := by
  induction ks with
  | nil => intro ns h; simp [idKids] at h; subst h; rfl
  | cons e ks ih =>
    obtain ⟨lab, k⟩ := e
    intro ns h
    by_cases hk : k = .id
    · subst hk
      cases ns with
      | nil => simp [idKids] at h
      | cons n ns =>
        simp only [kidLines, List.filterMap_cons, Line.declared, List.map_cons]
        rw [ih ns (by simpa [idKids] using h)]
    · have hkl : kidLines addr src ((lab, k) :: ks) ns = .edge src (name addr k) lab :: kidLines addr src ks ns := by
        cases k <;> first | exact absurd rfl hk | rfl
      rw [hkl, List.filterMap_cons]
      exact ih ns (by simpa [idKids, hk] using h)

theorem block_declared {e : Hom V I U × List Nat} (hs : (label ft e.1).isSome) (hl : e.2.length = idKids (kids e.1)) :
    (block addr ft e).filterMap Line.declared = name addr e.1 :: e.2.map idName := by
  obtain ⟨lab, h⟩ := Option.isSome_iff_exists.1 hs
  simp only [block, h, List.filterMap_cons, Line.declared]
  rw [kidLines_declared _ _ _ hl]

theorem blocks_declared {l : List (Hom V I U × List Nat)} (h : ∀ e ∈ l, (label ft e.1).isSome ∧ e.2.length = idKids (kids e.1)) :
    ((l.flatMap (block addr ft)).filterMap Line.declared).Perm
      ((l.map Prod.fst).map (name addr) ++ (l.flatMap Prod.snd).map idName) := by
  induction l with
  | nil => simp
  | cons e l ih =>
    have h1 := h e (by simp)
    rw [List.flatMap_cons, List.filterMap_append, block_declared h1.1 h1.2]
    simp only [List.map_cons, List.flatMap_cons, List.map_append, List.cons_append]
    refine List.Perm.cons _ ?_
    refine ((ih fun e he => h e (by simp [he])).append_left _).trans ?_
    exact List.perm_append_comm_assoc _ _ _

/-- Each name is declared once. -/
theorem dot_nodup (hinj : ∀ g g' : Hom V I U, addr g = addr g' → g = g') (h : Hom V I U) (n0 : Nat) :
    ((dot addr ft h n0).1.filterMap Line.declared).Nodup := by
  by_cases hid : h = .id
  · subst hid; simp [dot, hv, Line.declared]
  · obtain ⟨l, d, m, le, p, c, _, y⟩ := dot_ok (addr := addr) (ft := ft) h n0 hid
    refine ((p.filterMap _).trans (blocks_declared fun e he =>
      ⟨((m e.1).1 (List.mem_map_of_mem he)).2.2, le e he⟩)).nodup_iff.2 ?_
    rw [List.nodup_append]
    refine ⟨?_, ?_, ?_⟩
    · refine d.map ?_
      intro a b h
      simp only [name, List.cons.injEq, true_and] at h
      exact hinj _ _ h
    · exact (y.nodup_iff.2 List.nodup_range').map fun a b h => idName_inj h
    · intro a ha b hb e
      rw [List.mem_map] at ha hb
      obtain ⟨g, _, rfl⟩ := ha
      obtain ⟨i, _, rfl⟩ := hb
      exact idName_ne_name _ _ e.symm

/-- The ends of the edges of a homomorphism. -/
theorem kidLines_edge {src s t : List Char} {lab : Option (List Char)} {ks : List (Option (List Char) × Hom V I U)} :
    ∀ {ns : List Nat}, .edge s t lab ∈ kidLines addr src ks ns →
      s = src ∧ ((∃ n ∈ ns, t = idName n) ∨ ∃ k ∈ ks, k.2 ≠ .id ∧ t = name addr k.2) := by
  induction ks with
  | nil => intro ns h; simp [kidLines] at h
  | cons e ks ih =>
    obtain ⟨el, k⟩ := e
    intro ns h
    by_cases hk : k = .id
    · subst hk
      cases ns with
      | nil =>
        obtain ⟨h1, h2⟩ := ih (by simpa [kidLines] using h)
        exact ⟨h1, h2.imp id fun ⟨k, hk, r⟩ => ⟨k, by simp [hk], r⟩⟩
      | cons n ns =>
        simp only [kidLines, List.mem_cons, reduceCtorEq, false_or, Line.edge.injEq] at h
        rcases h with ⟨rfl, rfl, _⟩ | h
        · exact ⟨rfl, .inl ⟨n, by simp, rfl⟩⟩
        · obtain ⟨h1, h2⟩ := ih h
          exact ⟨h1, h2.imp (fun ⟨n, hn, r⟩ => ⟨n, by simp [hn], r⟩) fun ⟨k, hk, r⟩ => ⟨k, by simp [hk], r⟩⟩
    · have hkl : kidLines addr src ((el, k) :: ks) ns = .edge src (name addr k) el :: kidLines addr src ks ns := by
        cases k <;> first | exact absurd rfl hk | rfl
      rw [hkl] at h
      simp only [List.mem_cons, Line.edge.injEq] at h
      rcases h with ⟨rfl, rfl, _⟩ | h
      · exact ⟨rfl, .inr ⟨(el, k), by simp, hk, rfl⟩⟩
      · obtain ⟨h1, h2⟩ := ih h
        exact ⟨h1, h2.imp id fun ⟨k, hk, r⟩ => ⟨k, by simp [hk], r⟩⟩

/-- When everything is drawn, edges join declared vertices. -/
theorem dot_closed (h : Hom V I U) (n0 : Nat) (hall : ∀ g, Below h g → (label ft g).isSome) {s t : List Char}
    {lab : Option (List Char)} (he : .edge s t lab ∈ (dot addr ft h n0).1) :
    s ∈ (dot addr ft h n0).1.filterMap Line.declared ∧ t ∈ (dot addr ft h n0).1.filterMap Line.declared := by
  by_cases hid : h = .id
  · subst hid; simp [dot, hv] at he
  · obtain ⟨l, d, m, le, p, c, _, y⟩ := dot_ok (addr := addr) (ft := ft) h n0 hid
    have hd := (p.filterMap Line.declared).trans (blocks_declared fun e he =>
      ⟨((m e.1).1 (List.mem_map_of_mem he)).2.2, le e he⟩)
    have hmem := p.mem_iff.1 he
    rw [List.mem_flatMap] at hmem
    obtain ⟨e, hel, heb⟩ := hmem
    have hs := ((m e.1).1 (List.mem_map_of_mem hel))
    obtain ⟨la, hla⟩ := Option.isSome_iff_exists.1 hs.2.2
    simp only [block, hla, List.mem_cons, reduceCtorEq, false_or] at heb
    obtain ⟨rfl, ht⟩ := kidLines_edge heb
    rw [hd.mem_iff, hd.mem_iff]
    refine ⟨?_, ?_⟩
    · rw [List.mem_append]
      exact .inl (List.mem_map_of_mem (List.mem_map_of_mem hel))
    · rw [List.mem_append]
      rcases ht with ⟨n, hn, rfl⟩ | ⟨k, hk, hki, rfl⟩
      · exact .inr (List.mem_map_of_mem (List.mem_flatMap.2 ⟨e, hel, hn⟩))
      · have hb : Below h k.2 := hs.1.trans (.step hk .refl)
        exact .inl (List.mem_map_of_mem ((m k.2).2 ⟨hb, hki, hall _ hb⟩))

end

/-! ## JSON -/

section
variable {V I U : Type} [DecidableEq V] [DecidableEq I] [DecidableEq U]

/-- A JSON object with a member `name` and possibly a member `children`. The library which writes the text of the object (rapidjson) is
not modelled. (`/repo/sdd/tools/js.hh`.) -/
inductive J : Type where
  | leaf (name : List Char)
  | node (name : List Char) (children : List J)

mutual
/-- `hom_to_json_visitor`, `/repo/sdd/tools/js.hh:21-110`. -/
def js (ft : U → List Char) : Hom V I U → J
  | .comp l r => .node ['o'] [js ft l, js ft r]
  | .fix h => .node ['*'] [js ft h]
  | .fn x u => .leaf (fnText ft x u)
  | .id => .leaf ['i', 'd']
  | .loc x h => .node ('@' :: ' ' :: dec x) [js ft h]
  | .sum hs => .node ['+'] (jsL ft hs)
  | _ => .leaf ['T', 'O', 'D', 'O']
/-- The loop on the operands of a sum, `/repo/sdd/tools/js.hh:94-99`. -/
def jsL (ft : U → List Char) : List (Hom V I U) → List J
  | [] => []
  | h :: hs => js ft h :: jsL ft hs
end

/-- The homomorphisms made only of compositions, fixpoints, functions, identities, local applications and sums.
(Specification or proof device, not part of the code.) -/
inductive Plain : Hom V I U → Prop where
  | id : Plain .id
  | comp {l r : Hom V I U} : Plain l → Plain r → Plain (.comp l r)
  | fix {h : Hom V I U} : Plain h → Plain (.fix h)
  | fn (x : Nat) (u : U) : Plain (.fn x u)
  | loc {x : Nat} {h : Hom V I U} : Plain h → Plain (.loc x h)
  | sum {hs : List (Hom V I U)} : (∀ h ∈ hs, Plain h) → Plain (.sum hs)

theorem dec_comma (n : Nat) : ',' ∉ dec n := by
  intro h
  have := Nat.isDigit_of_mem_toDigits (b := 10) (by omega) (by omega) h
  exact absurd this (by decide)

theorem append_comma {a b c d : List Char} (ha : ',' ∉ a) (hb : ',' ∉ b) (h : a ++ ',' :: c = b ++ ',' :: d) : a = b ∧ c = d := by
  induction a generalizing b with
  | nil =>
    cases b with
    | nil => simpa using h
    | cons y b => simp at h; exact absurd h.1 (by intro e; exact hb (by rw [e]; simp))
  | cons x a ih =>
    cases b with
    | nil => simp at h; exact absurd h.1 (by intro e; exact ha (by rw [e]; simp))
    | cons y b =>
      simp only [List.cons_append, List.cons.injEq] at h
      obtain ⟨h1, h2⟩ := ih (fun h => ha (by simp [h])) (fun h => hb (by simp [h])) h.2
      exact ⟨by rw [h.1, h1], h2⟩

theorem fnText_inj {ft : U → List Char} (hft : ∀ u u', ft u = ft u' → u = u') {x y : Nat} {u v : U}
    (h : fnText ft x u = fnText ft y v) : x = y ∧ u = v := by
  have e : ∀ (x : Nat) (u : U), fnText ft x u = "fun(".toList ++ (dec x ++ ',' :: (' ' :: (ft u ++ [')']))) := by
    intro x u; simp [fnText]
  rw [e, e] at h
  obtain ⟨h1, h2⟩ := append_comma (dec_comma x) (dec_comma y) (List.append_cancel_left h)
  simp only [List.cons.injEq, true_and] at h2
  exact ⟨dec_inj h1, hft _ _ (List.append_cancel_right h2)⟩

theorem jsL_eq (ft : U → List Char) (hs : List (Hom V I U)) : jsL ft hs = hs.map (js ft) := by
  induction hs with
  | nil => rfl
  | cons h hs ih => simp [jsL, ih]

/-- Different homomorphisms of these kinds have different exports. -/
theorem js_inj {ft : U → List Char} (hft : ∀ u u', ft u = ft u' → u = u') {h h' : Hom V I U} (hp : Plain h) (hp' : Plain h')
    (e : js ft h = js ft h') : h = h' := by
  have hf : ∀ x u, ∃ t, fnText ft x u = 'f' :: t := fun x u => ⟨_, rfl⟩
  induction hp generalizing h' with
  | id =>
    cases hp' <;> simp only [js, J.leaf.injEq, reduceCtorEq] at e
    · rfl
    · obtain ⟨t, ht⟩ := hf _ _; rw [ht] at e; simp at e
  | comp _ _ ih1 ih2 =>
    cases hp' <;> simp only [js, J.node.injEq, reduceCtorEq, List.cons.injEq, and_true, true_and, and_false] at e
    · rename_i h1 h2; rw [ih1 h1 e.1, ih2 h2 e.2]
    all_goals (simp at e)
  | fix _ ih =>
    cases hp' <;> simp only [js, J.node.injEq, reduceCtorEq, List.cons.injEq, and_true, true_and, and_false] at e
    · rename_i h1; rw [ih h1 e]
    all_goals (simp at e)
  | fn x u =>
    cases hp' <;> simp only [js, J.leaf.injEq, reduceCtorEq] at e
    · obtain ⟨t, ht⟩ := hf x u; rw [ht] at e; simp at e
    · obtain ⟨h1, h2⟩ := fnText_inj hft e; rw [h1, h2]
  | loc _ ih =>
    cases hp' <;> simp [js] at e
    rename_i h1; rw [ih h1 e.2, dec_inj e.1]
  | sum _ ih =>
    cases hp' <;> simp only [js, J.node.injEq, reduceCtorEq, List.cons.injEq, and_true, true_and, and_false] at e
    all_goals try simp at e
    rename_i hs _ hs' hp'
    rw [jsL_eq, jsL_eq] at e
    congr 1
    clear * - ih e hp'
    induction hs generalizing hs' with
    | nil => cases hs' with
      | nil => rfl
      | cons _ _ => simp at e
    | cons a hs ihl =>
      cases hs' with
      | nil => simp at e
      | cons b hs' =>
        simp only [List.map_cons, List.cons.injEq] at e
        rw [ih a (by simp) (hp' b (by simp)) e.1, ihl (fun h hh => ih h (by simp [hh])) (fun h hh => hp' h (by simp [hh])) e.2]

end

end HExp
end Verif
