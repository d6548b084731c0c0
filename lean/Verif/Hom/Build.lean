import Verif.Hom.Rel
import Mathlib.Data.List.Perm.Basic
/-!
# The construction of homomorphisms

The functions with which users build homomorphisms, and which simplify what they build: `composition`, `sum`, `intersection`,
`fixpoint`, `local`, `if_then_else`, `carrier`, and the rewriting to saturation.
-/

set_option autoImplicit false
set_option linter.unusedSectionVars false

namespace Verif

variable {V E I U : Type} [DecidableEq V] [DecidableEq I] [DecidableEq U]

/-- `local(var, h)`, `/repo/sdd/hom/local.hh:132-137`. -/
def hloc (x : Nat) (h : Hom V I U) : Hom V I U := if h = .id then h else .loc x h

/-! ## Sums and intersections -/

/-- Sums and intersections of homomorphisms are built in the same way.
(`/repo/sdd/hom/sum.hh`, lines 154-263; `/repo/sdd/hom/intersection.hh`, lines 124-226.) -/
inductive NAry : Type where
  | sum
  | inter
  deriving DecidableEq

/-- `hom::make_variable_size<C, hom::_sum<C>>` (`/repo/sdd/hom/sum.hh:241-242`) and `hom::make<C, hom::_intersection<C>>`
(`/repo/sdd/hom/intersection.hh:204-205`).  The number of operands is not truncated here; see `Hom.stored`. -/
def NAry.mk : NAry → List (Hom V I U) → Hom V I U
  | .sum, hs => .sum hs
  | .inter, hs => .inter hs

/-- The operands collected by a builder: `locals_` and `operands_`, `/repo/sdd/hom/sum.hh:163-171`,
`/repo/sdd/hom/intersection.hh:128-133`. The hash map from variables to lists is an association list, the order of its
iteration is a parameter of `hnaryN`. -/
structure HAcc (V I U : Type) where
  locals : List (Nat × List (Hom V I U))
  ops : List (Hom V I U)

/-- `locals_.emplace(l.target, {})` then `emplace_back(l.h)`, `/repo/sdd/hom/sum.hh:186-191`,
`/repo/sdd/hom/intersection.hh:147-153`. -/
def addLocal (x : Nat) (h : Hom V I U) : List (Nat × List (Hom V I U)) → List (Nat × List (Hom V I U))
  | [] => [(x, [h])]
  | (y, gs) :: l => if y = x then (y, gs ++ [h]) :: l else (y, gs) :: addLocal x h l

/-- One operand which is not flattened. (`/repo/sdd/hom/sum.hh`, lines 193-201; `/repo/sdd/hom/intersection.hh`, lines 148-162.) -/
def HAcc.add (lt : Hom V I U → Hom V I U → Bool) (a : HAcc V I U) : Hom V I U → HAcc V I U
  | .loc x h => { a with locals := addLocal x h a.locals }
  | h => { a with ops := insertBy lt h a.ops }

mutual
/-- `sum_builder` and `intersection_builder`, `/repo/sdd/hom/sum.hh:173-201`, `/repo/sdd/hom/intersection.hh:135-161`. `lt` is the
comparison of addresses (`/repo/sdd/hom/definition.hh:229-236`). -/
def hvisit (k : NAry) (lt : Hom V I U → Hom V I U → Bool) : Hom V I U → HAcc V I U → HAcc V I U
  | .sum hs, a => match k with
    | .sum => hvisitAll k lt hs a
    | .inter => a.add lt (.sum hs)
  | .inter hs, a => match k with
    | .sum => a.add lt (.inter hs)
    | .inter => hvisitAll k lt hs a
  | .loc x h, a => a.add lt (.loc x h)
  | .id, a => a.add lt .id
  | .comp l r, a => a.add lt (.comp l r)
  | .consF o v h, a => a.add lt (.consF o v h)
  | .consH o v h, a => a.add lt (.consH o v h)
  | .const s, a => a.add lt (.const s)
  | .fix h, a => a.add lt (.fix h)
  | .fn x u, a => a.add lt (.fn x u)
  | .ite i t e, a => a.add lt (.ite i t e)
  | .ind u, a => a.add lt (.ind u)
  | .satFix x F G L, a => a.add lt (.satFix x F G L)
  | .satInter x F G L, a => a.add lt (.satInter x F G L)
  | .satSum x F G L, a => a.add lt (.satSum x F G L)
/-- The loop on the operands: `/repo/sdd/hom/sum.hh:177-181,224-227`, `/repo/sdd/hom/intersection.hh:139-143,187-190`. -/
def hvisitAll (k : NAry) (lt : Hom V I U → Hom V I U → Bool) : List (Hom V I U) → HAcc V I U → HAcc V I U
  | [], a => a
  | h :: hs, a => hvisitAll k lt hs (hvisit k lt h a)
end

mutual
/-- How deeply locals are nested: a bound on the depth of the recursion of `sum` and `intersection`. (Proof device, not part of the code.) -/
def Hom.height : Hom V I U → Nat
  | .loc _ h => h.height + 1
  | .sum hs => heightAll hs
  | .inter hs => heightAll hs
  | _ => 0
/-- The greatest of the heights. (Proof device, not part of the code.) -/
def heightAll : List (Hom V I U) → Nat
  | [] => 0
  | h :: hs => max h.height (heightAll hs)
end

/-- The function `sum` (`/repo/sdd/hom/sum.hh:209-244`) or `intersection` (`/repo/sdd/hom/intersection.hh:171-207`) on a
list of operands which is not empty. `n` bounds the depth of the recursive calls (see `hnary_eq`), `ord` is the order of
iteration of the hash map of locals. -/
def hnaryN (k : NAry) (lt : Hom V I U → Hom V I U → Bool)
    (ord : List (Nat × List (Hom V I U)) → List (Nat × List (Hom V I U))) : Nat → List (Hom V I U) → Hom V I U
  | 0, _ => .id
  | n + 1, hs =>
    let a := hvisitAll k lt hs ⟨[], []⟩
    match (ord a.locals).foldl (fun ops g => insertBy lt (hloc g.1 (hnaryN k lt ord n g.2)) ops) a.ops with
    | [h] => h
    | ops => k.mk ops

/-- `sum` and `intersection` on operands which are not empty.
(`/repo/sdd/hom/sum.hh`, lines 211-248; `/repo/sdd/hom/intersection.hh`, lines 173-211.) -/
def hnary (k : NAry) (lt : Hom V I U → Hom V I U → Bool)
    (ord : List (Nat × List (Hom V I U)) → List (Nat × List (Hom V I U))) (hs : List (Hom V I U)) : Hom V I U :=
  hnaryN k lt ord (heightAll hs + 1) hs

/-- `sum` (`/repo/sdd/hom/sum.hh:209-263`): no operand is an error, `std::invalid_argument`. -/
def hsum (lt : Hom V I U → Hom V I U → Bool) (ord : List (Nat × List (Hom V I U)) → List (Nat × List (Hom V I U)))
    (hs : List (Hom V I U)) : Except (Err V) (Hom V I U) :=
  if hs = [] then .error .invalid else .ok (hnary .sum lt ord hs)

/-- `intersection` (`/repo/sdd/hom/intersection.hh:171-226`): no operand is an error, `std::invalid_argument`. -/
def hinter (lt : Hom V I U → Hom V I U → Bool) (ord : List (Nat × List (Hom V I U)) → List (Nat × List (Hom V I U)))
    (hs : List (Hom V I U)) : Except (Err V) (Hom V I U) :=
  if hs = [] then .error .invalid else .ok (hnary .inter lt ord hs)

/-! ## Compositions -/

/-- The general case of `composition_builder`, `/repo/sdd/hom/composition.hh:116-124`. -/
def hcompGen (l r : Hom V I U) : Hom V I U := if l = .id then r else if r = .id then l else .comp l r

/-- `composition` when the left operand is the local `l = local(x, a)`: `/repo/sdd/hom/composition.hh:80-87,98-104,116-124`;
`rec` is `composition(a, ·)`. -/
def hcompLoc (x : Nat) (a : Hom V I U) (rec : Hom V I U → Hom V I U) : Hom V I U → Hom V I U
  | .loc y b => if x = y then hloc x (rec b) else .comp (.loc x a) (.loc y b)
  | .comp r1 r2 => .comp (hcompLoc x a rec r1) r2
  | r => hcompGen (.loc x a) r

/-- `composition`, `/repo/sdd/hom/composition.hh:77-140`. -/
def hcomp : Hom V I U → Hom V I U → Hom V I U
  | .loc x a, r => hcompLoc x a (hcomp a) r
  | .comp l1 l2, .loc y b => .comp l1 (hcomp l2 (.loc y b))
  | .comp l1 l2, .comp r1 r2 => .comp l1 (.comp (hcomp l2 r1) r2)
  | l, r => hcompGen l r

/-! ## Fixpoints, choices -/

/-- `fixpoint`, `/repo/sdd/hom/fixpoint.hh:88-125`. -/
def hfix : Hom V I U → Hom V I U
  | .id => .id
  | .fix h => .fix h
  | h => .fix h

/-- `if_then_else`, `/repo/sdd/hom/if_then_else.hh:101-124`. -/
def hite (env : User V I U) (i t e : Hom V I U) : Except (Err V) (Hom V I U) :=
  if i.selector env = false then .error .invalid
  else if i = .id then .ok t
  else if t = e then .ok t
  else .ok (.ite i t e)

/-! ## Rewriting -/

/-- `flat_set(begin, end)`: a set of homomorphisms, sorted by addresses.
(Boost; used by `/repo/sdd/hom/sum.hh`, line 243, and `/repo/sdd/hom/intersection.hh`.) -/
def homSet (lt : Hom V I U → Hom V I U → Bool) (hs : List (Hom V I U)) : List (Hom V I U) :=
  hs.foldl (fun s h => insertBy lt h s) []

/-- `saturation_sum`, `/repo/sdd/hom/saturation_sum.hh:127-140`. -/
def hsatSum (lt : Hom V I U → Hom V I U → Bool) (x : Nat) (F : Option (Hom V I U)) (G : List (Hom V I U))
    (L : Option (Hom V I U)) : Hom V I U :=
  match G, F, L with
  | [], some f, none => f
  | [], none, some l => l
  | G, F, L => .satSum x F.toList (homSet lt G) L.toList

/-- `saturation_intersection`, `/repo/sdd/hom/saturation_intersection.hh:128-143`. -/
def hsatInter (lt : Hom V I U → Hom V I U → Bool) (x : Nat) (F : Option (Hom V I U)) (G : List (Hom V I U))
    (L : Option (Hom V I U)) : Hom V I U :=
  match G, F, L with
  | [], some f, none => f
  | [], none, some l => l
  | G, F, L => .satInter x F.toList (homSet lt G) L.toList

/-- `saturation_fixpoint`, `/repo/sdd/hom/saturation_fixpoint.hh:188-209`. -/
def hsatFix (lt : Hom V I U → Hom V I U → Bool) (x : Nat) (f : Hom V I U) (G : List (Hom V I U)) (l : Hom V I U) : Hom V I U :=
  if G = [] ∧ f ≠ .id ∧ l = .id then f
  else if G = [] ∧ f = .id ∧ l ≠ .id then l
  else .satFix x f (homSet lt G) l

/-- The result of `rewriter::partition`, `/repo/sdd/hom/rewrite.hh:48-78`. -/
structure Parts (V I U : Type) where
  F : List (Hom V I U)
  G : List (Hom V I U)
  L : List (Hom V I U)
  hasId : Bool

/-- `rewriter::partition`, `/repo/sdd/hom/rewrite.hh:48-78`, at the level of variable `x` and identifier `i`. -/
def hparts (env : User V I U) (x : Nat) (i : OId I) : List (Hom V I U) → Parts V I U
  | [] => ⟨[], [], [], false⟩
  | h :: hs =>
    let p := hparts env x i hs
    if h = .id then { p with hasId := true }
    else if h.skip env x i then { p with F := h :: p.F }
    else match h with
      | .loc _ g => { p with L := g :: p.L }
      | h => { p with G := h :: p.G }

/-- `rewrite`, `/repo/sdd/hom/rewrite.hh:42-216`.  The reordering of `G` (187) has no effect: `G` is then sorted by addresses. -/
def hrewrite (env : User V I U) (lt : Hom V I U → Hom V I U → Bool)
    (ord : List (Nat × List (Hom V I U)) → List (Nat × List (Hom V I U))) : OB I → Hom V I U → Hom V I U
  | .nil, h => h
  | .node id nst nxt, .sum hs =>
    let p := hparts env nxt.lvl id hs
    if p.F = [] ∧ p.L = [] then .sum hs
    else
      let F := if p.hasId then p.F ++ [.id] else p.F
      hsatSum lt nxt.lvl (if F = [] then none else some (hrewrite env lt ord nxt (hnary .sum lt ord F))) p.G
        (if p.L = [] then none else some (hloc nxt.lvl (hrewrite env lt ord nst (hnary .sum lt ord p.L))))
  | .node id nst nxt, .inter hs =>
    let p := hparts env nxt.lvl id hs
    if p.F = [] ∧ p.L = [] then .inter hs
    else
      let F := if p.hasId then p.F ++ [.id] else p.F
      hsatInter lt nxt.lvl (if F = [] then none else some (hrewrite env lt ord nxt (hnary .inter lt ord F))) p.G
        (if p.L = [] then none else some (hloc nxt.lvl (hrewrite env lt ord nst (hnary .inter lt ord p.L))))
  | .node id nst nxt, .fix (.sum hs) =>
    let p := hparts env nxt.lvl id hs
    if p.hasId = false then .fix (.sum hs)
    else
      hsatFix lt nxt.lvl
        (if p.F = [] then .id else hrewrite env lt ord nxt (hfix (hnary .sum lt ord (p.F ++ [.id])))) p.G
        (if p.L = [] then .id else hloc nxt.lvl (hrewrite env lt ord nst (hfix (hnary .sum lt ord (p.L ++ [.id])))))
  | .node _ _ _, h => h

/-! ## What is collected -/

mutual
/-- The operands once nested ones are flattened. (Specification, not part of the code.) -/
def hflat (k : NAry) : Hom V I U → List (Hom V I U)
  | .sum hs => match k with
    | .sum => hflatAll k hs
    | .inter => [.sum hs]
  | .inter hs => match k with
    | .sum => [.inter hs]
    | .inter => hflatAll k hs
  | .loc x h => [.loc x h]
  | .id => [.id]
  | .comp l r => [.comp l r]
  | .consF o v h => [.consF o v h]
  | .consH o v h => [.consH o v h]
  | .const s => [.const s]
  | .fix h => [.fix h]
  | .fn x u => [.fn x u]
  | .ite i t e => [.ite i t e]
  | .ind u => [.ind u]
  | .satFix x F G L => [.satFix x F G L]
  | .satInter x F G L => [.satInter x F G L]
  | .satSum x F G L => [.satSum x F G L]
/-- All the operands. (Specification, not part of the code.) -/
def hflatAll (k : NAry) : List (Hom V I U) → List (Hom V I U)
  | [] => []
  | h :: hs => hflat k h ++ hflatAll k hs
end

theorem mem_hflatAll {k : NAry} {hs : List (Hom V I U)} {g : Hom V I U} :
    g ∈ hflatAll k hs ↔ ∃ h ∈ hs, g ∈ hflat k h := by
  induction hs with
  | nil => simp [hflatAll]
  | cons h hs ih => simp [hflatAll, ih]

theorem heightAll_le {hs : List (Hom V I U)} {n : Nat} : heightAll hs ≤ n ↔ ∀ h ∈ hs, h.height ≤ n := by
  induction hs with
  | nil => simp [heightAll]
  | cons h hs ih => simp [heightAll, ih]

theorem hvisitAll_eq {k : NAry} {lt : Hom V I U → Hom V I U → Bool} {hs : List (Hom V I U)}
    (ih : ∀ h ∈ hs, ∀ a, hvisit k lt h a = (hflat k h).foldl (HAcc.add lt) a) :
    ∀ a, hvisitAll k lt hs a = (hflatAll k hs).foldl (HAcc.add lt) a := by
  induction hs with
  | nil => intro a; rfl
  | cons h hs ih' =>
    intro a
    rw [hvisitAll, hflatAll, List.foldl_append, ih h (by simp), ih' fun g hg => ih g (by simp [hg])]

theorem hvisit_eq {k : NAry} {lt : Hom V I U → Hom V I U → Bool} (h : Hom V I U) :
    ∀ a, hvisit k lt h a = (hflat k h).foldl (HAcc.add lt) a := by
  induction h using Hom.induct with
  | sum hs ih =>
    intro a
    cases k with
    | sum => simpa only [hvisit, hflat] using hvisitAll_eq ih a
    | inter => simp [hvisit, hflat]
  | inter hs ih =>
    intro a
    cases k with
    | sum => simp [hvisit, hflat]
    | inter => simpa only [hvisit, hflat] using hvisitAll_eq ih a
  | _ => intro a; simp [hvisit, hflat]

theorem hflatAll_height {k : NAry} {hs : List (Hom V I U)} (ih : ∀ h ∈ hs, ∀ g ∈ hflat k h, g.height ≤ h.height) :
    ∀ g ∈ hflatAll k hs, g.height ≤ heightAll hs := by
  intro g hg
  obtain ⟨h, hm, hg⟩ := mem_hflatAll.1 hg
  exact (ih h hm g hg).trans (heightAll_le.1 (Nat.le_refl _) h hm)

theorem hflat_height {k : NAry} (h : Hom V I U) : ∀ g ∈ hflat k h, g.height ≤ h.height := by
  induction h using Hom.induct with
  | sum hs ih =>
    cases k with
    | sum => simpa only [hflat, Hom.height] using hflatAll_height ih
    | inter => simp [hflat]
  | inter hs ih =>
    cases k with
    | sum => simp [hflat]
    | inter => simpa only [hflat, Hom.height] using hflatAll_height ih
  | _ => simp [hflat]

/-- Whether a homomorphism is a local. (Proof device, not part of the code.) -/
def Hom.isLoc : Hom V I U → Bool
  | .loc _ _ => true
  | _ => false

/-- What is known of the operands collected from the list `ls`. (Proof device, not part of the code.) -/
structure HAcc.Good (lt : Hom V I U → Hom V I U → Bool) (ls : List (Hom V I U)) (a : HAcc V I U) : Prop where
  ops : ∀ h, h ∈ a.ops ↔ h ∈ ls ∧ h.isLoc = false
  sorted : a.ops.Pairwise fun h h' => lt h h' = true
  keys : (a.locals.map Prod.fst).Nodup
  group : ∀ g ∈ a.locals, g.2 ≠ [] ∧ ∀ h, h ∈ g.2 ↔ .loc g.1 h ∈ ls
  key : ∀ x h, .loc x h ∈ ls → ∃ gs, (x, gs) ∈ a.locals

theorem addLocal_keys {x y : Nat} {h : Hom V I U} : ∀ l, y ∈ (addLocal x h l).map Prod.fst ↔ y = x ∨ y ∈ l.map Prod.fst
  | [] => by simp [addLocal]
  | (z, gs) :: l => by
    by_cases hz : z = x
    · subst hz
      simp only [addLocal, if_pos, List.map_cons, List.mem_cons]
      tauto
    · simp only [addLocal, if_neg hz, List.map_cons, List.mem_cons, addLocal_keys l]
      tauto

theorem addLocal_nodup {x : Nat} {h : Hom V I U} : ∀ l, (l.map Prod.fst).Nodup → ((addLocal x h l).map Prod.fst).Nodup
  | [], _ => by simp [addLocal]
  | (z, gs) :: l, hl => by
    rw [List.map_cons, List.nodup_cons] at hl
    by_cases hz : z = x
    · simpa only [addLocal, if_pos hz, List.map_cons, List.nodup_cons] using hl
    · simp only [addLocal, if_neg hz, List.map_cons, List.nodup_cons, addLocal_keys]
      refine ⟨?_, addLocal_nodup l hl.2⟩
      rintro (h1 | h1)
      · exact hz h1
      · exact hl.1 h1

/-- The groups after the addition of a local: a group of the same variable grows, or appears; the others are unchanged. -/
theorem mem_addLocal {x : Nat} {h : Hom V I U} : ∀ l, (l.map Prod.fst).Nodup → ∀ g,
    g ∈ addLocal x h l ↔ (g ∈ l ∧ g.1 ≠ x) ∨ (g.1 = x ∧ ((∃ gs, (x, gs) ∈ l ∧ g.2 = gs ++ [h]) ∨
      (x ∉ l.map Prod.fst ∧ g.2 = [h])))
  | [], _, g => by
    obtain ⟨y, gs⟩ := g
    simp [addLocal]
  | (z, gs) :: l, hl, g => by
    obtain ⟨y, gs'⟩ := g
    rw [List.map_cons, List.nodup_cons] at hl
    by_cases hz : z = x
    · subst hz
      have h1 : ∀ gs, (z, gs) ∉ l := fun gs hm => hl.1 (List.mem_map.2 ⟨_, hm, rfl⟩)
      have h2 : (y, gs') ∈ l → y ≠ z := fun hm he => h1 gs' (he ▸ hm)
      simp only [addLocal, if_pos, List.mem_cons, Prod.mk.injEq, List.map_cons]
      constructor
      · rintro (⟨rfl, rfl⟩ | hm)
        · exact Or.inr ⟨rfl, Or.inl ⟨gs, Or.inl ⟨trivial, rfl⟩, rfl⟩⟩
        · exact Or.inl ⟨Or.inr hm, h2 hm⟩
      · rintro (⟨⟨rfl, rfl⟩ | hm, hne⟩ | ⟨rfl, ⟨gs2, ⟨_, rfl⟩ | hm, rfl⟩ | ⟨hn, _⟩⟩)
        · exact absurd rfl hne
        · exact Or.inr hm
        · exact Or.inl ⟨rfl, rfl⟩
        · exact absurd hm (h1 _)
        · exact absurd (Or.inl trivial) hn
    · have ih := mem_addLocal (x := x) (h := h) l hl.2 (y, gs')
      simp only [addLocal, if_neg hz, List.mem_cons, Prod.mk.injEq, List.map_cons, ih]
      constructor
      · rintro (⟨rfl, rfl⟩ | ⟨hm, hne⟩ | ⟨rfl, ⟨gs2, hm, rfl⟩ | ⟨hn, rfl⟩⟩)
        · exact Or.inl ⟨Or.inl ⟨rfl, rfl⟩, hz⟩
        · exact Or.inl ⟨Or.inr hm, hne⟩
        · exact Or.inr ⟨rfl, Or.inl ⟨gs2, Or.inr hm, rfl⟩⟩
        · refine Or.inr ⟨rfl, Or.inr ⟨?_, rfl⟩⟩
          rintro (h1 | h1)
          · exact hz h1.symm
          · exact hn h1
      · rintro (⟨⟨rfl, rfl⟩ | hm, hne⟩ | ⟨rfl, ⟨gs2, ⟨h1, _⟩ | hm, rfl⟩ | ⟨hn, rfl⟩⟩)
        · exact Or.inl ⟨rfl, rfl⟩
        · exact Or.inr (Or.inl ⟨hm, hne⟩)
        · exact absurd h1.symm hz
        · exact Or.inr (Or.inr ⟨rfl, Or.inl ⟨gs2, hm, rfl⟩⟩)
        · exact Or.inr (Or.inr ⟨rfl, Or.inr ⟨fun h1 => hn (Or.inr h1), rfl⟩⟩)

theorem HAcc.Good.snoc {lt : Hom V I U → Hom V I U → Bool} (hlt : StrictTotal lt) {ls : List (Hom V I U)} {a : HAcc V I U}
    (ha : a.Good lt ls) (h : Hom V I U) : (a.add lt h).Good lt (ls ++ [h]) := by
  by_cases hl : h.isLoc = true
  · cases h with
    | loc x h =>
      refine ⟨fun g => ?_, ha.sorted, addLocal_nodup _ ha.keys, fun g hg => ?_, fun y g hg => ?_⟩
      · rw [show (a.add lt (.loc x h)).ops = a.ops from rfl, ha.ops]
        simp only [List.mem_append, List.mem_singleton]
        constructor
        · rintro ⟨h1, h2⟩; exact ⟨Or.inl h1, h2⟩
        · rintro ⟨h1 | rfl, h2⟩
          · exact ⟨h1, h2⟩
          · exact absurd h2 (by simp [Hom.isLoc])
      · rcases (mem_addLocal _ ha.keys g).1 hg with ⟨hm, hne⟩ | ⟨rfl, ⟨gs, hm, he⟩ | ⟨hn, he⟩⟩
        · refine ⟨(ha.group g hm).1, fun h' => ?_⟩
          rw [(ha.group g hm).2]
          simp only [List.mem_append, List.mem_singleton, Hom.loc.injEq]
          constructor
          · exact Or.inl
          · rintro (h1 | ⟨h1, _⟩)
            · exact h1
            · exact absurd h1 hne
        · refine ⟨by simp [he], fun h' => ?_⟩
          rw [he, List.mem_append, (ha.group _ hm).2]
          simp
        · refine ⟨by simp [he], fun h' => ?_⟩
          rw [he]
          simp only [List.mem_append, List.mem_singleton, Hom.loc.injEq, true_and]
          constructor
          · exact Or.inr
          · rintro (h1 | h1)
            · obtain ⟨gs, h2⟩ := ha.key _ _ h1
              exact absurd (List.mem_map_of_mem (f := Prod.fst) h2) hn
            · exact h1
      · have hk : y ∈ (addLocal x h a.locals).map Prod.fst := by
          rw [addLocal_keys]
          simp only [List.mem_append, List.mem_singleton, Hom.loc.injEq] at hg
          rcases hg with hg | ⟨rfl, _⟩
          · obtain ⟨gs, h2⟩ := ha.key _ _ hg
            exact Or.inr (List.mem_map_of_mem (f := Prod.fst) h2)
          · exact Or.inl rfl
        obtain ⟨⟨y', gs⟩, h1, rfl⟩ := List.mem_map.1 hk
        exact ⟨gs, h1⟩
    | _ => simp [Hom.isLoc] at hl
  · have hadd : a.add lt h = { a with ops := insertBy lt h a.ops } := by
      cases h <;> first | rfl | simp [Hom.isLoc] at hl
    have hnl : ∀ x g, Hom.loc x g ≠ h := by rintro x g rfl; simp [Hom.isLoc] at hl
    rw [hadd]
    refine ⟨fun g => ?_, insertBy_sorted hlt _ _ ha.sorted, ha.keys, fun g hg => ?_, fun y g hg => ?_⟩
    · change g ∈ insertBy lt h a.ops ↔ _
      rw [mem_insertBy hlt, ha.ops]
      simp only [List.mem_append, List.mem_singleton]
      constructor
      · rintro (rfl | ⟨h1, h2⟩)
        · exact ⟨Or.inr rfl, by simpa using hl⟩
        · exact ⟨Or.inl h1, h2⟩
      · rintro ⟨h1 | rfl, h2⟩
        · exact Or.inr ⟨h1, h2⟩
        · exact Or.inl rfl
    · refine ⟨(ha.group g hg).1, fun h' => ?_⟩
      rw [(ha.group g hg).2]
      simp [hnl]
    · simp only [List.mem_append, List.mem_singleton, hnl, or_false] at hg
      exact ha.key y g hg

theorem HAcc.Good.foldl {lt : Hom V I U → Hom V I U → Bool} (hlt : StrictTotal lt) (l : List (Hom V I U)) :
    ∀ {ls : List (Hom V I U)} {a : HAcc V I U}, a.Good lt ls → (l.foldl (HAcc.add lt) a).Good lt (ls ++ l) := by
  induction l with
  | nil => intro ls a ha; simpa using ha
  | cons h l ih =>
    intro ls a ha
    have := ih (ha.snoc hlt h)
    simpa using this

/-- What is collected from operands. -/
theorem hvisitAll_good {k : NAry} {lt : Hom V I U → Hom V I U → Bool} (hlt : StrictTotal lt) (hs : List (Hom V I U)) :
    (hvisitAll k lt hs ⟨[], []⟩).Good lt (hflatAll k hs) := by
  rw [hvisitAll_eq fun h _ => hvisit_eq h]
  have h0 : HAcc.Good lt ([] : List (Hom V I U)) ⟨[], []⟩ :=
    ⟨by simp, List.Pairwise.nil, by simp, by simp, by simp⟩
  simpa using h0.foldl hlt (hflatAll k hs)

/-- Insertions in a sorted set. -/
theorem foldl_insertBy {α β : Type} {lt : α → α → Bool} (hlt : StrictTotal lt) (f : β → α) (l : List β) :
    ∀ s : List α, s.Pairwise (fun a b => lt a b = true) →
      (l.foldl (fun s b => insertBy lt (f b) s) s).Pairwise (fun a b => lt a b = true) ∧
      ∀ a, a ∈ l.foldl (fun s b => insertBy lt (f b) s) s ↔ a ∈ s ∨ ∃ b ∈ l, a = f b := by
  induction l with
  | nil => intro s hs; simpa using hs
  | cons b l ih =>
    intro s hs
    obtain ⟨h1, h2⟩ := ih (insertBy lt (f b) s) (insertBy_sorted hlt _ _ hs)
    refine ⟨h1, fun a => ?_⟩
    rw [List.foldl_cons, h2, mem_insertBy hlt]
    simp only [List.mem_cons, exists_eq_or_imp]
    tauto

/-- The order of iteration of a hash map. (Assumption on `std::unordered_map`.) -/
def Iterates (ord : List (Nat × List (Hom V I U)) → List (Nat × List (Hom V I U))) : Prop := ∀ l, (ord l).Perm l

/-- The operands of a sum or an intersection, once regrouped. (Proof device, not part of the code.) -/
def hops (k : NAry) (lt : Hom V I U → Hom V I U → Bool)
    (ord : List (Nat × List (Hom V I U)) → List (Nat × List (Hom V I U))) (rec : List (Hom V I U) → Hom V I U)
    (hs : List (Hom V I U)) : List (Hom V I U) :=
  (ord (hvisitAll k lt hs ⟨[], []⟩).locals).foldl (fun ops g => insertBy lt (hloc g.1 (rec g.2)) ops)
    (hvisitAll k lt hs ⟨[], []⟩).ops

/-- One operand, or several. (Proof device, not part of the code.) -/
def NAry.fin (k : NAry) : List (Hom V I U) → Hom V I U
  | [h] => h
  | ops => k.mk ops

theorem hnaryN_succ (k : NAry) (lt : Hom V I U → Hom V I U → Bool)
    (ord : List (Nat × List (Hom V I U)) → List (Nat × List (Hom V I U))) (n : Nat) (hs : List (Hom V I U)) :
    hnaryN k lt ord (n + 1) hs = k.fin (hops k lt ord (hnaryN k lt ord n) hs) := by
  rw [hnaryN, NAry.fin.eq_def, hops]

section
variable {k : NAry} {lt : Hom V I U → Hom V I U → Bool}
  {ord : List (Nat × List (Hom V I U)) → List (Nat × List (Hom V I U))}

theorem hops_spec (hlt : StrictTotal lt) (hord : Iterates ord) (rec : List (Hom V I U) → Hom V I U) (hs : List (Hom V I U)) :
    (hops k lt ord rec hs).Pairwise (fun a b => lt a b = true) ∧
    ∀ h, h ∈ hops k lt ord rec hs ↔ (h ∈ hflatAll k hs ∧ h.isLoc = false) ∨
      ∃ g ∈ (hvisitAll k lt hs ⟨[], []⟩).locals, h = hloc g.1 (rec g.2) := by
  have hg := hvisitAll_good (k := k) hlt hs
  obtain ⟨h1, h2⟩ := foldl_insertBy hlt (fun g => hloc g.1 (rec g.2)) (ord (hvisitAll k lt hs ⟨[], []⟩).locals) _ hg.sorted
  refine ⟨h1, fun h => ?_⟩
  rw [hops, h2, hg.ops]
  simp only [(hord _).mem_iff]

theorem hops_congr (hlt : StrictTotal lt) {ord' : List (Nat × List (Hom V I U)) → List (Nat × List (Hom V I U))}
    (hord : Iterates ord) (hord' : Iterates ord') {rec rec' : List (Hom V I U) → Hom V I U} {hs hs' : List (Hom V I U)}
    (hm : ∀ h, h ∈ hs ↔ h ∈ hs')
    (hrec : ∀ gs gs' x, gs ≠ [] → (∀ g ∈ gs, Hom.loc x g ∈ hflatAll k hs) → (∀ g, g ∈ gs ↔ g ∈ gs') → rec gs = rec' gs') :
    hops k lt ord rec hs = hops k lt ord' rec' hs' := by
  have hf : ∀ h, h ∈ hflatAll k hs ↔ h ∈ hflatAll k hs' := by
    intro h
    simp only [mem_hflatAll, hm]
  have g1 := hvisitAll_good (k := k) hlt hs
  have g2 := hvisitAll_good (k := k) hlt hs'
  obtain ⟨s1, m1⟩ := hops_spec (k := k) hlt hord rec hs
  obtain ⟨s2, m2⟩ := hops_spec (k := k) hlt hord' rec' hs'
  refine sorted_ext (fun a => by simp [hlt.irrefl]) hlt.trans s1 s2 fun h => ?_
  rw [m1, m2, hf]
  have key : (∃ g ∈ (hvisitAll k lt hs ⟨[], []⟩).locals, h = hloc g.1 (rec g.2)) ↔
      ∃ g ∈ (hvisitAll k lt hs' ⟨[], []⟩).locals, h = hloc g.1 (rec' g.2) := by
    constructor
    · rintro ⟨⟨x, gs⟩, hg, rfl⟩
      obtain ⟨hne, hgs⟩ := g1.group _ hg
      obtain ⟨g0, hg0⟩ := List.exists_mem_of_ne_nil _ hne
      obtain ⟨gs', hg'⟩ := g2.key x g0 ((hf _).1 ((hgs g0).1 hg0))
      refine ⟨(x, gs'), hg', ?_⟩
      rw [hrec gs gs' x hne (fun g hm => (hgs g).1 hm) fun g => by rw [hgs, (g2.group _ hg').2, hf]]
    · rintro ⟨⟨x, gs⟩, hg, rfl⟩
      obtain ⟨hne, hgs⟩ := g2.group _ hg
      obtain ⟨g0, hg0⟩ := List.exists_mem_of_ne_nil _ hne
      obtain ⟨gs', hg'⟩ := g1.key x g0 ((hf _).2 ((hgs g0).1 hg0))
      refine ⟨(x, gs'), hg', ?_⟩
      rw [hrec gs' gs x (g1.group _ hg').1 (fun g hm => ((g1.group _ hg').2 g).1 hm) fun g => by rw [hgs, (g1.group _ hg').2, hf]]
  rw [key]

/-- The result does not depend on the order and the repetitions of the operands, nor on the order of iteration of the hash map,
nor on the bound of the recursion. -/
theorem hnaryN_congr (hlt : StrictTotal lt) {ord' : List (Nat × List (Hom V I U)) → List (Nat × List (Hom V I U))}
    (hord : Iterates ord) (hord' : Iterates ord') (n : Nat) : ∀ (n' : Nat) (hs hs' : List (Hom V I U)),
    heightAll hs < n → heightAll hs < n' → (∀ h, h ∈ hs ↔ h ∈ hs') → hnaryN k lt ord n hs = hnaryN k lt ord' n' hs' := by
  induction n with
  | zero => intro n' hs hs' h; omega
  | succ n ih =>
    intro n' hs hs' h1 h2 hm
    cases n' with
    | zero => omega
    | succ n' =>
      rw [hnaryN_succ, hnaryN_succ]
      refine congrArg _ (hops_congr hlt hord hord' hm fun gs gs' x hne hgs hm' => ?_)
      obtain ⟨g0, hg0⟩ := List.exists_mem_of_ne_nil _ hne
      have hh : ∀ g ∈ gs, g.height + 1 ≤ heightAll hs := fun g hg =>
        hflatAll_height (fun h _ => hflat_height h) _ (hgs g hg)
      have h3 : heightAll gs ≤ heightAll hs - 1 := heightAll_le.2 fun g hg => by have := hh g hg; omega
      have := hh g0 hg0
      exact ih n' gs gs' (by omega) (by omega) hm'

/-- The recursive equation of `sum` and `intersection`. -/
theorem hnary_eq (hlt : StrictTotal lt) (hord : Iterates ord) (hs : List (Hom V I U)) :
    hnary k lt ord hs = k.fin (hops k lt ord (hnary k lt ord) hs) := by
  rw [hnary, hnaryN_succ]
  refine congrArg _ (hops_congr hlt hord hord (fun _ => Iff.rfl) fun gs gs' x hne hgs hm' => ?_)
  obtain ⟨g0, hg0⟩ := List.exists_mem_of_ne_nil _ hne
  have hh : ∀ g ∈ gs, g.height + 1 ≤ heightAll hs := fun g hg =>
    hflatAll_height (fun h _ => hflat_height h) _ (hgs g hg)
  have h3 : heightAll gs ≤ heightAll hs - 1 := heightAll_le.2 fun g hg => by have := hh g hg; omega
  have h4 : heightAll gs ≤ heightAll gs' := heightAll_le.2 fun g hg => heightAll_le.1 (Nat.le_refl _) g ((hm' g).1 hg)
  have := hh g0 hg0
  exact hnaryN_congr hlt hord hord _ _ _ _ (by omega) (by omega) hm'

/-- The result does not depend on the order and the repetitions of the operands, nor on the order of iteration of the hash map. -/
theorem hnary_congr (hlt : StrictTotal lt) {ord' : List (Nat × List (Hom V I U)) → List (Nat × List (Hom V I U))}
    (hord : Iterates ord) (hord' : Iterates ord') {hs hs' : List (Hom V I U)} (hm : ∀ h, h ∈ hs ↔ h ∈ hs') :
    hnary k lt ord hs = hnary k lt ord' hs' := by
  have h4 : heightAll hs ≤ heightAll hs' := heightAll_le.2 fun g hg => heightAll_le.1 (Nat.le_refl _) g ((hm g).1 hg)
  exact hnaryN_congr hlt hord hord' _ _ _ _ (by omega) (by omega) hm

/-- A property of the operands is a property of the result. -/
theorem hnary_induct (hlt : StrictTotal lt) (hord : Iterates ord) {P : List (Hom V I U) → Hom V I U → Prop}
    (step : ∀ hs ops, hs ≠ [] → (∀ h, h ∈ ops ↔ (h ∈ hflatAll k hs ∧ h.isLoc = false) ∨
      ∃ g ∈ (hvisitAll k lt hs ⟨[], []⟩).locals, h = hloc g.1 (hnary k lt ord g.2)) →
      (∀ g ∈ (hvisitAll k lt hs ⟨[], []⟩).locals, P g.2 (hnary k lt ord g.2)) → P hs (k.fin ops)) :
    ∀ hs, hs ≠ [] → P hs (hnary k lt ord hs) := by
  have : ∀ n hs, heightAll hs < n → hs ≠ [] → P hs (hnary k lt ord hs) := by
    intro n
    induction n with
    | zero => intro hs h; omega
    | succ n ih =>
      intro hs h hne
      rw [hnary_eq hlt hord]
      refine step hs _ hne (hops_spec hlt hord _ hs).2 fun g hg => ?_
      obtain ⟨hne', hgs⟩ := (hvisitAll_good (k := k) hlt hs).group g hg
      obtain ⟨g0, hg0⟩ := List.exists_mem_of_ne_nil _ hne'
      have hh : ∀ g' ∈ g.2, g'.height + 1 ≤ heightAll hs := fun g' hg' =>
        hflatAll_height (fun h _ => hflat_height h) _ ((hgs g').1 hg')
      have h3 : heightAll g.2 ≤ heightAll hs - 1 := heightAll_le.2 fun g' hg' => by have := hh g' hg'; omega
      have := hh g0 hg0
      exact ih g.2 (by omega) hne'
  intro hs hne
  exact this _ hs (Nat.lt_succ_self _) hne

end
end Verif
