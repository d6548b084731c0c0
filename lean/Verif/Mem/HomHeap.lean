import Verif.Mem.SddHeap
import Verif.Hom.Syntax
/-!
# Homomorphisms in memory

What the terms of `Verif.Hom` are in the memory of `Verif.Mem.Heap`: each homomorphism is a unified datum whose pointers are those
of its operands, of its SDDs and of its sets of values.
-/

set_option autoImplicit false
set_option linter.unusedSectionVars false

namespace Verif
open Heap

/-- What the data hold besides pointers, SDDs (`SLabel`) and homomorphisms together: the type of the datum (the `index` of the
variant, `/repo/sdd/mem/variant.hh:57`), and
* for `cons`, its order (`/repo/sdd/hom/cons.hh:22-34`): its contents, compared by `operator==`, and the address of the storage
  which copies of this order share, used by its hash (`/repo/sdd/order/order.hh:27-32,330-342`);
* the target of functions, of local homomorphisms and of saturations (`/repo/sdd/hom/function.hh:219`, `local.hh:22-30`,
  `saturation_fixpoint.hh:23-40`, `saturation_sum.hh:25-40`, `saturation_intersection.hh:25-40`);
* the user's object of functions and inductives, compared with the user's `operator==` (`/repo/sdd/hom/function.hh:110-118`,
  `inductive.hh:136-144`), here supposed to be the equality;
* whether the optional parts of a saturation are present (two Booleans for `F` and `L`; here their numbers of elements). -/
inductive HLabel (V I U : Type) : Type where
  | sdd (l : SLabel V)
  | id
  | comp
  | consF (stor : Nat) (o : OB I)
  | consH (stor : Nat) (o : OB I)
  | const
  | fix
  | fn (x : Nat) (u : U)
  | ite
  | ind (u : U)
  | inter
  | loc (x : Nat)
  | satFix (x : Nat)
  | satInter (x : Nat) (f l : Nat)
  | satSum (x : Nat) (f l : Nat)
  | sum
  deriving DecidableEq

namespace Heap.Tree
variable {L M : Type}

mutual
/-- The same data with other labels. (Specification or proof device, not part of the code.) -/
def relabel (f : L → M) : Tree L → Tree M
  | .node l ts => .node (f l) (relabelL f ts)
/-- A list of data with other labels. (Specification or proof device, not part of the code.) -/
def relabelL (f : L → M) : List (Tree L) → List (Tree M)
  | [] => []
  | t :: ts => t.relabel f :: relabelL f ts
end

mutual
theorem relabel_inj {f : L → M} (hf : ∀ a b, f a = f b → a = b) : ∀ t t' : Tree L, t.relabel f = t'.relabel f → t = t'
  | .node l ts, .node l' ts', h => by
    simp only [relabel, Tree.node.injEq] at h
    rw [hf _ _ h.1, relabelL_inj hf ts ts' h.2]
theorem relabelL_inj {f : L → M} (hf : ∀ a b, f a = f b → a = b) :
    ∀ ts ts' : List (Tree L), relabelL f ts = relabelL f ts' → ts = ts'
  | [], [], _ => rfl
  | [], _ :: _, h => by simp [relabelL] at h
  | _ :: _, [], h => by simp [relabelL] at h
  | t :: ts, t' :: ts', h => by
    simp only [relabelL, List.cons.injEq] at h
    rw [relabel_inj hf t t' h.1, relabelL_inj hf ts ts' h.2]
end

end Heap.Tree

namespace Hom
variable {V I U : Type}

mutual
/-- The data of a homomorphism, the pointers in the order of the members: `/repo/sdd/hom/composition.hh:22-31`,
`cons.hh:22-34`, `constant.hh:20-28`, `fixpoint.hh:22-30`, `function.hh:208-222`, `if_then_else.hh:20-31`, `inductive.hh:240-246`,
`intersection.hh:25-40`, `local.hh:22-30`, `saturation_fixpoint.hh:23-50`, `saturation_intersection.hh:25-40`,
`saturation_sum.hh:25-40`, `sum.hh:24-50`.  `stor` gives the address of the storage of each order. -/
def tree (stor : OB I → Nat) : Hom V I U → Tree (HLabel V I U)
  | .id => .node .id []
  | .comp l r => .node .comp [l.tree stor, r.tree stor]
  | .consF o v n => .node (.consF (stor o) o) [.node (.sdd (.values v)) [], n.tree stor]
  | .consH o v n => .node (.consH (stor o) o) [v.tree.relabel .sdd, n.tree stor]
  | .const s => .node .const [s.tree.relabel .sdd]
  | .fix h => .node .fix [h.tree stor]
  | .fn x u => .node (.fn x u) []
  | .ite i t e => .node .ite [i.tree stor, t.tree stor, e.tree stor]
  | .ind u => .node (.ind u) []
  | .inter hs => .node .inter (treeL stor hs)
  | .loc x h => .node (.loc x) [h.tree stor]
  | .satFix x F G L => .node (.satFix x) (F.tree stor :: L.tree stor :: treeL stor G)
  | .satInter x F G L => .node (.satInter x F.length L.length) (treeL stor F ++ treeL stor L ++ treeL stor G)
  | .satSum x F G L => .node (.satSum x F.length L.length) (treeL stor F ++ treeL stor L ++ treeL stor G)
  | .sum hs => .node .sum (treeL stor hs)
/-- The data of the operands. (`/repo/sdd/hom/sum.hh:24-50`.) -/
def treeL (stor : OB I → Nat) : List (Hom V I U) → List (Tree (HLabel V I U))
  | [] => []
  | h :: hs => h.tree stor :: treeL stor hs
end

theorem treeL_eq (stor : OB I → Nat) (hs : List (Hom V I U)) : treeL stor hs = hs.map (tree stor) := by
  induction hs with
  | nil => rfl
  | cons h hs ih => rw [treeL, ih, List.map_cons]

theorem map_tree_inj {stor : OB I → Nat} : ∀ {hs : List (Hom V I U)}
    (_ : ∀ h ∈ hs, ∀ h', h.tree stor = h'.tree stor → h = h') (hs' : List (Hom V I U)),
    hs.map (tree stor) = hs'.map (tree stor) → hs = hs'
  | [], _, hs', h => by cases hs' with | nil => rfl | cons => simp at h
  | a :: hs, ih, hs', h => by
    cases hs' with
    | nil => simp at h
    | cons b hs' =>
      rw [List.map_cons, List.map_cons, List.cons.injEq] at h
      rw [ih a (by simp) b h.1, map_tree_inj (fun c hc => ih c (by simp [hc])) hs' h.2]

theorem sdd_inj (x y : SDD V)
    (h : x.tree.relabel (HLabel.sdd (I := I) (U := U)) = y.tree.relabel HLabel.sdd) : x = y :=
  SDD.tree_inj x y (Tree.relabel_inj (fun _ _ e => by injection e) _ _ h)

theorem parts_inj {stor : OB I → Nat} {F L G F' L' G' : List (Hom V I U)}
    (ihF : ∀ h ∈ F, ∀ h', h.tree stor = h'.tree stor → h = h') (ihL : ∀ h ∈ L, ∀ h', h.tree stor = h'.tree stor → h = h')
    (ihG : ∀ h ∈ G, ∀ h', h.tree stor = h'.tree stor → h = h') (hf : F.length = F'.length) (hl : L.length = L'.length)
    (h : treeL stor F ++ treeL stor L ++ treeL stor G = treeL stor F' ++ treeL stor L' ++ treeL stor G') :
    F = F' ∧ L = L' ∧ G = G' := by
  simp only [treeL_eq] at h
  rw [List.append_assoc, List.append_assoc] at h
  obtain ⟨h1, h2⟩ := List.append_inj h (by simp [hf])
  obtain ⟨h3, h4⟩ := List.append_inj h2 (by simp [hl])
  exact ⟨map_tree_inj ihF _ h1, map_tree_inj ihL _ h3, map_tree_inj ihG _ h4⟩

/-- The data determine the homomorphism. -/
theorem tree_inj (stor : OB I → Nat) (h : Hom V I U) : ∀ h', h.tree stor = h'.tree stor → h = h' := by
  induction h using induct with
  | id => intro h' e; cases h' <;> simp [tree] at e ⊢
  | comp l r ih1 ih2 =>
    intro h' e
    cases h' <;> simp [tree] at e
    rw [ih1 _ e.1, ih2 _ e.2]
  | consF o v n ih =>
    intro h' e
    cases h' <;> simp [tree] at e
    rw [e.1.2, e.2.1, ih _ e.2.2]
  | consH o v n ih =>
    intro h' e
    cases h' <;> simp [tree] at e
    rw [e.1.2, sdd_inj _ _ e.2.1, ih _ e.2.2]
  | const s =>
    intro h' e
    cases h' <;> simp [tree] at e
    rw [sdd_inj _ _ e]
  | fix h ih =>
    intro h' e
    cases h' <;> simp [tree] at e
    rw [ih _ e]
  | fn x u =>
    intro h' e
    cases h' <;> simp [tree] at e
    rw [e.1, e.2]
  | ite i t f ih1 ih2 ih3 =>
    intro h' e
    cases h' <;> simp [tree] at e
    rw [ih1 _ e.1, ih2 _ e.2.1, ih3 _ e.2.2]
  | ind u =>
    intro h' e
    cases h' <;> simp [tree] at e
    rw [e]
  | inter hs ih =>
    intro h' e
    cases h' <;> simp [tree] at e
    rw [treeL_eq, treeL_eq] at e
    rw [map_tree_inj ih _ e]
  | loc x h ih =>
    intro h' e
    cases h' <;> simp [tree] at e
    rw [e.1, ih _ e.2]
  | satFix x F G L ih1 ih2 ih3 =>
    intro h' e
    cases h' <;> simp [tree] at e
    obtain ⟨e1, e2, e3, e4⟩ := e
    rw [treeL_eq, treeL_eq] at e4
    rw [e1, ih1 _ e2, ih3 _ e3, map_tree_inj ih2 _ e4]
  | satInter x F G L ih1 ih2 ih3 =>
    intro h' e
    cases h' <;> simp only [tree, Tree.node.injEq, HLabel.satInter.injEq, reduceCtorEq, false_and] at e
    obtain ⟨⟨e1, e2, e3⟩, e4⟩ := e
    obtain ⟨rfl, rfl, rfl⟩ := parts_inj ih1 ih3 ih2 e2 e3 e4
    rw [e1]
  | satSum x F G L ih1 ih2 ih3 =>
    intro h' e
    cases h' <;> simp only [tree, Tree.node.injEq, HLabel.satSum.injEq, reduceCtorEq, false_and] at e
    obtain ⟨⟨e1, e2, e3⟩, e4⟩ := e
    obtain ⟨rfl, rfl, rfl⟩ := parts_inj ih1 ih3 ih2 e2 e3 e4
    rw [e1]
  | sum hs ih =>
    intro h' e
    cases h' <;> simp [tree] at e
    rw [treeL_eq, treeL_eq] at e
    rw [map_tree_inj ih _ e]

end Hom
end Verif
