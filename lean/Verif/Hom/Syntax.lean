import Verif.Order.Init
/-!
# Homomorphisms

Terms for the homomorphisms of `/repo/sdd/hom/`, and the predicates `skip` and `selector`.
-/

set_option autoImplicit false
set_option linter.unusedSectionVars false

namespace Verif

/-- The homomorphisms, `/repo/sdd/hom/definition.hh:45-59`.  A unified homomorphism (a pointer to unified data,
`definition.hh:38-43`) is a term, and the comparison of pointers (`definition.hh:207-216`) the equality of terms.

* an order held by `cons` (`/repo/sdd/hom/cons.hh:22-34`) is the tree `OB` describing it (see `Ord.View`);
* `consF` and `consH`: the two instances `_cons<C, Values>` and `_cons<C, SDD>`;
* `fn x u`: the user's function `u` on the variable `x` (`/repo/sdd/hom/function.hh:208-222`); `ind u`: the user's inductive
  homomorphism `u` (`/repo/sdd/hom/inductive.hh:240-246`); the behaviour of `u` is given by a `User`;
* the operands of `sum` and `inter` and the part `G` of the saturation homomorphisms are sorted arrays; the optional parts
  `F` and `L` of `satSum` and `satInter` are lists of at most one element. -/
inductive Hom (V I U : Type) : Type where
  | id
  | comp (l r : Hom V I U)
  | consF (o : OB I) (v : V) (next : Hom V I U)
  | consH (o : OB I) (v : SDD V) (next : Hom V I U)
  | const (s : SDD V)
  | fix (h : Hom V I U)
  | fn (x : Nat) (u : U)
  | ite (i t e : Hom V I U)
  | ind (u : U)
  | inter (hs : List (Hom V I U))
  | loc (x : Nat) (h : Hom V I U)
  | satFix (x : Nat) (F : Hom V I U) (G : List (Hom V I U)) (L : Hom V I U)
  | satInter (x : Nat) (F G L : List (Hom V I U))
  | satSum (x : Nat) (F G L : List (Hom V I U))
  | sum (hs : List (Hom V I U))

/-- What the user provides.

* `fn`, `fnSel`, `fnShift`: `operator()`, `selector()` and `shifter()` of a user's function, `/repo/sdd/hom/function.hh:27-67`
  (the last two are `false` when not provided, 122-203);
* `indOne`, `indF`, `indH`: the three `operator()` of a user's inductive, `/repo/sdd/hom/inductive.hh:26-76`;
* `indSkip`, `indSel`: `skip` and `selector` of a user's inductive (`false` when not provided,
  `/repo/sdd/hom/inductive.hh:186-235`). `skip` receives the user part of the identifier of the level (the code asserts that the
  identifier is not artificial); here the whole identifier.

User's functions are pure; exceptions they raise are in `Lib.applyX`, and their uses of the library in `Lib.applyR`
(`Verif/Hom/History.lean`). -/
structure User (V I U : Type) where
  fn : U → V → V
  fnSel : U → Bool
  fnShift : U → Bool
  indOne : U → SDD V
  indF : U → OB I → V → Hom V I U
  indH : U → OB I → SDD V → Hom V I U
  indSkip : U → OId I → Bool
  indSel : U → Bool

namespace Hom
variable {V I U : Type}

/-- Induction principle seeing the operands as lists. -/
theorem induct {P : Hom V I U → Prop} (id : P .id) (comp : ∀ l r, P l → P r → P (.comp l r))
    (consF : ∀ o v n, P n → P (.consF o v n)) (consH : ∀ o v n, P n → P (.consH o v n)) (const : ∀ s, P (.const s))
    (fix : ∀ h, P h → P (.fix h)) (fn : ∀ x u, P (.fn x u)) (ite : ∀ i t e, P i → P t → P e → P (.ite i t e))
    (ind : ∀ u, P (.ind u)) (inter : ∀ hs, (∀ h ∈ hs, P h) → P (.inter hs)) (loc : ∀ x h, P h → P (.loc x h))
    (satFix : ∀ x F G L, P F → (∀ g ∈ G, P g) → P L → P (.satFix x F G L))
    (satInter : ∀ x F G L, (∀ h ∈ F, P h) → (∀ h ∈ G, P h) → (∀ h ∈ L, P h) → P (.satInter x F G L))
    (satSum : ∀ x F G L, (∀ h ∈ F, P h) → (∀ h ∈ G, P h) → (∀ h ∈ L, P h) → P (.satSum x F G L))
    (sum : ∀ hs, (∀ h ∈ hs, P h) → P (.sum hs)) : ∀ h, P h := by
  intro h
  refine Hom.rec (motive_1 := P) (motive_2 := fun hs => ∀ h ∈ hs, P h) id comp consF consH const fix fn ite ind inter loc
    satFix satInter satSum sum (by simp) ?_ h
  intro h hs ih1 ih2 h' hh
  rw [List.mem_cons] at hh
  rcases hh with rfl | hh
  · exact ih1
  · exact ih2 _ hh

section
variable [DecidableEq V] [DecidableEq I] [DecidableEq U]

mutual
/-- Structural equality: the `operator==` of each homomorphism (`/repo/sdd/hom/composition.hh:57-63`, ...). -/
def beq : Hom V I U → Hom V I U → Bool
  | id, id => true
  | comp l r, comp l' r' => beq l l' && beq r r'
  | consF o v n, consF o' v' n' => decide (o = o') && decide (v = v') && beq n n'
  | consH o v n, consH o' v' n' => decide (o = o') && decide (v = v') && beq n n'
  | const s, const s' => decide (s = s')
  | fix h, fix h' => beq h h'
  | fn x u, fn x' u' => decide (x = x') && decide (u = u')
  | ite i t e, ite i' t' e' => beq i i' && beq t t' && beq e e'
  | ind u, ind u' => decide (u = u')
  | inter hs, inter hs' => beqL hs hs'
  | loc x h, loc x' h' => decide (x = x') && beq h h'
  | satFix x F G L, satFix x' F' G' L' => decide (x = x') && beq F F' && beqL G G' && beq L L'
  | satInter x F G L, satInter x' F' G' L' => decide (x = x') && beqL F F' && beqL G G' && beqL L L'
  | satSum x F G L, satSum x' F' G' L' => decide (x = x') && beqL F F' && beqL G G' && beqL L L'
  | sum hs, sum hs' => beqL hs hs'
  | _, _ => false
/-- Equality of lists of operands. (Unified data: equality of pointers, `/repo/sdd/mem/ptr.hh`, lines 195-201, is equality of contents.) -/
def beqL : List (Hom V I U) → List (Hom V I U) → Bool
  | [], [] => true
  | h :: hs, h' :: hs' => beq h h' && beqL hs hs'
  | _, _ => false
end

theorem beqL_iff {hs : List (Hom V I U)} (ih : ∀ h ∈ hs, ∀ h', beq h h' = true ↔ h = h') :
    ∀ hs', beqL hs hs' = true ↔ hs = hs' := by
  induction hs with
  | nil => intro hs'; cases hs' <;> simp [beqL]
  | cons h hs ihl =>
    intro hs'
    cases hs' with
    | nil => simp [beqL]
    | cons h' hs' => simp [beqL, ih h (by simp) h', ihl (fun g hg => ih g (by simp [hg])) hs']

theorem beq_iff (h : Hom V I U) : ∀ h', beq h h' = true ↔ h = h' := by
  induction h using induct with
  | id => intro h'; cases h' <;> simp [beq]
  | comp l r ih1 ih2 => intro h'; cases h' <;> simp [beq, ih1, ih2]
  | consF o v n ih => intro h'; cases h' <;> simp [beq, ih, and_assoc]
  | consH o v n ih => intro h'; cases h' <;> simp [beq, ih, and_assoc]
  | const s => intro h'; cases h' <;> simp [beq]
  | fix h ih => intro h'; cases h' <;> simp [beq, ih]
  | fn x u => intro h'; cases h' <;> simp [beq]
  | ite i t e ih1 ih2 ih3 => intro h'; cases h' <;> simp [beq, ih1, ih2, ih3, and_assoc]
  | ind u => intro h'; cases h' <;> simp [beq]
  | inter hs ih => intro h'; cases h' <;> simp [beq, beqL_iff ih]
  | loc x h ih => intro h'; cases h' <;> simp [beq, ih]
  | satFix x F G L ih1 ih2 ih3 => intro h'; cases h' <;> simp [beq, ih1, beqL_iff ih2, ih3, and_assoc]
  | satInter x F G L ih1 ih2 ih3 => intro h'; cases h' <;> simp [beq, beqL_iff ih1, beqL_iff ih2, beqL_iff ih3, and_assoc]
  | satSum x F G L ih1 ih2 ih3 => intro h'; cases h' <;> simp [beq, beqL_iff ih1, beqL_iff ih2, beqL_iff ih3, and_assoc]
  | sum hs ih => intro h'; cases h' <;> simp [beq, beqL_iff ih]

instance : DecidableEq (Hom V I U) := fun h h' => decidable_of_iff (beq h h' = true) (beq_iff h h')

end

/-- Whether a homomorphism is `Id`. (`operator==` with `id<C>()`, e.g. `/repo/sdd/hom/composition.hh`.) -/
def isId : Hom V I U → Bool
  | id => true
  | _ => false

theorem isId_iff {h : Hom V I U} : h.isId = true ↔ h = .id := by cases h <;> simp [isId]

mutual
/-- `skip(o)`, for an order which is not empty and whose first level has the variable `x` and the identifier `i`:
`/repo/sdd/hom/identity.hh:40-46`, `composition.hh:42-47`, `cons.hh:44-49`, `constant.hh:38-43`, `fixpoint.hh:53-58`,
`function.hh:287-292`, `if_then_else.hh:57-62`, `inductive.hh:189-211,295-300`, `intersection.hh:64-70`, `local.hh:93-98`,
`saturation_fixpoint.hh:107-112`, `saturation_intersection.hh:70-75`, `saturation_sum.hh:70-75`, `sum.hh:77-82`. -/
def skip (env : User V I U) (x : Nat) (i : OId I) : Hom V I U → Bool
  | id => true
  | comp l r => skip env x i l && skip env x i r
  | consF _ _ _ => false
  | consH _ _ _ => false
  | const _ => false
  | fix h => skip env x i h
  | fn y _ => decide (y ≠ x)
  | ite c t e => skip env x i c && skip env x i e && skip env x i t
  | ind u => env.indSkip u i
  | inter hs => skipAll env x i hs
  | loc y _ => decide (x ≠ y)
  | satFix y _ _ _ => decide (y ≠ x)
  | satInter y _ _ _ => decide (y ≠ x)
  | satSum y _ _ _ => decide (y ≠ x)
  | sum hs => skipAll env x i hs
/-- `std::all_of` for `skip`. (`/repo/sdd/hom/sum.hh`, lines 77-82; `/repo/sdd/hom/intersection.hh`, lines 64-70.) -/
def skipAll (env : User V I U) (x : Nat) (i : OId I) : List (Hom V I U) → Bool
  | [] => true
  | h :: hs => skip env x i h && skipAll env x i hs
end

mutual
/-- `selector()`: `/repo/sdd/hom/identity.hh:48-53`, `composition.hh:50-55`, `cons.hh:51-57`, `constant.hh:45-51`,
`fixpoint.hh:61-66`, `function.hh:295-300`, `if_then_else.hh:65-71`, `inductive.hh:216-235,303-308`, `intersection.hh:73-79`,
`local.hh:101-106`, `saturation_fixpoint.hh:115-121`, `saturation_intersection.hh:78-84`, `saturation_sum.hh:78-84`,
`sum.hh:86-91`. -/
def selector (env : User V I U) : Hom V I U → Bool
  | id => true
  | comp l r => selector env l && selector env r
  | consF _ _ _ => false
  | consH _ _ _ => false
  | const _ => false
  | fix h => selector env h
  | fn _ u => env.fnSel u
  | ite _ t e => selector env e && selector env t
  | ind u => env.indSel u
  | inter hs => selectorAll env hs
  | loc _ h => selector env h
  | satFix _ F G L => selector env F && selector env L && selectorAll env G
  | satInter _ F G L => selectorAll env F && selectorAll env L && selectorAll env G
  | satSum _ F G L => selectorAll env F && selectorAll env L && selectorAll env G
  | sum hs => selectorAll env hs
/-- `std::all_of` for `selector`. (`/repo/sdd/hom/sum.hh`, lines 86-91; `/repo/sdd/hom/intersection.hh`, lines 73-79.) -/
def selectorAll (env : User V I U) : List (Hom V I U) → Bool
  | [] => true
  | h :: hs => selector env h && selectorAll env hs
end

theorem skipAll_iff {env : User V I U} {x : Nat} {i : OId I} {hs : List (Hom V I U)} :
    skipAll env x i hs = true ↔ ∀ h ∈ hs, skip env x i h = true := by
  induction hs with
  | nil => simp [skipAll]
  | cons h hs ih => simp [skipAll, ih]

theorem selectorAll_iff {env : User V I U} {hs : List (Hom V I U)} :
    selectorAll env hs = true ↔ ∀ h ∈ hs, selector env h = true := by
  induction hs with
  | nil => simp [selectorAll]
  | cons h hs ih => simp [selectorAll, ih]

end Hom
end Verif
