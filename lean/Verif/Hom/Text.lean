import Verif.Hom.History
import Verif.DD.Text
import Verif.Order.Text
/-!
# Textual output of homomorphisms

`operator<<` of homomorphisms, as sequences of characters; which homomorphisms have the same text.
-/

set_option autoImplicit false
set_option linter.unusedSectionVars false

namespace Verif

variable {V E I U : Type}

/-- `operator<<` of the types of the configuration and of the user: sets of values, identifiers, variables (`variable_type`), functions and
inductive homomorphisms (`function(address)` and `inductive(address)` when the user gives none, `/repo/sdd/hom/function.hh:186-206`,
`/repo/sdd/hom/inductive.hh:164-184`). -/
structure Printers (V I U : Type) where
  pv : V → List Char
  pi : I → List Char
  px : Nat → List Char
  pu : U → List Char

/-- Operands separated by `sep`: `std::copy` to an `ostream_iterator` up to the last operand, then the last operand. `none`: undefined
behaviour (`std::prev(end())` without operands). (`/repo/sdd/hom/sum.hh`, `operator<<`, and the same in the other n-ary homomorphisms.) -/
def joinWith (sep : List Char) : List (List Char) → Option (List Char)
  | [] => none
  | [a] => some a
  | a :: b :: l => (joinWith sep (b :: l)).map fun r => a ++ (sep ++ r)

/-- The identifier of the head of an order, `/repo/sdd/order/order.hh:120-126`; `none`: dereference of a null pointer. -/
def OB.headText (pi : I → List Char) : OB I → Option (List Char)
  | .nil => none
  | .node id _ _ => some (textId pi id)

namespace Hom

mutual
/-- `operator<<` for homomorphisms: `/repo/sdd/hom/definition.hh:240-246`, `/repo/sdd/mem/variant.hh:84-89` (dispatch) and, in `/repo/sdd/hom/`,
`identity.hh:63-68`, `composition.hh:65-70`, `cons.hh:67-73`, `constant.hh:61-66`, `fixpoint.hh:76-81`, `function.hh:318-325`,
`if_then_else.hh:83-88`, `inductive.hh:318-324`, `intersection.hh:109-117`, `local.hh:116-121`, `saturation_fixpoint.hh:153-166`,
`saturation_intersection.hh:94-116`, `saturation_sum.hh:94-116`, `sum.hh:131-138`. -/
def text (P : Printers V I U) : Hom V I U → Option (List Char)
  | id => some ['I', 'd']
  | comp l r => (text P l).bind fun a => (text P r).map fun b => a ++ (' ' :: 'o' :: ' ' :: b)
  | consF o v n => (o.headText P.pi).bind fun i => (text P n).map fun c =>
      'c' :: 'o' :: 'n' :: 's' :: '(' :: (i ++ (',' :: ' ' :: (P.pv v ++ (',' :: ' ' :: (c ++ [')'])))))
  | consH o v n => (o.headText P.pi).bind fun i => (textSdd P.pv v).bind fun b => (text P n).map fun c =>
      'c' :: 'o' :: 'n' :: 's' :: '(' :: (i ++ (',' :: ' ' :: (b ++ (',' :: ' ' :: (c ++ [')'])))))
  | const s => (textSdd P.pv s).map fun a => 'c' :: 'o' :: 'n' :: 's' :: 't' :: '(' :: (a ++ [')'])
  | fix h => (text P h).map fun a => '(' :: (a ++ [')', '*'])
  | fn x u => some ('f' :: 'u' :: 'n' :: '(' :: (P.px x ++ (',' :: ' ' :: (P.pu u ++ [')']))))
  | ite i t e => (text P i).bind fun a => (text P t).bind fun b => (text P e).map fun c =>
      'i' :: 't' :: 'e' :: '(' :: (a ++ (',' :: ' ' :: (b ++ (',' :: (c ++ [')'])))))
  | ind u => some (P.pu u)
  | inter hs => (texts P hs).bind fun l => (joinWith [' ', '&', ' '] l).map fun a => '(' :: (a ++ [')'])
  | loc x h => (text P h).map fun a => '@' :: '(' :: (P.px x ++ (',' :: ' ' :: (a ++ [')'])))
  | satFix x F G L => (text P F).bind fun a => (text P L).bind fun b => (texts P G).bind fun l =>
      (if l = [] then some [] else (joinWith [' ', '+', ' '] l).map fun r => ' ' :: '+' :: ' ' :: (r ++ [')', '*'])).map fun c =>
        'S' :: 'a' :: 't' :: '(' :: '@' :: (P.px x ++ (',' :: ' ' :: ' ' :: (a ++ (' ' :: '+' :: ' ' :: (b ++ c)))))
  | satInter x F G L => (texts P F).bind fun a => (texts P G).bind fun l => (texts P L).bind fun b =>
      (if l = [] then some [] else (joinWith [' ', '&', ' '] l).map fun r => r ++ [')']).map fun c =>
        'S' :: 'a' :: 't' :: 'I' :: 'n' :: 't' :: 'e' :: 'r' :: '(' :: '@' :: (dec x ++ (',' :: ' ' :: 'F' :: '=' :: (a.flatten ++
          (',' :: ' ' :: 'G' :: '=' :: (c ++ (',' :: ' ' :: 'L' :: '=' :: (b.flatten ++ [')'])))))))
  | satSum x F G L => (texts P F).bind fun a => (texts P G).bind fun l => (texts P L).bind fun b =>
      (if l = [] then some [] else (joinWith [' ', '+', ' '] l).map fun r => r ++ [')']).map fun c =>
        'S' :: 'a' :: 't' :: 'S' :: 'u' :: 'm' :: '(' :: '@' :: (dec x ++ (',' :: ' ' :: 'F' :: '=' :: (a.flatten ++
          (',' :: ' ' :: 'G' :: '=' :: (c ++ (',' :: ' ' :: 'L' :: '=' :: b.flatten))))))
  | sum hs => (texts P hs).bind fun l => (joinWith [' ', '+', ' '] l).map fun a => '(' :: (a ++ [')'])
/-- The texts of operands. (`operator<<` of the operands.) -/
def texts (P : Printers V I U) : List (Hom V I U) → Option (List (List Char))
  | [] => some []
  | h :: hs => (text P h).bind fun a => (texts P hs).map fun l => a :: l
end

/-- Homomorphisms which differ only by the grouping of compositions: the smallest equivalence containing `(a o b) o c` and `a o (b o c)`, and
compatible with the construction of homomorphisms. (Specification or proof device, not part of the code.) -/
inductive Assoc : Hom V I U → Hom V I U → Prop where
  | refl (h : Hom V I U) : Assoc h h
  | symm {h h' : Hom V I U} : Assoc h h' → Assoc h' h
  | trans {h h' h'' : Hom V I U} : Assoc h h' → Assoc h' h'' → Assoc h h''
  | assoc (a b c : Hom V I U) : Assoc (.comp (.comp a b) c) (.comp a (.comp b c))
  | compL {l l' : Hom V I U} (r : Hom V I U) : Assoc l l' → Assoc (.comp l r) (.comp l' r)
  | compR {r r' : Hom V I U} (l : Hom V I U) : Assoc r r' → Assoc (.comp l r) (.comp l r')
  | consF (o : OB I) (v : V) {h h' : Hom V I U} : Assoc h h' → Assoc (.consF o v h) (.consF o v h')
  | consH (o : OB I) (v : SDD V) {h h' : Hom V I U} : Assoc h h' → Assoc (.consH o v h) (.consH o v h')
  | fix {h h' : Hom V I U} : Assoc h h' → Assoc (.fix h) (.fix h')
  | iteI {i i' : Hom V I U} (t e : Hom V I U) : Assoc i i' → Assoc (.ite i t e) (.ite i' t e)
  | iteT {t t' : Hom V I U} (i e : Hom V I U) : Assoc t t' → Assoc (.ite i t e) (.ite i t' e)
  | iteE {e e' : Hom V I U} (i t : Hom V I U) : Assoc e e' → Assoc (.ite i t e) (.ite i t e')
  | inter (l r : List (Hom V I U)) {h h' : Hom V I U} : Assoc h h' → Assoc (.inter (l ++ h :: r)) (.inter (l ++ h' :: r))
  | loc (x : Nat) {h h' : Hom V I U} : Assoc h h' → Assoc (.loc x h) (.loc x h')
  | satFixF (x : Nat) (G : List (Hom V I U)) (L : Hom V I U) {h h' : Hom V I U} : Assoc h h' →
      Assoc (.satFix x h G L) (.satFix x h' G L)
  | satFixG (x : Nat) (F : Hom V I U) (l r : List (Hom V I U)) (L : Hom V I U) {h h' : Hom V I U} : Assoc h h' →
      Assoc (.satFix x F (l ++ h :: r) L) (.satFix x F (l ++ h' :: r) L)
  | satFixL (x : Nat) (F : Hom V I U) (G : List (Hom V I U)) {h h' : Hom V I U} : Assoc h h' →
      Assoc (.satFix x F G h) (.satFix x F G h')
  | satInterF (x : Nat) (l r G L : List (Hom V I U)) {h h' : Hom V I U} : Assoc h h' →
      Assoc (.satInter x (l ++ h :: r) G L) (.satInter x (l ++ h' :: r) G L)
  | satInterG (x : Nat) (F l r L : List (Hom V I U)) {h h' : Hom V I U} : Assoc h h' →
      Assoc (.satInter x F (l ++ h :: r) L) (.satInter x F (l ++ h' :: r) L)
  | satInterL (x : Nat) (F G l r : List (Hom V I U)) {h h' : Hom V I U} : Assoc h h' →
      Assoc (.satInter x F G (l ++ h :: r)) (.satInter x F G (l ++ h' :: r))
  | satSumF (x : Nat) (l r G L : List (Hom V I U)) {h h' : Hom V I U} : Assoc h h' →
      Assoc (.satSum x (l ++ h :: r) G L) (.satSum x (l ++ h' :: r) G L)
  | satSumG (x : Nat) (F l r L : List (Hom V I U)) {h h' : Hom V I U} : Assoc h h' →
      Assoc (.satSum x F (l ++ h :: r) L) (.satSum x F (l ++ h' :: r) L)
  | satSumL (x : Nat) (F G l r : List (Hom V I U)) {h h' : Hom V I U} : Assoc h h' →
      Assoc (.satSum x F G (l ++ h :: r)) (.satSum x F G (l ++ h' :: r))
  | sum (l r : List (Hom V I U)) {h h' : Hom V I U} : Assoc h h' → Assoc (.sum (l ++ h :: r)) (.sum (l ++ h' :: r))

/-! ## The text does not tell the grouping -/

section
variable {P : Printers V I U}

theorem texts_append (l r : List (Hom V I U)) : texts P (l ++ r) = (texts P l).bind fun a => (texts P r).map fun b => a ++ b := by
  induction l with
  | nil => simp [texts]
  | cons h l ih =>
    simp only [List.cons_append, texts, ih]
    cases text P h <;> simp
    cases texts P l <;> simp
    cases texts P r <;> simp

theorem texts_congr {h h' : Hom V I U} (l r : List (Hom V I U)) (e : text P h = text P h') : texts P (l ++ h :: r) = texts P (l ++ h' :: r) := by
  rw [texts_append, texts_append, texts, texts, e]

theorem Assoc.text {h h' : Hom V I U} (ha : Assoc h h') : text P h = text P h' := by
  induction ha with
  | refl => rfl
  | symm _ ih => exact ih.symm
  | trans _ _ a b => exact a.trans b
  | assoc a b c =>
    simp only [Hom.text]
    cases Hom.text P a <;> simp
    cases Hom.text P b <;> simp
    cases Hom.text P c <;> simp
  | inter l r _ ih => simp only [Hom.text, texts_congr l r ih]
  | sum l r _ ih => simp only [Hom.text, texts_congr l r ih]
  | satFixG _ _ l r _ _ ih => simp only [Hom.text, texts_congr l r ih]
  | satInterF _ l r _ _ _ ih => simp only [Hom.text, texts_congr l r ih]
  | satInterG _ _ l r _ _ ih => simp only [Hom.text, texts_congr l r ih]
  | satInterL _ _ _ l r _ ih => simp only [Hom.text, texts_congr l r ih]
  | satSumF _ l r _ _ _ ih => simp only [Hom.text, texts_congr l r ih]
  | satSumG _ _ l r _ _ ih => simp only [Hom.text, texts_congr l r ih]
  | satSumL _ _ _ l r _ ih => simp only [Hom.text, texts_congr l r ih]
  | _ => simp only [Hom.text, *]

/-! ## What the text tells -/

/-- The sequence of homomorphisms composed at the top. (Specification or proof device, not part of the code.) -/
def factors : Hom V I U → List (Hom V I U)
  | comp l r => factors l ++ factors r
  | h => [h]

theorem factors_ne_nil (h : Hom V I U) : h.factors ≠ [] := by
  induction h using Hom.induct with
  | comp l r a _ => simp [factors, a]
  | _ => simp [factors]

/-- Composition of a sequence. (Specification or proof device, not part of the code.) -/
def compose : List (Hom V I U) → Hom V I U
  | [] => .id
  | [h] => h
  | h :: h' :: hs => .comp h (compose (h' :: hs))

theorem compose_append : ∀ (l r : List (Hom V I U)), l ≠ [] → r ≠ [] → Assoc (.comp (compose l) (compose r)) (compose (l ++ r))
  | [], _, h, _ => absurd rfl h
  | [h], [], _, h' => absurd rfl h'
  | [h], _ :: _, _, _ => .refl _
  | h :: h' :: l, r, _, hr => by
    refine .trans (.assoc _ _ _) ?_
    exact .compR _ (compose_append (h' :: l) r (by simp) hr)

theorem compose_factors (h : Hom V I U) : Assoc h (compose h.factors) := by
  induction h using Hom.induct with
  | comp l r a b =>
    exact .trans (.compL _ a) (.trans (.compR _ b) (compose_append _ _ (factors_ne_nil l) (factors_ne_nil r)))
  | _ => exact .refl _

theorem compose_congr : ∀ {l l' : List (Hom V I U)}, List.Forall₂ Assoc l l' → Assoc (compose l) (compose l')
  | _, _, .nil => .refl _
  | _, _, .cons h .nil => h
  | _, _, .cons h (.cons h' t) => .trans (.compL _ h) (.compR _ (compose_congr (.cons h' t)))

/-- Homomorphisms whose factors are the same. -/
theorem Assoc.of_factors {h h' : Hom V I U} (hf : List.Forall₂ Assoc h.factors h'.factors) : Assoc h h' :=
  (compose_factors h).trans ((compose_congr hf).trans (compose_factors h').symm)

/-- From operands to a list of operands. -/
theorem Assoc.ofList {f : List (Hom V I U) → Hom V I U}
    (hf : ∀ (l r : List (Hom V I U)) {h h' : Hom V I U}, Assoc h h' → Assoc (f (l ++ h :: r)) (f (l ++ h' :: r))) :
    ∀ {hs hs' : List (Hom V I U)}, List.Forall₂ Assoc hs hs' → Assoc (f hs) (f hs') := by
  have key : ∀ {hs hs' : List (Hom V I U)}, List.Forall₂ Assoc hs hs' → ∀ l, Assoc (f (l ++ hs)) (f (l ++ hs')) := by
    intro hs hs' h
    induction h with
    | nil => intro l; exact .refl _
    | @cons a b l1 l2 hab _ ih =>
      intro l
      have := ih (l ++ [b])
      simp only [List.append_assoc, List.singleton_append] at this
      exact .trans (hf l l1 hab) this
  intro hs hs' h
  exact key h []


/-! ## Reading a text -/

/-- What may follow a homomorphism in a text. (Specification or proof device, not part of the code.) -/
def Follow (t : List Char) : Prop :=
  t = [] ∨ (∃ r, t = ')' :: r) ∨ (∃ r, t = ',' :: r) ∨ (∃ r, t = ' ' :: '+' :: r) ∨ ∃ r, t = ' ' :: '&' :: r

/-- What may follow a homomorphism which is not a composition. (Specification or proof device, not part of the code.) -/
def FollowA (t : List Char) : Prop := Follow t ∨ ∃ r, t = ' ' :: 'o' :: ' ' :: r

/-- The beginnings of texts. (Specification or proof device, not part of the code.) -/
inductive Kw where
  | id | cons | const | par | fn | ite | loc | satFix | satInter | satSum
  deriving DecidableEq

/-- The characters of the beginnings of texts. (Specification or proof device, not part of the code.) -/
def Kw.chars : Kw → List Char
  | id => ['I', 'd']
  | cons => ['c', 'o', 'n', 's', '(']
  | const => ['c', 'o', 'n', 's', 't', '(']
  | par => ['(']
  | fn => ['f', 'u', 'n', '(']
  | ite => ['i', 't', 'e', '(']
  | loc => ['@', '(']
  | satFix => ['S', 'a', 't', '(', '@']
  | satInter => ['S', 'a', 't', 'I', 'n', 't', 'e', 'r', '(', '@']
  | satSum => ['S', 'a', 't', 'S', 'u', 'm', '(', '@']

/-- What is asked of the texts of values, variables, functions, inductive homomorphisms and of the orders `S` held by `cons`: they can be read
back, and the texts of inductive homomorphisms are not mistaken for those of others. (Specification or proof device, not part of the code.) -/
structure _root_.Verif.Printers.OK (P : Printers V I U) (S : OB I → Prop) : Prop where
  val : ValText P.pv
  var : ∀ x y t t', P.px x ++ ',' :: t = P.px y ++ ',' :: t' → x = y ∧ t = t'
  user : ∀ u v t t', FollowA t → FollowA t' → P.pu u ++ t = P.pu v ++ t' → u = v ∧ t = t'
  kw : ∀ u, ∀ k : Kw, ¬ k.chars <+: P.pu u ∧ ¬ P.pu u <+: k.chars
  head : ∀ u, ∃ c l, P.pu u = c :: l ∧ c ≠ ',' ∧ c ≠ ')'
  id : ∀ o o' i i' t t', S o → S o' → o.headText P.pi = some i → o'.headText P.pi = some i' → i ++ ',' :: t = i' ++ ',' :: t' → o = o' ∧ t = t'

/-- The level of a saturation of a fixpoint without part `G`, at the end of a homomorphism: nothing closes its text.
(Specification or proof device, not part of the code.) -/
def opened : Hom V I U → Option Nat
  | satFix x _ [] _ => some x
  | comp _ r => opened r
  | _ => none

/-- The part `L` of a saturation of the level `x`: the identity or a local homomorphism of this level.
(Specification or proof device, not part of the code.) -/
def Shut (x : Nat) (h : Hom V I U) : Prop := h = .id ∨ ∃ g, h = .loc x g

/-- The first operand of the part `G` of a saturation of the level `x` begins neither by the identity nor by a local homomorphism of a level above.
(Specification or proof device, not part of the code.) -/
def Lead (x : Nat) (h : Hom V I U) : Prop := ∀ a, h.factors.head? = some a → a ≠ .id ∧ ∀ y g, a = .loc y g → y ≤ x

/-- Homomorphisms whose text can be read: at least two operands in sums and intersections, orders of `S`, saturations made like `rewrite` does
and, in a sum or in the part `G` of a saturation, only the last operand may end with a saturation of a fixpoint without part `G`.
(Specification or proof device, not part of the code.) -/
inductive Readable (S : OB I → Prop) : Hom V I U → Prop where
  | id : Readable S .id
  | comp {l r : Hom V I U} : Readable S l → Readable S r → Readable S (.comp l r)
  | consF {o : OB I} {v : V} {h : Hom V I U} : S o → Readable S h → Readable S (.consF o v h)
  | consH {o : OB I} {v : SDD V} {h : Hom V I U} : S o → Readable S h → Readable S (.consH o v h)
  | const {s : SDD V} : Readable S (.const s)
  | fix {h : Hom V I U} : Readable S h → Readable S (.fix h)
  | fn {x : Nat} {u : U} : Readable S (.fn x u)
  | ite {i t e : Hom V I U} : Readable S i → Readable S t → Readable S e → Readable S (.ite i t e)
  | ind {u : U} : Readable S (.ind u)
  | inter {hs : List (Hom V I U)} : 2 ≤ hs.length → (∀ h ∈ hs, Readable S h) → Readable S (.inter hs)
  | loc {x : Nat} {h : Hom V I U} : Readable S h → Readable S (.loc x h)
  | satFix {x : Nat} {F L : Hom V I U} {G : List (Hom V I U)} : Readable S F → (∀ y, F.opened = some y → y < x) → (∀ h ∈ G, Readable S h) →
      (∀ h ∈ G.dropLast, h.opened = none) → (∀ h ∈ G.head?, Lead x h) → Readable S L → Shut x L → Readable S (.satFix x F G L)
  | satInter {x : Nat} {F G L : List (Hom V I U)} : F.length ≤ 1 → L.length ≤ 1 → (∀ h ∈ F, Readable S h) → (∀ h ∈ G, Readable S h) →
      (∀ h ∈ L, Readable S h) → Readable S (.satInter x F G L)
  | satSum {x : Nat} {F G L : List (Hom V I U)} : F.length ≤ 1 → L.length ≤ 1 → (∀ h ∈ F, Readable S h) → (∀ h ∈ G, Readable S h) →
      (∀ h ∈ G.dropLast, h.opened = none) → (∀ h ∈ L, Readable S h) → (∀ h ∈ L, Shut x h) → Readable S (.satSum x F G L)
  | sum {hs : List (Hom V I U)} : 2 ≤ hs.length → (∀ h ∈ hs, Readable S h) → (∀ h ∈ hs.dropLast, h.opened = none) → Readable S (.sum hs)

theorem Readable.factors {S : OB I → Prop} {h : Hom V I U} (hr : Readable S h) : ∀ a ∈ h.factors, Readable S a ∧ a.factors = [a] := by
  induction hr with
  | comp _ _ a b =>
    intro x hx
    rw [Hom.factors, List.mem_append] at hx
    rcases hx with hx | hx
    · exact a x hx
    · exact b x hx
  | id => intro x hx; rw [List.mem_singleton.1 hx]; exact ⟨.id, rfl⟩
  | consF h1 h2 => intro x hx; rw [List.mem_singleton.1 hx]; exact ⟨.consF h1 h2, rfl⟩
  | consH h1 h2 => intro x hx; rw [List.mem_singleton.1 hx]; exact ⟨.consH h1 h2, rfl⟩
  | const => intro x hx; rw [List.mem_singleton.1 hx]; exact ⟨.const, rfl⟩
  | fix h1 => intro x hx; rw [List.mem_singleton.1 hx]; exact ⟨.fix h1, rfl⟩
  | fn => intro x hx; rw [List.mem_singleton.1 hx]; exact ⟨.fn, rfl⟩
  | ite h1 h2 h3 => intro x hx; rw [List.mem_singleton.1 hx]; exact ⟨.ite h1 h2 h3, rfl⟩
  | ind => intro x hx; rw [List.mem_singleton.1 hx]; exact ⟨.ind, rfl⟩
  | inter h1 h2 => intro x hx; rw [List.mem_singleton.1 hx]; exact ⟨.inter h1 h2, rfl⟩
  | loc h1 => intro x hx; rw [List.mem_singleton.1 hx]; exact ⟨.loc h1, rfl⟩
  | satFix h1 h2 h3 h4 h5 h6 h7 => intro x hx; rw [List.mem_singleton.1 hx]; exact ⟨.satFix h1 h2 h3 h4 h5 h6 h7, rfl⟩
  | satSum h1 h2 h3 h4 h5 h6 h7 => intro x hx; rw [List.mem_singleton.1 hx]; exact ⟨.satSum h1 h2 h3 h4 h5 h6 h7, rfl⟩
  | satInter h1 h2 h3 h4 h5 => intro x hx; rw [List.mem_singleton.1 hx]; exact ⟨.satInter h1 h2 h3 h4 h5, rfl⟩
  | sum h1 h2 h3 => intro x hx; rw [List.mem_singleton.1 hx]; exact ⟨.sum h1 h2 h3, rfl⟩

theorem joinWith_append {sep : List Char} : ∀ {l r : List (List Char)}, l ≠ [] → r ≠ [] →
    joinWith sep (l ++ r) = (joinWith sep l).bind fun a => (joinWith sep r).map fun b => a ++ (sep ++ b)
  | [], _, h, _ => absurd rfl h
  | [a], [], _, h => absurd rfl h
  | [a], b :: r, _, _ => by simp [joinWith]
  | a :: b :: l, r, _, hr => by
    have := joinWith_append (sep := sep) (l := b :: l) (r := r) (by simp) hr
    simp only [List.cons_append] at this
    simp only [List.cons_append, joinWith, this]
    cases joinWith sep (b :: l) <;> simp
    cases joinWith sep r <;> simp

theorem texts_ne_nil {hs : List (Hom V I U)} {l : List (List Char)} (h : texts P hs = some l) : l = [] ↔ hs = [] := by
  cases hs with
  | nil => simp [texts] at h; simp [← h]
  | cons a hs =>
    simp only [texts, Option.bind_eq_some_iff, Option.map_eq_some_iff] at h
    obtain ⟨_, _, _, _, rfl⟩ := h
    simp

theorem text_factors (h : Hom V I U) : ∀ {x : List Char}, text P h = some x →
    ∃ l, texts P h.factors = some l ∧ joinWith [' ', 'o', ' '] l = some x := by
  induction h using Hom.induct with
  | comp l r a b =>
    intro x hx
    simp only [text, Option.bind_eq_some_iff, Option.map_eq_some_iff] at hx
    obtain ⟨u, h1, v, h2, rfl⟩ := hx
    obtain ⟨l1, e1, e2⟩ := a h1
    obtain ⟨l2, e3, e4⟩ := b h2
    refine ⟨l1 ++ l2, by simp [factors, texts_append, e1, e3], ?_⟩
    rw [joinWith_append (fun h => factors_ne_nil l ((texts_ne_nil e1).1 h)) (fun h => factors_ne_nil r ((texts_ne_nil e3).1 h)), e2, e4]
    rfl
  | _ => intro x hx; exact ⟨[x], by simp [factors, texts, hx], rfl⟩

/-- Reading a sequence of homomorphisms separated by `sep`. -/
theorem join_uniq {sep : List Char} {Q : Hom V I U → Prop} {F : Hom V I U → List Char → Prop} (hF : ∀ h, Q h → ∀ r, F h (sep ++ r)) :
    ∀ {hs hs' : List (Hom V I U)} {l l' : List (List Char)} {x x' t t' : List Char},
      (∀ h ∈ hs, ∀ h' ∈ hs', ∀ y y' s s', text P h = some y → text P h' = some y' → F h s → F h' s' → y ++ s = y' ++ s' →
        Assoc h h' ∧ s = s') → (∀ h ∈ hs.dropLast, Q h) → (∀ h ∈ hs'.dropLast, Q h) →
      (∀ h ∈ hs.getLast?, F h t) → (∀ h ∈ hs'.getLast?, F h t') → (∀ r, t ≠ sep ++ r) → (∀ r, t' ≠ sep ++ r) →
      texts P hs = some l → texts P hs' = some l' → joinWith sep l = some x →
      joinWith sep l' = some x' → x ++ t = x' ++ t' → List.Forall₂ Assoc hs hs' ∧ t = t'
  | [], _, l, l', x, x', t, t', _, _, _, _, _, _, _, h, _, hj, _, _ => by
    simp [texts] at h; subst h; simp [joinWith] at hj
  | _ :: _, [], l, l', x, x', t, t', _, _, _, _, _, _, _, _, h, _, hj, _ => by
    simp [texts] at h; subst h; simp [joinWith] at hj
  | [h], [h'], l, l', x, x', t, t', hR, _, _, ht, ht', _, _, h1, h2, h3, h4, e => by
    simp only [texts, Option.bind_eq_some_iff, Option.map_eq_some_iff] at h1 h2
    obtain ⟨a, ha, _, ⟨⟩, rfl⟩ := h1
    obtain ⟨b, hb, _, ⟨⟩, rfl⟩ := h2
    cases h3; cases h4
    obtain ⟨g1, g2⟩ := hR h (by simp) h' (by simp) _ _ _ _ ha hb (ht h (by simp)) (ht' h' (by simp)) e
    exact ⟨.cons g1 .nil, g2⟩
  | [h], h' :: k' :: hs', l, l', x, x', t, t', hR, _, q', ht, _, n1, _, h1, h2, h3, h4, e => by
    simp only [texts, Option.bind_eq_some_iff, Option.map_eq_some_iff] at h1 h2
    obtain ⟨a, ha, _, ⟨⟩, rfl⟩ := h1
    obtain ⟨b, hb, _, ⟨c, _, _, _, rfl⟩, rfl⟩ := h2
    cases h3
    simp only [joinWith, Option.map_eq_some_iff] at h4
    obtain ⟨r, _, rfl⟩ := h4
    rw [List.append_assoc, List.append_assoc] at e
    exact absurd (hR h (by simp) h' (by simp) _ _ _ _ ha hb (ht h (by simp)) (hF _ (q' h' (by simp)) _) e).2 (n1 _)
  | h :: k :: hs, [h'], l, l', x, x', t, t', hR, q, _, _, ht', _, n2, h1, h2, h3, h4, e => by
    simp only [texts, Option.bind_eq_some_iff, Option.map_eq_some_iff] at h1 h2
    obtain ⟨b, hb, _, ⟨c, _, _, _, rfl⟩, rfl⟩ := h1
    obtain ⟨a, ha, _, ⟨⟩, rfl⟩ := h2
    cases h4
    simp only [joinWith, Option.map_eq_some_iff] at h3
    obtain ⟨r, _, rfl⟩ := h3
    rw [List.append_assoc, List.append_assoc] at e
    exact absurd (hR h (by simp) h' (by simp) _ _ _ _ hb ha (hF _ (q h (by simp)) _) (ht' h' (by simp)) e).2.symm (n2 _)
  | h :: k :: hs, h' :: k' :: hs', l, l', x, x', t, t', hR, q, q', ht, ht', n1, n2, h1, h2, h3, h4, e => by
    rw [texts] at h1 h2
    simp only [Option.bind_eq_some_iff, Option.map_eq_some_iff] at h1 h2
    obtain ⟨b, hb, m, hm, rfl⟩ := h1
    obtain ⟨b', hb', m', hm', rfl⟩ := h2
    have hm0 : m ≠ [] := fun h => by cases (texts_ne_nil hm).1 h
    have hm0' : m' ≠ [] := fun h => by cases (texts_ne_nil hm').1 h
    obtain ⟨c, m, rfl⟩ := List.exists_cons_of_ne_nil hm0
    obtain ⟨c', m', rfl⟩ := List.exists_cons_of_ne_nil hm0'
    simp only [joinWith, Option.map_eq_some_iff] at h3 h4
    obtain ⟨r, hr, rfl⟩ := h3
    obtain ⟨r', hr', rfl⟩ := h4
    rw [List.append_assoc, List.append_assoc, List.append_assoc, List.append_assoc] at e
    rw [List.dropLast_cons_cons] at q q'
    rw [List.getLast?_cons_cons] at ht ht'
    obtain ⟨g1, g2⟩ := hR h (by simp) h' (by simp) _ _ _ _ hb hb' (hF _ (q h (by simp)) _) (hF _ (q' h' (by simp)) _) e
    obtain ⟨g3, g4⟩ := join_uniq hF (hs := k :: hs) (hs' := k' :: hs')
      (fun a ha a' ha' => hR a (List.mem_cons_of_mem _ ha) a' (List.mem_cons_of_mem _ ha')) (fun a ha => q a (List.mem_cons_of_mem _ ha))
      (fun a ha => q' a (List.mem_cons_of_mem _ ha)) ht ht' n1 n2 hm hm' hr hr' (List.append_cancel_left g2)
    exact ⟨.cons g1 g3, g4⟩

/-- What may follow a homomorphism which is not closed: not the rest of its part `G`. (Specification or proof device, not part of the code.) -/
def FollowO (P : Printers V I U) (h : Hom V I U) (t : List Char) : Prop :=
  ∀ x r, h.opened = some x → t = ' ' :: '+' :: ' ' :: r →
    (∃ r', r = 'I' :: 'd' :: r') ∨ ∃ y r', x < y ∧ r = '@' :: '(' :: (P.px y ++ ',' :: r')

/-- What may follow a homomorphism. (Specification or proof device, not part of the code.) -/
def FollowH (P : Printers V I U) (h : Hom V I U) (t : List Char) : Prop := Follow t ∧ FollowO P h t

/-- What may follow a homomorphism which is not a composition. (Specification or proof device, not part of the code.) -/
def FollowAH (P : Printers V I U) (h : Hom V I U) (t : List Char) : Prop := FollowA t ∧ FollowO P h t

/-- A homomorphism which is not a composition can be read. (Specification or proof device, not part of the code.) -/
def AtomR (P : Printers V I U) (S : OB I → Prop) (a : Hom V I U) : Prop :=
  ∀ a' x x' t t', a'.factors = [a'] → Readable S a' → text P a = some x → text P a' = some x' → FollowAH P a t → FollowAH P a' t' →
    x ++ t = x' ++ t' →
    Assoc a a' ∧ t = t'

/-- A homomorphism can be read, up to the grouping of compositions. (Specification or proof device, not part of the code.) -/
def HomR (P : Printers V I U) (S : OB I → Prop) (h : Hom V I U) : Prop :=
  ∀ h' x x' t t', Readable S h' → text P h = some x → text P h' = some x' → FollowH P h t → FollowH P h' t' →
    x ++ t = x' ++ t' → Assoc h h' ∧ t = t'

theorem Follow.not_comp {t : List Char} (h : Follow t) (r : List Char) : t ≠ [' ', 'o', ' '] ++ r := by
  rcases h with rfl | ⟨_, rfl⟩ | ⟨_, rfl⟩ | ⟨_, rfl⟩ | ⟨_, rfl⟩ <;> simp

theorem opened_factors (h : Hom V I U) : ∀ a ∈ h.factors.getLast?, a.opened = h.opened := by
  induction h using Hom.induct with
  | comp l r _ b =>
    intro a ha
    rw [factors, List.getLast?_append_of_ne_nil _ (factors_ne_nil r)] at ha
    exact b a ha
  | _ => intro a ha; simp only [factors, List.getLast?_singleton, Option.mem_def, Option.some.injEq] at ha; rw [← ha]

theorem HomR.of_factors {S : OB I → Prop} {h : Hom V I U} (ha : ∀ a ∈ h.factors, AtomR P S a) : HomR P S h := by
  intro h' x x' t t' hr' hx hx' ht ht' e
  obtain ⟨l, e1, e2⟩ := text_factors h hx
  obtain ⟨l', e1', e2'⟩ := text_factors h' hx'
  have hl : ∀ {h : Hom V I U} {t : List Char}, FollowH P h t → ∀ a ∈ h.factors.getLast?, FollowAH P a t := by
    intro h t ht a hm
    refine ⟨.inl ht.1, ?_⟩
    have := ht.2
    unfold FollowO at this ⊢
    rwa [opened_factors h a hm]
  obtain ⟨g1, g2⟩ := join_uniq (Q := fun _ => True) (F := FollowAH P) (fun h _ r => ⟨.inr ⟨r, rfl⟩, fun x r' _ e => by simp at e⟩)
    (hs := h.factors) (hs' := h'.factors)
    (fun a hm a' hm' y y' s s' h1 h2 h3 h4 h5 => ha a hm a' y y' s s' (hr'.factors a' hm').2 (hr'.factors a' hm').1 h1 h2 h3 h4 h5)
    (fun _ _ => trivial) (fun _ _ => trivial) (hl ht) (hl ht') ht.1.not_comp ht'.1.not_comp e1 e1' e2 e2' e
  exact ⟨.of_factors g1, g2⟩

/-- The beginning of the text of a homomorphism which is neither a composition nor inductive.
(Specification or proof device, not part of the code.) -/
def kw : Hom V I U → Option Kw
  | id => some .id
  | consF .. => some .cons
  | consH .. => some .cons
  | const .. => some .const
  | fix .. => some .par
  | inter .. => some .par
  | sum .. => some .par
  | fn .. => some .fn
  | ite .. => some .ite
  | loc .. => some .loc
  | satFix .. => some .satFix
  | satInter .. => some .satInter
  | satSum .. => some .satSum
  | comp .. => none
  | ind .. => none

theorem not_atom {l r : Hom V I U} (h : (Hom.comp l r).factors = [.comp l r]) : False := by
  have h1 := List.length_pos_iff.2 (factors_ne_nil l)
  have h2 := List.length_pos_iff.2 (factors_ne_nil r)
  have := congrArg List.length h
  simp only [factors, List.length_append, List.length_singleton] at this
  omega

theorem kw_prefix (k k' : Kw) (h : k.chars <+: k'.chars) : k = k' := by
  cases k <;> cases k' <;> first | rfl | exact absurd h (by decide)

theorem text_kw {a : Hom V I U} {k : Kw} (hk : a.kw = some k) {x : List Char} (hx : text P a = some x) : ∃ r, x = k.chars ++ r := by
  cases a with
  | comp => cases hk
  | ind u => cases hk
  | id => cases hk; cases hx; exact ⟨[], rfl⟩
  | fn y u => cases hk; cases hx; exact ⟨_, rfl⟩
  | consF | fix | loc | const | inter | sum =>
    cases hk
    simp only [text, Option.bind_eq_some_iff, Option.map_eq_some_iff] at hx
    obtain ⟨_, _, _, _, rfl⟩ := hx
    exact ⟨_, rfl⟩
  | consH | ite =>
    cases hk
    simp only [text, Option.bind_eq_some_iff, Option.map_eq_some_iff] at hx
    obtain ⟨_, _, _, _, _, _, rfl⟩ := hx
    exact ⟨_, rfl⟩
  | satFix | satInter | satSum =>
    cases hk
    simp only [text, Option.bind_eq_some_iff, Option.map_eq_some_iff] at hx
    obtain ⟨_, _, _, _, _, _, _, _, rfl⟩ := hx
    exact ⟨_, rfl⟩

theorem kw_none {a : Hom V I U} (ha : a.factors = [a]) (hk : a.kw = none) : ∃ u, a = .ind u := by
  cases a with
  | comp => exact (not_atom ha).elim
  | ind u => exact ⟨u, rfl⟩
  | _ => cases hk

/-- The first character of a text. -/
theorem text_head {S : OB I → Prop} (hP : P.OK S) (h : Hom V I U) : ∀ {x : List Char}, text P h = some x →
    ∃ c l, x = c :: l ∧ c ≠ ',' ∧ c ≠ ')' := by
  induction h using Hom.induct with
  | comp l r a _ =>
    intro x hx
    simp only [text, Option.bind_eq_some_iff, Option.map_eq_some_iff] at hx
    obtain ⟨u, h1, v, h2, rfl⟩ := hx
    obtain ⟨c, l, rfl, h⟩ := a h1
    exact ⟨c, _, rfl, h⟩
  | ind u => intro x hx; cases hx; exact hP.head u
  | _ =>
    intro x hx
    obtain ⟨r, rfl⟩ := text_kw rfl hx
    exact ⟨_, _, rfl, by decide, by decide⟩

/-- The texts of two homomorphisms which are not compositions begin in the same way. -/
theorem kw_eq {S : OB I → Prop} (hP : P.OK S) {a a' : Hom V I U} (ha : a.factors = [a]) (ha' : a'.factors = [a']) {x x' t t' : List Char}
    (hx : text P a = some x) (hx' : text P a' = some x') (e : x ++ t = x' ++ t') : a.kw = a'.kw := by
  have mix : ∀ (u : U) (k : Kw) (r t t' : List Char), P.pu u ++ t ≠ k.chars ++ r ++ t' := by
    intro u k r t t' e
    rw [List.append_assoc] at e
    have h1 : P.pu u <+: P.pu u ++ t := List.prefix_append _ _
    have h2 : k.chars <+: P.pu u ++ t := e ▸ List.prefix_append _ _
    rcases List.prefix_or_prefix_of_prefix h1 h2 with h | h
    · exact (hP.kw u k).2 h
    · exact (hP.kw u k).1 h
  cases hk : a.kw with
  | none =>
    obtain ⟨u, rfl⟩ := kw_none ha hk
    cases hk' : a'.kw with
    | none => rfl
    | some k =>
      obtain ⟨r, rfl⟩ := text_kw hk' hx'
      cases hx
      exact (mix _ _ _ _ _ e).elim
  | some k =>
    obtain ⟨r, rfl⟩ := text_kw hk hx
    cases hk' : a'.kw with
    | none =>
      obtain ⟨u, rfl⟩ := kw_none ha' hk'
      cases hx'
      exact (mix _ _ _ _ _ e.symm).elim
    | some k' =>
      obtain ⟨r', rfl⟩ := text_kw hk' hx'
      rw [List.append_assoc, List.append_assoc] at e
      have h1 : k.chars <+: k.chars ++ (r ++ t) := List.prefix_append _ _
      have h2 : k'.chars <+: k.chars ++ (r ++ t) := e ▸ List.prefix_append _ _
      rcases List.prefix_or_prefix_of_prefix h1 h2 with h | h
      · rw [kw_prefix _ _ h]
      · rw [kw_prefix _ _ h]

/-- How a text which begins like that of another kind of homomorphisms begins. -/
theorem kw_of {S : OB I → Prop} (hP : P.OK S) {a : Hom V I U} (ha : a.factors = [a]) {x t r : List Char} {k : Kw}
    (hx : text P a = some x) (e : x ++ t = k.chars ++ r) : a.kw = some k := by
  have h2 : k.chars <+: x ++ t := e ▸ List.prefix_append _ _
  cases hk : a.kw with
  | none =>
    obtain ⟨u, rfl⟩ := kw_none ha hk
    cases hx
    rcases List.prefix_or_prefix_of_prefix (List.prefix_append (P.pu u) t) h2 with h | h
    · exact ((hP.kw u k).2 h).elim
    · exact ((hP.kw u k).1 h).elim
  | some k' =>
    obtain ⟨r', rfl⟩ := text_kw hk hx
    rw [List.append_assoc] at h2
    rcases List.prefix_or_prefix_of_prefix (List.prefix_append k'.chars (r' ++ t)) h2 with h | h
    · rw [kw_prefix _ _ h]
    · rw [kw_prefix _ _ h]

/-- The part `G` of a saturation is not mistaken for what follows a saturation without this part. -/
theorem Lead.text {S : OB I → Prop} (hP : P.OK S) {x : Nat} {h : Hom V I U} (hl : Lead x h) (hr : Readable S h) {y s : List Char}
    (hy : text P h = some y) :
    ¬ ((∃ r', y ++ s = 'I' :: 'd' :: r') ∨ ∃ z r', x < z ∧ y ++ s = '@' :: '(' :: (P.px z ++ ',' :: r')) := by
  obtain ⟨l, h1, h2⟩ := text_factors h hy
  have hf := hr.factors
  unfold Lead at hl
  obtain ⟨a, as, e⟩ := List.exists_cons_of_ne_nil (factors_ne_nil h)
  rw [e] at h1 hl hf
  have ha := (hf a (by simp)).2
  simp only [texts, Option.bind_eq_some_iff, Option.map_eq_some_iff] at h1
  obtain ⟨b, hb, m, _, rfl⟩ := h1
  have : ∃ q, y = b ++ q := by
    cases m with
    | nil => cases h2; exact ⟨[], by simp⟩
    | cons c m =>
      simp only [joinWith, Option.map_eq_some_iff] at h2
      obtain ⟨r, _, rfl⟩ := h2
      exact ⟨_, rfl⟩
  obtain ⟨q, rfl⟩ := this
  obtain ⟨n1, n2⟩ := hl a rfl
  rw [List.append_assoc]
  rintro (⟨r', e⟩ | ⟨z, r', hz, e⟩)
  · have := kw_of hP (k := .id) ha hb e
    cases a <;> cases this
    exact n1 rfl
  · have := kw_of hP (k := .loc) ha hb e
    cases a <;> cases this
    rename_i z' g
    simp only [Hom.text, Option.map_eq_some_iff] at hb
    obtain ⟨c, _, rfl⟩ := hb
    simp only [List.cons_append, List.append_assoc, List.cons.injEq, true_and] at e
    obtain ⟨rfl, _⟩ := hP.var _ _ _ _ e
    have := n2 _ _ rfl
    omega

theorem Shut.factors {x : Nat} {h : Hom V I U} (hs : Shut x h) : h.factors = [h] ∧ h.opened = none := by
  rcases hs with rfl | ⟨g, rfl⟩ <;> exact ⟨rfl, rfl⟩

theorem Shut.text {x : Nat} {h : Hom V I U} (hs : Shut x h) {y : List Char} (hy : text P h = some y) :
    (∃ r', y = 'I' :: 'd' :: r') ∨ ∃ r', y = '@' :: '(' :: (P.px x ++ ',' :: r') := by
  rcases hs with rfl | ⟨g, rfl⟩
  · cases hy; exact .inl ⟨_, rfl⟩
  · simp only [Hom.text, Option.map_eq_some_iff] at hy
    obtain ⟨c, _, rfl⟩ := hy
    exact .inr ⟨_, rfl⟩

/-- Reading an optional part `L` at the end of a text. -/
theorem shut_uniq {S : OB I → Prop} {x : Nat} {F F' : List (Hom V I U)} (hl : F.length ≤ 1) (hl' : F'.length ≤ 1)
    (hs : ∀ h ∈ F, Shut x h) (hs' : ∀ h ∈ F', Shut x h) (hR : ∀ h ∈ F, AtomR P S h) (hr : ∀ h ∈ F', Readable S h)
    {l l' : List (List Char)} (h1 : texts P F = some l) (h2 : texts P F' = some l')
    {t t' : List Char} (ht : FollowA t) (ht' : FollowA t') (e : l.flatten ++ t = l'.flatten ++ t') : List.Forall₂ Assoc F F' ∧ t = t' := by
  have hne : ∀ {h : Hom V I U} {y t t' : List Char}, Shut x h → text P h = some y → FollowA t → y ++ t' ≠ t := by
    rintro h y t t' hs hy ht e
    rcases hs.text hy with ⟨r, rfl⟩ | ⟨r, rfl⟩ <;>
    rcases ht with (rfl | ⟨_, rfl⟩ | ⟨_, rfl⟩ | ⟨_, rfl⟩ | ⟨_, rfl⟩) | ⟨_, rfl⟩ <;> simp at e
  have hF : ∀ {h : Hom V I U} {t : List Char}, Shut x h → FollowA t → FollowAH P h t := by
    intro h t hs ht
    refine ⟨ht, fun z r e _ => ?_⟩
    rw [hs.factors.2] at e
    cases e
  match F, F', hl, hl' with
  | [], [], _, _ =>
    cases h1; cases h2
    exact ⟨.nil, by simpa using e⟩
  | [], [f'], _, _ =>
    simp only [texts, Option.bind_eq_some_iff, Option.map_eq_some_iff] at h1 h2
    obtain ⟨b, hb, _, ⟨⟩, rfl⟩ := h2
    cases h1
    simp only [List.flatten_nil, List.nil_append, List.flatten_cons, List.append_nil] at e
    exact (hne (hs' f' (by simp)) hb ht e.symm).elim
  | [f], [], _, _ =>
    simp only [texts, Option.bind_eq_some_iff, Option.map_eq_some_iff] at h1 h2
    obtain ⟨b, hb, _, ⟨⟩, rfl⟩ := h1
    cases h2
    simp only [List.flatten_nil, List.nil_append, List.flatten_cons, List.append_nil] at e
    exact (hne (hs f (by simp)) hb ht' e).elim
  | [f], [f'], _, _ =>
    simp only [texts, Option.bind_eq_some_iff, Option.map_eq_some_iff] at h1 h2
    obtain ⟨b, hb, _, ⟨⟩, rfl⟩ := h1
    obtain ⟨b', hb', _, ⟨⟩, rfl⟩ := h2
    simp only [List.flatten_nil, List.flatten_cons, List.append_nil] at e
    obtain ⟨g1, g2⟩ := hR f (by simp) f' _ _ _ _ (hs' f' (by simp)).factors.1 (hr f' (by simp)) hb hb' (hF (hs f (by simp)) ht)
      (hF (hs' f' (by simp)) ht') e
    exact ⟨.cons g1 .nil, g2⟩

theorem follow_par {h : Hom V I U} (r : List Char) : FollowH P h (')' :: r) := ⟨.inr (.inl ⟨r, rfl⟩), fun _ _ _ e => by simp at e⟩
theorem follow_comma {h : Hom V I U} (r : List Char) : FollowH P h (',' :: r) := ⟨.inr (.inr (.inl ⟨r, rfl⟩)), fun _ _ _ e => by simp at e⟩
theorem follow_plus {h : Hom V I U} (ho : h.opened = none) (r : List Char) : FollowH P h (' ' :: '+' :: r) :=
  ⟨.inr (.inr (.inr (.inl ⟨r, rfl⟩))), fun _ _ e _ => by rw [ho] at e; cases e⟩
theorem follow_and {h : Hom V I U} (r : List Char) : FollowH P h (' ' :: '&' :: r) :=
  ⟨.inr (.inr (.inr (.inr ⟨r, rfl⟩))), fun _ _ _ e => by simp at e⟩

/-- Reading an optional homomorphism. -/
theorem opt_uniq {S : OB I → Prop} (hP : P.OK S) {F F' : List (Hom V I U)} (hl : F.length ≤ 1) (hl' : F'.length ≤ 1)
    (hR : ∀ h ∈ F, HomR P S h) (hr : ∀ h ∈ F', Readable S h) {l l' : List (List Char)} (h1 : texts P F = some l) (h2 : texts P F' = some l')
    {t t' : List Char} (ht : (∃ r, t = ',' :: r) ∨ ∃ r, t = ')' :: r) (ht' : (∃ r, t' = ',' :: r) ∨ ∃ r, t' = ')' :: r)
    (e : l.flatten ++ t = l'.flatten ++ t') : List.Forall₂ Assoc F F' ∧ t = t' := by
  have hF : ∀ {h : Hom V I U} {t : List Char}, ((∃ r, t = ',' :: r) ∨ ∃ r, t = ')' :: r) → FollowH P h t := by
    rintro h t (⟨r, rfl⟩ | ⟨r, rfl⟩)
    · exact follow_comma r
    · exact follow_par r
  have hne : ∀ {h : Hom V I U} {x t t' : List Char}, text P h = some x → ((∃ r, t = ',' :: r) ∨ ∃ r, t = ')' :: r) → x ++ t' ≠ t := by
    rintro h x t t' hx ht e
    obtain ⟨c, l, rfl, n1, n2⟩ := text_head hP h hx
    rcases ht with ⟨r, rfl⟩ | ⟨r, rfl⟩
    · simp only [List.cons_append, List.cons.injEq] at e; exact n1 e.1
    · simp only [List.cons_append, List.cons.injEq] at e; exact n2 e.1
  match F, F', hl, hl' with
  | [], [], _, _ =>
    cases h1; cases h2
    exact ⟨.nil, by simpa using e⟩
  | [], [f'], _, _ =>
    simp only [texts, Option.bind_eq_some_iff, Option.map_eq_some_iff] at h1 h2
    obtain ⟨b, hb, _, ⟨⟩, rfl⟩ := h2
    cases h1
    simp only [List.flatten_nil, List.nil_append, List.flatten_cons, List.append_nil] at e
    exact (hne hb ht e.symm).elim
  | [f], [], _, _ =>
    simp only [texts, Option.bind_eq_some_iff, Option.map_eq_some_iff] at h1 h2
    obtain ⟨b, hb, _, ⟨⟩, rfl⟩ := h1
    cases h2
    simp only [List.flatten_nil, List.nil_append, List.flatten_cons, List.append_nil] at e
    exact (hne hb ht' e).elim
  | [f], [f'], _, _ =>
    simp only [texts, Option.bind_eq_some_iff, Option.map_eq_some_iff] at h1 h2
    obtain ⟨b, hb, _, ⟨⟩, rfl⟩ := h1
    obtain ⟨b', hb', _, ⟨⟩, rfl⟩ := h2
    simp only [List.flatten_nil, List.flatten_cons, List.append_nil] at e
    obtain ⟨g1, g2⟩ := hR f (by simp) f' _ _ _ _ (hr f' (by simp)) hb hb' (hF ht) (hF ht') e
    exact ⟨.cons g1 .nil, g2⟩

/-- The first operand of at least two. -/
theorem join_head {sep : List Char} {hs : List (Hom V I U)} (h2 : 2 ≤ hs.length) {l : List (List Char)} {x : List Char}
    (ht : texts P hs = some l) (hj : joinWith sep l = some x) :
    ∃ h ∈ hs, h ∈ hs.dropLast ∧ ∃ a r, text P h = some a ∧ x = a ++ (sep ++ r) := by
  match hs, h2 with
  | h :: k :: hs, _ =>
    simp only [texts, Option.bind_eq_some_iff, Option.map_eq_some_iff] at ht
    obtain ⟨a, ha, _, ⟨c, _, _, _, rfl⟩, rfl⟩ := ht
    simp only [joinWith, Option.map_eq_some_iff] at hj
    obtain ⟨r, _, rfl⟩ := hj
    exact ⟨h, by simp, by simp, a, r, ha, rfl⟩

/-- Homomorphisms can be read. -/
theorem readable_atoms {S : OB I → Prop} (hP : P.OK S) (h : Hom V I U) : Readable S h → ∀ a ∈ h.factors, AtomR P S a := by
  have up : ∀ {h : Hom V I U}, (Readable S h → ∀ a ∈ h.factors, AtomR P S a) → Readable S h → HomR P S h := fun ih hr => .of_factors (ih hr)
  have one : ∀ {h : Hom V I U}, h.factors = [h] → AtomR P S h → ∀ a ∈ h.factors, AtomR P S a := by
    intro h hf ha a hm
    rw [hf, List.mem_singleton] at hm
    rwa [hm]
  have paro : ∀ {sep : List Char} {hs hs' : List (Hom V I U)} {l l' : List (List Char)} {x x' t t' : List Char} {Q : Hom V I U → Prop},
      (∀ h, Q h → ∀ r, FollowH P h (sep ++ r)) →
      (∀ h ∈ hs, HomR P S h) → (∀ h ∈ hs', Readable S h) → (∀ h ∈ hs.dropLast, Q h) → (∀ h ∈ hs'.dropLast, Q h) → sep.head? = some ' ' → texts P hs = some l → texts P hs' = some l' →
      joinWith sep l = some x → joinWith sep l' = some x' → x ++ ')' :: t = x' ++ ')' :: t' → List.Forall₂ Assoc hs hs' ∧ t = t' := by
    intro sep hs hs' l l' x x' t t' Q hF ih hr q q' hs0 h1 h2 h3 h4 e
    have n : ∀ (t r : List Char), ')' :: t ≠ sep ++ r := by
      intro t r e
      cases sep with
      | nil => cases hs0
      | cons c sep =>
        simp only [List.head?_cons, Option.some.injEq] at hs0
        subst hs0
        simp at e
    obtain ⟨g1, g2⟩ := join_uniq hF (fun h hm h' hm' y y' s s' k1 k2 k3 k4 k5 => ih h hm h' y y' s s' (hr h' hm') k1 k2 k3 k4 k5)
      q q' (fun _ _ => follow_par t) (fun _ _ => follow_par t') (n t) (n t') h1 h2 h3 h4 e
    exact ⟨g1, (List.cons.inj g2).2⟩
  have nohead : ∀ {hs : List (Hom V I U)} {l : List (List Char)} {x t t' sep : List Char}, texts P hs = some l → joinWith sep l = some x →
      x ++ t = ',' :: t' → False := by
    intro hs l x t t' sep h1 h2 e
    match hs with
    | [] => cases h1; cases h2
    | [h] =>
      simp only [texts, Option.bind_eq_some_iff, Option.map_eq_some_iff] at h1
      obtain ⟨a, ha, _, ⟨⟩, rfl⟩ := h1
      cases h2
      obtain ⟨c, r, rfl, n, _⟩ := text_head hP h ha
      exact n (List.cons.inj e).1
    | h :: k :: hs =>
      simp only [texts, Option.bind_eq_some_iff, Option.map_eq_some_iff] at h1
      obtain ⟨a, ha, _, ⟨c, _, _, _, rfl⟩, rfl⟩ := h1
      simp only [joinWith, Option.map_eq_some_iff] at h2
      obtain ⟨r, _, rfl⟩ := h2
      obtain ⟨c, r, rfl, n, _⟩ := text_head hP h ha
      exact n (List.cons.inj e).1
  induction h using Hom.induct with
  | comp l r a b =>
    intro hr
    cases hr with
    | comp h1 h2 =>
      intro x hx
      rw [factors, List.mem_append] at hx
      rcases hx with hx | hx
      · exact a h1 x hx
      · exact b h2 x hx
  | id =>
    refine fun _ => one rfl ?_
    intro a' x x' t t' ha' hr' hx hx' ht ht' e
    have hk := kw_eq hP rfl ha' hx hx' e
    cases hr' <;> cases hk
    · cases hx; cases hx'
      exact ⟨.refl _, List.append_cancel_left e⟩
  | ind u =>
    refine fun _ => one rfl ?_
    intro a' x x' t t' ha' hr' hx hx' ht ht' e
    have hk := kw_eq hP rfl ha' hx hx' e
    obtain ⟨v, rfl⟩ := kw_none ha' hk.symm
    cases hx; cases hx'
    obtain ⟨rfl, h⟩ := hP.user _ _ _ _ ht.1 ht'.1 e
    exact ⟨.refl _, h⟩
  | fn y u =>
    refine fun _ => one rfl ?_
    intro a' x x' t t' ha' hr' hx hx' ht ht' e
    have hk := kw_eq hP rfl ha' hx hx' e
    cases hr' <;> cases hk
    · cases hx; cases hx'
      simp only [List.cons_append, List.append_assoc, List.cons.injEq, true_and, List.nil_append] at e
      obtain ⟨hq, e'⟩ := hP.var _ _ _ _ e
      replace e := e'
      subst hq
      simp only [List.cons.injEq, true_and] at e
      obtain ⟨hq, e'⟩ := hP.user _ _ _ _ (.inl (.inr (.inl ⟨_, rfl⟩))) (.inl (.inr (.inl ⟨_, rfl⟩))) e
      replace e := e'
      subst hq
      exact ⟨.refl _, (List.cons.inj e).2⟩
  | const s =>
    refine fun _ => one rfl ?_
    intro a' x x' t t' ha' hr' hx hx' ht ht' e
    have hk := kw_eq hP rfl ha' hx hx' e
    cases hr' <;> cases hk
    · simp only [text, Option.map_eq_some_iff] at hx hx'
      obtain ⟨b, hb, rfl⟩ := hx
      obtain ⟨b', hb', rfl⟩ := hx'
      simp only [List.cons_append, List.append_assoc, List.cons.injEq, true_and, List.nil_append] at e
      obtain ⟨hq, e'⟩ := textSdd_uniq hP.val _ _ _ _ _ _ hb hb' e
      replace e := e'
      subst hq
      exact ⟨.refl _, (List.cons.inj e).2⟩
  | consF o v n ih =>
    intro hr
    refine one rfl ?_
    cases hr with
    | consF ho hn =>
      intro a' x x' t t' ha' hr' hx hx' ht ht' e
      have hk := kw_eq hP rfl ha' hx hx' e
      cases hr' <;> cases hk
      · rename_i o' v' n' ho' hn'
        simp only [text, Option.bind_eq_some_iff, Option.map_eq_some_iff] at hx hx'
        obtain ⟨i, hi, c, hc, rfl⟩ := hx
        obtain ⟨i', hi', c', hc', rfl⟩ := hx'
        simp only [List.cons_append, List.append_assoc, List.cons.injEq, true_and, List.nil_append] at e
        obtain ⟨hq, e'⟩ := hP.id _ _ _ _ _ _ ho ho' hi hi' e
        replace e := e'
        subst hq
        simp only [List.cons.injEq, true_and] at e
        obtain ⟨hq, e'⟩ := hP.val.uniq _ _ _ _ e
        replace e := e'
        subst hq
        simp only [List.cons.injEq, true_and] at e
        obtain ⟨g, e⟩ := up ih hn _ _ _ _ _ hn' hc hc' (follow_par _) (follow_par _) e
        exact ⟨.consF _ _ g, (List.cons.inj e).2⟩
      · rename_i o' v' n' ho' hn'
        simp only [text, Option.bind_eq_some_iff, Option.map_eq_some_iff] at hx hx'
        obtain ⟨i, hi, c, hc, rfl⟩ := hx
        obtain ⟨i', hi', d', hd', c', hc', rfl⟩ := hx'
        simp only [List.cons_append, List.append_assoc, List.cons.injEq, true_and, List.nil_append] at e
        obtain ⟨hq, e'⟩ := hP.id _ _ _ _ _ _ ho ho' hi hi' e
        replace e := e'
        subst hq
        simp only [List.cons.injEq, true_and] at e
        obtain ⟨l, hl⟩ := hP.val.brace v
        obtain ⟨b, l', rfl, hb⟩ := textSdd_head hd'
        rw [hl, List.cons_append, List.cons_append, List.cons.injEq] at e
        exact absurd e.1.symm hb
  | consH o v n ih =>
    intro hr
    refine one rfl ?_
    cases hr with
    | consH ho hn =>
      intro a' x x' t t' ha' hr' hx hx' ht ht' e
      have hk := kw_eq hP rfl ha' hx hx' e
      cases hr' <;> cases hk
      · rename_i o' v' n' ho' hn'
        simp only [text, Option.bind_eq_some_iff, Option.map_eq_some_iff] at hx hx'
        obtain ⟨i', hi', d', hd', c', hc', rfl⟩ := hx
        obtain ⟨i, hi, c, hc, rfl⟩ := hx'
        simp only [List.cons_append, List.append_assoc, List.cons.injEq, true_and, List.nil_append] at e
        obtain ⟨hq, e'⟩ := hP.id _ _ _ _ _ _ ho ho' hi' hi e
        replace e := e'
        subst hq
        simp only [List.cons.injEq, true_and] at e
        obtain ⟨l, hl⟩ := hP.val.brace v'
        obtain ⟨b, l', rfl, hb⟩ := textSdd_head hd'
        rw [hl, List.cons_append, List.cons_append, List.cons.injEq] at e
        exact absurd e.1 hb
      · rename_i o' v' n' ho' hn'
        simp only [text, Option.bind_eq_some_iff, Option.map_eq_some_iff] at hx hx'
        obtain ⟨i, hi, d, hd, c, hc, rfl⟩ := hx
        obtain ⟨i', hi', d', hd', c', hc', rfl⟩ := hx'
        simp only [List.cons_append, List.append_assoc, List.cons.injEq, true_and, List.nil_append] at e
        obtain ⟨hq, e'⟩ := hP.id _ _ _ _ _ _ ho ho' hi hi' e
        replace e := e'
        subst hq
        simp only [List.cons.injEq, true_and] at e
        obtain ⟨hq, e'⟩ := textSdd_uniq hP.val _ _ _ _ _ _ hd hd' e
        replace e := e'
        subst hq
        simp only [List.cons.injEq, true_and] at e
        obtain ⟨g, e⟩ := up ih hn _ _ _ _ _ hn' hc hc' (follow_par _) (follow_par _) e
        exact ⟨.consH _ _ g, (List.cons.inj e).2⟩
  | fix h ih =>
    intro hr
    refine one rfl ?_
    cases hr with
    | fix hn =>
      intro a' x x' t t' ha' hr' hx hx' ht ht' e
      have hk := kw_eq hP rfl ha' hx hx' e
      cases hr' <;> cases hk
      · rename_i h' hn'
        simp only [text, Option.map_eq_some_iff] at hx hx'
        obtain ⟨c, hc, rfl⟩ := hx
        obtain ⟨c', hc', rfl⟩ := hx'
        simp only [List.cons_append, List.append_assoc, List.cons.injEq, true_and, List.nil_append] at e
        obtain ⟨g, e⟩ := up ih hn _ _ _ _ _ hn' hc hc' (follow_par _) (follow_par _) e
        exact ⟨.fix g, (List.cons.inj (List.cons.inj e).2).2⟩
      · rename_i hs' h2 hn'
        simp only [text, Option.bind_eq_some_iff, Option.map_eq_some_iff] at hx hx'
        obtain ⟨c, hc, rfl⟩ := hx
        obtain ⟨l', hl', c', hc', rfl⟩ := hx'
        obtain ⟨g, hg, hd, b, r, hb, rfl⟩ := join_head h2 hl' hc'
        simp only [List.cons_append, List.append_assoc, List.cons.injEq, true_and, List.nil_append] at e
        have := (up ih hn _ _ _ _ _ (hn' g hg) hc hb (follow_par _) (follow_and _) e).2
        simp at this
      · rename_i hs' h2 hn' ho'
        simp only [text, Option.bind_eq_some_iff, Option.map_eq_some_iff] at hx hx'
        obtain ⟨c, hc, rfl⟩ := hx
        obtain ⟨l', hl', c', hc', rfl⟩ := hx'
        obtain ⟨g, hg, hd, b, r, hb, rfl⟩ := join_head h2 hl' hc'
        simp only [List.cons_append, List.append_assoc, List.cons.injEq, true_and, List.nil_append] at e
        have := (up ih hn _ _ _ _ _ (hn' g hg) hc hb (follow_par _) (follow_plus (ho' g hd) _) e).2
        simp at this
  | ite i a b ih1 ih2 ih3 =>
    intro hr
    refine one rfl ?_
    cases hr with
    | ite n1 n2 n3 =>
      intro a' x x' t t' ha' hr' hx hx' ht ht' e
      have hk := kw_eq hP rfl ha' hx hx' e
      cases hr' <;> cases hk
      · rename_i i' a' b' n1' n2' n3'
        simp only [text, Option.bind_eq_some_iff, Option.map_eq_some_iff] at hx hx'
        obtain ⟨x1, h1, x2, h2, x3, h3, rfl⟩ := hx
        obtain ⟨y1, k1, y2, k2, y3, k3, rfl⟩ := hx'
        simp only [List.cons_append, List.append_assoc, List.cons.injEq, true_and, List.nil_append] at e
        obtain ⟨g1, e⟩ := up ih1 n1 _ _ _ _ _ n1' h1 k1 (follow_comma _) (follow_comma _) e
        simp only [List.cons.injEq, true_and] at e
        obtain ⟨g2, e⟩ := up ih2 n2 _ _ _ _ _ n2' h2 k2 (follow_comma _) (follow_comma _) e
        simp only [List.cons.injEq, true_and] at e
        obtain ⟨g3, e⟩ := up ih3 n3 _ _ _ _ _ n3' h3 k3 (follow_par _) (follow_par _) e
        exact ⟨.trans (.iteI _ _ g1) (.trans (.iteT _ _ g2) (.iteE _ _ g3)), (List.cons.inj e).2⟩
  | inter hs ih =>
    intro hr
    refine one rfl ?_
    cases hr with
    | inter h2 hn =>
      intro a' x x' t t' ha' hr' hx hx' ht ht' e
      have hk := kw_eq hP rfl ha' hx hx' e
      cases hr' <;> cases hk
      · rename_i h' hn'
        simp only [text, Option.bind_eq_some_iff, Option.map_eq_some_iff] at hx hx'
        obtain ⟨c', hc', rfl⟩ := hx'
        obtain ⟨l, hl, c, hc, rfl⟩ := hx
        obtain ⟨g, hg, hd, b, r, hb, rfl⟩ := join_head h2 hl hc
        simp only [List.cons_append, List.append_assoc, List.cons.injEq, true_and, List.nil_append] at e
        have := (up (ih g hg) (hn g hg) _ _ _ _ _ hn' hb hc' (follow_and _) (follow_par _) e).2
        simp at this
      · rename_i hs' h2' hn'
        simp only [text, Option.bind_eq_some_iff, Option.map_eq_some_iff] at hx hx'
        obtain ⟨l, hl, c, hc, rfl⟩ := hx
        obtain ⟨l', hl', c', hc', rfl⟩ := hx'
        simp only [List.cons_append, List.append_assoc, List.cons.injEq, true_and, List.nil_append] at e
        obtain ⟨g, e⟩ := paro (Q := fun _ => True) (fun _ _ r => follow_and _) (fun h hm => up (ih h hm) (hn h hm)) hn' (fun _ _ => trivial)
          (fun _ _ => trivial) rfl hl hl' hc hc' e
        exact ⟨.ofList .inter g, e⟩
      · rename_i hs' h2' hn' ho'
        simp only [text, Option.bind_eq_some_iff, Option.map_eq_some_iff] at hx hx'
        obtain ⟨l, hl, c, hc, rfl⟩ := hx
        obtain ⟨l', hl', c', hc', rfl⟩ := hx'
        obtain ⟨g, hg, hd, b, r, hb, rfl⟩ := join_head h2 hl hc
        obtain ⟨g', hg', hd', b', r', hb', rfl⟩ := join_head h2' hl' hc'
        simp only [List.cons_append, List.append_assoc, List.cons.injEq, true_and, List.nil_append] at e
        have := (up (ih g hg) (hn g hg) _ _ _ _ _ (hn' g' hg') hb hb' (follow_and _) (follow_plus (ho' g' hd') _) e).2
        simp at this
  | sum hs ih =>
    intro hr
    refine one rfl ?_
    cases hr with
    | sum h2 hn ho =>
      intro a' x x' t t' ha' hr' hx hx' ht ht' e
      have hk := kw_eq hP rfl ha' hx hx' e
      cases hr' <;> cases hk
      · rename_i h' hn'
        simp only [text, Option.bind_eq_some_iff, Option.map_eq_some_iff] at hx hx'
        obtain ⟨c', hc', rfl⟩ := hx'
        obtain ⟨l, hl, c, hc, rfl⟩ := hx
        obtain ⟨g, hg, hd, b, r, hb, rfl⟩ := join_head h2 hl hc
        simp only [List.cons_append, List.append_assoc, List.cons.injEq, true_and, List.nil_append] at e
        have := (up (ih g hg) (hn g hg) _ _ _ _ _ hn' hb hc' (follow_plus (ho g hd) _) (follow_par _) e).2
        simp at this
      · rename_i hs' h2' hn'
        simp only [text, Option.bind_eq_some_iff, Option.map_eq_some_iff] at hx hx'
        obtain ⟨l, hl, c, hc, rfl⟩ := hx
        obtain ⟨l', hl', c', hc', rfl⟩ := hx'
        obtain ⟨g, hg, hd, b, r, hb, rfl⟩ := join_head h2 hl hc
        obtain ⟨g', hg', hd', b', r', hb', rfl⟩ := join_head h2' hl' hc'
        simp only [List.cons_append, List.append_assoc, List.cons.injEq, true_and, List.nil_append] at e
        have := (up (ih g hg) (hn g hg) _ _ _ _ _ (hn' g' hg') hb hb' (follow_plus (ho g hd) _) (follow_and _) e).2
        simp at this
      · rename_i hs' h2' hn' ho'
        simp only [text, Option.bind_eq_some_iff, Option.map_eq_some_iff] at hx hx'
        obtain ⟨l, hl, c, hc, rfl⟩ := hx
        obtain ⟨l', hl', c', hc', rfl⟩ := hx'
        simp only [List.cons_append, List.append_assoc, List.cons.injEq, true_and, List.nil_append] at e
        obtain ⟨g, e⟩ := paro (fun _ ho r => follow_plus ho _) (fun h hm => up (ih h hm) (hn h hm)) hn' ho ho' rfl hl hl' hc hc' e
        exact ⟨.ofList .sum g, e⟩
  | loc y h ih =>
    intro hr
    refine one rfl ?_
    cases hr with
    | loc hn =>
      intro a' x x' t t' ha' hr' hx hx' ht ht' e
      have hk := kw_eq hP rfl ha' hx hx' e
      cases hr' <;> cases hk
      · rename_i y' h' hn'
        simp only [text, Option.map_eq_some_iff] at hx hx'
        obtain ⟨c, hc, rfl⟩ := hx
        obtain ⟨c', hc', rfl⟩ := hx'
        simp only [List.cons_append, List.append_assoc, List.cons.injEq, true_and, List.nil_append] at e
        obtain ⟨hq, e'⟩ := hP.var _ _ _ _ e
        replace e := e'
        subst hq
        simp only [List.cons.injEq, true_and] at e
        obtain ⟨g, e⟩ := up ih hn _ _ _ _ _ hn' hc hc' (follow_par _) (follow_par _) e
        exact ⟨.loc _ g, (List.cons.inj e).2⟩
  | satFix y F G L ih1 ih2 ih3 =>
    intro hr
    refine one rfl ?_
    cases hr with
    | satFix n1 o1 n2 o2 ld n3 sh =>
      intro a' x x' t t' ha' hr' hx hx' ht ht' e
      have hk := kw_eq hP rfl ha' hx hx' e
      cases hr' <;> cases hk
      · rename_i y' F' L' G' n1' o1' n2' o2' ld' n3' sh'
        simp only [text, Option.bind_eq_some_iff, Option.map_eq_some_iff] at hx hx'
        obtain ⟨x1, h1, x3, h3, l, hl, c, hc, rfl⟩ := hx
        obtain ⟨y1, k1, y3, k3, l', hl', c', hc', rfl⟩ := hx'
        simp only [List.cons_append, List.append_assoc, List.cons.injEq, true_and] at e
        obtain ⟨hq, e'⟩ := hP.var _ _ _ _ e
        replace e := e'
        subst hq
        simp only [List.cons.injEq, true_and] at e
        have fF : ∀ {F L : Hom V I U} {x3 r : List Char}, (∀ z, F.opened = some z → z < y) → Shut y L → text P L = some x3 →
            FollowH P F (' ' :: '+' :: ' ' :: (x3 ++ r)) := by
          intro F L x3 r o1 sh h3
          refine ⟨.inr (.inr (.inr (.inl ⟨_, rfl⟩))), fun z r' hz e => ?_⟩
          simp only [List.cons.injEq, true_and] at e
          subst e
          rcases sh.text h3 with ⟨q, rfl⟩ | ⟨q, rfl⟩
          · exact .inl ⟨_, rfl⟩
          · exact .inr ⟨y, q ++ r, o1 z hz, by simp [List.append_assoc]⟩
        have fL : ∀ {L : Hom V I U} {G : List (Hom V I U)} {l : List (List Char)} {c t : List Char}, Shut y L → FollowA t →
            (if l = [] then some [] else (joinWith [' ', '+', ' '] l).map fun r => ' ' :: '+' :: ' ' :: (r ++ [')', '*'])) = some c →
            FollowAH P L (c ++ t) := by
          intro L G l c t sh ht hc
          refine ⟨?_, fun z r' hz e => by rw [sh.factors.2] at hz; cases hz⟩
          by_cases g0 : l = []
          · rw [if_pos g0] at hc; cases hc; exact ht
          · rw [if_neg g0, Option.map_eq_some_iff] at hc
            obtain ⟨d, _, rfl⟩ := hc
            exact .inl (.inr (.inr (.inr (.inl ⟨_, rfl⟩))))
        obtain ⟨g1, e⟩ := up ih1 n1 _ _ _ _ _ n1' h1 k1 (fF o1 sh h3) (fF o1' sh' k3) e
        simp only [List.cons.injEq, true_and] at e
        obtain ⟨g3, e⟩ := ih3 n3 L (by rw [sh.factors.1]; simp) _ _ _ _ _ sh'.factors.1 n3' h3 k3 (fL (G := G) sh ht.1 hc)
          (fL (G := G') sh' ht'.1 hc') e
        have bad : ∀ {F : Hom V I U} {G' : List (Hom V I U)} {l' : List (List Char)} {d t t' : List Char},
            FollowAH P (.satFix y F [] L) t → (∀ h ∈ G', Readable S h) → (∀ h ∈ G'.head?, Lead y h) → texts P G' = some l' →
            joinWith [' ', '+', ' '] l' = some d → t ≠ ' ' :: '+' :: ' ' :: (d ++ ')' :: '*' :: t') := by
          intro F G' l' d t t' ht n2' ld' hl' hd e
          have := ht.2 y _ rfl e
          match G', hl' with
          | [], hl' => cases hl'; cases hd
          | [h], hl' =>
            simp only [texts, Option.bind_eq_some_iff, Option.map_eq_some_iff] at hl'
            obtain ⟨a, ha, _, ⟨⟩, rfl⟩ := hl'
            cases hd
            exact (ld' h (by simp)).text hP (n2' h (by simp)) ha this
          | h :: k :: hs, hl' =>
            simp only [texts, Option.bind_eq_some_iff, Option.map_eq_some_iff] at hl'
            obtain ⟨a, ha, _, ⟨c, _, _, _, rfl⟩, rfl⟩ := hl'
            simp only [joinWith, Option.map_eq_some_iff] at hd
            obtain ⟨r, _, rfl⟩ := hd
            rw [List.append_assoc] at this
            exact (ld' h (by simp)).text hP (n2' h (by simp)) ha this
        have key : List.Forall₂ Assoc G G' ∧ t = t' := by
          by_cases g0 : l = []
          · rw [if_pos g0] at hc; cases hc
            have e1 := (texts_ne_nil hl).1 g0
            by_cases g0' : l' = []
            · rw [if_pos g0'] at hc'; cases hc'
              have e2 := (texts_ne_nil hl').1 g0'
              rw [e1, e2]
              exact ⟨.nil, e⟩
            · rw [if_neg g0', Option.map_eq_some_iff] at hc'
              obtain ⟨d', hd', rfl⟩ := hc'
              subst e1
              exact (bad ht n2' ld' hl' hd' (by simpa using e)).elim
          · rw [if_neg g0, Option.map_eq_some_iff] at hc
            obtain ⟨d, hd, rfl⟩ := hc
            by_cases g0' : l' = []
            · rw [if_pos g0'] at hc'; cases hc'
              have e2 := (texts_ne_nil hl').1 g0'
              subst e2
              have ht2 : FollowAH P (.satFix y F' [] L) t' := ht'
              exact (bad ht2 n2 ld hl hd (by simpa using e.symm)).elim
            · rw [if_neg g0', Option.map_eq_some_iff] at hc'
              obtain ⟨d', hd', rfl⟩ := hc'
              simp only [List.cons_append, List.append_assoc, List.nil_append, List.cons.injEq, true_and] at e
              obtain ⟨g2, e⟩ := paro (fun _ ho r => follow_plus ho _) (fun h hm => up (ih2 h hm) (n2 h hm)) n2' o2 o2' rfl hl hl' hd hd' e
              exact ⟨g2, (List.cons.inj e).2⟩
        exact ⟨.trans (.satFixF _ _ _ g1) (.trans (.satFixL _ _ _ g3) (.ofList (f := fun G => .satFix y F' G L')
          (fun l r _ _ h => .satFixG y F' l r L' h) key.1)), key.2⟩
  | satInter y F G L ih1 ih2 ih3 =>
    intro hr
    refine one rfl ?_
    cases hr with
    | satInter m1 m3 n1 n2 n3 =>
      intro a' x x' t t' ha' hr' hx hx' ht ht' e
      have hk := kw_eq hP rfl ha' hx hx' e
      cases hr' <;> cases hk
      · rename_i y' F' G' L' m1' m3' n1' n2' n3'
        simp only [text, Option.bind_eq_some_iff, Option.map_eq_some_iff] at hx hx'
        obtain ⟨x1, h1, l, hl, x3, h3, c, hc, rfl⟩ := hx
        obtain ⟨y1, k1, l', hl', y3, k3, c', hc', rfl⟩ := hx'
        simp only [List.cons_append, List.append_assoc, List.cons.injEq, true_and, List.nil_append] at e
        obtain ⟨rfl, _, e⟩ := dec_split (by decide) (by decide) e
        simp only [List.cons.injEq, true_and] at e
        obtain ⟨g1, e⟩ := opt_uniq hP m1 m1' (fun h hm => up (ih1 h hm) (n1 h hm)) n1' h1 k1 (.inl ⟨_, rfl⟩) (.inl ⟨_, rfl⟩) e
        simp only [List.cons.injEq, true_and] at e
        have key : List.Forall₂ Assoc G G' ∧ (',' :: ' ' :: 'L' :: '=' :: (x3.flatten ++ ')' :: t)) =
            ',' :: ' ' :: 'L' :: '=' :: (y3.flatten ++ ')' :: t') := by
          by_cases g0 : l = []
          · rw [if_pos g0] at hc; cases hc
            by_cases g0' : l' = []
            · rw [if_pos g0'] at hc'; cases hc'
              have e1 := (texts_ne_nil hl).1 g0
              have e2 := (texts_ne_nil hl').1 g0'
              rw [e1, e2]
              exact ⟨.nil, e⟩
            · rw [if_neg g0', Option.map_eq_some_iff] at hc'
              obtain ⟨d', hd', rfl⟩ := hc'
              exact (nohead hl' hd' (by simpa using e.symm)).elim
          · rw [if_neg g0, Option.map_eq_some_iff] at hc
            obtain ⟨d, hd, rfl⟩ := hc
            by_cases g0' : l' = []
            · rw [if_pos g0'] at hc'; cases hc'
              exact (nohead hl hd (by simpa using e)).elim
            · rw [if_neg g0', Option.map_eq_some_iff] at hc'
              obtain ⟨d', hd', rfl⟩ := hc'
              simp only [List.cons_append, List.append_assoc, List.nil_append] at e
              exact paro (Q := fun _ => True) (fun _ _ r => follow_and _) (fun h hm => up (ih2 h hm) (n2 h hm)) n2' (fun _ _ => trivial)
                (fun _ _ => trivial) rfl hl hl' hd hd' e
        obtain ⟨g2, e⟩ := key
        simp only [List.cons.injEq, true_and] at e
        obtain ⟨g3, e⟩ := opt_uniq hP m3 m3' (fun h hm => up (ih3 h hm) (n3 h hm)) n3' h3 k3 (.inr ⟨_, rfl⟩) (.inr ⟨_, rfl⟩) e
        refine ⟨.trans (.ofList (f := fun F => .satInter y F G L) (fun l r _ _ h => .satInterF y l r G L h) g1) (.trans
          (.ofList (f := fun G => .satInter y F' G L) (fun l r _ _ h => .satInterG y F' l r L h) g2)
          (.ofList (f := fun L => .satInter y F' G' L) (fun l r _ _ h => .satInterL y F' G' l r h) g3)), (List.cons.inj e).2⟩
  | satSum y F G L ih1 ih2 ih3 =>
    intro hr
    refine one rfl ?_
    cases hr with
    | satSum m1 m3 n1 n2 o2 n3 sh =>
      intro a' x x' t t' ha' hr' hx hx' ht ht' e
      have hk := kw_eq hP rfl ha' hx hx' e
      cases hr' <;> cases hk
      · rename_i y' F' G' L' m1' m3' n1' n2' o2' n3' sh'
        simp only [text, Option.bind_eq_some_iff, Option.map_eq_some_iff] at hx hx'
        obtain ⟨x1, h1, l, hl, x3, h3, c, hc, rfl⟩ := hx
        obtain ⟨y1, k1, l', hl', y3, k3, c', hc', rfl⟩ := hx'
        simp only [List.cons_append, List.append_assoc, List.cons.injEq, true_and] at e
        obtain ⟨rfl, _, e⟩ := dec_split (by decide) (by decide) e
        simp only [List.cons.injEq, true_and] at e
        obtain ⟨g1, e⟩ := opt_uniq hP m1 m1' (fun h hm => up (ih1 h hm) (n1 h hm)) n1' h1 k1 (.inl ⟨_, rfl⟩) (.inl ⟨_, rfl⟩) e
        simp only [List.cons.injEq, true_and] at e
        have key : List.Forall₂ Assoc G G' ∧ (',' :: ' ' :: 'L' :: '=' :: (x3.flatten ++ t)) =
            ',' :: ' ' :: 'L' :: '=' :: (y3.flatten ++ t') := by
          by_cases g0 : l = []
          · rw [if_pos g0] at hc; cases hc
            by_cases g0' : l' = []
            · rw [if_pos g0'] at hc'; cases hc'
              have e1 := (texts_ne_nil hl).1 g0
              have e2 := (texts_ne_nil hl').1 g0'
              rw [e1, e2]
              exact ⟨.nil, e⟩
            · rw [if_neg g0', Option.map_eq_some_iff] at hc'
              obtain ⟨d', hd', rfl⟩ := hc'
              exact (nohead hl' hd' (by simpa using e.symm)).elim
          · rw [if_neg g0, Option.map_eq_some_iff] at hc
            obtain ⟨d, hd, rfl⟩ := hc
            by_cases g0' : l' = []
            · rw [if_pos g0'] at hc'; cases hc'
              exact (nohead hl hd (by simpa using e)).elim
            · rw [if_neg g0', Option.map_eq_some_iff] at hc'
              obtain ⟨d', hd', rfl⟩ := hc'
              simp only [List.cons_append, List.append_assoc, List.nil_append] at e
              exact paro (fun _ ho r => follow_plus ho _) (fun h hm => up (ih2 h hm) (n2 h hm)) n2' o2 o2' rfl hl hl' hd hd' e
        obtain ⟨g2, e⟩ := key
        simp only [List.cons.injEq, true_and] at e
        obtain ⟨g3, e⟩ := shut_uniq m3 m3' sh sh' (fun h hm => ih3 h hm (n3 h hm) h (by rw [(sh h hm).factors.1]; simp)) n3' h3 k3 ht.1 ht'.1 e
        refine ⟨.trans (.ofList (f := fun F => .satSum y F G L) (fun l r _ _ h => .satSumF y l r G L h) g1) (.trans
          (.ofList (f := fun G => .satSum y F' G L) (fun l r _ _ h => .satSumG y F' l r L h) g2)
          (.ofList (f := fun L => .satSum y F' G' L) (fun l r _ _ h => .satSumL y F' G' l r h) g3)), e⟩

/-- The text determines the homomorphism, up to the grouping of compositions. -/
theorem text_eq_iff {S : OB I → Prop} (hP : P.OK S) {h h' : Hom V I U} (hr : Readable S h) (hr' : Readable S h') {x x' : List Char}
    (hx : text P h = some x) (hx' : text P h' = some x') : x = x' ↔ Assoc h h' := by
  constructor
  · intro e
    exact (HomR.of_factors (readable_atoms hP h hr) h' x x' [] [] hr' hx hx' ⟨.inl rfl, fun _ _ _ h => by cases h⟩ ⟨.inl rfl, fun _ _ _ h => by cases h⟩ (by rw [e])).1
  · intro ha
    have := ha.text (P := P)
    rw [hx, hx'] at this
    exact Option.some.inj this

end

/-! ## What the grouping changes -/

section
variable {C : Cfg V E}

/-- One change of grouping: the same homomorphism, which holds the same SDDs. (Specification or proof device, not part of the code.) -/
def Regroup (C : Cfg V E) (h h' : Hom V I U) : Prop := Hom.Same C h h' ∧ ∀ s, Const s h' → Const s h

theorem same_at {h h' : Hom V I U} (hh : Hom.Same C h h') (l r : List (Hom V I U)) : SameL C (l ++ h :: r) (l ++ h' :: r) := by
  have hr : ∀ k : List (Hom V I U), SameL C k k := fun k => ⟨rfl, fun i _ _ => .refl _⟩
  have h1 : SameL C [h] [h'] := ⟨rfl, fun i h1 _ => by
    have : i = 0 := by simpa using h1
    subst this; exact hh⟩
  have := (hr l).append (h1.append (hr r))
  simpa using this

theorem const_at {h h' : Hom V I U} {s : SDD V} (hh : Const s h' → Const s h) (l r : List (Hom V I U)) :
    (∃ a ∈ l ++ h' :: r, Const s a) → ∃ a ∈ l ++ h :: r, Const s a := by
  rintro ⟨a, ha, hs⟩
  rcases List.mem_append.1 ha with h1 | h1
  · exact ⟨a, List.mem_append_left _ h1, hs⟩
  · rcases List.mem_cons.1 h1 with rfl | h1
    · exact ⟨h, by simp, hh hs⟩
    · exact ⟨a, List.mem_append_right _ (List.mem_cons_of_mem _ h1), hs⟩

/-- A change of grouping is a sequence of changes of one grouping, in both directions. -/
theorem Assoc.chain {h h' : Hom V I U} (ha : Assoc h h') :
    Relation.ReflTransGen (Regroup C) h h' ∧ Relation.ReflTransGen (Regroup C) h' h := by
  have lift : ∀ (f : Hom V I U → Hom V I U), (∀ a b, Hom.Same C a b → Hom.Same C (f a) (f b)) →
      (∀ a b s, (Const s b → Const s a) → Const s (f b) → Const s (f a)) → ∀ {a b},
      Relation.ReflTransGen (Regroup C) a b ∧ Relation.ReflTransGen (Regroup C) b a →
      Relation.ReflTransGen (Regroup C) (f a) (f b) ∧ Relation.ReflTransGen (Regroup C) (f b) (f a) := by
    intro f h1 h2 a b ⟨i1, i2⟩
    have step : ∀ a b, Regroup C a b → Regroup C (f a) (f b) := fun a b h => ⟨h1 a b h.1, fun s => h2 a b s (h.2 s)⟩
    exact ⟨i1.lift f step, i2.lift f step⟩
  induction ha with
  | refl => exact ⟨.refl, .refl⟩
  | symm _ ih => exact ⟨ih.2, ih.1⟩
  | trans _ _ a b => exact ⟨a.1.trans b.1, b.2.trans a.2⟩
  | assoc a b c =>
    refine ⟨.single ⟨.assocL (.refl _) (.refl _) (.refl _), ?_⟩, .single ⟨.assocR (.refl _) (.refl _) (.refl _), ?_⟩⟩
    · intro s h
      cases h with
      | compL h => exact .compL (.compL h)
      | compR h =>
        cases h with
        | compL h => exact .compL (.compR h)
        | compR h => exact .compR h
    · intro s h
      cases h with
      | compL h =>
        cases h with
        | compL h => exact .compL h
        | compR h => exact .compR (.compL h)
      | compR h => exact .compR (.compR h)
  | compL r _ ih =>
    refine lift (fun h => .comp h r) (fun a b h => .comp h (.refl _)) (fun a b s g h => ?_) ih
    cases h with
    | compL h => exact .compL (g h)
    | compR h => exact .compR h
  | compR l _ ih =>
    refine lift (fun h => .comp l h) (fun a b h => .comp (.refl _) h) (fun a b s g h => ?_) ih
    cases h with
    | compL h => exact .compL h
    | compR h => exact .compR (g h)
  | consF o v _ ih =>
    refine lift (fun h => .consF o v h) (fun a b h => .consF h) (fun a b s g h => ?_) ih
    cases h with
    | consF h => exact .consF (g h)
  | consH o v _ ih =>
    refine lift (fun h => .consH o v h) (fun a b h => .consH (.refl _) h) (fun a b s g h => ?_) ih
    cases h with
    | consV => exact .consV
    | consH h => exact .consH (g h)
  | fix _ ih =>
    refine lift (fun h => .fix h) (fun a b h => .fix h) (fun a b s g h => ?_) ih
    cases h with
    | fix h => exact .fix (g h)
  | iteI t e _ ih =>
    refine lift (fun h => .ite h t e) (fun a b h => .ite h (.refl _) (.refl _)) (fun a b s g h => ?_) ih
    cases h with
    | iteI h => exact .iteI (g h)
    | iteT h => exact .iteT h
    | iteE h => exact .iteE h
  | iteT i e _ ih =>
    refine lift (fun h => .ite i h e) (fun a b h => .ite (.refl _) h (.refl _)) (fun a b s g h => ?_) ih
    cases h with
    | iteI h => exact .iteI h
    | iteT h => exact .iteT (g h)
    | iteE h => exact .iteE h
  | iteE i t _ ih =>
    refine lift (fun h => .ite i t h) (fun a b h => .ite (.refl _) (.refl _) h) (fun a b s g h => ?_) ih
    cases h with
    | iteI h => exact .iteI h
    | iteT h => exact .iteT h
    | iteE h => exact .iteE (g h)
  | inter l r _ ih =>
    refine lift (fun h => .inter (l ++ h :: r)) (fun a b h => .inter (same_at h l r).1 (same_at h l r).2) (fun a b s g h => ?_) ih
    cases h with
    | inter hm h =>
      obtain ⟨c, h1, h2⟩ := const_at g l r ⟨_, hm, h⟩
      exact .inter h1 h2
  | sum l r _ ih =>
    refine lift (fun h => .sum (l ++ h :: r)) (fun a b h => .sum (same_at h l r).1 (same_at h l r).2) (fun a b s g h => ?_) ih
    cases h with
    | sum hm h =>
      obtain ⟨c, h1, h2⟩ := const_at g l r ⟨_, hm, h⟩
      exact .sum h1 h2
  | loc x _ ih =>
    refine lift (fun h => .loc x h) (fun a b h => .loc h) (fun a b s g h => ?_) ih
    cases h with
    | loc h => exact .loc (g h)
  | satFixF x G L _ ih =>
    refine lift (fun h => .satFix x h G L) (fun a b h => .satFix h rfl (fun i _ _ => .refl _) (.refl _)) (fun a b s g h => ?_) ih
    cases h with
    | satFixF h => exact .satFixF (g h)
    | satFixG hm h => exact .satFixG hm h
    | satFixL h => exact .satFixL h
  | satFixG x F l r L _ ih =>
    refine lift (fun h => .satFix x F (l ++ h :: r) L) (fun a b h => .satFix (.refl _) (same_at h l r).1 (same_at h l r).2 (.refl _))
      (fun a b s g h => ?_) ih
    cases h with
    | satFixF h => exact .satFixF h
    | satFixG hm h =>
      obtain ⟨c, h1, h2⟩ := const_at g l r ⟨_, hm, h⟩
      exact .satFixG h1 h2
    | satFixL h => exact .satFixL h
  | satFixL x F G _ ih =>
    refine lift (fun h => .satFix x F G h) (fun a b h => .satFix (.refl _) rfl (fun i _ _ => .refl _) h) (fun a b s g h => ?_) ih
    cases h with
    | satFixF h => exact .satFixF h
    | satFixG hm h => exact .satFixG hm h
    | satFixL h => exact .satFixL (g h)
  | satInterF x l r G L _ ih =>
    refine lift (fun h => .satInter x (l ++ h :: r) G L) (fun a b h => .satInter (same_at h l r).1 rfl rfl (same_at h l r).2
      (fun i _ _ => .refl _) (fun i _ _ => .refl _)) (fun a b s g h => ?_) ih
    cases h with
    | satInter hm h =>
      have := const_at (h := a) (h' := b) g l (r ++ G ++ L) ⟨_, by simpa using hm, h⟩
      obtain ⟨c, h1, h2⟩ := this
      exact .satInter (h := c) (by simpa using h1) h2
  | satInterG x F l r L _ ih =>
    refine lift (fun h => .satInter x F (l ++ h :: r) L) (fun a b h => .satInter rfl (same_at h l r).1 rfl (fun i _ _ => .refl _)
      (same_at h l r).2 (fun i _ _ => .refl _)) (fun a b s g h => ?_) ih
    cases h with
    | satInter hm h =>
      have := const_at (h := a) (h' := b) g (F ++ l) (r ++ L) ⟨_, by simpa using hm, h⟩
      obtain ⟨c, h1, h2⟩ := this
      exact .satInter (h := c) (by simpa using h1) h2
  | satInterL x F G l r _ ih =>
    refine lift (fun h => .satInter x F G (l ++ h :: r)) (fun a b h => .satInter rfl rfl (same_at h l r).1 (fun i _ _ => .refl _)
      (fun i _ _ => .refl _) (same_at h l r).2) (fun a b s g h => ?_) ih
    cases h with
    | satInter hm h =>
      have := const_at (h := a) (h' := b) g (F ++ G ++ l) r ⟨_, by simpa using hm, h⟩
      obtain ⟨c, h1, h2⟩ := this
      exact .satInter (h := c) (by simpa using h1) h2
  | satSumF x l r G L _ ih =>
    refine lift (fun h => .satSum x (l ++ h :: r) G L) (fun a b h => .satSum (same_at h l r).1 rfl rfl (same_at h l r).2
      (fun i _ _ => .refl _) (fun i _ _ => .refl _)) (fun a b s g h => ?_) ih
    cases h with
    | satSum hm h =>
      have := const_at (h := a) (h' := b) g l (r ++ G ++ L) ⟨_, by simpa using hm, h⟩
      obtain ⟨c, h1, h2⟩ := this
      exact .satSum (h := c) (by simpa using h1) h2
  | satSumG x F l r L _ ih =>
    refine lift (fun h => .satSum x F (l ++ h :: r) L) (fun a b h => .satSum rfl (same_at h l r).1 rfl (fun i _ _ => .refl _)
      (same_at h l r).2 (fun i _ _ => .refl _)) (fun a b s g h => ?_) ih
    cases h with
    | satSum hm h =>
      have := const_at (h := a) (h' := b) g (F ++ l) (r ++ L) ⟨_, by simpa using hm, h⟩
      obtain ⟨c, h1, h2⟩ := this
      exact .satSum (h := c) (by simpa using h1) h2
  | satSumL x F G l r _ ih =>
    refine lift (fun h => .satSum x F G (l ++ h :: r)) (fun a b h => .satSum rfl rfl (same_at h l r).1 (fun i _ _ => .refl _)
      (fun i _ _ => .refl _) (same_at h l r).2) (fun a b s g h => ?_) ih
    cases h with
    | satSum hm h =>
      have := const_at (h := a) (h' := b) g (F ++ G ++ l) r ⟨_, by simpa using hm, h⟩
      obtain ⟨c, h1, h2⟩ := this
      exact .satSum (h := c) (by simpa using h1) h2

/-- The user's code is the same as itself: it gets SDDs in canonical form, which are determined by their paths. -/
theorem _root_.Verif.User.Same.refl (hC : C.Lawful) (env : User V I U) : User.Same C C env env :=
  ⟨rfl, rfl, rfl, rfl, fun _ => .refl _, fun _ _ _ => .refl _, fun u o v v' h1 h2 h3 => by
    rw [canonical_ext hC h1 h2 h3]; exact .refl _⟩

variable [DecidableEq V] [DecidableEq I] [DecidableEq U] {env : User V I U} {sc : Scope I U}

theorem chain_ev (hC : C.Lawful) (hc : env.Canon C) {h h' : Hom V I U} (ha : Relation.ReflTransGen (Regroup C) h h') {o : OB I} {t : Ty}
    (ht : HTy env C sc o h t) : HTy env C sc o h' t ∧ ∀ {x r}, Dom C o.ty x → Ev env C h o x r → Ev env C h' o x r := by
  have hr : Readdr C C := ⟨hC, hC, rfl⟩
  have hU := User.Same.refl hC env
  induction ha with
  | refl => exact ⟨ht, fun _ e => e⟩
  | @tail b c _ hbc ih =>
    have hw : c.WF C := fun s hs => ih.1.wf s (hbc.2 s hs)
    refine ⟨ih.1.same hr hU hc hbc.1 hw, fun {x r} hx e => ?_⟩
    have eb := ih.2 hx e
    obtain ⟨r', h1, h2, h3⟩ := eb.same hr hU hc ih.1 hx hbc.1 hw hx.wf (.refl _)
    have := canonical_ext hC (eb.dom ih.1 hx).wf h3 h2
    rw [this]
    exact h1

/-- Grouping of compositions changes neither what can be applied nor what it means. -/
theorem Assoc.ev (hC : C.Lawful) (hc : env.Canon C) {h h' : Hom V I U} (ha : Assoc h h') {o : OB I} :
    (∀ {t : Ty}, HTy env C sc o h t ↔ HTy env C sc o h' t) ∧
    ∀ {t : Ty}, HTy env C sc o h t → ∀ {x r}, Dom C o.ty x → (Ev env C h o x r ↔ Ev env C h' o x r) := by
  obtain ⟨a, b⟩ := ha.chain (C := C)
  refine ⟨fun {t} => ⟨fun ht => (chain_ev hC hc a ht).1, fun ht => (chain_ev hC hc b ht).1⟩, fun {t} ht {x r} hx => ?_⟩
  exact ⟨(chain_ev hC hc a ht).2 hx, (chain_ev hC hc b (chain_ev hC hc a ht).1).2 hx⟩

end

/-! ## Texts are defined -/

/-- Homomorphisms with operands where `operator<<` takes the last one, and with orders which are not empty.
(Specification or proof device, not part of the code.) -/
inductive Printable : Hom V I U → Prop where
  | id : Printable .id
  | comp {l r : Hom V I U} : Printable l → Printable r → Printable (.comp l r)
  | consF {o : OB I} {v : V} {h : Hom V I U} : o ≠ .nil → Printable h → Printable (.consF o v h)
  | consH {o : OB I} {v : SDD V} {h : Hom V I U} : o ≠ .nil → Printable h → Printable (.consH o v h)
  | const {s : SDD V} : Printable (.const s)
  | fix {h : Hom V I U} : Printable h → Printable (.fix h)
  | fn {x : Nat} {u : U} : Printable (.fn x u)
  | ite {i t e : Hom V I U} : Printable i → Printable t → Printable e → Printable (.ite i t e)
  | ind {u : U} : Printable (.ind u)
  | inter {hs : List (Hom V I U)} : hs ≠ [] → (∀ h ∈ hs, Printable h) → Printable (.inter hs)
  | loc {x : Nat} {h : Hom V I U} : Printable h → Printable (.loc x h)
  | satFix {x : Nat} {F L : Hom V I U} {G : List (Hom V I U)} : Printable F → (∀ h ∈ G, Printable h) → Printable L →
      Printable (.satFix x F G L)
  | satInter {x : Nat} {F G L : List (Hom V I U)} : (∀ h ∈ F, Printable h) → (∀ h ∈ G, Printable h) → (∀ h ∈ L, Printable h) →
      Printable (.satInter x F G L)
  | satSum {x : Nat} {F G L : List (Hom V I U)} : (∀ h ∈ F, Printable h) → (∀ h ∈ G, Printable h) → (∀ h ∈ L, Printable h) →
      Printable (.satSum x F G L)
  | sum {hs : List (Hom V I U)} : hs ≠ [] → (∀ h ∈ hs, Printable h) → Printable (.sum hs)

theorem Readable.printable {S : OB I → Prop} (hS : ∀ o, S o → o ≠ .nil) {h : Hom V I U} (hr : Readable S h) : Printable h := by
  induction hr with
  | id => exact .id
  | comp _ _ a b => exact .comp a b
  | consF ho _ a => exact .consF (hS _ ho) a
  | consH ho _ a => exact .consH (hS _ ho) a
  | const => exact .const
  | fix _ a => exact .fix a
  | fn => exact .fn
  | ite _ _ _ a b c => exact .ite a b c
  | ind => exact .ind
  | inter h _ a => exact .inter (by rintro rfl; simp at h) a
  | loc _ a => exact .loc a
  | satFix _ _ _ _ _ _ _ a b c => exact .satFix a b c
  | satInter _ _ _ _ _ a b c => exact .satInter a b c
  | satSum _ _ _ _ _ _ _ a b c => exact .satSum a b c
  | sum h _ _ a => exact .sum (by rintro rfl; simp at h) a

section
variable {P : Printers V I U}

theorem joinWith_some {sep : List Char} : ∀ {l : List (List Char)}, l ≠ [] → ∃ x, joinWith sep l = some x
  | [], h => absurd rfl h
  | [a], _ => ⟨a, rfl⟩
  | a :: b :: l, _ => by
    obtain ⟨x, hx⟩ := joinWith_some (sep := sep) (l := b :: l) (by simp)
    exact ⟨_, by rw [joinWith, hx]; rfl⟩

theorem texts_some : ∀ {hs : List (Hom V I U)}, (∀ h ∈ hs, ∃ x, text P h = some x) → ∃ l, texts P hs = some l
  | [], _ => ⟨[], rfl⟩
  | h :: hs, H => by
    obtain ⟨x, hx⟩ := H h (by simp)
    obtain ⟨l, hl⟩ := texts_some (hs := hs) fun g hg => H g (List.mem_cons_of_mem _ hg)
    exact ⟨x :: l, by rw [texts, hx, hl]; rfl⟩

/-- The text of a homomorphism which holds SDDs with a text. -/
theorem Printable.text {h : Hom V I U} (hp : Printable h) (hs : ∀ s, Const s h → ∃ a, textSdd P.pv s = some a) :
    ∃ x, text P h = some x := by
  have head : ∀ {o : OB I}, o ≠ .nil → ∃ i, o.headText P.pi = some i := by
    intro o ho
    cases o with
    | nil => exact absurd rfl ho
    | node id nst nxt => exact ⟨_, rfl⟩
  have opt : ∀ (l : List (List Char)) (sep : List Char) (f : List Char → List Char),
      ∃ c, (if l = [] then some [] else (joinWith sep l).map f) = some c := by
    intro l sep f
    by_cases h : l = []
    · exact ⟨[], if_pos h⟩
    · obtain ⟨x, hx⟩ := joinWith_some (sep := sep) h
      exact ⟨f x, by rw [if_neg h, hx]; rfl⟩
  induction hp with
  | id => exact ⟨_, rfl⟩
  | fn => exact ⟨_, rfl⟩
  | ind => exact ⟨_, rfl⟩
  | const => obtain ⟨a, ha⟩ := hs _ .const; exact ⟨_, by rw [Hom.text, ha]; rfl⟩
  | comp _ _ a b =>
    obtain ⟨x, hx⟩ := a fun s h => hs s (.compL h)
    obtain ⟨y, hy⟩ := b fun s h => hs s (.compR h)
    exact ⟨_, by rw [Hom.text, hx, hy]; rfl⟩
  | consF ho _ a =>
    obtain ⟨x, hx⟩ := a fun s h => hs s (.consF h)
    obtain ⟨i, hi⟩ := head ho
    exact ⟨_, by rw [Hom.text, hi, hx]; rfl⟩
  | consH ho _ a =>
    obtain ⟨x, hx⟩ := a fun s h => hs s (.consH h)
    obtain ⟨i, hi⟩ := head ho
    obtain ⟨v, hv⟩ := hs _ .consV
    exact ⟨_, by rw [Hom.text, hi, hv, hx]; rfl⟩
  | fix _ a =>
    obtain ⟨x, hx⟩ := a fun s h => hs s (.fix h)
    exact ⟨_, by rw [Hom.text, hx]; rfl⟩
  | loc _ a =>
    obtain ⟨x, hx⟩ := a fun s h => hs s (.loc h)
    exact ⟨_, by rw [Hom.text, hx]; rfl⟩
  | ite _ _ _ a b c =>
    obtain ⟨x, hx⟩ := a fun s h => hs s (.iteI h)
    obtain ⟨y, hy⟩ := b fun s h => hs s (.iteT h)
    obtain ⟨z, hz⟩ := c fun s h => hs s (.iteE h)
    exact ⟨_, by rw [Hom.text, hx, hy, hz]; rfl⟩
  | inter h _ a =>
    obtain ⟨l, hl⟩ := texts_some fun g hg => a g hg fun s h => hs s (.inter hg h)
    obtain ⟨x, hx⟩ := joinWith_some (sep := [' ', '&', ' ']) (fun e => h ((texts_ne_nil hl).1 e))
    exact ⟨_, by rw [Hom.text, hl, Option.bind_some, hx]; rfl⟩
  | sum h _ a =>
    obtain ⟨l, hl⟩ := texts_some fun g hg => a g hg fun s h => hs s (.sum hg h)
    obtain ⟨x, hx⟩ := joinWith_some (sep := [' ', '+', ' ']) (fun e => h ((texts_ne_nil hl).1 e))
    exact ⟨_, by rw [Hom.text, hl, Option.bind_some, hx]; rfl⟩
  | satFix _ _ _ a b c =>
    obtain ⟨x, hx⟩ := a fun s h => hs s (.satFixF h)
    obtain ⟨z, hz⟩ := c fun s h => hs s (.satFixL h)
    obtain ⟨l, hl⟩ := texts_some fun g hg => b g hg fun s h => hs s (.satFixG hg h)
    obtain ⟨y, hy⟩ := opt l [' ', '+', ' '] fun r => ' ' :: '+' :: ' ' :: (r ++ [')', '*'])
    exact ⟨_, by rw [Hom.text, hx, Option.bind_some, hz, Option.bind_some, hl, Option.bind_some, hy]; rfl⟩
  | satInter _ _ _ a b c =>
    obtain ⟨l1, h1⟩ := texts_some fun g hg => a g hg fun s h => hs s (.satInter (by simp [hg]) h)
    obtain ⟨l, hl⟩ := texts_some fun g hg => b g hg fun s h => hs s (.satInter (by simp [hg]) h)
    obtain ⟨l3, h3⟩ := texts_some fun g hg => c g hg fun s h => hs s (.satInter (by simp [hg]) h)
    obtain ⟨y, hy⟩ := opt l [' ', '&', ' '] fun r => r ++ [')']
    exact ⟨_, by rw [Hom.text, h1, Option.bind_some, hl, Option.bind_some, h3, Option.bind_some, hy]; rfl⟩
  | satSum _ _ _ a b c =>
    obtain ⟨l1, h1⟩ := texts_some fun g hg => a g hg fun s h => hs s (.satSum (by simp [hg]) h)
    obtain ⟨l, hl⟩ := texts_some fun g hg => b g hg fun s h => hs s (.satSum (by simp [hg]) h)
    obtain ⟨l3, h3⟩ := texts_some fun g hg => c g hg fun s h => hs s (.satSum (by simp [hg]) h)
    obtain ⟨y, hy⟩ := opt l [' ', '+', ' '] fun r => r ++ [')']
    exact ⟨_, by rw [Hom.text, h1, Option.bind_some, hl, Option.bind_some, h3, Option.bind_some, hy]; rfl⟩

end

end Hom

/-! ## Orders and default texts -/

/-- The orders found in an order: `next` and `nested`, any number of times. (Specification or proof device, not part of the code.) -/
inductive OB.Within (o : OB I) : OB I → Prop where
  | self : o ≠ .nil → Within o o
  | nested {id : OId I} {nst nxt : OB I} : Within o (.node id nst nxt) → nst ≠ .nil → Within o nst
  | next {id : OId I} {nst nxt : OB I} : Within o (.node id nst nxt) → nxt ≠ .nil → Within o nxt

theorem OB.Within.ne_nil {o a : OB I} (h : o.Within a) : a ≠ .nil := by
  cases h <;> assumption

theorem OB.Within.cases' {id : OId I} {nst nxt a : OB I} (h : (OB.node id nst nxt).Within a) :
    a = .node id nst nxt ∨ nst.Within a ∨ nxt.Within a := by
  induction h with
  | self _ => exact .inl rfl
  | nested _ hn ih =>
    rcases ih with e | h | h
    · cases e; exact .inr (.inl (.self hn))
    · exact .inr (.inl (.nested h hn))
    · exact .inr (.inr (.nested h hn))
  | next _ hn ih =>
    rcases ih with e | h | h
    · cases e; exact .inr (.inr (.self hn))
    · exact .inr (.inl (.next h hn))
    · exact .inr (.inr (.next h hn))

theorem OB.Within.head_mem {o : OB I} {id : OId I} {nst nxt : OB I} (h : o.Within (.node id nst nxt)) : id ∈ o.ids := by
  induction o with
  | nil =>
    generalize e : OB.node id nst nxt = a at h
    have : ∀ {a : OB I}, (OB.nil : OB I).Within a → False := by
      intro a h
      induction h with
      | self h => exact h rfl
      | nested _ _ ih => exact ih
      | next _ _ ih => exact ih
    exact (this h).elim
  | node i n x a b =>
    simp only [OB.ids, List.mem_cons, List.mem_append]
    rcases h.cases' with e | h | h
    · cases e; exact .inl rfl
    · exact .inr (.inl (a h))
    · exact .inr (.inr (b h))

/-- In an order whose identifiers have different texts, the orders are determined by the text of their first identifier. -/
theorem OB.Within.uniq {pi : I → List Char} {o : OB I} (hd : (o.ids.map (textId pi)).Nodup) {a b : OB I} (ha : o.Within a) (hb : o.Within b)
    {i : List Char} (h1 : a.headText pi = some i) (h2 : b.headText pi = some i) : a = b := by
  cases a with
  | nil => cases h1
  | node ia na xa =>
  cases b with
  | nil => cases h2
  | node ib nb xb =>
  simp only [OB.headText, Option.some.injEq] at h1 h2
  have e : textId pi ia = textId pi ib := h1.trans h2.symm
  clear h1 h2
  induction o with
  | nil => have := ha.head_mem; simp [OB.ids] at this
  | node id nst nxt ih1 ih2 =>
    simp only [OB.ids, List.map_cons, List.map_append, List.nodup_cons, List.mem_append, not_or, List.nodup_append] at hd
    obtain ⟨⟨d1, d2⟩, d3, d4, d5⟩ := hd
    have hm : ∀ {o : OB I} {i : OId I} {n x : OB I}, o.Within (.node i n x) → textId pi i ∈ o.ids.map (textId pi) := fun h =>
      List.mem_map_of_mem h.head_mem
    rcases ha.cases' with e1 | h1 | h1 <;> rcases hb.cases' with e2 | h2 | h2
    · rw [e1, e2]
    · cases e1; exact (d1 (e ▸ hm h2)).elim
    · cases e1; exact (d2 (e ▸ hm h2)).elim
    · cases e2; exact (d1 (e ▸ hm h1)).elim
    · exact ih1 d3 h1 h2
    · exact (d5 _ (hm h1) _ (hm h2) e).elim
    · cases e2; exact (d2 (e ▸ hm h1)).elim
    · exact (d5 _ (hm h2) _ (hm h1) e.symm).elim
    · exact ih2 d4 h1 h2

/-- The texts of functions and of inductive homomorphisms without `operator<<`: `/repo/sdd/hom/function.hh:199-205`,
`/repo/sdd/hom/inductive.hh:177-183`; `addr` is the text of an address, `ind` tells the inductive ones. -/
def defaultText (ind : U → Bool) (addr : U → List Char) (u : U) : List Char :=
  (if ind u then ['i', 'n', 'd', 'u', 'c', 't', 'i', 'v', 'e', '('] else ['f', 'u', 'n', 'c', 't', 'i', 'o', 'n', '(']) ++ (addr u ++ [')'])

theorem split_at {c : Char} : ∀ {a b t t' : List Char}, c ∉ a → c ∉ b → a ++ c :: t = b ++ c :: t' → a = b ∧ t = t'
  | [], [], _, _, _, _, e => ⟨rfl, (List.cons.inj e).2⟩
  | [], y :: b, _, _, _, h, e => by
    simp only [List.nil_append, List.cons_append, List.cons.injEq] at e
    simp [e.1] at h
  | x :: a, [], _, _, h, _, e => by
    simp only [List.nil_append, List.cons_append, List.cons.injEq] at e
    simp [e.1] at h
  | x :: a, y :: b, _, _, h1, h2, e => by
    simp only [List.cons_append, List.cons.injEq] at e
    simp only [List.mem_cons, not_or] at h1 h2
    obtain ⟨h, h'⟩ := split_at h1.2 h2.2 e.2
    exact ⟨by rw [e.1, h], h'⟩

/-- Texts which can be read: values as proved for sets of values, decimal variables, addresses for functions and inductive homomorphisms, and
the orders found in an order whose identifiers have different texts without comma. -/
theorem Printers.default_ok {pv : V → List Char} (hv : ValText pv) {pi : I → List Char} {ind : U → Bool} {addr : U → List Char}
    (ha : ∀ u v, addr u = addr v → u = v) (hp : ∀ u, ')' ∉ addr u) {o : OB I} (hd : (o.ids.map (textId pi)).Nodup)
    (hc : ∀ i ∈ o.ids, ',' ∉ textId pi i) :
    (⟨pv, pi, dec, defaultText ind addr⟩ : Printers V I U).OK o.Within where
  val := hv
  var := by
    intro x y t t' e
    obtain ⟨h, _, h'⟩ := dec_split (by decide) (by decide) e
    exact ⟨h, h'⟩
  user := by
    intro u v t t' _ _ e
    simp only [defaultText, List.append_assoc] at e
    by_cases hu : ind u = true <;> by_cases hv : ind v = true
    · simp only [hu, hv, if_true, List.cons_append, List.nil_append, List.cons.injEq, true_and] at e
      obtain ⟨h, h'⟩ := split_at (hp u) (hp v) e
      exact ⟨ha _ _ h, h'⟩
    · simp [hu, hv] at e
    · simp [hu, hv] at e
    · simp only [hu, hv, List.cons_append, List.nil_append] at e
      obtain ⟨h, h'⟩ := split_at (hp u) (hp v) (by simpa using e)
      exact ⟨ha _ _ h, h'⟩
  kw := by
    intro u k
    cases hb : ind u <;> cases k <;> simp [defaultText, hb, Hom.Kw.chars, List.cons_prefix_cons]
  head := by
    intro u
    cases hb : ind u <;> simp only [defaultText, hb] <;> exact ⟨_, _, rfl, by decide, by decide⟩
  id := by
    intro a b i j t t' h1 h2 e1 e2 e
    have hm : ∀ {a : OB I} {i : List Char}, o.Within a → a.headText pi = some i → ',' ∉ i := by
      intro a i h e
      cases a with
      | nil => cases e
      | node id nst nxt => cases e; exact hc id h.head_mem
    obtain ⟨hq, ht⟩ := split_at (hm h1 e1) (hm h2 e2) e
    subst hq
    exact ⟨h1.uniq hd h2 e1 e2, ht⟩

end Verif
