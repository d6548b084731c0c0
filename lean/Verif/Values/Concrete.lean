import Verif.Values.FlatSet
import Verif.Values.Bitset
/-!
# Concrete configurations

Witnesses used by the `example`s beside the theorems: configurations where the "addresses" of nodes and
values are compared through an injective serialisation to lists of numbers.
-/

set_option autoImplicit false
set_option linter.unusedSectionVars false

namespace Verif

/-- Lexicographic comparison. (Proof device, not part of the code.) -/
def lexLt : List Nat → List Nat → Bool
  | [], [] => false
  | [], _ :: _ => true
  | _ :: _, [] => false
  | a :: l, b :: r => if a < b then true else if b < a then false else lexLt l r

theorem lexLt_st : StrictTotal lexLt where
  irrefl a := by
    induction a with
    | nil => rfl
    | cons x l ih => simp [lexLt, ih]
  trans a b c := by
    induction a generalizing b c with
    | nil =>
      cases b with
      | nil => simp [lexLt]
      | cons y r => cases c <;> simp [lexLt]
    | cons x l ih =>
      cases b with
      | nil => simp [lexLt]
      | cons y r =>
        cases c with
        | nil => simp [lexLt]
        | cons z s =>
          simp only [lexLt]
          split
          · intro _
            split
            · intro _; rw [if_pos (by omega)]
            · split
              · simp
              · intro _; rw [if_pos (by omega)]
          · split
            · simp
            · intro h1
              split
              · intro _; rw [if_pos (by omega)]
              · split
                · simp
                · intro h2
                  rw [if_neg (by omega), if_neg (by omega)]
                  exact ih _ _ h1 h2
  total a b := by
    induction a generalizing b with
    | nil => cases b <;> simp [lexLt]
    | cons x l ih =>
      cases b with
      | nil => simp [lexLt]
      | cons y r =>
        simp only [lexLt]
        rcases Nat.lt_trichotomy x y with h | h | h
        · left; rw [if_pos h]
        · subst h
          simp only [lt_irrefl, if_false]
          rcases ih r with h | h | h
          · exact Or.inl h
          · exact Or.inr (Or.inl (by rw [h]))
          · exact Or.inr (Or.inr h)
        · right; right; rw [if_pos h]

/-- A comparison through an injective function. -/
theorem StrictTotal.comap {α β : Type} {lt : β → β → Bool} (h : StrictTotal lt) (f : α → β)
    (hf : ∀ a b, f a = f b → a = b) : StrictTotal fun a b => lt (f a) (f b) where
  irrefl a := h.irrefl _
  trans a b c := h.trans _ _ _
  total a b := by
    rcases h.total (f a) (f b) with h | h | h
    · exact Or.inl h
    · exact Or.inr (Or.inl (hf _ _ h))
    · exact Or.inr (Or.inr h)

section
variable {V : Type}

namespace SDD
mutual
/-- A serialisation of SDDs, given a serialisation of values. (Proof device, not part of the code.) -/
def ser (serV : V → List Nat) : SDD V → List Nat
  | zero => [0]
  | one => [1]
  | flat x arcs => 2 :: x :: arcs.length :: serF serV arcs
  | hier x arcs => 3 :: x :: arcs.length :: serH serV arcs
/-- Serialisation of the arcs of a flat node. (Proof device, not part of the code.) -/
def serF (serV : V → List Nat) : List (V × SDD V) → List Nat
  | [] => []
  | (v, s) :: l => serV v ++ (ser serV s ++ serF serV l)
/-- Serialisation of the arcs of a hierarchical node. (Proof device, not part of the code.) -/
def serH (serV : V → List Nat) : List (SDD V × SDD V) → List Nat
  | [] => []
  | (v, s) :: l => ser serV v ++ (ser serV s ++ serH serV l)
end
end SDD

open SDD

/-- The serialisation is uniquely decodable. -/
theorem ser_prefix {serV : V → List Nat}
    (hV : ∀ v w a b, serV v ++ a = serV w ++ b → v = w ∧ a = b) (s : SDD V) :
    ∀ (s' : SDD V) (a b : List Nat), s.ser serV ++ a = s'.ser serV ++ b → s = s' ∧ a = b := by
  induction s using SDD.ind with
  | h0 => intro s' a b h; cases s' <;> simp [ser] at h ⊢; exact h
  | h1 => intro s' a b h; cases s' <;> simp [ser] at h ⊢; exact h
  | hf x arcs ih =>
    intro s' a b h
    cases s' with
    | zero => simp [ser] at h
    | one => simp [ser] at h
    | hier => simp [ser] at h
    | flat y arcs' =>
      simp only [ser, List.cons_append, List.cons.injEq, true_and] at h
      obtain ⟨rfl, hlen, h⟩ := h
      have key : arcs = arcs' ∧ a = b := by
        induction arcs generalizing arcs' with
        | nil =>
          cases arcs' with
          | nil => simpa [serF] using h
          | cons _ _ => simp at hlen
        | cons p l ihl =>
          obtain ⟨v, s⟩ := p
          cases arcs' with
          | nil => simp at hlen
          | cons p' l' =>
            obtain ⟨v', s'⟩ := p'
            simp only [serF, List.append_assoc] at h
            obtain ⟨h0, k0⟩ := hV _ _ _ _ h
            obtain ⟨h1, k1⟩ := ih (v, s) (by simp) _ _ _ k0
            simp only at h1
            subst h0 h1
            simp at hlen
            obtain ⟨rfl, rfl⟩ := ihl (fun a ha => ih a (by simp [ha])) l' hlen k1
            exact ⟨rfl, rfl⟩
      exact ⟨by rw [key.1], key.2⟩
  | hh x arcs ih =>
    intro s' a b h
    cases s' with
    | zero => simp [ser] at h
    | one => simp [ser] at h
    | flat => simp [ser] at h
    | hier y arcs' =>
      simp only [ser, List.cons_append, List.cons.injEq, true_and] at h
      obtain ⟨rfl, hlen, h⟩ := h
      have key : arcs = arcs' ∧ a = b := by
        induction arcs generalizing arcs' with
        | nil =>
          cases arcs' with
          | nil => simpa [serH] using h
          | cons _ _ => simp at hlen
        | cons p l ihl =>
          obtain ⟨v, s⟩ := p
          cases arcs' with
          | nil => simp at hlen
          | cons p' l' =>
            obtain ⟨v', s'⟩ := p'
            simp only [serH, List.append_assoc] at h
            obtain ⟨h0, k0⟩ := (ih (v, s) (by simp)).1 _ _ _ h
            obtain ⟨h1, k1⟩ := (ih (v, s) (by simp)).2 _ _ _ k0
            simp only at h0 h1
            subst h0 h1
            simp at hlen
            obtain ⟨rfl, rfl⟩ := ihl (fun a ha => ih a (by simp [ha])) l' hlen k1
            exact ⟨rfl, rfl⟩
      exact ⟨by rw [key.1], key.2⟩

/-- The comparison of SDDs through their serialisation. (Proof device, not part of the code.) -/
def serLt (serV : V → List Nat) (s s' : SDD V) : Bool := lexLt (s.ser serV) (s'.ser serV)

theorem serLt_st {serV : V → List Nat}
    (hV : ∀ v w a b, serV v ++ a = serV w ++ b → v = w ∧ a = b) : StrictTotal (serLt serV) :=
  lexLt_st.comap _ fun s s' h => (ser_prefix hV s s' [] [] (by rw [h])).1

end

deriving instance DecidableEq for Err
deriving instance DecidableEq for Except

/-- The order on natural numbers. (Proof device, not part of the code.) -/
def natLt (a b : Nat) : Bool := decide (a < b)

theorem natLt_st' : StrictTotal natLt := natLt_st

/-- Sets of natural numbers. (An instance of `/repo/sdd/values/flat_set.hh`.) -/
abbrev NSet := FSet Nat natLt

/-- Serialisation of a set of natural numbers. (Proof device, not part of the code.) -/
def serN (v : NSet) : List Nat := v.data.length :: v.data

theorem serN_prefix (v w : NSet) (a b : List Nat) (h : serN v ++ a = serN w ++ b) :
    v = w ∧ a = b := by
  simp only [serN, List.cons_append, List.cons.injEq] at h
  obtain ⟨h1, h2⟩ := List.append_inj h.2 h.1
  cases v; cases w
  simp at h1
  exact ⟨by simp [h1], h2⟩

/-- A configuration with sets of natural numbers, as `conf1` of
`/repo/sdd/conf/default_configurations.hh`. -/
def natCfg (limit : Option Nat) : Cfg NSet Nat :=
  flatSetCfg natLt natLt_st' (fun v w => lexLt (serN v) (serN w)) (serLt serN) limit

theorem natCfg_lawful (limit : Option Nat) : (natCfg limit).Lawful :=
  flatSetCfg_lawful natLt_st'
    (lexLt_st.comap _ fun v w h => (serN_prefix v w [] [] (by rw [h])).1) (serLt_st serN_prefix)

/-- The same with the opposite addresses. (Proof device, not part of the code.) -/
def natCfgRev (limit : Option Nat) : Cfg NSet Nat :=
  flatSetCfg natLt natLt_st' (fun v w => lexLt (serN w) (serN v)) (fun s s' => serLt serN s' s) limit

theorem StrictTotal.flip {α : Type} {lt : α → α → Bool} (h : StrictTotal lt) :
    StrictTotal fun a b => lt b a where
  irrefl a := h.irrefl a
  trans a b c h1 h2 := h.trans _ _ _ h2 h1
  total a b := by
    rcases h.total a b with h | h | h
    · exact Or.inr (Or.inr h)
    · exact Or.inr (Or.inl h)
    · exact Or.inl h

theorem natCfgRev_lawful (limit : Option Nat) : (natCfgRev limit).Lawful :=
  flatSetCfg_lawful natLt_st'
    (lexLt_st.comap serN fun v w h => (serN_prefix v w [] [] (by rw [h])).1).flip
    (serLt_st serN_prefix).flip

/-- A set given by its elements. (Proof device, not part of the code.) -/
def ns (l : List Nat) : NSet := FSet.ofList natLt_st' l

/-- A configuration with bitsets of 8 bits. (An instance of `/repo/sdd/values/bitset.hh`.) -/
def bitCfg (limit : Option Nat) : Cfg (BitVec 8) Nat :=
  bitsetCfg 8 (serLt fun v : BitVec 8 => [v.toNat]) limit

theorem bitCfg_lawful (limit : Option Nat) : (bitCfg limit).Lawful := by
  refine bitsetCfg_lawful (serLt_st ?_)
  intro v w a b h
  simp at h
  exact ⟨BitVec.eq_of_toNat_eq h.1, h.2⟩

end Verif
