/-!
# Discriminated unions

`/repo/sdd/mem/variant.hh`, `/repo/sdd/mem/variant_impl.hh`, `/repo/sdd/util/typelist.hh`. Types are names in `T`; the data of a
type is in `D t`.
-/

set_option autoImplicit false
set_option linter.unusedSectionVars false

namespace Verif
namespace Var
section
variable {T : Type} [DecidableEq T]

/-- `index_of`, `/repo/sdd/util/typelist.hh:13-25`: `none` is a compilation error (no specialization for an empty list). -/
def indexOf (t : T) : List T → Option Nat
  | [] => none
  | h :: ts => if h = t then some 0 else (indexOf t ts).map (· + 1)

/-- `mul`, `/repo/sdd/util/typelist.hh:62-64`. -/
def mul (x : T) (ys : List T) : List (T × T) := ys.map fun y => (x, y)

/-- `cat`, `/repo/sdd/util/typelist.hh:68-88`: lists are concatenated from left to right. -/
def cat : List (List (T × T)) → List (T × T)
  | [] => []
  | [x] => x
  | x :: y :: zs => cat ((x ++ y) :: zs)
termination_by l => l.length

/-- `join`, `/repo/sdd/util/typelist.hh:93-100`. -/
def join (xs ys : List T) : List (T × T) := cat (xs.map fun x => mul x ys)

variable {D : T → Type}

/-- `variant`, `/repo/sdd/mem/variant.hh:39-76`: an index on 8 bits, and a storage in which a datum of one type has been built (`static_cast`
to another type has an undefined behaviour). -/
structure Variant (D : T → Type) where
  index : BitVec 8
  type : T
  data : D type

/-- The `static_assert`s on the number of types, `/repo/sdd/mem/variant.hh:50-54`. -/
def Compiles (types : List T) : Prop := 1 ≤ types.length ∧ types.length ≤ 255

/-- The constructor, `/repo/sdd/mem/variant.hh:65-76`. -/
def construct (types : List T) (t : T) (d : D t) : Option (Variant D) :=
  (indexOf t types).map fun i => ⟨BitVec.ofNat 8 i, t, d⟩

/-- `static_cast` of the storage, `/repo/sdd/mem/variant_impl.hh:134-143`: `none` is an undefined behaviour. -/
def cast (v : Variant D) (t : T) : Option (D t) := if h : v.type = t then some (h ▸ v.data) else none

/-- `apply_visitor`, `/repo/sdd/mem/variant_impl.hh:147-159`: `none` is an undefined behaviour (reading out of the table, or a wrong cast). -/
def applyVisitor {R : Type} (types : List T) (f : (t : T) → D t → R) (v : Variant D) : Option R :=
  match types[v.index.toNat]? with
  | none => none
  | some t => (cast v t).map (f t)

/-- `apply_binary_visitor`, `/repo/sdd/mem/variant_impl.hh:191-205`. -/
def applyBinaryVisitor {R : Type} (xs ys : List T) (f : (t u : T) → D t → D u → R) (x y : Variant D) : Option R :=
  match (join xs ys)[x.index.toNat * ys.length + y.index.toNat]? with
  | none => none
  | some (t, u) =>
    match cast x t, cast y u with
    | some a, some b => some (f t u a b)
    | _, _ => none

/-- `eq_visitor`, `/repo/sdd/mem/variant_impl.hh:105-125`: `none` is the unreachable case. -/
def eqVisitor (eq : (t : T) → D t → D t → Bool) (t u : T) (a : D t) (b : D u) : Option Bool :=
  if h : t = u then some (eq u (h ▸ a) b) else none

/-- `operator==`, `/repo/sdd/mem/variant.hh:91-97`. -/
def eqV (types : List T) (eq : (t : T) → D t → D t → Bool) (x y : Variant D) : Option Bool :=
  if x.index = y.index then (applyBinaryVisitor types types (eqVisitor eq) x y).join else some false

/-- `is`, `/repo/sdd/mem/variant.hh:102-111`: `none` if the type is not one of those of the variant (it does not compile). -/
def is (types : List T) (t : T) (v : Variant D) : Option Bool := (indexOf t types).map fun i => v.index.toNat == i

theorem indexOf_spec {t : T} {types : List T} {i : Nat} (h : indexOf t types = some i) : types[i]? = some t := by
  induction types generalizing i with
  | nil => cases h
  | cons u ts ih =>
    rw [indexOf] at h
    split at h
    · rename_i e
      cases h
      simp [e]
    · rw [Option.map_eq_some_iff] at h
      obtain ⟨j, hj, rfl⟩ := h
      simpa using ih hj

theorem indexOf_isSome {t : T} {types : List T} : (∃ i, indexOf t types = some i) ↔ t ∈ types := by
  induction types with
  | nil => simp [indexOf]
  | cons u ts ih =>
    rw [indexOf]
    by_cases h : u = t
    · simp [h]
    · rw [if_neg h, List.mem_cons, ← ih]
      constructor
      · rintro ⟨i, hi⟩
        rw [Option.map_eq_some_iff] at hi
        obtain ⟨j, hj, rfl⟩ := hi
        exact .inr ⟨j, hj⟩
      · rintro (rfl | ⟨j, hj⟩)
        · exact absurd rfl h
        · exact ⟨j + 1, by rw [hj]; rfl⟩

theorem cat_eq : ∀ l : List (List (T × T)), cat l = l.flatten
  | [] => by simp [cat]
  | [x] => by simp [cat]
  | x :: y :: zs => by rw [cat, cat_eq ((x ++ y) :: zs)]; simp
termination_by l => l.length

theorem join_get {ys : List T} {j : Nat} (hj : j < ys.length) : ∀ (xs : List T) (i : Nat),
    (join xs ys)[i * ys.length + j]? = match xs[i]?, ys[j]? with
      | some x, some y => some (x, y)
      | _, _ => none := by
  unfold join
  intro xs
  rw [cat_eq]
  induction xs with
  | nil => intro i; simp
  | cons x xs ih =>
    intro i
    rw [List.map_cons, List.flatten_cons]
    cases i with
    | zero =>
      rw [Nat.zero_mul, Nat.zero_add, List.getElem?_append_left (by simpa [mul] using hj)]
      simp [mul, hj]
    | succ i =>
      have hl : (mul x ys).length = ys.length := by simp [mul]
      rw [List.getElem?_append_right (by rw [hl, Nat.succ_mul]; omega), hl]
      have : (i + 1) * ys.length + j - ys.length = i * ys.length + j := by rw [Nat.succ_mul]; omega
      rw [this, ih]
      simp

theorem construct_spec {types : List T} (hc : Compiles types) {t : T} {d : D t} {v : Variant D}
    (h : construct types t d = some v) : types[v.index.toNat]? = some t ∧ v = ⟨v.index, t, d⟩ ∧ indexOf t types = some v.index.toNat := by
  unfold construct at h
  rw [Option.map_eq_some_iff] at h
  obtain ⟨i, hi, rfl⟩ := h
  have h1 := indexOf_spec hi
  have h2 : i < types.length := by
    rw [List.getElem?_eq_some_iff] at h1
    exact h1.1
  have h3 := hc.2
  have h4 : (BitVec.ofNat 8 i).toNat = i := by
    rw [BitVec.toNat_ofNat]
    exact Nat.mod_eq_of_lt (by omega)
  refine ⟨?_, rfl, ?_⟩
  · dsimp only; rw [h4]; exact h1
  · dsimp only; rw [h4]; exact hi

theorem cast_self (i : BitVec 8) (t : T) (d : D t) : cast ⟨i, t, d⟩ t = some d := by simp [cast]

end
end Var
end Verif
