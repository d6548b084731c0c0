import Verif.Mem.Align
/-!
# Properties of the alignment of temporary objects
-/

set_option autoImplicit false
set_option linter.unusedSectionVars false

namespace Verif
open Arena Layout

theorem classT_eight {ts : List CType} (h : ∀ t ∈ ts, t.align ∣ 8) {t : CType} (ht : t ∈ ts) (h8 : t.align = 8) : 8 ∣ (classT ts).size := by
  have h1 : maxAlign ts = 8 := Nat.le_antisymm (Nat.le_of_dvd (by omega) (maxAlign_dvd h)) (h8 ▸ align_le_maxAlign ht)
  have := dvd_alignUp (max 1 (fieldsFrom 0 ts).2) (maxAlign ts)
  rw [h1] at this
  show 8 ∣ alignUp (max 1 (fieldsFrom 0 ts).2) (maxAlign ts)
  rwa [h1]

/-- The types of the containers, when builders are not packed. -/
theorem arenaTypes_ok {val elem vb : CType} (hv : val.OK) (h8 : 8 ∣ val.size) (he : elem.OK) (hb : vb.OK) :
    ∀ t ∈ arenaTypes false val elem vb, t.align ∣ 8 ∧ t.align ∣ t.size ∧ 8 ∣ t.size := by
  have hB : builderT false = ⟨32, 8⟩ := by decide
  have h2 : ∀ {a b : CType}, a.align ∣ 8 → b.align ∣ 8 → (a.align = 8 ∨ b.align = 8) →
      (classT [a, b]).align ∣ 8 ∧ (classT [a, b]).align ∣ (classT [a, b]).size ∧ 8 ∣ (classT [a, b]).size := by
    intro a b ha hb h
    have hall : ∀ t ∈ [a, b], t.align ∣ 8 := by
      intro t ht
      rcases List.mem_cons.1 ht with rfl | ht
      · exact ha
      · rw [List.mem_singleton] at ht
        subst ht
        exact hb
    refine ⟨(classT_ok hall).1, (classT_ok hall).2, ?_⟩
    rcases h with h | h
    · exact classT_eight hall (t := a) (by simp) h
    · exact classT_eight hall (t := b) (by simp) h
  have h3 : ∀ {a : CType}, a.align ∣ 8 → (classT [ptrT, a, ptrT]).align ∣ 8 ∧ (classT [ptrT, a, ptrT]).align ∣ (classT [ptrT, a, ptrT]).size ∧
      8 ∣ (classT [ptrT, a, ptrT]).size := by
    intro a ha
    have hall : ∀ t ∈ [ptrT, a, ptrT], t.align ∣ 8 := by
      intro t ht
      simp only [List.mem_cons, List.not_mem_nil, or_false] at ht
      rcases ht with rfl | rfl | rfl
      · exact Nat.dvd_refl 8
      · exact ha
      · exact Nat.dvd_refl 8
    exact ⟨(classT_ok hall).1, (classT_ok hall).2, classT_eight hall (t := ptrT) (by simp) rfl⟩
  have hp : ptrT.align ∣ 8 := Nat.dvd_refl 8
  have hB' : (builderT false).align ∣ 8 := by rw [hB]
  intro t ht
  simp only [arenaTypes, List.mem_cons, List.not_mem_nil, or_false] at ht
  rcases ht with rfl | rfl | rfl | rfl | rfl | rfl | rfl | rfl | rfl | rfl
  · decide
  · exact ⟨hv.1, hv.2, h8⟩
  · exact h2 hp hp (.inl rfl)
  · exact h2 hp hv.1 (.inl rfl)
  · exact h2 hp hB' (.inl rfl)
  · exact h2 hv.1 hB' (.inr (by rw [hB]))
  · exact h3 (h2 hp hB' (.inl rfl)).1
  · exact h3 (h2 hv.1 hB' (.inr (by rw [hB]))).1
  · exact h2 he.1 hB' (.inr (by rw [hB]))
  · exact h2 hp hb.1 (.inl rfl)

/-- **C100**, partial. When the size of values is a multiple of 8 bytes (as it is for the values of the library) and containers are not packed: whatever temporary
containers are made, grow, are released and end with their scope, every object of every array given to a container is at an address which is suitable for its type.
The buffer and the memory of the system are at multiples of 8.

What is missing: values of other sizes (`C100_negation_values`), packed containers (`C100_negation_packed`). -/
theorem C100_aligned_partial {val elem vb : CType} (hv : val.OK) (h8 : 8 ∣ val.size) (he : elem.OK) (hb : vb.OK) {base size : Nat} (hbase : 8 ∣ base)
    {s : State} (h : LReach (arenaTypes false val elem vb) 8 base size s) :
    ∀ t n a, LValid (arenaTypes false val elem vb) 8 s (.allocate t n a) → ∀ i < n, t.align ∣ (lallocate t n a s).1.addr + i * t.size := by
  intro t n a ha i _
  have hts := arenaTypes_ok hv h8 he hb
  have hi := h.inv hbase fun t ht => (hts t ht).2.2
  obtain ⟨h1, h2, -⟩ := hts t ha.1
  refine Nat.dvd_add (Nat.dvd_trans h1 ?_) (Dvd.dvd.mul_left h2 i)
  unfold lallocate allocate
  split
  · exact hi.pos
  · exact ha.2.1

/-- An array of one object of type `t`, then a pointer. -/
theorem misaligned {ts : List CType} {t : CType} (ht : t ∈ ts) (hp : ptrT ∈ ts) (h8 : ¬ 8 ∣ t.size) {base size : Nat} (hbase : 8 ∣ base)
    (hs : t.size + 8 ≤ size) :
    ∃ s, LReach ts 8 base size s ∧ LValid ts 8 s (.allocate ptrT 1 (8 * (base + size))) ∧
      ∀ a, (lallocate ptrT 1 a s).1.addr = base + t.size ∧ ¬ ptrT.align ∣ (lallocate ptrT 1 a s).1.addr := by
  have hfit : 1 * t.size ≤ (init base size).base + (init base size).size - (init base size).pos := by
    show 1 * t.size ≤ base + size - base
    omega
  have hv : LValid ts 8 (init base size) (.allocate t 1 (8 * (base + size))) :=
    ⟨ht, Nat.dvd_mul_right .., .inr (by show base + size ≤ 8 * (base + size); omega), by simp [init]⟩
  have he : exec (init base size) (LOp.op (.allocate t 1 (8 * (base + size)))) = some (.block ⟨base, t.size, false, 0⟩,
      ⟨base, size, base + t.size, t.size, [], [⟨base, t.size, false, 0⟩], [], 1⟩) := by
    simp only [LOp.op, exec, allocate]
    rw [if_pos hfit]
    simp [init]
  refine ⟨_, .step .init hv he, ⟨hp, Nat.dvd_mul_right .., .inr (by show base + size ≤ 8 * (base + size); omega), by simp⟩, fun a => ?_⟩
  have haddr : (lallocate ptrT 1 a ⟨base, size, base + t.size, t.size, [], [⟨base, t.size, false, 0⟩], [], 1⟩).1.addr = base + t.size := by
    simp only [lallocate, allocate]
    rw [if_pos (by show 1 * 8 ≤ base + size - (base + t.size); omega)]
  refine ⟨haddr, fun hd => h8 ?_⟩
  rw [haddr] at hd
  exact (Nat.dvd_add_right hbase).1 hd

/-- **C100**, negation. Values of any size which is not a multiple of 8 bytes (for instance a class of the user with one field of 32 bits): after an array of one
value, the array of pointers which is given is not suitable for pointers. -/
theorem C100_negation_values (packed : Bool) {val elem vb : CType} (h8 : ¬ 8 ∣ val.size) {base size : Nat} (hbase : 8 ∣ base) (hs : val.size + 8 ≤ size) :
    ∃ s, LReach (arenaTypes packed val elem vb) 8 base size s ∧ LValid (arenaTypes packed val elem vb) 8 s (.allocate ptrT 1 (8 * (base + size))) ∧
      ∀ a, ¬ ptrT.align ∣ (lallocate ptrT 1 a s).1.addr := by
  obtain ⟨s, h1, h2, h3⟩ := misaligned (ts := arenaTypes packed val elem vb) (t := val) (by simp [arenaTypes]) (by simp [arenaTypes]) h8 hbase hs
  exact ⟨s, h1, h2, fun a => (h3 a).2⟩

/-- **C100**, negation. When containers are packed, any values, whose elements have a size which is not a multiple of 8 bytes (for instance 32-bit integers): after
an array of one pair of an element and a container (`/repo/sdd/dd/sum.hh:236-239`), the array of pointers which is given is not suitable for pointers. -/
theorem C100_negation_packed {val elem vb : CType} (he : elem.OK) (h8 : ¬ 8 ∣ elem.size) {base size : Nat} (hbase : 8 ∣ base) (hs : elem.size + 40 ≤ size) :
    ∃ s, LReach (arenaTypes true val elem vb) 8 base size s ∧ LValid (arenaTypes true val elem vb) 8 s (.allocate ptrT 1 (8 * (base + size))) ∧
      ∀ a, ¬ ptrT.align ∣ (lallocate ptrT 1 a s).1.addr := by
  have hB : builderT true = ⟨32, 1⟩ := by decide
  have hpos : 0 < elem.align := Nat.pos_of_dvd_of_pos he.1 (by omega)
  have hup : ∀ n, elem.align ∣ n → alignUp n elem.align = n := by
    rintro n ⟨k, rfl⟩
    unfold alignUp
    rw [show elem.align * k + elem.align - 1 = (elem.align - 1) + elem.align * k from by omega, Nat.add_mul_div_left _ _ hpos,
      Nat.div_eq_of_lt (by omega), Nat.zero_add, Nat.mul_comm]
  have h1 : ∀ n, alignUp n 1 = n := by
    intro n
    unfold alignUp
    omega
  have hsz : (classT [elem, builderT true]).size = elem.size + 32 := by
    have hm : maxAlign [elem, builderT true] = elem.align := by
      rw [hB]
      show max elem.align (max 1 1) = elem.align
      omega
    have hf : (fieldsFrom 0 [elem, builderT true]).2 = elem.size + 32 := by
      rw [hB]
      show alignUp (alignUp 0 elem.align + elem.size) 1 + 32 = _
      rw [hup 0 (Nat.dvd_zero _), h1, Nat.zero_add]
    show alignUp (max 1 (fieldsFrom 0 [elem, builderT true]).2) (maxAlign [elem, builderT true]) = _
    rw [hm, hf, Nat.max_eq_right (by omega)]
    exact hup _ (Nat.dvd_add he.2 (Nat.dvd_trans he.1 (by decide)))
  obtain ⟨s, h2, h3, h4⟩ := misaligned (ts := arenaTypes true val elem vb) (t := classT [elem, builderT true]) (by simp [arenaTypes]) (by simp [arenaTypes])
    (by rw [hsz]; intro h; exact h8 ((Nat.dvd_add_left (by decide : 8 ∣ 32)).1 h)) (size := size) hbase (by rw [hsz]; omega)
  exact ⟨s, h2, h3, fun a => (h4 a).2⟩

/-! ## Concrete cases -/

/-- `C100_aligned_partial`: values are pointers (`flat_set`), their elements 32-bit integers, their builder a set of pointers and an integer. After an array of
three pairs of an element and a container, one of these containers is at a multiple of 8. -/
example : CType.OK ptrT ∧ 8 ∣ ptrT.size ∧ (intT 2).OK ∧ (classT [ptrT, ptrT, ptrT]).OK ∧
    ∃ s, LReach (arenaTypes false ptrT (intT 2) (classT [ptrT, ptrT, ptrT])) 8 800 1024 s ∧ s.pos = 920 ∧
      LValid (arenaTypes false ptrT (intT 2) (classT [ptrT, ptrT, ptrT])) 8 s (.allocate ptrT 5 16) := by
  refine ⟨⟨by decide, by decide⟩, by decide, ⟨by decide, by decide⟩, ⟨by decide, by decide⟩, _,
    .step .init (op := .allocate (classT [intT 2, builderT false]) 3 16) ⟨by decide, by decide, .inl (by decide), by simp [init]⟩ rfl, by decide,
    ⟨by decide, by decide, .inl (by decide), fun m hm => by rw [show (allocate _ _ _).2.sysmem = [] from rfl] at hm; cases hm⟩⟩

/-- `C100_negation_values`: values of 4 bytes, in an arena of the default size (`/repo/sdd/conf/default_configurations.hh:63`). -/
example : ¬ 8 ∣ (intT 2).size ∧ (intT 2).size + 8 ≤ 1024 * 1024 * 16 := by decide

/-- `C100_negation_packed`: elements of 4 bytes: the pairs have 36 bytes. -/
example : (intT 2).OK ∧ ¬ 8 ∣ (intT 2).size ∧ (classT [intT 2, builderT true]).size = 36 := ⟨⟨by decide, by decide⟩, by decide, by decide⟩

end Verif
