import Verif.Hom.Hanoi
import Verif.DD.Dictionary
import Verif.Properties.Hom
import Verif.Properties.DD
import Verif.Properties.Order
import Mathlib.SetTheory.Cardinal.Order
/-!
# Finite values; the examples of the library

Additive homomorphisms over a finite set of values always return (C62); the towers of Hanoi (C63).
-/

set_option autoImplicit false
set_option linter.unusedSectionVars false

namespace Verif

open Relation (ReflTransGen)

section
variable {V E I U : Type} [DecidableEq V] [DecidableEq I] [DecidableEq U] {L : Lib V E I U} {sc : Scope I U}

/-! ## C62: finite values -/

/-- **C62.** When there are finitely many values, an additive homomorphism returns, after any history (no limit on the number of arcs). -/
theorem C62_returns [Finite E] (hL : L.OK sc) (hlim : L.C.limit = none) {o : OB I} (hS : sc.S o) {h : Hom V I U} {t : Ty}
    (ha : Ad L.env L.C sc o h t) {x : SDD V} (hx : Dom L.C o.ty x) :
    ∃ r N, ∀ n, N ≤ n → ∀ s, L.Reach sc s → (L.apply n h o x s).1 = .ok r := by
  obtain ⟨R, hr⟩ := ha
  obtain ⟨r, e⟩ := hr.def hL.lawful hx
  exact ⟨r, hL.total hlim ⟨hS, ⟨t, hr.hty⟩, hx⟩ e⟩

/-- **C62.** Then `h` and `rewrite(o, h)` return the same SDD. -/
theorem C62_rewrite [Finite E] (hL : L.OK sc) (hlim : L.C.limit = none) (hsg : Sing L.C) {lt : Hom V I U → Hom V I U → Bool}
    (hlt : StrictTotal lt) {ord : List (Nat × List (Hom V I U)) → List (Nat × List (Hom V I U))} (hord : Iterates ord) {o : OB I}
    (hS : sc.S o) {h : Hom V I U} (hb : Built L.env lt ord h) {t : Ty} (ha : Ad L.env L.C sc o h t) {x : SDD V} (hx : Dom L.C o.ty x) :
    ∃ r N, ∀ n, N ≤ n → ∀ s, L.Reach sc s →
      (L.apply n h o x s).1 = .ok r ∧ (L.apply n (hrewrite L.env lt ord o h) o x s).1 = .ok r := by
  have h1 := ha.rl hL.lawful hsg
  have h2 := Rl.hrewrite hL.lawful hsg hlt hord o (hb.noEmpty hlt hord) h1
  obtain ⟨r, e⟩ := h1.def hL.lawful hx
  obtain ⟨r', e'⟩ := h2.def hL.lawful hx
  have hrr : r' = r := h2.same hL.lawful h1 hx e' e
  subst hrr
  obtain ⟨N, hN⟩ := hL.total hlim ⟨hS, ⟨t, h1.hty⟩, hx⟩ e
  obtain ⟨N', hN'⟩ := hL.total hlim ⟨hS, ⟨t, h2.hty⟩, hx⟩ e'
  exact ⟨r', max N N', fun n hn s hs => ⟨hN n (le_trans (le_max_left _ _) hn) s hs, hN' n (le_trans (le_max_right _ _) hn) s hs⟩⟩

end

/-! Bitsets: their values are those less than the size. -/

/-- The configuration of a library using bitsets of at most 64 bits, as `bitsetCfg` (`/repo/sdd/values/bitset.hh`,
`/repo/sdd/values/values_traits.hh`), with the values which a bitset may contain. -/
def bitsetFinCfg (n : Nat) (lt : SDD (BitVec n) → SDD (BitVec n) → Bool) (limit : Option Nat) : Cfg (BitVec n) (Fin n) where
  vmem a v := Bitset.Mem a.1 v
  vempty := Bitset.empty
  visEmpty := Bitset.isEmpty
  vsize := Bitset.size
  vsum := Bitset.sum
  vinter := Bitset.inter
  vdiff := Bitset.diff
  velems v := (Bitset.elems v).filterMap fun a => if h : a < n then some ⟨a, h⟩ else none
  vbuild _ := Bitset.empty
  fast := false
  vlt := bitsetLt
  elt a b := decide (a < b)
  lt := lt
  limit := limit

theorem bitsetFin_mem {n : Nat} {v w : BitVec n} (h : ∀ a : Fin n, Bitset.Mem a.1 v ↔ Bitset.Mem a.1 w) : v = w :=
  Bitset.ext fun a => ⟨fun ha => (h ⟨a, Bitset.mem_lt ha⟩).1 ha, fun ha => (h ⟨a, Bitset.mem_lt ha⟩).2 ha⟩

theorem bitsetFinCfg_lawful {n : Nat} {lt : SDD (BitVec n) → SDD (BitVec n) → Bool} {limit : Option Nat} (hlt : StrictTotal lt) :
    (bitsetFinCfg n lt limit).Lawful where
  ext v w h := bitsetFin_mem h
  mem_empty a := Bitset.not_mem_empty a.1
  isEmpty_iff v := by
    show Bitset.isEmpty v = true ↔ ∀ a : Fin n, ¬ Bitset.Mem a.1 v
    rw [Bitset.isEmpty_iff]
    exact ⟨fun h a => h a.1, fun h a ha => h ⟨a, Bitset.mem_lt ha⟩ ha⟩
  mem_sum a := Bitset.mem_sum a.1
  mem_inter a := Bitset.mem_inter a.1
  mem_diff a := Bitset.mem_diff a.1
  mem_elems a v := by
    show a ∈ (Bitset.elems v).filterMap (fun a => if h : a < n then some ⟨a, h⟩ else none) ↔ Bitset.Mem a.1 v
    rw [List.mem_filterMap]
    constructor
    · rintro ⟨b, hb, h⟩
      split at h
      · cases h; exact (Bitset.mem_elems _ _).1 hb
      · cases h
    · intro h
      exact ⟨a.1, (Bitset.mem_elems _ _).2 h, by simp⟩
  nodup_elems v := by
    refine List.Nodup.filterMap ?_ (Bitset.nodup_elems v)
    intro a a' b h h'
    split at h
    · split at h'
      · cases h; simpa using h'.symm
      · cases h'
    · cases h
  size_eq v := by
    show (Bitset.elems v).length = _
    rw [← List.length_map (f := fun a : Fin n => a.1)]
    congr 1
    have : ∀ l : List Nat, (∀ a ∈ l, a < n) → l = (l.filterMap fun a => if h : a < n then some (⟨a, h⟩ : Fin n) else none).map fun a => a.1 := by
      intro l hl
      induction l with
      | nil => rfl
      | cons a l ih =>
        have ha : a < n := hl a (by simp)
        rw [List.filterMap_cons]
        simp only [ha, dif_pos, List.map_cons]
        rw [← ih fun a ha => hl a (by simp [ha])]
    exact this _ fun a ha => Bitset.mem_lt ((Bitset.mem_elems _ _).1 ha)
  mem_build h := by simp [bitsetFinCfg] at h
  vlt_st := bitsetLt_st
  elt_st := Hanoi.lt_st n
  lt_st := hlt

/-- Each value has a bitset. -/
theorem bitsetFinCfg_sing {n : Nat} (hn : 0 < n) {lt : SDD (BitVec n) → SDD (BitVec n) → Bool} {limit : Option Nat} :
    Sing (bitsetFinCfg n lt limit) := by
  refine ⟨⟨⟨0, hn⟩⟩, fun a => ⟨BitVec.twoPow n a.1, fun b => ?_⟩⟩
  show (BitVec.twoPow n a.1).getLsbD b.1 = true ↔ b = a
  rw [BitVec.getLsbD_twoPow]
  simp [Fin.ext_iff, eq_comm]

namespace DemoB

/-- `shl` adds one to the values, and drops the greatest. -/
def env : User (BitVec 8) Nat Unit where
  fn _ v := Bitset.shl v 1
  fnSel _ := false
  fnShift _ := false
  indOne _ := .one
  indF _ _ _ := .id
  indH _ _ _ := .id
  indSkip _ _ := false
  indSel _ := false

/-- A library with small caches. -/
def L : Lib (BitVec 8) (Fin 8) Nat Unit :=
  ⟨env, bitsetFinCfg 8 (serLt fun v : BitVec 8 => [v.toNat]) none, fun k n => [k + n, 1], fun _ => 2, 2⟩

/-- All the uses which do not involve inductives. -/
def sc : Scope Nat Unit := ⟨fun _ => True, fun _ => False⟩

theorem ok : L.OK sc where
  lawful := by
    refine bitsetFinCfg_lawful (serLt_st ?_)
    intro v w a b h
    simp at h
    exact ⟨BitVec.eq_of_toNat_eq h.1, h.2⟩
  cap _ := by simp [L]
  hcap := by simp [L]
  honest := ⟨fun u h => by simp [L, env] at h, fun u h => by simp [L, env] at h, fun u h => by simp [L, env] at h⟩
  closed _ _ _ _ := ⟨trivial, trivial⟩
  transfer := Transfer.of_idFree fun _ h => h.elim

/-- Two flat levels. -/
def o : OB Nat := .node (OB.uid 0) .nil (.node (OB.uid 1) .nil .nil)

end DemoB

/-- The hypotheses of C62 with bitsets: the fixpoint of `id + function(o, 1, shl)`. -/
example (lt : Hom (BitVec 8) Nat Unit → Hom (BitVec 8) Nat Unit → Bool) (hlt : StrictTotal lt) :
    ∃ O h k, Ord.ofBuilder DemoB.o = .ok O ∧ hfunction O 1 () = some h ∧ hsum lt id [.id, h] = .ok k ∧ DemoB.L.OK DemoB.sc ∧ Sing DemoB.L.C ∧
      Built DemoB.L.env lt id (hfix k) ∧ Ad DemoB.L.env DemoB.L.C DemoB.sc DemoB.o (hfix k) DemoB.o.ty := by
  have hsg : Sing DemoB.L.C := bitsetFinCfg_sing (by simp)
  have hcl := C35_additive_closed (sc := DemoB.sc) (env := DemoB.L.env) DemoB.ok.lawful hsg hlt (ord := id) (fun _ => .rfl) DemoB.o
  have hO : ∃ O, Ord.ofBuilder DemoB.o = .ok O ∧ hfunction O 1 () = some (Hom.fn 0 () : Hom (BitVec 8) Nat Unit) := ⟨_, rfl, by decide +kernel⟩
  obtain ⟨O, hO, hf⟩ := hO
  have had : Ad DemoB.L.env DemoB.L.C DemoB.sc DemoB.o (.fn 0 ()) DemoB.o.ty := by
    refine hcl.2.2.1 O 1 () _ hO ?_ hf ⟨fun a b => b.1 = a.1 + 1, fun v _ b => ?_⟩
    · simp [FlatAt, DemoB.o]
    · show Bitset.Mem b.1 (Bitset.shl v 1) ↔ ∃ a : Fin 8, Bitset.Mem a.1 v ∧ b.1 = a.1 + 1
      rw [Bitset.mem_shl]
      constructor
      · rintro ⟨h1, h2, h3⟩; exact ⟨⟨b.1 - 1, by omega⟩, h3, by simp only; omega⟩
      · rintro ⟨a, h1, h2⟩; exact ⟨b.2, by omega, by rw [show b.1 - 1 = a.1 by omega]; exact h1⟩
  have hb : ∀ h ∈ [.id, .fn 0 ()], Built DemoB.L.env lt id h ∧ Ad DemoB.L.env DemoB.L.C DemoB.sc DemoB.o h DemoB.o.ty := by
    simp only [List.mem_cons, List.not_mem_nil, or_false, forall_eq_or_imp, forall_eq]
    exact ⟨⟨.id, _, Rl.id⟩, .fn 0 (), had⟩
  exact ⟨O, _, hnary .sum lt id [.id, .fn 0 ()], hO, hf, rfl, DemoB.ok, hsg, .fix (.sum (fun h hh => (hb h hh).1) rfl),
    hcl.2.2.2.2.2.2.2.2.1 _ _ rfl (by simp) hb⟩

/-! ## C63: the towers of Hanoi -/

section
variable {N : Nat}

namespace Hanoi

theorem userIds (n : Nat) : (builder n).userIds = (List.range n).reverse := by
  induction n with
  | zero => rfl
  | succ n ih =>
    rw [builder_succ, List.range_succ, List.reverse_append, ← ih]
    rfl

theorem order_ok (n : Nat) : ∃ o, Ord.ofBuilder (builder n) = .ok o := by
  cases h : Ord.ofBuilder (builder n) with
  | ok o => exact ⟨o, rfl⟩
  | error e =>
    refine absurd ?_ ((C28_identifiers (builder n)).2.1.1 ⟨e, h⟩)
    rw [userIds]
    exact List.nodup_reverse.2 List.nodup_range

end Hanoi

/-- **C63.** The program `hanoi.cc`: whatever the history of the library and the placement of data in memory (`vlt`, `slt`: values and SDDs,
`hlt`: homomorphisms, thus the order of the operands `hs` in the set; `ord`: iteration of hash tables), the order and the initial state are built,
`rewrite(o, fixpoint(sum(o, events)))(o, m0)` returns, and its paths are exactly the states of the game; with at least three poles the number printed is
the one of all arrangements of the rings. -/
theorem C63_hanoi [NeZero N] {L : Lib (Hanoi.Values N) (Fin N) Nat (Hanoi.Ind N)} (henv : L.env = Hanoi.env N)
    {vlt : Hanoi.Values N → Hanoi.Values N → Bool} {slt : SDD (Hanoi.Values N) → SDD (Hanoi.Values N) → Bool} (hv : StrictTotal vlt)
    (hslt : StrictTotal slt) (hcfg : L.C = flatSetCfg Hanoi.lt (Hanoi.lt_st N) vlt slt none) (hcap : ∀ k, 0 < L.cap k) (hhcap : 0 < L.hcap)
    {hlt : Hom (Hanoi.Values N) Nat (Hanoi.Ind N) → Hom (Hanoi.Values N) Nat (Hanoi.Ind N) → Bool} (hst : StrictTotal hlt)
    {ord : List (Nat × List (Hom (Hanoi.Values N) Nat (Hanoi.Ind N))) → List (Nat × List (Hom (Hanoi.Values N) Nat (Hanoi.Ind N)))}
    (hord : Iterates ord) {rings poles : Nat} (hp : poles ≤ N) {hs : List (Hom (Hanoi.Values N) Nat (Hanoi.Ind N))}
    (hhs : ∀ h, h ∈ hs ↔ h ∈ Hanoi.events rings poles) (m : Type → Type) [DDMonad (Hanoi.Values N) m] :
    ∃ o m0 k r n0, Ord.ofBuilder (Hanoi.builder rings) = .ok o ∧
      sddOfOrder L.C m (fun _ => FSet.ofList (Hanoi.lt_st N) [0]) rings o = some m0 ∧ hsum hlt ord hs = .ok k ∧
      (∀ n, n0 ≤ n → ∀ s, L.Reach (Hanoi.scope N) s →
        (L.apply n (hrewrite L.env hlt ord (Hanoi.builder rings) (hfix k)) (Hanoi.builder rings) m0 s).1 = .ok r) ∧
      (∀ p, Mem L.C p r ↔ ∃ s, Hanoi.Game rings poles s ∧ p = Hanoi.path s rings) ∧
      (3 ≤ poles → sizeOfSDD L.C r = some (poles ^ rings)) := by
  obtain ⟨ev, C, orc, cap, hc⟩ := L
  simp only at henv hcfg hcap hhcap ⊢
  subst henv
  have hC : C.Lawful := hcfg ▸ flatSetCfg_lawful _ hv hslt
  have hm : ∀ a v, C.vmem a v ↔ FSet.Mem a v := by intro a v; rw [hcfg]; rfl
  have hL := Hanoi.ok (L := ⟨Hanoi.env N, C, orc, cap, hc⟩) rfl hC hcap hhcap
  obtain ⟨o, ho⟩ := Hanoi.order_ok rings
  obtain ⟨m0, h1, h2, h3⟩ := C45_sdd_of_order hC m (fun _ => FSet.ofList (Hanoi.lt_st N) [0]) ho
  have hsz : (Hanoi.builder rings).size = rings := by
    rw [OB.size_eq]
    clear ho h1 h2 h3 hhs
    induction rings with
    | zero => rfl
    | succ n ih => rw [Hanoi.builder_succ]; simp [OB.ids, ih]
  have hm0 : ∀ p, Mem C p m0 ↔ p = Hanoi.path (fun _ => 0) rings := by
    intro p
    rw [h3, ← Hanoi.assigns_iff]
    simp only [hm, FSet.mem_ofList, List.mem_singleton]
  have hrl := Hanoi.rl_program hC hm hst hord hp hhs
  obtain ⟨r, e⟩ := hrl.def hC h2
  have hu : Lib.Use ⟨Hanoi.env N, C, orc, cap, hc⟩ (Hanoi.scope N) (hrewrite (Hanoi.env N) hlt ord (Hanoi.builder rings) (hfix (hnary .sum hlt ord hs))) (Hanoi.builder rings) m0 :=
    ⟨⟨rings, rfl⟩, ⟨_, hrl.hty⟩, h2⟩
  obtain ⟨n0, hn0⟩ := hL.total (by simp only [hcfg]; rfl) hu e
  have hne : hs ≠ [] := by
    intro e
    have := (hhs .id).2 ((Hanoi.mem_events hp).2 (Or.inl rfl))
    rw [e] at this
    simp at this
  have hr : ∀ p, Mem C p r ↔ ∃ s, Hanoi.Game rings poles s ∧ p = Hanoi.path s rings := by
    intro p
    rw [hrl.image h2 e]
    simp only [hm0, exists_eq_left]
    exact Hanoi.moves_path
  refine ⟨o, m0, _, r, n0, ho, h1 rings hsz.le, by rw [hsum, if_neg hne], fun n hn s hs => hn0 n hn s hs, hr, fun h3 => ?_⟩
  have hw := (e.dom hrl.hty h2).wf
  obtain ⟨l, h4, h5, h6⟩ := size_counts hC hC.lt_st (x := r) (by exact hw)
  rw [h6, Hanoi.count_states hp h4 fun p => by rw [h5, hr, Hanoi.game_iff h3 hp]]

namespace Hanoi

/-- Serialisation of the values, for the comparisons. -/
def ser (v : Values N) : List Nat := v.data.length :: v.data.map Fin.val

theorem ser_prefix (v w : Values N) (a b : List Nat) (h : ser v ++ a = ser w ++ b) : v = w ∧ a = b := by
  simp only [ser, List.cons_append, List.cons.injEq] at h
  obtain ⟨h1, h2⟩ := List.append_inj h.2 (by simpa using h.1)
  have := List.map_injective_iff.2 Fin.val_injective h1
  cases v; cases w
  simp at this
  exact ⟨by simp [this], h2⟩

/-- A configuration with values in `Fin N`. -/
def cfg (N : Nat) : Cfg (Values N) (Fin N) := flatSetCfg lt (lt_st N) (fun v w => lexLt (ser v) (ser w)) (serLt ser) none

theorem vlt_st : StrictTotal fun v w : Values N => lexLt (ser v) (ser w) := lexLt_st.comap _ fun v w h => (ser_prefix v w [] [] (by rw [h])).1

theorem slt_st : StrictTotal (serLt (ser (N := N))) := serLt_st ser_prefix

/-- A library with small caches. -/
def lib (N : Nat) : Lib (Values N) (Fin N) Nat (Ind N) := ⟨env N, cfg N, fun k n => [k + n, 1], fun _ => 2, 2⟩

theorem lib_ok (N : Nat) : (lib N).OK (scope N) := ok rfl (flatSetCfg_lawful _ vlt_st slt_st) (fun _ => by simp [lib]) (by simp [lib])

end Hanoi

/-- The hypotheses of C63, for the values of `unsigned int`, 5 rings and 3 poles; the order of homomorphisms is any strict total order. -/
example (hlt : Hom (Hanoi.Values (2 ^ 32)) Nat (Hanoi.Ind (2 ^ 32)) → Hom (Hanoi.Values (2 ^ 32)) Nat (Hanoi.Ind (2 ^ 32)) → Bool)
    (hst : StrictTotal hlt) (m : Type → Type) [DDMonad (Hanoi.Values (2 ^ 32)) m] :
    ∃ o m0 k r n0, Ord.ofBuilder (Hanoi.builder 5) = .ok o ∧
      sddOfOrder (Hanoi.lib (2 ^ 32)).C m (fun _ => FSet.ofList (Hanoi.lt_st (2 ^ 32)) [0]) 5 o = some m0 ∧
      hsum hlt id (Hanoi.events 5 3) = .ok k ∧
      (∀ n, n0 ≤ n → ∀ s, (Hanoi.lib (2 ^ 32)).Reach (Hanoi.scope (2 ^ 32)) s →
        ((Hanoi.lib (2 ^ 32)).apply n (hrewrite (Hanoi.lib (2 ^ 32)).env hlt id (Hanoi.builder 5) (hfix k)) (Hanoi.builder 5) m0 s).1 = .ok r) ∧
      sizeOfSDD (Hanoi.lib (2 ^ 32)).C r = some 243 := by
  obtain ⟨o, m0, k, r, n0, h1, h2, h3, h4, _, h6⟩ := C63_hanoi (L := Hanoi.lib (2 ^ 32)) rfl Hanoi.vlt_st Hanoi.slt_st rfl (fun _ => by simp [Hanoi.lib])
    (by simp [Hanoi.lib]) hst (ord := id) (fun _ => .rfl) (rings := 5) (poles := 3) (by omega) (fun _ => Iff.rfl) m
  exact ⟨o, m0, k, r, n0, h1, h2, h3, h4, h6 (le_refl _)⟩

/-- The program meets the hypotheses of C62. -/
example (hlt : Hom (Hanoi.Values 4) Nat (Hanoi.Ind 4) → Hom (Hanoi.Values 4) Nat (Hanoi.Ind 4) → Bool) (hst : StrictTotal hlt) :
    (Hanoi.lib 4).OK (Hanoi.scope 4) ∧ Sing (Hanoi.lib 4).C ∧
      Built (Hanoi.lib 4).env hlt id (hfix (hnary .sum hlt id (Hanoi.events 5 4))) ∧
      Ad (Hanoi.lib 4).env (Hanoi.lib 4).C (Hanoi.scope 4) (Hanoi.builder 5) (hfix (hnary .sum hlt id (Hanoi.events 5 4))) (Hanoi.builder 5).ty := by
  have hC := (Hanoi.lib_ok 4).lawful
  have hm : ∀ a v, (Hanoi.lib 4).C.vmem a v ↔ FSet.Mem a v := fun _ _ => Iff.rfl
  refine ⟨Hanoi.lib_ok 4, Hanoi.sing hm, .fix (.sum (hs := Hanoi.events 5 4) (fun g hg => ?_) rfl), _,
    (Hanoi.rl_fix hC hm hst (fun _ => .rfl) (le_refl _) fun _ => Iff.rfl).2⟩
  rcases (Hanoi.mem_events (le_refl _)).1 hg with rfl | ⟨i, _, s, d, _, _, _, rfl⟩
  · exact .id
  · exact .ind _

/-- There are such orders of homomorphisms. -/
example (N : Nat) : ∃ hlt : Hom (Hanoi.Values N) Nat (Hanoi.Ind N) → Hom (Hanoi.Values N) Nat (Hanoi.Ind N) → Bool, StrictTotal hlt := by
  classical
  refine ⟨fun a b => decide (WellOrderingRel a b), ⟨fun a => ?_, fun a b c => ?_, fun a b => ?_⟩⟩
  · simpa using irrefl_of WellOrderingRel a
  · simpa using fun h1 h2 => trans_of WellOrderingRel h1 h2
  · simpa using trichotomous_of WellOrderingRel a b

end

/-! ## C64: the dictionary -/

section
variable {E : Type} [DecidableEq E] {elt : E → E → Bool} {vlt : Dictionary.Values E elt → Dictionary.Values E elt → Bool}
  {slt : SDD (Dictionary.Values E elt) → SDD (Dictionary.Values E elt) → Bool} {orc : Nat → Nat → List Nat} {cap : OpKind → Nat}

namespace Dictionary

theorem userIds : ∀ l : List Nat, (OB.ofList l).userIds = l := by
  intro l
  induction l with
  | nil => rfl
  | cons i l ih => rw [ofList_cons, Ord.userIds_node, ih]; simp [OB.uid, OB.userIds, OB.ids]

theorem order_ok (n : Nat) : ∃ o, Ord.ofBuilder (builder n) = .ok o := by
  cases h : Ord.ofBuilder (builder n) with
  | ok o => exact ⟨o, rfl⟩
  | error e =>
    refine absurd ?_ ((C28_identifiers (builder n)).2.1.1 ⟨e, h⟩)
    rw [builder, userIds]
    exact List.nodup_range

theorem size_builder (n : Nat) : (builder n).size = n := by
  have : ∀ l : List Nat, (OB.ofList l).ids.length = l.length := by
    intro l
    induction l with
    | nil => rfl
    | cons i l ih => rw [ofList_cons]; simp [OB.ids, ih]
  rw [OB.size_eq, builder, this, List.length_range]

/-- The SDD of a word. -/
theorem word_spec {C : Cfg (Values E elt) E} (hC : C.Lawful) (hm : ∀ a v, C.vmem a v ↔ FSet.Mem a v) (helt : StrictTotal elt) (c : E)
    {n : Nat} {o : Ord Nat} (ho : Ord.ofBuilder (builder n) = .ok o) {w : List E} (hw : w.length ≤ n) (m : Type → Type)
    [DDMonad (Values E elt) m] : ∃ x, sddOfOrder C m (letter helt c w) n o = some x ∧ Dom C (builder n).ty x ∧
      ∀ p, Mem C p x ↔ p = path (padded c n w) := by
  obtain ⟨x, h1, h2, h3⟩ := C45_sdd_of_order hC m (letter helt c w) ho
  refine ⟨x, h1 n (size_builder n).le, h2, fun p => ?_⟩
  rw [h3, ← padded_eq c hw, ← assigns_iff]
  have : (fun i a => C.vmem a (letter helt c w i)) = fun i (a : E) => a = if h : i < w.length then w[i] else c := by
    funext i a
    rw [eq_iff_iff, hm, letter]
    split <;> simp [FSet.mem_ofList]
  rw [this]
  rfl

theorem Run.reach {C : Cfg (Values E elt) E} {helt : StrictTotal elt} {c : E} {n : Nat} {o : Ord Nat} {lines : List (List E)}
    {s : Sess (Values E elt)} {d : SDD (Values E elt)} (h : Run C orc cap helt c n o lines s d) : Sess.Reach C orc cap s ∧ d ∈ s.handles := by
  induction h with
  | start s hs hz => exact ⟨hs, hz⟩
  | line lines s dict word r line m _ hw hr ih =>
    have h1 := Sess.Reach.sddOfOrder _ _ _ _ _ ih.1 hw
    have h2 := Sess.Reach.step _ _ h1 (.call _ (.sum [dict, word]) (by
      simp only [Call.args, List.mem_cons, List.not_mem_nil, or_false, forall_eq_or_imp, forall_eq]
      exact ⟨Or.inr ih.2, Or.inl trivial⟩))
    simp only [Call.run, hr, addHandle] at h2
    refine ⟨.step _ _ h2 (.drop _ (r :: s.handles) ?_), List.mem_cons_self⟩
    intro z hz
    rcases List.mem_cons.1 hz with rfl | hz
    · exact List.mem_cons_self
    · exact List.mem_cons_of_mem _ (List.mem_cons_of_mem _ hz)
  | other lines s s' dict _ hs hd ih => exact ⟨.step _ _ ih.1 hs, hd⟩

theorem Run.mem {C : Cfg (Values E elt) E} (hC : C.Lawful) (hm : ∀ a v, C.vmem a v ↔ FSet.Mem a v) (hcap : ∀ k, 0 < cap k)
    {helt : StrictTotal elt} {c : E} {n : Nat} {o : Ord Nat} (ho : Ord.ofBuilder (builder n) = .ok o) {lines : List (List E)}
    (hn : ∀ w ∈ lines, w.length ≤ n) {s : Sess (Values E elt)} {d : SDD (Values E elt)} (h : Run C orc cap helt c n o lines s d) :
    ∀ p, Mem C p d ↔ ∃ w ∈ lines, p = path (padded c n w) := by
  induction h with
  | start s hs hz => intro p; simpa using not_mem_zero p
  | line lines s dict word r line m hrun hw hr ih =>
    obtain ⟨h1, h2⟩ := hrun.reach
    have h3 := Sess.Reach.sddOfOrder _ _ _ _ _ h1 hw
    have hL := hC.withLt (h1.inv hC hcap).st
    obtain ⟨x, h4, _, h5⟩ := word_spec hL hm helt c ho (hn line (by simp)) (CM orc (Values E elt))
    rw [hw] at h4
    cases h4
    have h6 := C02_sum_is_union hC hcap h3 (xs := [dict, word]) (by
      simp only [List.mem_cons, List.not_mem_nil, or_false, forall_eq_or_imp, forall_eq]
      exact ⟨Or.inr h2, Or.inl trivial⟩)
    simp only [hr, Outcome] at h6
    intro p
    have h5 := h5 p
    rw [mem_withLt] at h5
    rw [h6]
    simp only [List.mem_cons, List.not_mem_nil, or_false, exists_eq_or_imp, exists_eq_left, h5, ih fun w hw => hn w (by simp [hw])]
    exact or_comm
  | other lines s s' dict _ hs hd ih => exact ih hn

end Dictionary

/-- **C64.** The program `dictionary.cc`, whatever the other uses of the library between two lines: the order is built, each line is added without exception,
the paths of `dict` are exactly the words read, completed with `'#'` (`c`) to the length of the longest one, and the number printed is the number of different
completed words. It is the number of different words when none contains `'#'`. -/
theorem C64_dictionary (helt : StrictTotal elt) (hv : StrictTotal vlt) (hslt : StrictTotal slt) (hcap : ∀ k, 0 < cap k) (c : E)
    (file : List (List E)) : ∃ o, Ord.ofBuilder (Dictionary.builder (Dictionary.maxSize file)) = .ok o ∧
    ∀ lines, (∀ w ∈ lines, w ∈ file) → ∀ s dict,
      Dictionary.Run (flatSetCfg elt helt vlt slt none) orc cap helt c (Dictionary.maxSize file) o lines s dict →
      (∀ line ∈ file, ∃ word r m,
        sddOfOrder ((flatSetCfg elt helt vlt slt none).withLt s.lt) (CM orc _) (Dictionary.letter helt c line) (Dictionary.maxSize file) o = some word ∧
        sumC ((flatSetCfg elt helt vlt slt none).withLt s.lt) orc cap [dict, word] s.mach = (.ok r, m)) ∧
      (∀ p, Mem (flatSetCfg elt helt vlt slt none) p dict ↔ ∃ w ∈ lines, p = Dictionary.path (Dictionary.padded c (Dictionary.maxSize file) w)) ∧
      sizeOfSDD (flatSetCfg elt helt vlt slt none) dict = some (lines.map (Dictionary.padded c (Dictionary.maxSize file))).dedup.length ∧
      ((∀ w ∈ file, c ∉ w) → sizeOfSDD (flatSetCfg elt helt vlt slt none) dict = some lines.dedup.length) := by
  obtain ⟨o, ho⟩ := Dictionary.order_ok (Dictionary.maxSize file)
  refine ⟨o, ho, fun lines hl s dict hrun => ?_⟩
  generalize hN : Dictionary.maxSize file = n at *
  have hC : (flatSetCfg elt helt vlt slt none).Lawful := flatSetCfg_lawful helt hv hslt
  have hm : ∀ a v, (flatSetCfg elt helt vlt slt none).vmem a v ↔ FSet.Mem a v := fun _ _ => Iff.rfl
  have hn : ∀ w ∈ file, w.length ≤ n := hN ▸ Dictionary.maxSize_spec file
  obtain ⟨h1, h2⟩ := hrun.reach
  have hi := h1.inv hC hcap
  have hmem := hrun.mem hC hm hcap ho fun w hw => hn w (hl w hw)
  obtain ⟨l, hl1, hl2, hl3⟩ := C10_size_counts_paths hC hcap h1 h2
  have hsz : sizeOfSDD (flatSetCfg elt helt vlt slt none) dict = some (lines.map (Dictionary.padded c n)).dedup.length := by
    rw [hl3, ← List.length_map (as := (lines.map (Dictionary.padded c n)).dedup) Dictionary.path]
    refine congrArg some (List.Perm.length_eq ((List.perm_ext_iff_of_nodup hl1 ?_).2 fun p => ?_))
    · exact List.Nodup.map (fun _ _ => Dictionary.path_inj) (List.nodup_dedup _)
    · rw [hl2, hmem]
      simp [eq_comm]
  refine ⟨fun line hline => ?_, hmem, hsz, fun hc => ?_⟩
  · have hL := hC.withLt hi.st
    obtain ⟨x, h4, h5, h5'⟩ := Dictionary.word_spec hL hm helt c ho (hn line hline) (CM orc _)
    have h3 := Sess.Reach.sddOfOrder _ _ _ _ _ h1 h4
    have hf : ∀ y ∈ [dict, x], y ∈ x :: s.handles ∧ Follows (flatSetCfg elt helt vlt slt none) (Dictionary.builder n).ty y := by
      simp only [List.mem_cons, List.not_mem_nil, or_false, forall_eq_or_imp, forall_eq]
      refine ⟨⟨Or.inr h2, OB.ty_shape _, fun p hp => ?_⟩, Or.inl trivial, OB.ty_shape _, fun p hp => h5.pty p ((mem_withLt p _).2 hp)⟩
      obtain ⟨w, hw, rfl⟩ := (hmem p).1 hp
      obtain ⟨x', _, h7, h8⟩ := Dictionary.word_spec hC hm helt c ho (hn w (hl w hw)) (CM orc _)
      exact h7.pty _ ((h8 _).2 rfl)
    have h6 := ((C07_same_order_no_top hC hcap h3).1 [dict, x] hf (OB.ty_shape _)).1
    match hr : sumC ((flatSetCfg elt helt vlt slt none).withLt s.lt) orc cap [dict, x] s.mach, h6 with
    | (.ok r, m), _ => exact ⟨x, r, m, h4, hr⟩
    | (.error .overflow, m), h6 => simp only [OutcomeNoTop] at h6; exact absurd rfl h6
    | (.error (.top _ _), m), h6 => simp only [OutcomeNoTop] at h6
    | (.error .invalid, m), h6 => simp only [OutcomeNoTop] at h6
    | (.error .ub, m), h6 => simp only [OutcomeNoTop] at h6
    | (.error .fuel, m), h6 => simp only [OutcomeNoTop] at h6
  · rw [hsz]
    refine congrArg some ?_
    rw [← List.length_map (as := lines.dedup) (Dictionary.padded c n)]
    refine List.Perm.length_eq ((List.perm_ext_iff_of_nodup (List.nodup_dedup _) ?_).2 fun p => by simp)
    refine List.Nodup.map_on (fun w hw w' hw' h => ?_) (List.nodup_dedup _)
    exact Dictionary.padded_inj (hc w (hl w (List.mem_dedup.1 hw))) (hc w' (hl w' (List.mem_dedup.1 hw'))) h

/-- There are executions, for every file. -/
example (helt : StrictTotal elt) (hv : StrictTotal vlt) (hslt : StrictTotal slt) (hcap : ∀ k, 0 < cap k) (c : E) (file : List (List E)) :
    ∃ o, Ord.ofBuilder (Dictionary.builder (Dictionary.maxSize file)) = .ok o ∧
      ∃ s dict, Dictionary.Run (flatSetCfg elt helt vlt slt none) orc cap helt c (Dictionary.maxSize file) o file.reverse s dict := by
  obtain ⟨o, ho, h⟩ := C64_dictionary (vlt := vlt) (slt := slt) (orc := orc) helt hv hslt hcap c file
  refine ⟨o, ho, ?_⟩
  have key : ∀ lines : List (List E), (∀ w ∈ lines, w ∈ file) →
      ∃ s dict, Dictionary.Run (flatSetCfg elt helt vlt slt none) orc cap helt c (Dictionary.maxSize file) o lines s dict := by
    intro lines
    induction lines with
    | nil =>
      intro _
      have h0 : Sess.Reach (flatSetCfg elt helt vlt slt none) orc cap _ := .init _ hslt
      exact ⟨_, _, .start _ (.step _ _ h0 (.call _ .zero (by simp [Call.args]))) (by simp [Call.run, addHandle, pure])⟩
    | cons w lines ih =>
      intro hw
      obtain ⟨s, d, hr⟩ := ih fun w h => hw w (by simp [h])
      obtain ⟨word, r, m, h1, h2⟩ := (h lines (fun w h => hw w (by simp [h])) s d hr).1 w (hw w (by simp))
      exact ⟨_, _, .line lines s d word r w m hr h1 h2⟩
  exact key _ fun w hw => by simpa using hw

/-- The number of completed words may be less than the one of words. -/
example : ([[1, 2], [1], [1, 2], [1, 0]].map (Dictionary.padded 0 (Dictionary.maxSize [[1, 2], [1], [1, 2], [1, 0]]))).dedup.length = 2 := by
  decide +kernel

end
end Verif
