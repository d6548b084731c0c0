import Verif.Mem.HomHeap
import Verif.Hom.Stored
import Verif.Properties.Hom
/-!
# Properties of homomorphisms in memory
-/

set_option autoImplicit false
set_option linter.unusedSectionVars false

namespace Verif

section
open Heap
variable {V I U : Type} [DecidableEq V] [DecidableEq I] [DecidableEq U]
  {hash : Key (HLabel V I U) → Nat} {bytes : Key (HLabel V I U) → Nat}

/-- **C74.** After any program on handles, for any hash function, two handles of homomorphisms are equal (`operator==` compares
addresses, `/repo/sdd/hom/definition.hh:207-216`) exactly when they have been built in the same way: same constructor, equal
operands, equal SDDs and values, equal user's objects, equal orders (copies of the same order, which share their storage
`stor o`; see C50 for others). Besides, a handle holds a single homomorphism. -/
theorem C74_equality {size : BitVec 64} (h1 : 1 ≤ size.toNat) (h2 : size.toNat ≤ 2 ^ 63) {n : Nat}
    {s : State (HLabel V I U)} (hr : Heap.Reach hash bytes size n s) (stor : OB I → Nat) {v w : Nat} {h k : Hom V I U}
    (hv : Holds s v (h.tree stor)) (hw : Holds s w (k.tree stor)) :
    (s.vars[v]? = s.vars[w]? ↔ h = k) ∧ (∀ h', Holds s v (h'.tree stor) → h' = h) := by
  have i := reach_inv h1 h2 hr
  obtain ⟨a, ea, da⟩ := hv
  obtain ⟨b, eb, db⟩ := hw
  refine ⟨?_, ?_⟩
  · rw [ea, eb]
    constructor
    · intro e
      simp only [Option.some.injEq, Slot.live.injEq] at e
      subst e
      exact Hom.tree_inj stor h k (denotes_fun _ _ da db)
    · rintro rfl
      rw [denotes_inj i _ da db]
  · rintro h' ⟨a', ea', da'⟩
    rw [ea] at ea'
    simp only [Option.some.injEq, Slot.live.injEq] at ea'
    subst ea'
    exact Hom.tree_inj stor h' h (denotes_fun _ _ da' da)

/-- **C74**, operands. As long as a handle holds a homomorphism, its operands, its SDDs and its values are in memory, also when
the program has no other handle on them; a statement which does not involve this handle leaves it the same homomorphism. -/
theorem C74_operands {size : BitVec 64} (h1 : 1 ≤ size.toNat) (h2 : size.toNat ≤ 2 ^ 63) {n : Nat}
    {s s' : State (HLabel V I U)} (hr : Heap.Reach hash bytes size n s) (stor : OB I → Nat) {v : Nat} {h : Hom V I U}
    (hv : Holds s v (h.tree stor)) {op : Heap.Op (HLabel V I U)} (hval : Heap.Valid s op) (he : exec hash bytes s op = some s')
    (hk : s'.vars[v]? = s.vars[v]?) : Holds s' v (h.tree stor) := by
  have i := reach_inv h1 h2 hr
  obtain ⟨a, ea, da⟩ := hv
  obtain ⟨s'', e'', i', hkeep⟩ := exec_inv (bytes := bytes) i hval
  rw [he] at e''
  cases e''
  rw [ea] at hk
  obtain ⟨c, hc⟩ := i'.cell_of_var hk
  exact ⟨a, hk, denotes_keeps i' hkeep _ da (by rw [hc]; rfl)⟩

end

section
variable {V E I U : Type} [DecidableEq V] [DecidableEq I] [DecidableEq U] {env : User V I U} {C : Cfg V E}

/-- The operands of a sum without nested sums and locals. -/
theorem hsum_simple {lt : Hom V I U → Hom V I U → Bool} (hlt : StrictTotal lt)
    {ord : List (Nat × List (Hom V I U)) → List (Nat × List (Hom V I U))} (hord : Iterates ord) {hs : List (Hom V I U)}
    (hnd : hs.Nodup) (h2 : 2 ≤ hs.length) (hf : ∀ h ∈ hs, hflat .sum h = [h] ∧ h.isLoc = false) :
    ∃ ks, hsum lt ord hs = .ok (.sum ks) ∧ ks.Perm hs := by
  have hm : ∀ g, g ∈ hflatAll .sum hs ↔ g ∈ hs := by
    intro g
    rw [mem_hflatAll]
    constructor
    · rintro ⟨h, hh, hg⟩
      rw [(hf h hh).1, List.mem_singleton] at hg
      exact hg ▸ hh
    · intro hg
      exact ⟨g, hg, by rw [(hf g hg).1]; simp⟩
  obtain ⟨h1, h3⟩ := hops_spec (k := .sum) hlt hord (hnaryN .sum lt ord (heightAll hs)) hs
  have hp : (hops .sum lt ord (hnaryN .sum lt ord (heightAll hs)) hs).Perm hs := by
    rw [List.perm_ext_iff_of_nodup (h1.imp fun {a b} h e => by rw [e, hlt.irrefl] at h; cases h) hnd]
    intro g
    rw [h3, hm]
    constructor
    · rintro (h | ⟨l, hl, _⟩)
      · exact h.1
      · exfalso
        have hg := hvisitAll_good (k := .sum) hlt hs
        obtain ⟨hne, hgs⟩ := hg.group l hl
        obtain ⟨g0, hg0⟩ := List.exists_mem_of_ne_nil _ hne
        have := (hf _ ((hm _).1 ((hgs g0).1 hg0))).2
        simp [Hom.isLoc] at this
    · exact fun h => .inl ⟨h, (hf g h).2⟩
  refine ⟨_, ?_, hp⟩
  rw [hsum, if_neg (by rintro rfl; simp at h2), hnary, hnaryN_succ]
  have hl := hp.length_eq
  generalize hops .sum lt ord (hnaryN .sum lt ord (heightAll hs)) hs = ks at hl
  match ks with
  | [] => rw [List.length_nil] at hl; omega
  | [_] => rw [List.length_singleton] at hl; omega
  | _ :: _ :: _ => rfl

/-- **C75 does not hold**, whatever the width of `operands_size_type` (`bits`): the sum of `2 ^ bits` different homomorphisms
(other than sums and locals) is stored without any operand, and its application to `|1|` returns `|0|`, while the union of the
results of its operands may be anything (see the example). -/
theorem C75_negation {lt : Hom V I U → Hom V I U → Bool} (hlt : StrictTotal lt)
    {ord : List (Nat × List (Hom V I U)) → List (Nat × List (Hom V I U))} (hord : Iterates ord) {bits : Nat} (hb : 0 < bits)
    {hs : List (Hom V I U)} (hnd : hs.Nodup) (hl : hs.length = 2 ^ bits)
    (hf : ∀ h ∈ hs, hflat .sum h = [h] ∧ h.isLoc = false) (o : OB I) :
    ∃ k, hsum lt ord hs = .ok k ∧ k.stored bits = .sum [] ∧ Ev env C (k.stored bits) o .one .zero ∧
      ∀ f : Hom V I U → SDD V, (∀ h ∈ hs, Ev env C h o .one (f h)) → ∀ r, Is C r (fun p => ∃ h ∈ hs, Mem C p (f h)) →
        Ev env C k o .one r := by
  have h2 : 2 ≤ hs.length := by
    rw [hl]
    calc 2 = 2 ^ 1 := rfl
      _ ≤ 2 ^ bits := Nat.pow_le_pow_right (by omega) hb
  obtain ⟨ks, e, hp⟩ := hsum_simple hlt hord hnd h2 hf
  have hs0 : (Hom.sum ks).stored bits = .sum [] := by
    rw [Hom.stored, Hom.storedL_eq, Hom.keep, List.length_map, hp.length_eq, hl, Nat.mod_self, List.take_zero]
  have hone : ∀ h : Hom V I U, Here env h o .one := by
    intro h; cases o <;> trivial
  refine ⟨_, e, hs0, ?_, fun f hf r hr => ?_⟩
  · rw [hs0]
    exact .sum (fun _ => .zero) (hone _) (by simp) ⟨⟨0, .zero _⟩, fun p => by cases p <;> simp [Mem]⟩
  · refine .sum f (hone _) (fun h hh => hf h (hp.mem_iff.1 hh)) ⟨hr.1, fun p => ?_⟩
    rw [hr.2]
    simp only [hp.mem_iff]

/-- The constants `{0}`, ..., `{255}`: with 8 bits, their sum applied to `|1|` returns `|0|` instead of 256 paths. -/
example {lt : Hom NSet Nat Unit → Hom NSet Nat Unit → Bool} (hlt : StrictTotal lt) (env : User NSet Nat Unit) :
    ∃ k, hsum lt id ((List.range 256).map fun i => .const (.flat 0 [(ns [i], .one)])) = .ok k ∧
      Ev env (natCfg none) (k.stored 8) .nil .one .zero ∧
      ∀ i < 256, Ev env (natCfg none) (.const (.flat 0 [(ns [i], .one)])) .nil .one (.flat 0 [(ns [i], .one)]) := by
  have hinj : ∀ i j : Nat, (Hom.const (.flat 0 [(ns [i], .one)]) : Hom NSet Nat Unit) = .const (.flat 0 [(ns [j], .one)]) →
      i = j := by
    intro i j h
    simp only [Hom.const.injEq, SDD.flat.injEq, List.cons.injEq, Prod.mk.injEq, and_true, true_and] at h
    have := (FSet.mem_ofList natLt_st' i [i]).2 (by simp)
    rw [show FSet.ofList natLt_st' [i] = FSet.ofList natLt_st' [j] from h, FSet.mem_ofList] at this
    simpa using this
  obtain ⟨k, h1, _, h2, _⟩ := C75_negation (env := env) (C := natCfg none) hlt (ord := id) (fun _ => List.Perm.refl _) (bits := 8)
    (by decide) (hs := (List.range 256).map fun i => .const (.flat 0 [(ns [i], .one)]))
    (List.Nodup.map (fun i j h => hinj i j h) List.nodup_range) (by simp)
    (by simp only [List.mem_map]; rintro _ ⟨i, _, rfl⟩; exact ⟨rfl, rfl⟩) .nil
  exact ⟨k, h1, h2, fun i _ => .const trivial⟩

/-- **C75**, partial: a homomorphism is applied with all its operands exactly when none of its arrays of operands has `2 ^ bits`
elements or more. What is missing: longer arrays, for which the claim is false (`C75_negation`). -/
theorem C75_operands_kept_partial (bits : Nat) (h : Hom V I U) : (h.Fits bits ↔ h.stored bits = h) ∧
    (h.Fits bits → ∀ o x r, Ev env C (h.stored bits) o x r ↔ Ev env C h o x r) :=
  ⟨(Hom.stored_iff h).symm, fun hf o x r => by rw [(Hom.stored_iff h).2 hf]⟩

end

/-! ## A concrete case -/

namespace DemoM
open Heap

/-- Homomorphisms over integers. -/
abbrev H := Hom Nat Nat Nat
/-- The labels of their data. -/
abbrev Lb := HLabel Nat Nat Nat
/-- A hash function with collisions. -/
def hash (k : Key Lb) : Nat := k.2.length
/-- The sizes of data. -/
def bytes (k : Key Lb) : Nat := 16 + 8 * k.2.length

/-- The fixpoint of the composition of the function 5 on the variable 0 and of a constant, built twice; then the handles of the
operands are destroyed. -/
def ops : List (Heap.Op Lb) :=
  [.create 0 (.sdd .one) [] 100, .create 1 .const [0] 200, .create 2 (.fn 0 5) [] 300, .create 3 .comp [2, 1] 400,
   .create 4 .fix [3] 500, .create 5 .const [0] 600, .create 6 .comp [2, 5] 700, .create 7 .fix [6] 800,
   .destroy 0, .destroy 1, .destroy 2, .destroy 3, .destroy 5, .destroy 6]

/-- Is a statement valid? -/
def validB (s : State Lb) : Heap.Op Lb → Bool
  | .create v _ ks fr => s.vars[v]? == some .dead &&
      ks.all (fun k => match s.vars[k]? with | some (.live _) => true | _ => false) && !(s.blocks.map Prod.fst).contains fr
  | .destroy v => match s.vars[v]? with | some .dead => false | some _ => true | none => false
  | _ => false

theorem valid_of {s : State Lb} {op : Heap.Op Lb} (h : validB s op = true) : Heap.Valid s op := by
  cases op with
  | create v l ks fr =>
    simp only [validB, Bool.and_eq_true, beq_iff_eq, List.all_eq_true, Bool.not_eq_true', List.contains_eq_mem,
      decide_eq_false_iff_not] at h
    refine ⟨h.1.1, fun k hk => ?_, h.2⟩
    have := h.1.2 k hk
    split at this
    · rename_i a e; exact ⟨a, e⟩
    · cases this
  | destroy v =>
    simp only [validB] at h
    split at h
    · cases h
    · rename_i x hx e
      exact ⟨x, e, fun h' => hx (by rw [h'])⟩
    · cases h
  | _ => cases h

/-- The run of a list of statements. -/
def go : List (Heap.Op Lb) → State Lb → Option (State Lb)
  | [], s => some s
  | op :: ops, s => if validB s op then (exec hash bytes s op).bind (go ops) else none

theorem go_reach {size : BitVec 64} {n : Nat} : ∀ (ops : List (Heap.Op Lb)) {s s' : State Lb},
    Heap.Reach hash bytes size n s → go ops s = some s' → Heap.Reach hash bytes size n s'
  | [], s, s', hr, h => by
    simp only [go, Option.some.injEq] at h
    exact h ▸ hr
  | op :: ops, s, s', hr, h => by
    simp only [go] at h
    split at h
    · rename_i hv
      cases e : exec hash bytes s op with
      | none => rw [e] at h; cases h
      | some s1 =>
        rw [e] at h
        exact go_reach ops (.step hr (valid_of hv) e) h
    · cases h

/-- The homomorphism built by the program. -/
def h : H := .fix (.comp (.fn 0 5) (.const .one))

/-- The hypotheses of C74 are met: at the end, the handles 4 and 7 hold the homomorphism, and are equal; its operands are in
memory without handles. -/
example : ∃ s, Heap.Reach hash bytes 1#64 8 s ∧ Holds s 4 (h.tree fun _ => 0) ∧ Holds s 7 (h.tree fun _ => 0) ∧
    s.vars[3]? = some .dead ∧ s.table.size = 5 := by
  have hk : ∀ a k, (a, k) ∈ [(500, (HLabel.fix, [400])), (400, (.comp, [300, 200])), (300, (.fn 0 5, [])),
      (200, (.const, [100])), (100, (.sdd .one, []))] →
      ((go ops (init 1#64 8)).bind fun s => (s.cells a).map fun c => c.key) = some k := by
    have : ∀ e ∈ [(500, (HLabel.fix, [400])), (400, (.comp, [300, 200])), (300, (.fn 0 5, [])),
      (200, (.const, [100])), (100, (.sdd .one, []))],
      ((go ops (init 1#64 8)).bind fun s => (s.cells e.1).map fun c => c.key) = some e.2 := by
      decide +kernel
    exact fun a k hm => this (a, k) hm
  have hv : ((go ops (init 1#64 8)).map fun s => (s.vars[4]?, s.vars[7]?, s.vars[3]?, s.table.size)) =
      some (some (.live 500), some (.live 500), some .dead, 5) := by decide +kernel
  cases e : go ops (init 1#64 8) with
  | none => rw [e] at hv; cases hv
  | some s =>
    rw [e] at hk hv
    simp only [Option.bind_some, Option.map_some, Option.map_eq_some_iff, Option.some.injEq, Prod.mk.injEq] at hk hv
    obtain ⟨v4, v7, v3, hsz⟩ := hv
    obtain ⟨⟨_, b1⟩, h1, rfl⟩ := hk 500 (.fix, [400]) (by simp)
    obtain ⟨⟨_, b2⟩, h2, rfl⟩ := hk 400 (.comp, [300, 200]) (by simp)
    obtain ⟨⟨_, b3⟩, h3, rfl⟩ := hk 300 (.fn 0 5, []) (by simp)
    obtain ⟨⟨_, b4⟩, h4, rfl⟩ := hk 200 (.const, [100]) (by simp)
    obtain ⟨⟨_, b5⟩, h5, rfl⟩ := hk 100 (.sdd .one, []) (by simp)
    have hd : Denotes s (h.tree fun _ => 0) 500 :=
      ⟨_, _, h1, ⟨_, _, h2, ⟨_, _, h3, trivial⟩, ⟨_, _, h4, ⟨_, _, h5, trivial⟩, trivial⟩, trivial⟩, trivial⟩
    exact ⟨s, go_reach ops .init e, ⟨500, v4, hd⟩, ⟨500, v7, hd⟩, v3, hsz⟩

end DemoM
end Verif
