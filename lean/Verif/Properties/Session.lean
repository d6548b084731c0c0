import Verif.Hom.Session
import Verif.Properties.Hom
/-!
# Properties of sessions mixing operations on SDDs and applications of homomorphisms

`LSess.Reach sc s`: the session `s` (addresses, contents of the caches, SDDs held by the user) is obtained from a new manager by any sequence
of creations of SDDs, operations, applications of homomorphisms (each of which may raise, also from the code of the user), destructions of
handles, resets of caches, and changes of the addresses of freed nodes.
-/

set_option autoImplicit false
set_option linter.unusedSectionVars false

namespace Verif

section
variable {V E I U : Type} [DecidableEq V] [DecidableEq I] [DecidableEq U] {sc : Scope I U}

/-- **C92.** Two SDDs held by the user, whether they come from operations, from homomorphisms or from exceptions, are equal if and only if
they contain the same paths. -/
theorem C92_equality {s : LSess V E I U} (hs : LSess.Reach sc s) {x y : SDD V} (hx : x ∈ s.handles) (hy : y ∈ s.handles) :
    x = y ↔ ∀ p, Mem s.lib.C p x ↔ Mem s.lib.C p y :=
  ⟨fun h => h ▸ fun _ => Iff.rfl, canonical_ext hs.inv.ok.lawful (hs.inv.wf x hx) (hs.inv.wf y hy)⟩

/-- **C92.** The operations on the SDDs held by the user are the operations on sets, in the presence of homomorphisms. -/
theorem C92_operations {s : LSess V E I U} (hs : LSess.Reach sc s) :
    (∀ xs : List (SDD V), (∀ x ∈ xs, x ∈ s.handles) → Outcome s.lib.C (sumC s.lib.C s.lib.orc s.lib.cap xs s.mach.dd).1 fun r =>
      ∀ p, Mem s.lib.C p r ↔ ∃ x ∈ xs, Mem s.lib.C p x) ∧
    (∀ xs : List (SDD V), (∀ x ∈ xs, x ∈ s.handles) → Outcome s.lib.C (interC s.lib.C s.lib.orc s.lib.cap xs s.mach.dd).1 fun r =>
      ∀ p, Mem s.lib.C p r ↔ xs ≠ [] ∧ ∀ x ∈ xs, Mem s.lib.C p x) ∧
    (∀ x ∈ s.handles, ∀ y ∈ s.handles, Outcome s.lib.C (diffC s.lib.C s.lib.orc s.lib.cap x y s.mach.dd).1 fun r =>
      ∀ p, Mem s.lib.C p r ↔ Mem s.lib.C p x ∧ ¬ Mem s.lib.C p y) := by
  have hi := hs.inv
  have key : ∀ c : Call V, (∀ x ∈ c.args, x ∈ s.handles) →
      Outcome s.lib.C (c.run s.lib.C s.lib.orc s.lib.cap s.mach.dd).1 fun r => ∀ p, Mem s.lib.C p r ↔ c.Spec s.lib.C p :=
    fun c hc => (hi.dd.1.outcome (orc := s.lib.orc) hi.ok.lawful hi.ok.cap (c := c) fun x hx => hi.wf x (hc x hx)).mono
      fun _ h => h.2
  refine ⟨fun xs hx => key (.sum xs) hx, fun xs hx => key (.inter xs) hx, fun x hx y hy => key (.diff x y) ?_⟩
  simpa [Call.args] using ⟨hx, hy⟩

/-- **C92.** A sum, an intersection of two operands or a difference of SDDs held by the user raises `Top` if and only if two paths of the
operands are incompatible; the paths of one SDD never are. (No limit on the number of arcs.) -/
theorem C92_top {s : LSess V E I U} (hs : LSess.Reach sc s) (hlim : s.lib.C.limit = none) (c : Call V)
    (hc : (∃ xs, c = .sum xs) ∨ (∃ x y, c = .inter [x, y]) ∨ ∃ x y, c = .diff x y) (ha : ∀ x ∈ c.args, x ∈ s.handles) :
    ((∃ l r, (c.run s.lib.C s.lib.orc s.lib.cap s.mach.dd).1 = .error (.top l r)) ↔
      ∃ x ∈ c.args, ∃ y ∈ c.args, ∃ p q, Mem s.lib.C p x ∧ Mem s.lib.C q y ∧ ¬ Compat p q) ∧
    ∀ x ∈ s.handles, ∀ p q, Mem s.lib.C p x → Mem s.lib.C q x → Compat p q := by
  have hi := hs.inv
  exact ⟨hi.dd.1.top_iff hi.ok.lawful hlim hi.ok.cap hi.dd.2 c hc ha, hi.self⟩

/-- **C92.** An intersection of any number of SDDs held by the user raises `Top` when a path of one of them is incompatible with a path common to all
the others, and only when two paths of its operands are incompatible. -/
theorem C92_top_intersection {s : LSess V E I U} (hs : LSess.Reach sc s) (hlim : s.lib.C.limit = none) {xs : List (SDD V)}
    (ha : ∀ x ∈ xs, x ∈ s.handles) :
    ((∃ z ∈ xs, (∃ x ∈ xs, x ≠ z) ∧ ∃ p q, (∀ x ∈ xs, x ≠ z → Mem s.lib.C p x) ∧ Mem s.lib.C q z ∧ ¬ Compat p q) →
      ∃ l r, (interC s.lib.C s.lib.orc s.lib.cap xs s.mach.dd).1 = .error (.top l r)) ∧
    ((∃ l r, (interC s.lib.C s.lib.orc s.lib.cap xs s.mach.dd).1 = .error (.top l r)) →
      ∃ x ∈ xs, ∃ y ∈ xs, ∃ p q, Mem s.lib.C p x ∧ Mem s.lib.C q y ∧ ¬ Compat p q) := by
  have hi := hs.inv
  constructor
  · rintro ⟨z, hz, ⟨x, hx, hxz⟩, p, q, hp, hq, hpq⟩
    refine (hi.dd.1.inter_top hi.ok.lawful hlim hi.ok.cap hi.dd.2 ha).resolve_right fun h => ?_
    exact hpq (h.common hz (hi.self z (ha z hz)) ⟨x, hx, hp x hx hxz⟩ hp hq).1
  · rintro ⟨l, r, e⟩
    by_contra hne
    push Not at hne
    exact hi.dd.1.no_top hi.ok.lawful hi.ok.cap (c := .inter xs) ha (fun x hx y hy p q hp hq => hne x hx y hy p q hp hq) l r e

/-- **C92.** An application of a homomorphism to an SDD held by the user does not raise `Top`, and returns what it returns in a new manager
with any sizes of caches and any iteration of hash tables. -/
theorem C92_application {s : LSess V E I U} (hs : LSess.Reach sc s) {h : Hom V I U} {o : OB I} {x : SDD V} (hu : s.lib.Use sc h o x)
    (n : Nat) :
    (∀ l r, (s.lib.apply n h o x s.mach).1 ≠ .error (.top l r)) ∧
    ∀ r, (s.lib.apply n h o x s.mach).1 = .ok r → ∀ orc cap hcap, (∀ k, 0 < cap k) → 0 < hcap → ∀ m r',
      (Lib.apply ⟨s.lib.env, s.lib.C, orc, cap, hcap⟩ m h o x ⟨⟨fun _ => [], 0⟩, []⟩).1 = .ok r' → r' = r := by
  have hL := hs.inv.ok
  refine ⟨fun l r e => ?_, fun r e orc cap hcap h1 h2 m r' e' => ?_⟩
  · have := (hL.sat (n := n) hu s.mach hs.inv.mach.1).2
    rw [e] at this
    rcases this with h | h <;> cases h
  · have hL' : Lib.OK ⟨s.lib.env, s.lib.C, orc, cap, hcap⟩ sc := ⟨hL.lawful, h1, h2, hL.honest, hL.closed, hL.transfer⟩
    have a : s.lib.Returns sc h o x r := ⟨_, n, hs.lib, e⟩
    have b : Lib.Returns ⟨s.lib.env, s.lib.C, orc, cap, hcap⟩ sc h o x r' := ⟨_, m, .init, e'⟩
    exact (b.ev hL' ⟨hu.order, hu.ty, hu.dom⟩).det hL.lawful (a.ev hL hu)

/-- **C92.** `h(o, x + y) == h(o, x) + h(o, y)` for an additive homomorphism, whatever happens between the five calls. -/
theorem C92_distributes {L : Lib V E I U} (hsg : Sing L.C) {s1 s2 s3 s4 s5 : LSess V E I U} (h1 : LSess.Reach sc s1)
    (h2 : LSess.Reach sc s2) (h3 : LSess.Reach sc s3) (h4 : LSess.Reach sc s4) (h5 : LSess.Reach sc s5) (e1 : s1.lib = L)
    (e2 : s2.lib = L) (e3 : s3.lib = L) (e4 : s4.lib = L) (e5 : s5.lib = L) {h : Hom V I U} {o : OB I} {t : Ty} (hS : sc.S o)
    (ha : Ad L.env L.C sc o h t) {x y z rx ry rz w : SDD V} (hx : Dom L.C o.ty x) (hy : Dom L.C o.ty y) (mx : x ∈ s1.handles)
    (my : y ∈ s1.handles) (c1 : (sumC L.C L.orc L.cap [x, y] s1.mach.dd).1 = .ok z)
    (c2 : ∃ n, (L.apply n h o z s2.mach).1 = .ok rz) (c3 : ∃ n, (L.apply n h o x s3.mach).1 = .ok rx)
    (c4 : ∃ n, (L.apply n h o y s4.mach).1 = .ok ry) (mrx : rx ∈ s5.handles) (mry : ry ∈ s5.handles)
    (c5 : (sumC L.C L.orc L.cap [rx, ry] s5.mach.dd).1 = .ok w) : w = rz := by
  subst e1
  have hL := h1.inv.ok
  obtain ⟨n2, c2⟩ := c2
  obtain ⟨n3, c3⟩ := c3
  obtain ⟨n4, c4⟩ := c4
  have r2 : s1.lib.Returns sc h o z rz := ⟨_, n2, e2 ▸ h2.lib, c2⟩
  have r3 : s1.lib.Returns sc h o x rx := ⟨_, n3, e3 ▸ h3.lib, c3⟩
  have r4 : s1.lib.Returns sc h o y ry := ⟨_, n4, e4 ▸ h4.lib, c4⟩
  have hz := ((C92_operations h1).1 [x, y] (by simp [mx, my]))
  rw [c1] at hz
  have hz : ∀ p, Mem s1.lib.C p z ↔ ∃ u ∈ [x, y], Mem s1.lib.C p u := hz
  have hw := (C92_operations h5).1 [rx, ry] (by simp [mrx, mry])
  rw [e5, c5] at hw
  have hw : ∀ p, Mem s1.lib.C p w ↔ ∃ u ∈ [rx, ry], Mem s1.lib.C p u := hw
  have dz : Dom s1.lib.C o.ty z := by
    have := (h1.inv.dd.1.outcomeNoTop (orc := s1.lib.orc) hL.lawful hL.cap (OB.ty_shape o) (c := .sum [x, y]) (.inl ⟨_, rfl⟩)
      (by simpa [Call.args] using ⟨hx, hy⟩))
    have c1 : ((Call.sum [x, y]).run s1.lib.C s1.lib.orc s1.lib.cap s1.mach.dd).1 = .ok z := c1
    change OutcomeNoTop s1.lib.C ((Call.sum [x, y]).run s1.lib.C s1.lib.orc s1.lib.cap s1.mach.dd).1 _ at this
    rw [c1] at this
    exact this.1
  have wfw : WF s1.lib.C w := by
    have := (h5.inv.dd.1.outcome (orc := s5.lib.orc) h5.inv.ok.lawful h5.inv.ok.cap (c := .sum [rx, ry])
      (by simpa [Call.args] using ⟨h5.inv.wf _ mrx, h5.inv.wf _ mry⟩))
    change Outcome s5.lib.C ((Call.sum [rx, ry]).run s5.lib.C s5.lib.orc s5.lib.cap s5.mach.dd).1 _ at this
    have c5 : ((Call.sum [rx, ry]).run s5.lib.C s5.lib.orc s5.lib.cap s5.mach.dd).1 = .ok w := by rw [e5]; exact c5
    rw [c5] at this
    exact e5 ▸ this.1
  have hty := (ha.rl hL.lawful hsg).hty
  refine canonical_ext hL.lawful wfw ((r2.ev hL ⟨hS, ⟨t, hty⟩, dz⟩).dom hty dz).wf fun p => ?_
  rw [hw, C35_union hL hsg hS ha dz r2 [(x, rx), (y, ry)] (by simpa using ⟨⟨hx, r3⟩, hy, r4⟩) (fun q => by rw [hz]; simp)]
  simp

end

/-! ## Examples -/

namespace DemoS
open DemoH

/-- A session after an operation. -/
def call (s : LSess NSet Nat Nat DU) (c : Call NSet) : LSess NSet Nat Nat DU :=
  { s with
    mach := { s.mach with dd := (c.run s.lib.C s.lib.orc s.lib.cap s.mach.dd).2 }
    handles := addHandle (c.run s.lib.C s.lib.orc s.lib.cap s.mach.dd).1 s.handles }

/-- A session after an application of a homomorphism, under the order of the example. -/
def app (s : LSess NSet Nat Nat DU) (h : Hom NSet Nat DU) (x : SDD NSet) : LSess NSet Nat Nat DU :=
  { s with
    mach := (s.lib.apply 20 h o x s.mach).2
    handles := addHandle (s.lib.apply 20 h o x s.mach).1 s.handles }

/-- Creation of two operands. -/
def s1 : LSess NSet Nat Nat DU :=
  [Call.one, .flat 0 (ns [1, 2]) .one, .flat 0 (ns [1]) .one, .flat 0 (ns [3]) .one, .hier 1 (f [1]) (f [3]),
    .hier 2 (f [1, 2]) (.hier 1 [(f [1], f [3])]), .hier 2 (f [3]) (.hier 1 [(f [1], f [3])])].foldl call ⟨L, DemoH.s0, []⟩

/-- Another operand. -/
def y : SDD NSet := .hier 2 [(f [3], .hier 1 [(f [1], f [3])])]

/-- An application, and a sum of its result with an operand. -/
def s2 : LSess NSet Nat Nat DU := call (app (app s1 h1 x) h1 y) (.sum [x, y])

theorem dom_y : Dom L.C o.ty y := dom_h dom_f (dom_h dom_f dom_f (by simp [f]) (by simp [f])) (by simp [f]) (by simp)

theorem reach_call {s : LSess NSet Nat Nat DU} (hs : LSess.Reach sc s) (c : Call NSet) (h : ∀ x ∈ c.args, x ∈ s.handles) :
    LSess.Reach sc (call s c) := .step _ _ hs (.call s c h)

theorem reach_calls (cs : List (Call NSet)) : ∀ {s : LSess NSet Nat Nat DU}, LSess.Reach sc s →
    (∀ i c, cs[i]? = some c → ∀ x ∈ c.args, x ∈ ((cs.take i).foldl call s).handles) → LSess.Reach sc (cs.foldl call s) := by
  induction cs with
  | nil => intro s hs _; exact hs
  | cons c cs ih =>
    intro s hs h
    refine ih (reach_call hs c (h 0 c rfl)) fun i c' hc' => ?_
    exact h (i + 1) c' (by simpa using hc')

theorem reach1 : LSess.Reach sc s1 := by
  refine reach_calls _ (.init L ok) fun i c hc => ?_
  match i, hc with
  | 0, hc => cases hc; decide +kernel
  | 1, hc => cases hc; decide +kernel
  | 2, hc => cases hc; decide +kernel
  | 3, hc => cases hc; decide +kernel
  | 4, hc => cases hc; decide +kernel
  | 5, hc => cases hc; decide +kernel
  | 6, hc => cases hc; decide +kernel
  | i + 7, hc => simp at hc

theorem lib1 : s1.lib = L := rfl

theorem reach2 : LSess.Reach sc s2 := by
  have u : ∀ {z}, Dom L.C o.ty z → L.Use sc h1 o z := fun hz => ad_h1.use ok sing trivial hz
  have a : LSess.Reach sc (app s1 h1 x) := .step _ _ reach1 (.apply s1 20 h1 o x (by decide +kernel) (u dom_x))
  have b : LSess.Reach sc (app (app s1 h1 x) h1 y) := .step _ _ a (.apply _ 20 h1 o y (by decide +kernel) (u dom_y))
  exact reach_call b _ (by decide +kernel)

/-- The image of the first operand. -/
def rx : SDD NSet := .hier 2 [(f [2, 3], .hier 1 [(f [1], f [3])])]

/-- The image of the second operand is itself: it is the same SDD, held twice. -/
example : rx ∈ s2.handles ∧ y ∈ s2.handles ∧ (rx = y ↔ ∀ p, Mem s2.lib.C p rx ↔ Mem s2.lib.C p y) :=
  ⟨by decide +kernel, by decide +kernel, C92_equality reach2 (by decide +kernel) (by decide +kernel)⟩

/-- A sum and a difference of a result of a homomorphism and of an operand. -/
example : (sumC L.C L.orc L.cap [rx, y] s2.mach.dd).1 = .ok rx ∧
    (diffC L.C L.orc L.cap x rx s2.mach.dd).1 = .ok (.hier 2 [(f [1], .hier 1 [(f [1], f [3])])]) ∧
    Outcome L.C (sumC L.C L.orc L.cap [rx, y] s2.mach.dd).1 (fun r => ∀ p, Mem L.C p r ↔ ∃ x ∈ [rx, y], Mem L.C p x) :=
  ⟨by decide +kernel, by decide +kernel, (C92_operations reach2).1 [rx, y] (by decide +kernel)⟩

/-- `Top` is raised for a result of a homomorphism and an SDD of another kind. -/
example : ∃ x ∈ [rx, f [3]], ∃ y ∈ [rx, f [3]], ∃ p q, Mem L.C p x ∧ Mem L.C q y ∧ ¬ Compat p q :=
  (C92_top reach2 rfl (.sum [rx, f [3]]) (.inl ⟨_, rfl⟩) (by decide +kernel)).1.1 ⟨rx, f [3], by decide +kernel⟩

/-- So it is for an intersection. -/
example : ∃ x ∈ [rx, f [3]], ∃ y ∈ [rx, f [3]], ∃ p q, Mem L.C p x ∧ Mem L.C q y ∧ ¬ Compat p q :=
  (C92_top_intersection reach2 rfl (xs := [rx, f [3]]) (by decide +kernel)).2 ⟨rx, f [3], by decide +kernel⟩

example : ∃ l r, (interC L.C L.orc L.cap [rx, f [3]] s2.mach.dd).1 = .error (.top l r) := by
  refine (C92_top_intersection reach2 rfl (xs := [rx, f [3]]) (by decide +kernel)).1 ⟨f [3], by simp, ⟨rx, by simp, by decide +kernel⟩,
    .hier 2 (.flat 0 2 .nil) (.hier 1 (.flat 0 1 .nil) (.flat 0 3 .nil)), .flat 0 3 .nil, fun w hw hne => ?_, ?_, by simp [Compat]⟩
  · simp only [List.mem_cons, List.not_mem_nil, or_false] at hw
    rcases hw with rfl | rfl
    · exact ⟨rfl, _, List.mem_singleton.2 rfl, ⟨rfl, _, List.mem_singleton.2 rfl, show (2 : Nat) ∈ (ns [2, 3]).data by decide +kernel, rfl⟩,
        rfl, _, List.mem_singleton.2 rfl, ⟨rfl, _, List.mem_singleton.2 rfl, show (1 : Nat) ∈ (ns [1]).data by decide +kernel, rfl⟩,
        rfl, _, List.mem_singleton.2 rfl, show (3 : Nat) ∈ (ns [3]).data by decide +kernel, rfl⟩
    · exact absurd rfl hne
  · exact ⟨rfl, _, List.mem_singleton.2 rfl, show (3 : Nat) ∈ (ns [3]).data by decide +kernel, rfl⟩

/-- After this history, the same application returns the same result. -/
example : (s2.lib.apply 20 h1 o x s2.mach).1 = .ok rx ∧ (Lib.apply ⟨env, L.C, fun _ _ => [], fun _ => 1, 1⟩ 9 h1 o x s0).1 = .ok rx ∧
    s2.lib.Use sc h1 o x :=
  ⟨by decide +kernel, by decide +kernel, ad_h1.use ok sing trivial dom_x⟩

/-- The image of a sum is the sum of the images. -/
example {w rz z : SDD NSet} (c1 : (sumC L.C L.orc L.cap [x, y] s1.mach.dd).1 = .ok z) (c2 : (L.apply 20 h1 o z s2.mach).1 = .ok rz)
    (c5 : (sumC L.C L.orc L.cap [rx, y] s2.mach.dd).1 = .ok w) : w = rz :=
  C92_distributes sing reach1 reach2 reach1 reach2 reach2 rfl rfl rfl rfl rfl trivial ad_h1 dom_x dom_y (by decide +kernel)
    (by decide +kernel) c1 ⟨20, c2⟩ ⟨20, by decide +kernel⟩ ⟨20, by decide +kernel⟩ (by decide +kernel) (by decide +kernel) c5

example : (sumC L.C L.orc L.cap [x, y] s1.mach.dd).1 = .ok (.hier 2 [(f [1, 2, 3], .hier 1 [(f [1], f [3])])]) ∧
    (L.apply 20 h1 o (.hier 2 [(f [1, 2, 3], .hier 1 [(f [1], f [3])])]) s2.mach).1 = .ok rx ∧
    (sumC L.C L.orc L.cap [rx, y] s2.mach.dd).1 = .ok rx := by decide +kernel

/-- The session goes on at other addresses, once everything is freed. -/
example : LSess.Reach sc (call ⟨LR, ⟨⟨fun _ => [], s2.mach.dd.tick⟩, []⟩, []⟩ .one) := by
  have a : LSess.Reach sc ⟨L, ⟨⟨fun _ => [], s2.mach.dd.tick⟩, []⟩, []⟩ :=
    .step _ _ (.step _ _ (.step _ _ reach2 (.drop s2 [] (by simp))) (.resetHom _)) (.resetDD _)
  refine reach_call (.step _ _ a (.realloc _ ltR env ltR_st ?_ same canon okR)) .one (by simp [Call.args])
  rintro a b ((⟨k, e, he, _⟩ | ⟨e, he, _⟩) | ⟨h, hh, _⟩)
  · simp at he
  · simp at he
  · simp at hh

end DemoS
end Verif
