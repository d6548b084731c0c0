import Verif.Hom.Sound
/-!
# Correctness of the evaluation of homomorphisms: partial correctness, termination

* `runH_sat`: what is returned is the meaning of the homomorphism (`Ev`);
* `runH_total`: when the meaning is defined, the evaluation terminates.
-/

set_option autoImplicit false
set_option linter.unusedSectionVars false

namespace Verif

variable {V E I U : Type} {m : Type → Type} [DecidableEq V] [DecidableEq I] [DecidableEq U] [DDMonad V m]
variable {env : User V I U} {C : Cfg V E} {sc : Scope I U} {L : Logic V m}

/-! ## Operations on SDDs -/

theorem autoRun_ok {run : Nat → Op V → m (SDD V)}
    (hrun : ∀ n (t : Ty), t.depth ≤ n → t.IsShape → RecOK C L t (run n)) (t : Ty) (ht : t.IsShape) :
    RecOK C L t (autoRun run) := by
  intro op hop
  refine hrun op.bound t ?_ ht op hop
  have key : ∀ {xs : List (SDD V)}, BGood SDD.isZero C.lt (Dom C t) xs → 2 ≤ xs.length → t.depth ≤ maxHeight xs := by
    intro xs hb hl
    match xs, hb, hl with
    | x :: l, hb, _ =>
      exact ((hb.dom x (by simp)).height_eq ht (ne_of_BGood hb (by simp))).trans (le_maxHeight x (by simp))
  cases op with
  | sum xs => exact key hop.1 hop.2
  | inter xs => exact key hop.1 hop.2
  | diff l r => exact (hop.1.height_eq ht hop.2.2.1).trans (le_maxHeight l (by simp))

/-! ## Partial correctness -/

/-- What is asked of the cache of homomorphisms. (Specification or proof device, not part of the code.) -/
def CallSound (env : User V I U) (C : Cfg V E) (sc : Scope I U) (L : Logic V m)
    (call : (Hom V I U → OB I → SDD V → m (SDD V)) → Hom V I U → OB I → SDD V → m (SDD V)) : Prop :=
  ∀ f o h t x, sc.S o → HTy env C sc o h t → Dom C o.ty x → x ≠ .zero → h ≠ .id →
    L.Sat (f h o x) (Ev env C h o x) → L.Sat (call f h o x) (Ev env C h o x)

variable {call : (Hom V I U → OB I → SDD V → m (SDD V)) → Hom V I U → OB I → SDD V → m (SDD V)} {dd : Op V → m (SDD V)}

theorem runH_zero {n : Nat} {h : Hom V I U} {o : OB I} : L.Sat (runH env C dd call (n + 1) h o .zero) (Ev env C h o .zero) := by
  rw [runH]
  simp only [SDD.isZero, Bool.or_true, if_true]
  exact L.pure' (.zero h o)

/-- The result of an application is the meaning of the homomorphism. -/
theorem runH_sat (hcl : sc.Closed) (hC : C.Lawful) (hov : C.limit = none ∨ L.allow .overflow) (hfuel : L.allow .fuel)
    (hon : Honest env C) (hdd : ∀ t : Ty, t.IsShape → RecOK C L t dd) (hcall : CallSound env C sc L call) (n : Nat) :
    ∀ o h t x, sc.S o → HTy env C sc o h t → Dom C o.ty x → L.Sat (runH env C dd call n h o x) (Ev env C h o x) := by
  induction n with
  | zero => intro o h t x _ _ _; exact L.raise' hfuel
  | succ n ih =>
    intro o h t x hS ht hx
    rw [runH]
    split
    · rename_i hc
      rw [Bool.or_eq_true, Hom.isId_iff, isZero_iff] at hc
      rcases hc with rfl | rfl
      · exact L.pure' (.id o x)
      · exact L.pure' (.zero h o)
    · rename_i hc
      rw [Bool.or_eq_true, Hom.isId_iff, isZero_iff, not_or] at hc
      refine hcall _ o h t x hS ht hx hc.2 hc.1 ?_
      refine homEval_sat hC hov hon hdd ht hc.1 (fun o' h' x' hs => ?_) (Or.inl hfuel) hx hc.2
      obtain ⟨h1, ⟨t', h2⟩, h3⟩ := ht.call hcl hs hS hx
      exact ih o' h' t' x' h1 h2 h3

/-! ## Termination -/

/-- With `n` or more, the applications made by the evaluation of `h` on `x` are in `T`, and its loops are short enough. (Specification or proof
device, not part of the code.) -/
def Ready (env : User V I U) (C : Cfg V E) (T : Nat → OB I → Hom V I U → SDD V → Prop) (o : OB I) (h : Hom V I U) (x : SDD V) (N : Nat) :
    Prop :=
  ∀ n, N ≤ n → Bounded env C n o h x ∧ ∀ o' h' x', HCall env C o h x o' h' x' → T n o' h' x'

/-- With `N` or more, the application is in `T`. (Specification or proof device, not part of the code.) -/
def Term (T : Nat → OB I → Hom V I U → SDD V → Prop) (o : OB I) (h : Hom V I U) (x : SDD V) (N : Nat) : Prop :=
  ∀ n, N ≤ n → T n o h x

variable {T : Nat → OB I → Hom V I U → SDD V → Prop}

theorem Term.mono {o : OB I} {h : Hom V I U} {x : SDD V} {N N' : Nat} (ht : Term T o h x N) (hN : N ≤ N') :
    Term T o h x N' := fun n hn => ht n (hN.trans hn)

theorem exists_bound {β : Type} {P : β → Nat → Prop} (hmono : ∀ b n k, P b n → n ≤ k → P b k) (l : List β)
    (h : ∀ b ∈ l, ∃ n, P b n) : ∃ N, ∀ b ∈ l, P b N := by
  induction l with
  | nil => exact ⟨0, by simp⟩
  | cons b l ih =>
    obtain ⟨n, hn⟩ := h b (by simp)
    obtain ⟨k, hk⟩ := ih fun b hb => h b (by simp [hb])
    refine ⟨max n k, ?_⟩
    simp only [List.mem_cons, forall_eq_or_imp]
    exact ⟨hmono _ _ _ hn (le_max_left _ _), fun c hc => hmono _ _ _ (hk c hc) (le_max_right _ _)⟩

/-- The successors of a node. (Specification or proof device, not part of the code.) -/
def succs : SDD V → List (SDD V)
  | .flat _ arcs => arcs.map Prod.snd
  | .hier _ arcs => arcs.map Prod.snd
  | _ => []

theorem ArcOf.mem_succs {x s : SDD V} {hd : Head E} (h : ArcOf C x hd s) : s ∈ succs x := by
  cases x <;> cases hd <;> simp [ArcOf] at h
  · obtain ⟨_, v, hv, _⟩ := h; simp only [succs, List.mem_map]; exact ⟨_, hv, rfl⟩
  · obtain ⟨_, v, hv, _⟩ := h; simp only [succs, List.mem_map]; exact ⟨_, hv, rfl⟩

theorem ChainCall.index (hC : C.Lawful) {o : OB I} {G : List (Hom V I U)} {s : SDD V} {g : Hom V I U} {z : SDD V}
    (h : ChainCall env C o G s g z) : ∀ c d : Nat → SDD V, c 0 = s →
      (∀ i, (hi : i < G.length) → Ev env C G[i] o (c i) (d i)) →
      (∀ i, i < G.length → Is C (c (i + 1)) fun p => Mem C p (c i) ∨ Mem C p (d i)) →
      ∃ i, ∃ hi : i < G.length, g = G[i] ∧ z = c i := by
  induction h with
  | here => intro c d h0 _ _; exact ⟨0, by simp, rfl, h0.symm⟩
  | @there g G s d0 s' h x he hi _ ih =>
    intro c d h0 hE hI
    have e1 := hE 0 (by simp)
    rw [h0] at e1
    obtain rfl := he.det hC e1
    have e2 := hI 0 (by simp)
    rw [h0] at e2
    obtain rfl := hi.unique hC e2 fun _ => Iff.rfl
    obtain ⟨i, hi, h1, h2⟩ := ih (fun i => c (i + 1)) (fun i => d (i + 1)) rfl
      (fun i hi => hE (i + 1) (by simpa using hi)) (fun i hi => hI (i + 1) (by simpa using hi))
    exact ⟨i + 1, by simpa using hi, h1, h2⟩

/-- The iterations after the first one. -/
theorem Reach.step {β : Type} {R : β → β → Prop} (hdet : ∀ x y z, R x y → R x z → y = z) {x y z : β} (h : Reach R x z)
    (hR : R x y) : z = x ∨ (y ≠ x ∧ Reach R y z) := by
  cases h with
  | refl => exact Or.inl rfl
  | head h1 h2 h3 =>
    obtain rfl := hdet _ _ _ hR h1
    exact Or.inr ⟨h2, h3⟩

theorem Here.stop {o : OB I} {h : Hom V I U} {x : SDD V} (hh : Here env h o x) (hx : Dom C o.ty x) : Stop env h o := by
  cases o with
  | nil => trivial
  | node id nst nxt =>
    rw [Stop, ← Bool.not_eq_true]
    exact fun hs => hh.not_skip hx hs

theorem Chain.zero {o : OB I} (G : List (Hom V I U)) : Chain env C o G .zero .zero := by
  induction G with
  | nil => exact .nil _
  | cons g G ih => exact .cons (.zero g o) ⟨⟨0, .zero _⟩, fun p => by simp⟩ ih

theorem ChainCall.of_zero {o : OB I} {G : List (Hom V I U)} {s : SDD V} {g : Hom V I U} {z : SDD V}
    (h : ChainCall env C o G s g z) (hs : s = .zero) : z = .zero := by
  induction h with
  | here => exact hs
  | there he hi _ ih =>
    subst hs
    have h1 := he.of_zero
    refine ih ?_
    obtain ⟨⟨k, hk⟩, hm⟩ := hi
    refine hk.zero_iff.2 fun p hp => ?_
    have := (hm p).1 hp
    rw [h1] at this
    rcases this with h | h <;> exact not_mem_zero p h

/-- The applications made by one iteration of a saturation fixpoint. -/
theorem sat_calls (hC : C.Lawful) {o : OB I} {F : Hom V I U} {G : List (Hom V I U)} {L' : Hom V I U} {s a : SDD V}
    {c d : Nat → SDD V} (e1 : Ev env C F o s a) (e2 : Ev env C L' o a (c 0))
    (e3 : ∀ i, (hi : i < G.length) → Ev env C G[i] o (c i) (d i))
    (hI : ∀ i, i < G.length → Is C (c (i + 1)) fun p => Mem C p (c i) ∨ Mem C p (d i))
    (hF : ∃ N, Term T o F s N) (hL : ∃ N, Term T o L' a N)
    (hG : ∀ i, (hi : i < G.length) → ChainCall env C o G (c 0) G[i] (c i) → ∃ N, Term T o G[i] (c i) N) :
    ∃ N, ∀ n, N ≤ n → ∀ h' x', (h' = F ∧ x' = s ∨ (h' = L' ∧ Ev env C F o s x') ∨
      ∃ a b, Ev env C F o s a ∧ Ev env C L' o a b ∧ ChainCall env C o G b h' x') →
      T n o h' x' := by
  obtain ⟨N1, hN1⟩ := hF
  obtain ⟨N2, hN2⟩ := hL
  obtain ⟨N3, hN3⟩ := exists_bound (P := fun i N => ∀ hi : i < G.length, ChainCall env C o G (c 0) G[i] (c i) →
      Term T o G[i] (c i) N) (fun b n k hn hk hi hc => (hn hi hc).mono hk) (List.range G.length) fun i hi => by
    rw [List.mem_range] at hi
    by_cases hc : ChainCall env C o G (c 0) G[i] (c i)
    · obtain ⟨N, hN⟩ := hG i hi hc
      exact ⟨N, fun _ _ => hN⟩
    · exact ⟨0, fun _ h => absurd h hc⟩
  refine ⟨max N1 (max N2 N3), ?_⟩
  rintro n hn h' x' (⟨rfl, rfl⟩ | ⟨rfl, h⟩ | ⟨a', b', h1, h2, h3⟩)
  · exact hN1 n (by omega)
  · obtain rfl := e1.det hC h
    exact hN2 n (by omega)
  · obtain rfl := e1.det hC h1
    obtain rfl := e2.det hC h2
    obtain ⟨i, hi, rfl, rfl⟩ := h3.index hC c d rfl e3 hI
    exact hN3 i (List.mem_range.2 hi) hi h3 n (by omega)

/-- When the meaning is defined, all applications are in `T` with enough steps, when `T` holds of those that make no application, and of those
whose applications are in `T` with one step less. -/
theorem Ev.term (hcl : sc.Closed) (hC : C.Lawful) (hid : ∀ n o x, T (n + 1) o .id x) (hzero : ∀ n o h, T (n + 1) o h .zero)
    (hstep : ∀ n o h t x, sc.S o → HTy env C sc o h t → Dom C o.ty x → x ≠ .zero → h ≠ .id → Bounded env C n o h x →
      (∀ o' h' x', HCall env C o h x o' h' x' → T n o' h' x') → T (n + 1) o h x)
    {h : Hom V I U} {o : OB I} {x r : SDD V} (e : Ev env C h o x r) {t : Ty} (hS : sc.S o) (ht : HTy env C sc o h t)
    (hx : Dom C o.ty x) : ∃ N, Term T o h x N := by
  -- from the calls to the evaluation
  have run : ∀ {h : Hom V I U} {o : OB I} {x : SDD V} {t : Ty}, sc.S o → HTy env C sc o h t → Dom C o.ty x →
      (h ≠ .id → x ≠ .zero → ∃ N, Ready env C T o h x N) → ∃ N, Term T o h x N := by
    intro h o x t hS ht hx hr
    by_cases h1 : h = .id
    · subst h1
      refine ⟨1, fun n hn => ?_⟩
      obtain ⟨n, rfl⟩ : ∃ n', n = n' + 1 := ⟨n - 1, by omega⟩
      exact hid n o x
    by_cases h2 : x = .zero
    · subst h2
      refine ⟨1, fun n hn => ?_⟩
      obtain ⟨n, rfl⟩ : ∃ n', n = n' + 1 := ⟨n - 1, by omega⟩
      exact hzero n o h
    obtain ⟨N, hN⟩ := hr h1 h2
    refine ⟨N + 1, fun n hn => ?_⟩
    obtain ⟨n, rfl⟩ : ∃ n', n = n' + 1 := ⟨n - 1, by omega⟩
    exact hstep n o h t x hS ht hx h2 h1 (hN n (by omega)).1 (hN n (by omega)).2
  have zeroTerm : ∀ {h : Hom V I U} {o : OB I} {n : Nat}, 1 ≤ n → T n o h .zero := by
    intro h o n hn
    obtain ⟨n, rfl⟩ : ∃ n', n = n' + 1 := ⟨n - 1, by omega⟩
    exact hzero n o h
  refine run hS ht hx ?_
  induction e generalizing t with
  | zero => intro _ h; exact absurd rfl h
  | id => intro h; exact absurd rfl h
  | @skip h id nst nxt x r f hne hb hf hr ih =>
    intro _ _
    have hsk := hb.skip
    obtain ⟨N, hN⟩ := exists_bound (P := fun s N => (∃ hd : Head E, ArcOf C x hd s) → Term T nxt h s N)
      (fun b n k hn hk hex => (hn hex).mono hk) (succs x) fun s _ => by
        by_cases hex : ∃ hd : Head E, ArcOf C x hd s
        · obtain ⟨hd, ha⟩ := hex
          obtain ⟨hS', ⟨t', ht'⟩, hs'⟩ := ht.call hcl (.skip hd hne hsk ha) hS hx
          obtain ⟨N, hN⟩ := run hS' ht' hs' (ih hd s ha hS' ht' hs')
          exact ⟨N, fun _ => hN⟩
        · exact ⟨0, fun h => absurd h hex⟩
    refine ⟨N, fun n hn => ⟨?_, ?_⟩⟩
    · cases h with
      | fix => exact fun h => absurd (hsk.symm.trans h) (by simp)
      | satFix => exact fun h => absurd (hsk.symm.trans h) (by simp)
      | _ => trivial
    · intro o' h' x' hc
      cases hc with
      | skip hd _ _ ha => exact hN _ ha.mem_succs ⟨hd, ha⟩ n hn
      | loc => simp [Hom.skip] at hsk
      | consF => simp [Hom.skip] at hsk
      | consH => simp [Hom.skip] at hsk
      | compL h | compR h | fix h | iteI h | iteT h | iteE h | indF v h | indH v h | inter _ _ _ h | satF h | satL h | satG h
      | satInter h | satSum h | sum h => exact absurd (hsk.symm.trans h) (by simp)
  | @comp l r o x y z hh e1 _ ih1 ih2 =>
    intro _ h0
    have hst : Stop env (.comp l r) o := hh.stop hx
    obtain ⟨hS1, ⟨t1, ht1⟩, hx1⟩ := ht.call hcl (.compR hst) hS hx
    obtain ⟨hS2, ⟨t2, ht2⟩, hx2⟩ := ht.call hcl (.compL hst e1) hS hx
    obtain ⟨N1, hN1⟩ := run hS1 ht1 hx1 (ih1 hS1 ht1 hx1)
    obtain ⟨N2, hN2⟩ := run hS2 ht2 hx2 (ih2 hS2 ht2 hx2)
    refine ⟨max N1 N2, fun n hn => ⟨trivial, ?_⟩⟩
    intro o' h' x' hc
    cases hc with
    | skip _ _ h1 => exact (hh.not_skip hx h1).elim
    | compR => exact hN1 n (by omega)
    | compL _ e1' =>
      obtain rfl := e1.det hC e1'
      exact hN2 n (by omega)
  | consF hh e1 hr ih =>
    intro _ h0
    obtain ⟨hS1, ⟨t1, ht1⟩, hx1⟩ := ht.call hcl .consF hS hx
    obtain ⟨N1, hN1⟩ := run hS1 ht1 hx1 (ih hS1 ht1 hx1)
    refine ⟨N1, fun n hn => ⟨trivial, ?_⟩⟩
    intro o' h' x' hc
    cases hc with
    | skip _ _ h1 => exact (hh.not_skip hx h1).elim
    | consF => exact hN1 n hn
  | consH hh e1 hr ih =>
    intro _ h0
    obtain ⟨hS1, ⟨t1, ht1⟩, hx1⟩ := ht.call hcl .consH hS hx
    obtain ⟨N1, hN1⟩ := run hS1 ht1 hx1 (ih hS1 ht1 hx1)
    refine ⟨N1, fun n hn => ⟨trivial, ?_⟩⟩
    intro o' h' x' hc
    cases hc with
    | skip _ _ h1 => exact (hh.not_skip hx h1).elim
    | consH => exact hN1 n hn
  | const hh =>
    intro _ h0
    refine ⟨0, fun n hn => ⟨trivial, ?_⟩⟩
    intro o' h' x' hc
    cases hc with
    | skip _ _ h1 => exact (hh.not_skip hx h1).elim
  | @fixDone h o x hh e1 ih =>
    intro _ h0
    have hst : Stop env (.fix h) o := hh.stop hx
    obtain ⟨hS1, ⟨t1, ht1⟩, hx1⟩ := ht.call hcl (.fix hst (.refl x)) hS hx
    obtain ⟨N1, hN1⟩ := run hS1 ht1 hx1 (ih hS1 ht1 hx1)
    refine ⟨N1 + 1, fun n hn => ⟨fun _ => ?_, ?_⟩⟩
    · obtain ⟨n, rfl⟩ : ∃ n', n = n' + 1 := ⟨n - 1, by omega⟩
      exact .done e1
    intro o' h' x' hc
    cases hc with
    | skip _ _ h1 => exact (hh.not_skip hx h1).elim
    | fix _ hr =>
      rcases hr.step (fun _ _ _ e e' => e.det hC e') e1 with rfl | ⟨h, _⟩
      · exact hN1 n (by omega)
      · exact absurd rfl h
  | @fixStep h o x y r hh e1 hne e2 ih1 ih2 =>
    intro _ h0
    have hst : Stop env (.fix h) o := hh.stop hx
    obtain ⟨hS1, ⟨t1, ht1⟩, hx1⟩ := ht.call hcl (.fix hst (.refl x)) hS hx
    obtain ⟨N1, hN1⟩ := run hS1 ht1 hx1 (ih1 hS1 ht1 hx1)
    have hy : Dom C o.ty y := (ht.call hcl (.fix hst (.head e1 hne (.refl y))) hS hx).2.2
    obtain ⟨N2, hN2⟩ : ∃ N, ∀ n, N ≤ n → IterN (Ev env C h o) y n ∧ ∀ z, Reach (Ev env C h o) y z →
        T n o h z := by
      by_cases hy0 : y = .zero
      · subst hy0
        refine ⟨1, fun n hn => ⟨?_, fun z hz => ?_⟩⟩
        · obtain ⟨n, rfl⟩ : ∃ n', n = n' + 1 := ⟨n - 1, by omega⟩
          exact .done (.zero h o)
        · rcases hz.step (fun _ _ _ e e' => e.det hC e') (.zero h o) with rfl | ⟨h, _⟩
          · exact zeroTerm hn
          · exact absurd rfl h
      · obtain ⟨N2, hN2⟩ := ih2 hS ht hy (by simp) hy0
        exact ⟨N2, fun n hn => ⟨(hN2 n hn).1 hst, fun z hz => (hN2 n hn).2 _ _ _ (.fix hst hz)⟩⟩
    refine ⟨max N1 N2 + 1, fun n hn => ⟨fun _ => ?_, ?_⟩⟩
    · obtain ⟨n, rfl⟩ : ∃ n', n = n' + 1 := ⟨n - 1, by omega⟩
      exact .step e1 hne (hN2 n (by omega)).1
    intro o' h' x' hc
    cases hc with
    | skip _ _ h1 => exact (hh.not_skip hx h1).elim
    | fix _ hr =>
      rcases hr.step (fun _ _ _ e e' => e.det hC e') e1 with rfl | ⟨_, hr⟩
      · exact hN1 n (by omega)
      · exact (hN2 n (by omega)).2 _ hr
  | fnOne =>
    intro _ h0
    refine ⟨0, fun n hn => ⟨trivial, ?_⟩⟩
    intro o' h' x' hc
    cases hc with
    | skip hd _ _ ha => cases hd <;> simp [ArcOf] at ha
  | fn hh =>
    intro _ h0
    refine ⟨0, fun n hn => ⟨trivial, ?_⟩⟩
    intro o' h' x' hc
    cases hc with
    | skip _ _ h1 => exact (hh.not_skip hx h1).elim
  | @ite i t' e' o x y d a b r hi hh e1 hd e2 e3 hr ih1 ih2 ih3 =>
    intro _ h0
    have hst : Stop env (.ite i t' e') o := hh.stop hx
    obtain ⟨hS1, ⟨t1, ht1⟩, hx1⟩ := ht.call hcl (.iteI hst) hS hx
    obtain ⟨hS2, ⟨t2, ht2⟩, hx2⟩ := ht.call hcl (.iteT hst e1) hS hx
    obtain ⟨hS3, ⟨t3, ht3⟩, hx3⟩ := ht.call hcl (.iteE hst e1 hd) hS hx
    obtain ⟨N1, hN1⟩ := run hS1 ht1 hx1 (ih1 hS1 ht1 hx1)
    obtain ⟨N2, hN2⟩ := run hS2 ht2 hx2 (ih2 hS2 ht2 hx2)
    obtain ⟨N3, hN3⟩ := run hS3 ht3 hx3 (ih3 hS3 ht3 hx3)
    refine ⟨max N1 (max N2 N3), fun n hn => ⟨trivial, ?_⟩⟩
    intro o' h' x' hc
    cases hc with
    | skip _ _ h1 => exact (hh.not_skip hx h1).elim
    | iteI => exact hN1 n (by omega)
    | iteT _ e1' =>
      obtain rfl := e1.det hC e1'
      exact hN2 n (by omega)
    | iteE _ e1' hd' =>
      obtain rfl := e1.det hC e1'
      obtain rfl := hd.unique hC hd' fun _ => Iff.rfl
      exact hN3 n (by omega)
  | indOne =>
    intro _ h0
    refine ⟨0, fun n hn => ⟨trivial, ?_⟩⟩
    intro o' h' x' hc
    cases hc with
    | skip hd _ _ ha => cases hd <;> simp [ArcOf] at ha
  | @indF u id nst nxt y arcs r f hh e1 hr ih =>
    intro _ h0
    obtain ⟨N, hN⟩ := exists_bound (P := fun (arc : V × SDD V) N =>
        HCall env C (.node id nst nxt) (.ind u) (.flat y arcs) nxt (env.indF u (.node id nst nxt) arc.1) arc.2 →
        Term T nxt (env.indF u (.node id nst nxt) arc.1) arc.2 N)
      (fun b n k hn hk hex => (hn hex).mono hk) arcs fun arc ha => by
        by_cases hc : HCall env C (.node id nst nxt) (.ind u) (.flat y arcs) nxt (env.indF u (.node id nst nxt) arc.1) arc.2
        · obtain ⟨hS', ⟨t', ht'⟩, hs'⟩ := ht.call hcl hc hS hx
          obtain ⟨N, hN⟩ := run hS' ht' hs' (ih arc ha hS' ht' hs')
          exact ⟨N, fun _ => hN⟩
        · exact ⟨0, fun h => absurd h hc⟩
    refine ⟨N, fun n hn => ⟨trivial, ?_⟩⟩
    intro o' h' x' hc
    cases hc with
    | skip _ _ h1 => exact (hh.not_skip hx h1).elim
    | indF arc hst ha => exact hN arc ha (.indF arc hst ha) n hn
  | @indH u id nst nxt y arcs r f hh e1 hr ih =>
    intro _ h0
    obtain ⟨N, hN⟩ := exists_bound (P := fun (arc : SDD V × SDD V) N =>
        HCall env C (.node id nst nxt) (.ind u) (.hier y arcs) nxt (env.indH u (.node id nst nxt) arc.1) arc.2 →
        Term T nxt (env.indH u (.node id nst nxt) arc.1) arc.2 N)
      (fun b n k hn hk hex => (hn hex).mono hk) arcs fun arc ha => by
        by_cases hc : HCall env C (.node id nst nxt) (.ind u) (.hier y arcs) nxt (env.indH u (.node id nst nxt) arc.1) arc.2
        · obtain ⟨hS', ⟨t', ht'⟩, hs'⟩ := ht.call hcl hc hS hx
          obtain ⟨N, hN⟩ := run hS' ht' hs' (ih arc ha hS' ht' hs')
          exact ⟨N, fun _ => hN⟩
        · exact ⟨0, fun h => absurd h hc⟩
    refine ⟨N, fun n hn => ⟨trivial, ?_⟩⟩
    intro o' h' x' hc
    cases hc with
    | skip _ _ h1 => exact (hh.not_skip hx h1).elim
    | indH arc hst hne ha => exact hN arc ha (.indH arc hst hne ha) n hn
  | @inter hs o x r f hh e1 hr ih =>
    intro _ h0
    obtain ⟨N, hN⟩ := exists_bound (P := fun k N => HCall env C o (.inter hs) x o k x → Term T o k x N)
      (fun b n k hn hk hex => (hn hex).mono hk) hs fun k hk => by
        by_cases hc : HCall env C o (.inter hs) x o k x
        · obtain ⟨hS', ⟨t', ht'⟩, hs'⟩ := ht.call hcl hc hS hx
          obtain ⟨N, hN⟩ := run hS' ht' hs' (ih k hk hS' ht' hs')
          exact ⟨N, fun _ => hN⟩
        · exact ⟨0, fun h => absurd h hc⟩
    refine ⟨N, fun n hn => ⟨trivial, ?_⟩⟩
    intro o' h' x' hc
    cases hc with
    | skip _ _ h1 => exact (hh.not_skip hx h1).elim
    | inter pre k post hst hpre => exact hN _ (by simp) (.inter pre _ post hst hpre) n hn
  | @interZero o x h pre post f hh e1 e2 ih1 ih2 =>
    intro _ h0
    obtain ⟨N, hN⟩ := exists_bound (P := fun k N => HCall env C o (.inter (pre ++ h :: post)) x o k x →
        Term T o k x N)
      (fun b n k hn hk hex => (hn hex).mono hk) (h :: pre) fun k hk => by
        by_cases hc : HCall env C o (.inter (pre ++ h :: post)) x o k x
        · obtain ⟨hS', ⟨t', ht'⟩, hs'⟩ := ht.call hcl hc hS hx
          rw [List.mem_cons] at hk
          rcases hk with rfl | hk
          · obtain ⟨N, hN⟩ := run hS' ht' hs' (ih2 hS' ht' hs')
            exact ⟨N, fun _ => hN⟩
          · obtain ⟨N, hN⟩ := run hS' ht' hs' (ih1 k hk hS' ht' hs')
            exact ⟨N, fun _ => hN⟩
        · exact ⟨0, fun h => absurd h hc⟩
    refine ⟨N, fun n hn => ⟨trivial, ?_⟩⟩
    intro o' h' x' hc
    have hc' := hc
    generalize hhs : Hom.inter (pre ++ h :: post) = k at hc
    cases hc with
    | skip _ _ h1 => subst hhs; exact (hh.not_skip hx h1).elim
    | inter pre' _ post' hst hpre' =>
      refine hN h' ?_ hc' n hn
      injection hhs with hhs
      have hnot : h ∉ pre' := by
        intro hm
        obtain ⟨r, hr, hr0⟩ := hpre' h hm
        exact hr0 (hr.det hC e2)
      rcases List.append_eq_append_iff.1 hhs with ⟨a, h1, h2⟩ | ⟨a, h1, h2⟩
      · cases a with
        | nil => simp at h2; simp [h2.1]
        | cons b a =>
          simp at h2
          exact absurd (by rw [h1, h2.1]; simp) hnot
      · cases a with
        | nil => simp at h2; simp [h2.1]
        | cons b a =>
          simp at h2
          rw [List.mem_cons, h1, h2.1]
          simp
    | _ => cases hhs
  | @loc y h id nst nxt y' arcs r f hh e1 hr ih =>
    intro _ h0
    obtain ⟨N, hN⟩ := exists_bound (P := fun (arc : SDD V × SDD V) N =>
        HCall env C (.node id nst nxt) (.loc y h) (.hier y' arcs) nst h arc.1 → Term T nst h arc.1 N)
      (fun b n k hn hk hex => (hn hex).mono hk) arcs fun arc ha => by
        by_cases hc : HCall env C (.node id nst nxt) (.loc y h) (.hier y' arcs) nst h arc.1
        · obtain ⟨hS', ⟨t', ht'⟩, hs'⟩ := ht.call hcl hc hS hx
          obtain ⟨N, hN⟩ := run hS' ht' hs' (ih arc ha hS' ht' hs')
          exact ⟨N, fun _ => hN⟩
        · exact ⟨0, fun h => absurd h hc⟩
    refine ⟨N, fun n hn => ⟨trivial, ?_⟩⟩
    intro o' h' x' hc
    cases hc with
    | skip _ _ h1 => exact (hh.not_skip hx h1).elim
    | loc arc ha => exact hN arc ha (.loc arc ha) n hn
  | @satDone y F G L' o s a c d hh e1 e2 e3 hI hl ih1 ih2 ih3 =>
    intro _ h0
    have hst : Stop env (.satFix y F G L') o := hh.stop hx
    have hround : Round env C o F G L' s s := ⟨a, c 0, e1, e2, Chain.iff.2 ⟨c, d, rfl, hl, e3, hI⟩⟩
    obtain ⟨N, hN⟩ : ∃ N, ∀ n, N ≤ n → ∀ h' x', (h' = F ∧ x' = s ∨ (h' = L' ∧ Ev env C F o s x') ∨
        ∃ a b, Ev env C F o s a ∧ Ev env C L' o a b ∧ ChainCall env C o G b h' x') →
        T n o h' x' :=
      sat_calls hC e1 e2 e3 hI
        (by
          obtain ⟨hS', ⟨t', ht'⟩, hs'⟩ := ht.call hcl (.satF hst (.refl s)) hS hx
          exact run hS' ht' hs' (ih1 hS' ht' hs'))
        (by
          obtain ⟨hS', ⟨t', ht'⟩, hs'⟩ := ht.call hcl (.satL hst (.refl s) e1) hS hx
          exact run hS' ht' hs' (ih2 hS' ht' hs'))
        (by
          intro i hi hc
          obtain ⟨hS', ⟨t', ht'⟩, hs'⟩ := ht.call hcl (.satG hst (.refl s) e1 e2 hc) hS hx
          exact run hS' ht' hs' (ih3 i hi hS' ht' hs'))
    refine ⟨N + 1, fun n hn => ⟨fun _ => ?_, ?_⟩⟩
    · obtain ⟨n, rfl⟩ : ∃ n', n = n' + 1 := ⟨n - 1, by omega⟩
      exact .done hround
    intro o' h' x' hc
    cases hc with
    | skip _ _ h1 => exact (hh.not_skip hx h1).elim
    | satF _ hr =>
      rcases hr.step (fun _ _ _ e e' => e.det hC e') hround with rfl | ⟨h, _⟩
      · exact hN n (by omega) _ _ (Or.inl ⟨rfl, rfl⟩)
      · exact absurd rfl h
    | satL _ hr e' =>
      rcases hr.step (fun _ _ _ e e' => e.det hC e') hround with rfl | ⟨h, _⟩
      · exact hN n (by omega) _ _ (Or.inr (Or.inl ⟨rfl, e'⟩))
      · exact absurd rfl h
    | satG _ hr e' e'' hc =>
      rcases hr.step (fun _ _ _ e e' => e.det hC e') hround with rfl | ⟨h, _⟩
      · exact hN n (by omega) _ _ (Or.inr (Or.inr ⟨_, _, e', e'', hc⟩))
      · exact absurd rfl h
  | @satStep y F G L' o s a r c d hh e1 e2 e3 hI hl e4 ih1 ih2 ih3 ih4 =>
    intro _ h0
    have hst : Stop env (.satFix y F G L') o := hh.stop hx
    have hround : Round env C o F G L' s (c G.length) := ⟨a, c 0, e1, e2, Chain.iff.2 ⟨c, d, rfl, rfl, e3, hI⟩⟩
    obtain ⟨N, hN⟩ : ∃ N, ∀ n, N ≤ n → ∀ h' x', (h' = F ∧ x' = s ∨ (h' = L' ∧ Ev env C F o s x') ∨
        ∃ a b, Ev env C F o s a ∧ Ev env C L' o a b ∧ ChainCall env C o G b h' x') →
        T n o h' x' :=
      sat_calls hC e1 e2 e3 hI
        (by
          obtain ⟨hS', ⟨t', ht'⟩, hs'⟩ := ht.call hcl (.satF hst (.refl s)) hS hx
          exact run hS' ht' hs' (ih1 hS' ht' hs'))
        (by
          obtain ⟨hS', ⟨t', ht'⟩, hs'⟩ := ht.call hcl (.satL hst (.refl s) e1) hS hx
          exact run hS' ht' hs' (ih2 hS' ht' hs'))
        (by
          intro i hi hc
          obtain ⟨hS', ⟨t', ht'⟩, hs'⟩ := ht.call hcl (.satG hst (.refl s) e1 e2 hc) hS hx
          exact run hS' ht' hs' (ih3 i hi hS' ht' hs'))
    have hy : Dom C o.ty (c G.length) := (ht.call hcl (.satF hst (.head hround hl (.refl _))) hS hx).2.2
    obtain ⟨N2, hN2⟩ : ∃ N, ∀ n, N ≤ n → IterN (Round env C o F G L') (c G.length) n ∧
        ∀ s', Reach (Round env C o F G L') (c G.length) s' → ∀ h' x',
        (h' = F ∧ x' = s' ∨ (h' = L' ∧ Ev env C F o s' x') ∨
        ∃ a b, Ev env C F o s' a ∧ Ev env C L' o a b ∧ ChainCall env C o G b h' x') →
        T n o h' x' := by
      by_cases hy0 : c G.length = .zero
      · have hz : Round env C o F G L' .zero .zero := ⟨.zero, .zero, .zero _ _, .zero _ _, Chain.zero G⟩
        refine ⟨1, fun n hn => ⟨?_, fun s' hs' h' x' hc => ?_⟩⟩
        · obtain ⟨n, rfl⟩ : ∃ n', n = n' + 1 := ⟨n - 1, by omega⟩
          rw [hy0]
          exact .done hz
        · rw [hy0] at hs'
          rcases hs'.step (fun _ _ _ e e' => e.det hC e') hz with rfl | ⟨h, _⟩
          · have : x' = .zero := by
              rcases hc with ⟨_, h⟩ | ⟨_, h⟩ | ⟨a', b', h1, h2, h3⟩
              · exact h
              · exact h.of_zero
              · obtain rfl := h1.of_zero
                obtain rfl := h2.of_zero
                exact h3.of_zero rfl
            subst this
            exact zeroTerm hn
          · exact absurd rfl h
      · obtain ⟨N2, hN2⟩ := ih4 hS ht hy (by simp) hy0
        refine ⟨N2, fun n hn => ⟨(hN2 n hn).1 hst, ?_⟩⟩
        rintro s' hs' h' x' (⟨rfl, rfl⟩ | ⟨rfl, h⟩ | ⟨a', b', h1, h2, h3⟩)
        · exact (hN2 n hn).2 _ _ _ (.satF hst hs')
        · exact (hN2 n hn).2 _ _ _ (.satL hst hs' h)
        · exact (hN2 n hn).2 _ _ _ (.satG hst hs' h1 h2 h3)
    refine ⟨max N N2 + 1, fun n hn => ⟨fun _ => ?_, ?_⟩⟩
    · obtain ⟨n, rfl⟩ : ∃ n', n = n' + 1 := ⟨n - 1, by omega⟩
      exact .step hround hl (hN2 n (by omega)).1
    intro o' h' x' hc
    cases hc with
    | skip _ _ h1 => exact (hh.not_skip hx h1).elim
    | satF _ hr =>
      rcases hr.step (fun _ _ _ e e' => e.det hC e') hround with rfl | ⟨_, hr⟩
      · exact hN n (by omega) _ _ (Or.inl ⟨rfl, rfl⟩)
      · exact (hN2 n (by omega)).2 _ hr _ _ (Or.inl ⟨rfl, rfl⟩)
    | satL _ hr e' =>
      rcases hr.step (fun _ _ _ e e' => e.det hC e') hround with rfl | ⟨_, hr⟩
      · exact hN n (by omega) _ _ (Or.inr (Or.inl ⟨rfl, e'⟩))
      · exact (hN2 n (by omega)).2 _ hr _ _ (Or.inr (Or.inl ⟨rfl, e'⟩))
    | satG _ hr e' e'' hc =>
      rcases hr.step (fun _ _ _ e e' => e.det hC e') hround with rfl | ⟨_, hr⟩
      · exact hN n (by omega) _ _ (Or.inr (Or.inr ⟨_, _, e', e'', hc⟩))
      · exact (hN2 n (by omega)).2 _ hr _ _ (Or.inr (Or.inr ⟨_, _, e', e'', hc⟩))
  | @satInter y F G L' o s r f hh e1 hr ih =>
    intro _ h0
    have hst : Stop env (.satInter y F G L') o := hh.stop hx
    obtain ⟨N, hN⟩ := exists_bound (P := fun k N => Term T o k s N)
      (fun b n k hn hk => hn.mono hk) (F ++ G ++ L') fun k hk => by
        obtain ⟨hS', ⟨t', ht'⟩, hs'⟩ := ht.call hcl (.satInter hst hk) hS hx
        exact run hS' ht' hs' (ih k hk hS' ht' hs')
    refine ⟨N, fun n hn => ⟨trivial, ?_⟩⟩
    intro o' h' x' hc
    cases hc with
    | skip _ _ h1 => exact (hh.not_skip hx h1).elim
    | satInter _ hm => exact hN _ hm n hn
  | @satSum y F G L' o s r f hh e1 hr ih =>
    intro _ h0
    have hst : Stop env (.satSum y F G L') o := hh.stop hx
    obtain ⟨N, hN⟩ := exists_bound (P := fun k N => Term T o k s N)
      (fun b n k hn hk => hn.mono hk) (F ++ G ++ L') fun k hk => by
        obtain ⟨hS', ⟨t', ht'⟩, hs'⟩ := ht.call hcl (.satSum hst hk) hS hx
        exact run hS' ht' hs' (ih k hk hS' ht' hs')
    refine ⟨N, fun n hn => ⟨trivial, ?_⟩⟩
    intro o' h' x' hc
    cases hc with
    | skip _ _ h1 => exact (hh.not_skip hx h1).elim
    | satSum _ hm => exact hN _ hm n hn
  | @sum hs o x r f hh e1 hr ih =>
    intro _ h0
    have hst : Stop env (.sum hs) o := hh.stop hx
    obtain ⟨N, hN⟩ := exists_bound (P := fun k N => Term T o k x N)
      (fun b n k hn hk => hn.mono hk) hs fun k hk => by
        obtain ⟨hS', ⟨t', ht'⟩, hs'⟩ := ht.call hcl (.sum hst hk) hS hx
        exact run hS' ht' hs' (ih k hk hS' ht' hs')
    refine ⟨N, fun n hn => ⟨trivial, ?_⟩⟩
    intro o' h' x' hc
    cases hc with
    | skip _ _ h1 => exact (hh.not_skip hx h1).elim
    | sum _ hm => exact hN _ hm n hn

/-- When the meaning is defined, the evaluation terminates, and returns it. -/
theorem runH_total (hcl : sc.Closed) (hC : C.Lawful) (hov : C.limit = none ∨ L.allow .overflow)
    (hon : Honest env C) (hdd : ∀ t : Ty, t.IsShape → RecOK C L t dd) (hcall : CallSound env C sc L call)
    {h : Hom V I U} {o : OB I} {x r : SDD V} (e : Ev env C h o x r) {t : Ty} (hS : sc.S o) (ht : HTy env C sc o h t)
    (hx : Dom C o.ty x) : ∃ N, ∀ n, N ≤ n → L.Sat (runH env C dd call n h o x) (Ev env C h o x) := by
  refine Ev.term (T := fun n o h x => L.Sat (runH env C dd call n h o x) (Ev env C h o x)) hcl hC ?_ (fun _ _ _ => runH_zero) ?_ e hS ht hx
  · intro n o x
    rw [runH]
    simp only [Hom.isId, Bool.true_or, if_true]
    exact L.pure' (.id o x)
  · intro n o h t x hS ht hx h2 h1 hb hr
    rw [runH, if_neg]
    · refine hcall _ o h t x hS ht hx h2 h1 ?_
      exact homEval_sat hC hov hon hdd ht h1 hr (Or.inr hb) hx h2
    · rw [Bool.or_eq_true, Hom.isId_iff, isZero_iff]; simp [h1, h2]

end Verif
