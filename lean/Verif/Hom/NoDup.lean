import Verif.Hom.History
import Verif.DD.NoDup
/-!
# The cache of homomorphisms holds each application at most once and never exceeds its capacity

The cache stores the result of an application after the evaluation has returned, without looking again for its key
(`/repo/sdd/mem/cache.hh:236-258`): two entries would have the same key if an evaluation contained an evaluation of the same
homomorphism on the same operand. The applications made by an evaluation have a smaller operand, or operands of the same height and a
smaller homomorphism, even for fixpoints.
-/

set_option autoImplicit false
set_option linter.unusedSectionVars false

namespace Verif

variable {V E I U : Type} [DecidableEq V] [DecidableEq I] [DecidableEq U]
variable {env : User V I U} {C : Cfg V E} {sc : Scope I U} {orc : Nat → Nat → List Nat} {cap : OpKind → Nat} {hcap : Nat}

/-- The order on the applications: the height of the operand, then the size of the homomorphism.
(Specification or proof device, not part of the code.) -/
def AppLt (d s d' s' : Nat) : Prop := d < d' ∨ (d = d' ∧ s < s')

/-- The same, or equal. (Specification or proof device, not part of the code.) -/
def AppLe (d s d' s' : Nat) : Prop := d < d' ∨ (d = d' ∧ s ≤ s')

omit [DecidableEq I] in
theorem OB.depth_node {id : OId I} {nst nxt : OB I} : nxt.ty.depth < (OB.node id nst nxt).ty.depth ∧
    nst.ty.depth < (OB.node id nst nxt).ty.depth := by
  cases nst <;> simp only [OB.ty, Ty.depth] <;> omega

theorem ChainCall.mem {o : OB I} {G : List (Hom V I U)} {s z : SDD V} {g : Hom V I U} (h : ChainCall env C o G s g z) : g ∈ G := by
  induction h with
  | here => simp
  | there _ _ _ ih => exact List.mem_cons_of_mem _ ih

/-- The applications made by an evaluation are smaller. -/
theorem HTy.call_lt {o o' : OB I} {h h' : Hom V I U} {x x' : SDD V} {t : Ty} (ht : HTy env C sc o h t)
    (hs : HCall env C o h x o' h' x') (hx : Dom C o.ty x) : AppLt o'.ty.depth (sizeOf h') o.ty.depth (sizeOf h) := by
  have hin : ∀ {l : List (Hom V I U)} {k : Hom V I U}, k ∈ l → sizeOf k < sizeOf l := fun h => List.sizeOf_lt_of_mem h
  cases hs with
  | skip => exact Or.inl OB.depth_node.1
  | compR | compL | fix | iteI | iteT | iteE | satF | satL => exact Or.inr ⟨rfl, by simp <;> omega⟩
  | consF =>
    cases ht with
    | skip _ h => simp [Hom.skip] at h
    | consF _ h _ => exact Or.inr ⟨by rw [h], by simp; omega⟩
  | consH =>
    cases ht with
    | skip _ h => simp [Hom.skip] at h
    | consH _ h _ => exact Or.inr ⟨by rw [h], by simp; omega⟩
  | indF => exact Or.inl OB.depth_node.1
  | indH => exact Or.inl OB.depth_node.1
  | inter pre _ post =>
    have := hin (l := pre ++ h' :: post) (k := h') (by simp)
    exact Or.inr ⟨rfl, by simp only [Hom.inter.sizeOf_spec]; omega⟩
  | loc => exact Or.inl OB.depth_node.2
  | satG _ _ _ _ hc =>
    have := hin hc.mem
    exact Or.inr ⟨rfl, by simp only [Hom.satFix.sizeOf_spec]; omega⟩
  | @satInter _ _ F G L k _ _ hm =>
    refine Or.inr ⟨rfl, ?_⟩
    simp only [List.mem_append] at hm
    simp only [Hom.satInter.sizeOf_spec]
    rcases hm with (hm | hm) | hm <;> (have := hin hm; omega)
  | @satSum _ _ F G L k _ _ hm =>
    refine Or.inr ⟨rfl, ?_⟩
    simp only [List.mem_append] at hm
    simp only [Hom.satSum.sizeOf_spec]
    rcases hm with (hm | hm) | hm <;> (have := hin hm; omega)
  | sum _ hm =>
    have := hin hm
    exact Or.inr ⟨rfl, by simp only [Hom.sum.sizeOf_spec]; omega⟩

/-- Right entries, no duplicate, bounded size, for all the caches. (Specification or proof device, not part of the code.) -/
structure HGood (env : User V I U) (C : Cfg V E) (sc : Scope I U) (cap : OpKind → Nat) (hcap : Nat) (s : HMach V I U) : Prop where
  dd : CacheGood C cap s.dd
  ok : HomsOK env C sc s.homs
  nodup : (s.homs.map Prod.fst).Nodup
  size : s.homs.length ≤ hcap

/-- The applications added to the cache satisfy `B`. (Specification or proof device, not part of the code.) -/
def NewIn (B : Nat → Nat → Prop) (s s' : HMach V I U) : Prop :=
  ∀ e ∈ s'.homs, e.1 ∈ s.homs.map Prod.fst ∨ B e.1.2.height (sizeOf e.1.1)

theorem NewIn.refl (B : Nat → Nat → Prop) (s : HMach V I U) : NewIn B s s := fun _ he => Or.inl (List.mem_map_of_mem he)

theorem NewIn.trans {B : Nat → Nat → Prop} {s s' s'' : HMach V I U} (h1 : NewIn B s s') (h2 : NewIn B s' s'') : NewIn B s s'' := by
  intro e he
  rcases h2 e he with h | h
  · obtain ⟨e', he', h'⟩ := List.mem_map.1 h
    rw [← h']
    exact h1 e' he'
  · exact Or.inr h

theorem NewIn.mono {B B' : Nat → Nat → Prop} {s s' : HMach V I U} (h : NewIn B s s') (hB : ∀ d k, B d k → B' d k) : NewIn B' s s' :=
  fun e he => (h e he).imp id (hB _ _)

/-- Postconditions tracking the applications added to the cache of homomorphisms. (Specification or proof device, not part of the code.) -/
def homDup (env : User V I U) (C : Cfg V E) (sc : Scope I U) (orc : Nat → Nat → List Nat) (cap : OpKind → Nat) (hcap : Nat)
    (B : Nat → Nat → Prop) : Logic V (HM orc V I U) where
  Sat x P := ∀ s, HGood env C sc cap hcap s → HGood env C sc cap hcap (x s).2 ∧ NewIn B s (x s).2 ∧
    match (x s).1 with
    | .ok a => P a
    | .error _ => True
  allow := fun _ => True
  pure' h s hs := ⟨hs, .refl B s, h⟩
  bind' := by
    intro α β x f P Q h1 h2 s hs
    have h1 := h1 s hs
    have e : (x >>= f) s = match x s with
      | (.ok a, s') => f a s'
      | (.error e, s') => (.error e, s') := rfl
    rw [e]
    match hx : x s, h1 with
    | (.ok a, s'), h1 =>
      have h2 := h2 a h1.2.2 s' h1.1
      exact ⟨h2.1, h1.2.1.trans h2.2.1, h2.2.2⟩
    | (.error e, s'), h1 => exact ⟨h1.1, h1.2.1, trivial⟩
  raise' h s hs := ⟨hs, .refl B s, trivial⟩
  ord' l s hs := ⟨⟨⟨hs.dd.ok, hs.dd.nodup, hs.dd.size, hs.dd.keys⟩, hs.ok, hs.nodup, hs.size⟩, .refl B s, permBy_perm l _⟩
  mono' := by
    intro α x P Q h1 h2 s hs
    have h1 := h1 s hs
    match hx : (x s).1, h1 with
    | .ok a, h1 => exact ⟨h1.1, h1.2.1, h2 a h1.2.2⟩
    | .error e, h1 => exact ⟨h1.1, h1.2.1, trivial⟩

theorem homDup_weaken {B B' : Nat → Nat → Prop} (hB : ∀ d k, B d k → B' d k) {α : Type} {x : HM orc V I U α} {P : α → Prop}
    (h : (homDup env C sc orc cap hcap B).Sat x P) : (homDup env C sc orc cap hcap B').Sat x P := by
  intro s hs
  have h := h s hs
  exact ⟨h.1, h.2.1.mono hB, h.2.2⟩

theorem lift_dup {B : Nat → Nat → Prop} {d : Nat} {α : Type} {x : CM orc V α} {P : α → Prop} (h : (dupLogic C orc cap d).Sat x P) :
    (homDup env C sc orc cap hcap B).Sat (HM.lift x) P := by
  intro s hs
  have h := h s.dd hs.dd
  exact ⟨⟨h.1, hs.ok, hs.nodup, hs.size⟩, .refl B s, h.2.2⟩

theorem OpOK.depth_le_bound {t : Ty} (ht : t.IsShape) {op : Op V} (hop : OpOK C t op) : t.depth ≤ op.bound := by
  have key : ∀ {xs : List (SDD V)}, BGood SDD.isZero C.lt (Dom C t) xs → 2 ≤ xs.length → t.depth ≤ maxHeight xs := by
    intro xs hb hl
    match xs, hb, hl with
    | x :: l, hb, _ =>
      exact ((hb.dom x (by simp)).height_eq ht (ne_of_BGood hb (by simp))).trans (le_maxHeight x (by simp))
  cases op with
  | sum xs => exact key hop.1 hop.2
  | inter xs => exact key hop.1 hop.2
  | diff l r => exact (hop.1.height_eq ht hop.2.2.1).trans (le_maxHeight l (by simp))

theorem dup_dd (hC : C.Lawful) (hcp : ∀ k, 0 < cap k) {B : Nat → Nat → Prop} (t : Ty) (ht : t.IsShape) :
    RecOK C (homDup env C sc orc cap hcap B) t fun op => HM.lift (autoRun (runC C orc cap) op) := by
  intro op hop
  exact lift_dup (runC_dup hC hcp op.bound t (hop.depth_le_bound ht) op hop)

/-- The cache of homomorphisms, when the evaluation adds only smaller applications. -/
theorem homCache_dup (htr : Transfer env C sc) (hpos : 0 < hcap) {f : Hom V I U → OB I → SDD V → HM orc V I U (SDD V)} {o : OB I}
    {h : Hom V I U} {t : Ty} {x : SDD V} (hS : sc.S o) (ht : HTy env C sc o h t) (hx : Dom C o.ty x) (h0 : x ≠ .zero)
    (hf : (homDup env C sc orc cap hcap fun d k => AppLt d k o.ty.depth (sizeOf h)).Sat (f h o x) (Ev env C h o x)) :
    (homDup env C sc orc cap hcap fun d k => AppLe d k o.ty.depth (sizeOf h)).Sat (homCache hcap f h o x) (Ev env C h o x) := by
  have hlt : ∀ d k, AppLt d k o.ty.depth (sizeOf h) → AppLe d k o.ty.depth (sizeOf h) := by
    rintro d k (hd | ⟨hd, hk⟩)
    · exact Or.inl hd
    · exact Or.inr ⟨hd, hk.le⟩
  have hht : x.height = o.ty.depth := le_antisymm hx.height_le (hx.height_eq (OB.ty_shape o) h0)
  intro s hs
  unfold homCache
  split
  · split
    · rename_i r hr
      refine ⟨⟨hs.dd, fun e he => hs.ok e (mem_lruTouch.1 he), (lruTouch_keys _ _).nodup_iff.2 hs.nodup,
        (lruTouch_perm _ _).length_eq.trans_le hs.size⟩, fun e he => Or.inl (List.mem_map_of_mem (mem_lruTouch.1 he)), ?_⟩
      obtain ⟨o', t', hS', ht', hx', _, he⟩ := hs.ok _ (lruFind_mem hr)
      exact htr o' o h t' t x r hS' hS (hx'.ty_unique hx (OB.ty_shape o') (OB.ty_shape o) h0) ht' ht hx' he
    · rename_i hmiss
      have hf := hf s hs
      split
      · rename_i e s' he
        rw [he] at hf
        exact ⟨hf.1, hf.2.1.mono hlt, trivial⟩
      · rename_i r s' he
        rw [he] at hf
        obtain ⟨c', hc'⟩ := lruInsert_isSome (pick := (orc s'.dd.tick 0).headD 0) (c := s'.homs) (k := (h, x)) (r := r) hpos
        rw [hc']
        obtain ⟨h1, h2, h3⟩ := hf
        have hnot : (h, x) ∉ s'.homs.map Prod.fst := by
          intro hm
          obtain ⟨e, he, heq⟩ := List.mem_map.1 hm
          rcases h2 e he with hk | hk
          · rw [heq] at hk
            obtain ⟨e', he', heq'⟩ := List.mem_map.1 hk
            have hn := lruFind_none.1 hmiss e'.2
            obtain ⟨a, b⟩ := e'
            simp only at heq' hn
            subst heq'
            exact hn he'
          · rw [heq] at hk
            simp only [hht] at hk
            rcases hk with hk | hk <;> omega
        have hk := lruInsert_keys hc' h1.nodup hnot h1.size
        refine ⟨⟨⟨h1.dd.ok, h1.dd.nodup, h1.dd.size, h1.dd.keys⟩, fun e he => ?_, hk.1, hk.2⟩, fun e he => ?_, h3⟩
        · rcases mem_lruInsert hc' he with he | rfl
          · exact h1.ok e he
          · exact ⟨o, t, hS, ht, hx, h0, h3⟩
        · rcases mem_lruInsert hc' he with he | rfl
          · exact (h2 e he).imp id (hlt _ _)
          · exact Or.inr (Or.inr ⟨hht, le_rfl⟩)
  · exact homDup_weaken hlt hf s hs

/-- An application keeps all the caches without duplicate and within their capacities. -/
theorem runH_dup (hcl : sc.Closed) (hC : C.Lawful) (hon : Honest env C)
    {dd : Op V → HM orc V I U (SDD V)} (hdd : ∀ B (t : Ty), t.IsShape → RecOK C (homDup env C sc orc cap hcap B) t dd)
    {call : (Hom V I U → OB I → SDD V → HM orc V I U (SDD V)) → Hom V I U → OB I → SDD V → HM orc V I U (SDD V)}
    (hcall : ∀ f o h t x, sc.S o → HTy env C sc o h t → Dom C o.ty x → x ≠ .zero → h ≠ .id →
      (homDup env C sc orc cap hcap fun d k => AppLt d k o.ty.depth (sizeOf h)).Sat (f h o x) (Ev env C h o x) →
      (homDup env C sc orc cap hcap fun d k => AppLe d k o.ty.depth (sizeOf h)).Sat (call f h o x) (Ev env C h o x)) (n : Nat) :
    ∀ o h t x, sc.S o → HTy env C sc o h t → Dom C o.ty x →
      (homDup env C sc orc cap hcap fun d k => AppLe d k o.ty.depth (sizeOf h)).Sat (runH env C dd call n h o x) (Ev env C h o x) := by
  induction n with
  | zero => intro o h t x _ _ _; exact (homDup env C sc orc cap hcap _).raise' trivial
  | succ n ih =>
    intro o h t x hS ht hx
    rw [runH]
    split
    · rename_i hc
      rw [Bool.or_eq_true, Hom.isId_iff, isZero_iff] at hc
      rcases hc with rfl | rfl
      · exact (homDup env C sc orc cap hcap _).pure' (.id o x)
      · exact (homDup env C sc orc cap hcap _).pure' (.zero h o)
    · rename_i hc
      rw [Bool.or_eq_true, Hom.isId_iff, isZero_iff, not_or] at hc
      refine hcall _ o h t x hS ht hx hc.2 hc.1 ?_
      refine homEval_sat (L := homDup env C sc orc cap hcap _) hC (Or.inr trivial) hon (hdd _) ht hc.1 (fun o' h' x' hs => ?_)
        (Or.inl trivial) hx hc.2
      obtain ⟨h1, ⟨t', h2⟩, h3⟩ := ht.call hcl hs hS hx
      have hlt := ht.call_lt hs hx
      refine homDup_weaken ?_ (ih o' h' t' x' h1 h2 h3)
      rintro d k (hd | ⟨hd, hk⟩) <;> rcases hlt with h4 | ⟨h4, h5⟩ <;> simp only [AppLt] <;> omega

theorem guardH_dup {B : Nat → Nat → Prop} {stop : Nat → Option (Err V)} {α : Type} {x : HM orc V I U α} {P : α → Prop}
    (h : (homDup env C sc orc cap hcap B).Sat x P) : (homDup env C sc orc cap hcap B).Sat (guardH stop x) P := by
  intro s hs
  have hs' : HGood env C sc cap hcap { s with dd := { s.dd with tick := s.dd.tick + 1 } } :=
    ⟨⟨hs.dd.ok, hs.dd.nodup, hs.dd.size, hs.dd.keys⟩, hs.ok, hs.nodup, hs.size⟩
  unfold guardH
  split
  · exact ⟨hs', .refl B s, trivial⟩
  · exact h _ hs'

section
variable {L : Lib V E I U}

/-- All the caches, for a configured library. (Specification or proof device, not part of the code.) -/
abbrev Lib.Good (L : Lib V E I U) (sc : Scope I U) (s : HMach V I U) : Prop := HGood L.env L.C sc L.cap L.hcap s

theorem Lib.OK.dup (hL : L.OK sc) {n : Nat} {h : Hom V I U} {o : OB I} {x : SDD V} (hu : L.Use sc h o x) {s : HMach V I U}
    (hs : L.Good sc s) : L.Good sc (L.apply n h o x s).2 := by
  obtain ⟨t, ht⟩ := hu.ty
  exact (runH_dup hL.closed hL.lawful hL.honest (fun B t ht => dup_dd hL.lawful hL.cap t ht)
    (fun f o h t x h1 h2 h3 h4 _ h6 => homCache_dup hL.transfer hL.hcap h1 h2 h3 h4 h6) n o h t x hu.order ht hu.dom s hs).1

theorem Lib.OK.dupX (hL : L.OK sc) {stop : Nat → Option (Err V)} {n : Nat} {h : Hom V I U} {o : OB I} {x : SDD V}
    (hu : L.Use sc h o x) {s : HMach V I U} (hs : L.Good sc s) : L.Good sc (L.applyX stop n h o x s).2 := by
  obtain ⟨t, ht⟩ := hu.ty
  refine (runH_dup hL.closed hL.lawful hL.honest (fun B t ht op hop => ?_)
    (fun f o h t x h1 h2 h3 h4 _ h6 => ?_) n o h t x hu.order ht hu.dom s hs).1
  · exact lift_dup (guardX_dup (runX_dup hL.lawful hL.cap op.bound t (hop.depth_le_bound ht) op hop))
  · refine guardH_dup (homCache_dup hL.transfer hL.hcap h1 h2 h3 h4 ?_)
    exact (homDup L.env L.C sc L.orc L.cap L.hcap _).bind' (guardH_dup h6)
      fun r hr => guardH_dup ((homDup L.env L.C sc L.orc L.cap L.hcap _).pure' hr)

/-! ## When the code of the user uses the library -/

/-- The applications added to the cache are not in `st`. (Specification or proof device, not part of the code.) -/
def NewOut (st : List (Hom V I U × SDD V)) (s s' : HMach V I U) : Prop := ∀ e ∈ s'.homs, e.1 ∈ s.homs.map Prod.fst ∨ e.1 ∉ st

theorem NewOut.refl (st : List (Hom V I U × SDD V)) (s : HMach V I U) : NewOut st s s := fun _ he => Or.inl (List.mem_map_of_mem he)

theorem NewOut.trans {st : List (Hom V I U × SDD V)} {s s' s'' : HMach V I U} (h1 : NewOut st s s') (h2 : NewOut st s' s'') :
    NewOut st s s'' := by
  intro e he
  rcases h2 e he with h | h
  · obtain ⟨e', he', h'⟩ := List.mem_map.1 h
    rw [← h']
    exact h1 e' he'
  · exact Or.inr h

/-- Postconditions telling that the applications in progress are not added to the cache. (Specification or proof device, not part of the code.) -/
def outLogic (env : User V I U) (C : Cfg V E) (sc : Scope I U) (orc : Nat → Nat → List Nat) (cap : OpKind → Nat) (hcap : Nat)
    (st : List (Hom V I U × SDD V)) : Logic V (RM orc V I U) where
  Sat x P := ∀ s, HGood env C sc cap hcap s → HGood env C sc cap hcap (x st s).2 ∧ NewOut st s (x st s).2 ∧
    match (x st s).1 with
    | .ok a => P a
    | .error _ => True
  allow := fun _ => True
  pure' h s hs := ⟨hs, .refl st s, h⟩
  bind' := by
    intro α β x f P Q h1 h2 s hs
    have h1 := h1 s hs
    have e : (x >>= f) st s = match x st s with
      | (.ok a, s') => f a st s'
      | (.error e, s') => (.error e, s') := rfl
    rw [e]
    match hx : x st s, h1 with
    | (.ok a, s'), h1 =>
      have h2 := h2 a h1.2.2 s' h1.1
      exact ⟨h2.1, h1.2.1.trans h2.2.1, h2.2.2⟩
    | (.error e, s'), h1 => exact ⟨h1.1, h1.2.1, trivial⟩
  raise' h s hs := ⟨hs, .refl st s, trivial⟩
  ord' l s hs := ⟨⟨⟨hs.dd.ok, hs.dd.nodup, hs.dd.size, hs.dd.keys⟩, hs.ok, hs.nodup, hs.size⟩, .refl st s, permBy_perm l _⟩
  mono' := by
    intro α x P Q h1 h2 s hs
    have h1 := h1 s hs
    match hx : (x st s).1, h1 with
    | .ok a, h1 => exact ⟨h1.1, h1.2.1, h2 a h1.2.2⟩
    | .error e, h1 => exact ⟨h1.1, h1.2.1, trivial⟩

theorem userR_out {st : List (Hom V I U × SDD V)} {act : Acts V I U}
    (hact : ∀ st k s, HGood env C sc cap hcap s → HGood env C sc cap hcap (act st k s).2 ∧ NewOut st s (act st k s).2) {α : Type}
    {x : RM orc V I U α} {P : α → Prop} (h : (outLogic env C sc orc cap hcap st).Sat x P) :
    (outLogic env C sc orc cap hcap st).Sat (userR act x) P := by
  intro s hs
  have h1 := hact st s.dd.tick { s with dd := { s.dd with tick := s.dd.tick + 1 } }
    ⟨⟨hs.dd.ok, hs.dd.nodup, hs.dd.size, hs.dd.keys⟩, hs.ok, hs.nodup, hs.size⟩
  unfold userR
  split
  · rename_i e s' he
    rw [he] at h1
    exact ⟨h1.1, h1.2, trivial⟩
  · rename_i s' he
    rw [he] at h1
    have h2 := h s' h1.1
    exact ⟨h2.1, NewOut.trans (s := s) h1.2 h2.2.1, h2.2.2⟩

theorem lift_out {st : List (Hom V I U × SDD V)} {d : Nat} {α : Type} {x : CM orc V α} {P : α → Prop}
    (h : (dupLogic C orc cap d).Sat x P) : (outLogic env C sc orc cap hcap st).Sat (fun _ => HM.lift x) P := by
  intro s hs
  have h := h s.dd hs.dd
  exact ⟨⟨h.1, hs.ok, hs.nodup, hs.size⟩, .refl st s, h.2.2⟩

/-- The cache of homomorphisms, when the application is not in progress and its evaluation does not add it to the cache. -/
theorem homCacheR_out (htr : Transfer env C sc) (hpos : 0 < hcap) {f : Hom V I U → OB I → SDD V → RM orc V I U (SDD V)} {o : OB I}
    {h : Hom V I U} {t : Ty} {x : SDD V} {st : List (Hom V I U × SDD V)} (hS : sc.S o) (ht : HTy env C sc o h t) (hx : Dom C o.ty x)
    (h0 : x ≠ .zero) (hst : (h, x) ∉ st)
    (hf : (outLogic env C sc orc cap hcap (if h.shouldCache then (h, x) :: st else st)).Sat (f h o x) (Ev env C h o x)) :
    (outLogic env C sc orc cap hcap st).Sat (homCacheR hcap f h o x) (Ev env C h o x) := by
  intro s hs
  unfold homCacheR homCache
  split
  · rename_i hc
    rw [if_pos hc] at hf
    simp only [hc, if_true]
    split
    · rename_i r hr
      refine ⟨⟨hs.dd, fun e he => hs.ok e (mem_lruTouch.1 he), (lruTouch_keys _ _).nodup_iff.2 hs.nodup,
        (lruTouch_perm _ _).length_eq.trans_le hs.size⟩, fun e he => Or.inl (List.mem_map_of_mem (mem_lruTouch.1 he)), ?_⟩
      obtain ⟨o', t', hS', ht', hx', _, he⟩ := hs.ok _ (lruFind_mem hr)
      exact htr o' o h t' t x r hS' hS (hx'.ty_unique hx (OB.ty_shape o') (OB.ty_shape o) h0) ht' ht hx' he
    · rename_i hmiss
      have hf := hf s hs
      have hw : ∀ {s'}, NewOut ((h, x) :: st) s s' → NewOut st s s' := fun hn e he =>
        (hn e he).imp id fun hk hm => hk (List.mem_cons_of_mem _ hm)
      split
      · rename_i e s' he
        rw [he] at hf
        exact ⟨hf.1, hw hf.2.1, trivial⟩
      · rename_i r s' he
        rw [he] at hf
        obtain ⟨c', hc'⟩ := lruInsert_isSome (pick := (orc s'.dd.tick 0).headD 0) (c := s'.homs) (k := (h, x)) (r := r) hpos
        rw [hc']
        obtain ⟨h1, h2, h3⟩ := hf
        have hnot : (h, x) ∉ s'.homs.map Prod.fst := by
          intro hm
          obtain ⟨e, he, heq⟩ := List.mem_map.1 hm
          rcases h2 e he with hk | hk
          · rw [heq] at hk
            obtain ⟨e', he', heq'⟩ := List.mem_map.1 hk
            have hn := lruFind_none.1 hmiss e'.2
            obtain ⟨a, b⟩ := e'
            simp only at heq' hn
            subst heq'
            exact hn he'
          · rw [heq] at hk
            simp at hk
        have hk := lruInsert_keys hc' h1.nodup hnot h1.size
        refine ⟨⟨⟨h1.dd.ok, h1.dd.nodup, h1.dd.size, h1.dd.keys⟩, fun e he => ?_, hk.1, hk.2⟩, fun e he => ?_, h3⟩
        · rcases mem_lruInsert hc' he with he | rfl
          · exact h1.ok e he
          · exact ⟨o, t, hS, ht, hx, h0, h3⟩
        · rcases mem_lruInsert hc' he with he | rfl
          · exact hw h2 e he
          · exact Or.inr hst
  · rename_i hc
    rw [if_neg hc] at hf
    simp only [hc]
    exact hf s hs

/-- The applications made at any depth are smaller or the same. -/
theorem HCalls.le (hcl : sc.Closed) {o o' : OB I} {h h' : Hom V I U} {x x' : SDD V} (hc : HCalls env C o h x o' h' x') :
    ∀ {t : Ty}, sc.S o → HTy env C sc o h t → Dom C o.ty x →
      Dom C o'.ty x' ∧ AppLe o'.ty.depth (sizeOf h') o.ty.depth (sizeOf h) := by
  induction hc with
  | refl => intro t _ _ hx; exact ⟨hx, Or.inr ⟨rfl, Nat.le_refl _⟩⟩
  | step h1 _ ih =>
    intro t hS ht hx
    obtain ⟨h2, ⟨t', h3⟩, h4⟩ := ht.call hcl h1 hS hx
    have h5 := ht.call_lt h1 hx
    obtain ⟨h6, h7⟩ := ih h2 h3 h4
    refine ⟨h6, ?_⟩
    rcases h5 with h5 | ⟨h5, h5'⟩ <;> rcases h7 with h7 | ⟨h7, h7'⟩ <;> simp only [AppLe] <;> omega

/-- An application does not need itself. -/
theorem Lib.Free.push (hL : L.OK sc) {o o' : OB I} {h h' : Hom V I U} {x x' : SDD V} {t : Ty} {st : List (Hom V I U × SDD V)}
    (hf : L.Free st h o x) (hS : sc.S o) (ht : HTy L.env L.C sc o h t) (hx : Dom L.C o.ty x) (h0 : x ≠ .zero)
    (hc : HCall L.env L.C o h x o' h' x') : L.Free ((h, x) :: st) h' o' x' := by
  intro o2 h2 x2 hc2 hm
  rw [List.mem_cons] at hm
  rcases hm with hm | hm
  · cases hm
    obtain ⟨h3, ⟨t', h4⟩, h5⟩ := ht.call hL.closed hc hS hx
    have h6 := ht.call_lt hc hx
    obtain ⟨h7, h8⟩ := hc2.le hL.closed h3 h4 h5
    have e1 := le_antisymm hx.height_le (hx.height_eq (OB.ty_shape o) h0)
    have e2 := le_antisymm h7.height_le (h7.height_eq (OB.ty_shape o2) h0)
    rcases h6 with h6 | ⟨h6, h6'⟩ <;> rcases h8 with h8 | ⟨h8, h8'⟩ <;> omega
  · exact hf o2 h2 x2 (.step hc hc2) hm

/-- An application during which the code of the user uses the library without evaluating applications in progress. -/
theorem Lib.OK.dupR (hL : L.OK sc) {act : Acts V I U} {stop : Nat → Option (Err V)}
    (hact : ∀ st k s, L.Good sc s → L.Good sc (act st k s).2 ∧ NewOut st s (act st k s).2) (n : Nat) :
    ∀ {h : Hom V I U} {o : OB I} {x : SDD V} {st : List (Hom V I U × SDD V)}, L.Use sc h o x → L.Free st h o x →
      (outLogic L.env L.C sc L.orc L.cap L.hcap st).Sat (L.applyR act stop n h o x) (Ev L.env L.C h o x) := by
  induction n with
  | zero => intro h o x st _ _; exact (outLogic L.env L.C sc L.orc L.cap L.hcap st).raise' trivial
  | succ n ih =>
    intro h o x st hu hfree
    obtain ⟨hS, ⟨t, ht⟩, hx⟩ := hu
    unfold Lib.applyR
    rw [runH]
    split
    · rename_i hc
      rw [Bool.or_eq_true, Hom.isId_iff, isZero_iff] at hc
      rcases hc with rfl | rfl
      · exact (outLogic L.env L.C sc L.orc L.cap L.hcap st).pure' (.id o x)
      · exact (outLogic L.env L.C sc L.orc L.cap L.hcap st).pure' (.zero h o)
    · rename_i hc
      rw [Bool.or_eq_true, Hom.isId_iff, isZero_iff, not_or] at hc
      refine userR_out hact (homCacheR_out hL.transfer hL.hcap hS ht hx hc.2 (hfree _ _ _ (.refl _ _ _)) ?_)
      refine (outLogic L.env L.C sc L.orc L.cap L.hcap _).bind' (userR_out hact ?_)
        fun r hr => userR_out hact ((outLogic L.env L.C sc L.orc L.cap L.hcap _).pure' hr)
      refine homEval_sat (L := outLogic L.env L.C sc L.orc L.cap L.hcap _) hL.lawful (Or.inr trivial) hL.honest
        (fun t ht op hop => ?_) ht hc.1 (fun o' h' x' hs => ?_) (Or.inl trivial) hx hc.2
      · exact userR_out hact (lift_out (guardX_dup (runX_dup hL.lawful hL.cap op.bound t (hop.depth_le_bound ht) op hop)))
      · obtain ⟨h1, h2, h3⟩ := ht.call hL.closed hs hS hx
        have hp := hfree.push hL hS ht hx hc.2 hs
        refine ih ⟨h1, h2, h3⟩ ?_
        split
        · exact hp
        · exact fun o2 h2 x2 hc2 hm => hp o2 h2 x2 hc2 (List.mem_cons_of_mem _ hm)

/-- What the code of the user does adds no application in progress to the cache. -/
theorem Lib.Nested.good (hL : L.OK sc) {st : List (Hom V I U × SDD V)} {s s' : HMach V I U} (h : L.Nested sc st s s')
    (hs : L.Good sc s) : L.Good sc s' ∧ NewOut st s s' := by
  induction h with
  | refl st s => exact ⟨hs, .refl st s⟩
  | apply act stop n _ _ hu hf ih iha =>
    have ih := ih hs
    have := hL.dupR (act := act) (stop := stop) (fun st k s hs => iha st k s hs) n hu hf _ ih.1
    exact ⟨this.1, ih.2.trans this.2.1⟩
  | call stop c _ hw ih =>
    have ih := ih hs
    exact ⟨⟨Call.runX_dup hL.lawful hL.cap hw ih.1.dd, ih.1.ok, ih.1.nodup, ih.1.size⟩, ih.2⟩
  | resetHom _ ih =>
    have ih := (ih hs).1
    exact ⟨⟨ih.dd, fun e he => by simp at he, by simp, by simp⟩, fun e he => by simp at he⟩
  | resetDD _ ih =>
    have ih := ih hs
    exact ⟨⟨⟨fun k e he => by simp at he, fun k => by simp, fun k => by simp, fun k e he => by simp at he⟩, ih.1.ok, ih.1.nodup, ih.1.size⟩, ih.2⟩

theorem Lib.Free.nil (h : Hom V I U) (o : OB I) (x : SDD V) : L.Free [] h o x := fun _ _ _ _ hm => by simp at hm

/-- The caches after any history. -/
theorem Lib.Reach.good (hL : L.OK sc) {s : HMach V I U} (h : L.Reach sc s) : L.Good sc s := by
  have hok := h.ok hL
  induction h with
  | init => exact ⟨⟨fun k e he => by simp at he, fun k => by simp, fun k => by simp, fun k e he => by simp at he⟩,
      fun e he => by simp at he, by simp, by simp⟩
  | apply n h1 hu ih => exact hL.dup hu (ih hL (h1.ok hL))
  | thrown stop n h1 hu ih => exact hL.dupX hu (ih hL (h1.ok hL))
  | reenter act stop n h1 hact hu ih =>
    exact (hL.dupR (fun st k s hs => (hact st k s).good hL hs) n hu (.nil _ _ _) _ (ih hL (h1.ok hL))).1
  | call c h1 hw ih =>
    have ih := ih hL (h1.ok hL)
    exact ⟨Call.run_dup hL.lawful hL.cap hw ih.dd, ih.ok, ih.nodup, ih.size⟩
  | callThrown stop c h1 hw ih =>
    have ih := ih hL (h1.ok hL)
    exact ⟨Call.runX_dup hL.lawful hL.cap hw ih.dd, ih.ok, ih.nodup, ih.size⟩
  | resetHom h1 ih =>
    have ih := ih hL (h1.ok hL)
    exact ⟨ih.dd, fun e he => by simp at he, by simp, by simp⟩
  | resetDD h1 ih =>
    have ih := ih hL (h1.ok hL)
    exact ⟨⟨fun k e he => by simp at he, fun k => by simp, fun k => by simp, fun k e he => by simp at he⟩, ih.ok, ih.nodup, ih.size⟩
  | realloc lt env h1 hL0 hlt hl hU hc ih =>
    have ih := ih hL0 (h1.ok hL0)
    refine ⟨⟨hok.1, ih.dd.nodup, ih.dd.size, fun k e he => ?_⟩, hok.2, ih.nodup, ih.size⟩
    exact OpOK.withLt (lt := lt) (ih.dd.keys k e he) fun x hx y hy a b ha hb =>
      hl a b (Or.inl ⟨k, e, he, Or.inl ⟨x, hx, ha⟩⟩) (Or.inl ⟨k, e, he, Or.inl ⟨y, hy, hb⟩⟩)

end
end Verif
