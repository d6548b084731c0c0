import Verif.Hom.BuildSum
/-!
# The homomorphisms which can be built

All the homomorphisms a user may hold, by any sequence of calls to the functions which build them.
-/

set_option autoImplicit false
set_option linter.unusedSectionVars false

namespace Verif

variable {V E I U : Type} [DecidableEq V] [DecidableEq I] [DecidableEq U]

/-- The homomorphisms obtained with the functions of the library (`carrier` and `function` are made of `local`).
(Specification or proof device, not part of the code.) -/
inductive Built (env : User V I U) (lt : Hom V I U → Hom V I U → Bool)
    (ord : List (Nat × List (Hom V I U)) → List (Nat × List (Hom V I U))) : Hom V I U → Prop where
  | id : Built env lt ord .id
  | const (s : SDD V) : Built env lt ord (.const s)
  | consF (o : OB I) (v : V) {h : Hom V I U} : Built env lt ord h → Built env lt ord (.consF o v h)
  | consH (o : OB I) (v : SDD V) {h : Hom V I U} : Built env lt ord h → Built env lt ord (.consH o v h)
  | fn (x : Nat) (u : U) : Built env lt ord (.fn x u)
  | ind (u : U) : Built env lt ord (.ind u)
  | comp {a b : Hom V I U} : Built env lt ord a → Built env lt ord b → Built env lt ord (hcomp a b)
  | sum {hs : List (Hom V I U)} {h : Hom V I U} : (∀ g ∈ hs, Built env lt ord g) → hsum lt ord hs = .ok h → Built env lt ord h
  | inter {hs : List (Hom V I U)} {h : Hom V I U} : (∀ g ∈ hs, Built env lt ord g) → hinter lt ord hs = .ok h →
      Built env lt ord h
  | fix {h : Hom V I U} : Built env lt ord h → Built env lt ord (hfix h)
  | ite {i t e h : Hom V I U} : Built env lt ord i → Built env lt ord t → Built env lt ord e → hite env i t e = .ok h →
      Built env lt ord h
  | loc (x : Nat) {h : Hom V I U} : Built env lt ord h → Built env lt ord (hloc x h)
  | rewrite (o : OB I) {h : Hom V I U} : Built env lt ord h → Built env lt ord (hrewrite env lt ord o h)

theorem hloc_noEmpty {x : Nat} {h : Hom V I U} (hh : h.noEmpty = true) : (hloc x h).noEmpty = true := by
  unfold hloc
  split
  · exact hh
  · simpa [Hom.noEmpty] using hh

theorem hfix_noEmpty {h : Hom V I U} (hh : h.noEmpty = true) : (hfix h).noEmpty = true := by
  unfold hfix
  split
  · rfl
  · exact hh
  · simpa [Hom.noEmpty] using hh

theorem hcompGen_noEmpty {l r : Hom V I U} (hl : l.noEmpty = true) (hr : r.noEmpty = true) : (hcompGen l r).noEmpty = true := by
  unfold hcompGen
  split
  · exact hr
  · split
    · exact hl
    · rfl

theorem hcompLoc_noEmpty {x : Nat} {a : Hom V I U} {rec : Hom V I U → Hom V I U} (ha : a.noEmpty = true)
    (hrec : ∀ r : Hom V I U, r.noEmpty = true → (rec r).noEmpty = true) {r : Hom V I U} (hr : r.noEmpty = true) :
    (hcompLoc x a rec r).noEmpty = true := by
  unfold hcompLoc
  split
  · split
    · exact hloc_noEmpty (hrec _ (by simpa [Hom.noEmpty] using hr))
    · rfl
  · rfl
  · exact hcompGen_noEmpty (by simpa [Hom.noEmpty] using ha) hr

theorem hcomp_noEmpty {l : Hom V I U} : ∀ {r : Hom V I U}, l.noEmpty = true → r.noEmpty = true → (hcomp l r).noEmpty = true := by
  induction l using Hom.induct with
  | loc x a ih =>
    intro r hl hr
    unfold hcomp
    have hl' : a.noEmpty = true := by simpa [Hom.noEmpty] using hl
    exact hcompLoc_noEmpty hl' (fun r hr => ih hl' hr) hr
  | comp l1 l2 =>
    intro r hl hr
    cases r <;> rfl
  | _ =>
    intro r hl hr
    unfold hcomp
    exact hcompGen_noEmpty hl hr

variable {env : User V I U} {lt : Hom V I U → Hom V I U → Bool}
  {ord : List (Nat × List (Hom V I U)) → List (Nat × List (Hom V I U))}

theorem hparts_mem {x : Nat} {i : OId I} (hs : List (Hom V I U)) : (∀ h ∈ (hparts env x i hs).F, h ∈ hs) ∧
    ∀ h ∈ (hparts env x i hs).L, ∃ y, .loc y h ∈ hs := by
  induction hs with
  | nil => simp [hparts]
  | cons g hs ih =>
    unfold hparts
    dsimp only
    split
    · exact ⟨fun h hm => List.mem_cons_of_mem _ (ih.1 h hm), fun h hm => by
        obtain ⟨y, hy⟩ := ih.2 h hm; exact ⟨y, List.mem_cons_of_mem _ hy⟩⟩
    · split
      · refine ⟨fun h hm => ?_, fun h hm => by obtain ⟨y, hy⟩ := ih.2 h hm; exact ⟨y, List.mem_cons_of_mem _ hy⟩⟩
        rcases List.mem_cons.1 hm with rfl | hm
        · exact List.mem_cons_self
        · exact List.mem_cons_of_mem _ (ih.1 h hm)
      · split
        · refine ⟨fun h hm => List.mem_cons_of_mem _ (ih.1 h hm), fun h hm => ?_⟩
          rcases List.mem_cons.1 hm with rfl | hm
          · exact ⟨_, List.mem_cons_self⟩
          · obtain ⟨y, hy⟩ := ih.2 h hm; exact ⟨y, List.mem_cons_of_mem _ hy⟩
        · exact ⟨fun h hm => List.mem_cons_of_mem _ (ih.1 h hm), fun h hm => by
            obtain ⟨y, hy⟩ := ih.2 h hm; exact ⟨y, List.mem_cons_of_mem _ hy⟩⟩

theorem hsatSum_noEmpty {x : Nat} {F L : Option (Hom V I U)} {G : List (Hom V I U)} (hF : ∀ f, F = some f → f.noEmpty = true)
    (hL : ∀ f, L = some f → f.noEmpty = true) : (hsatSum lt x F G L).noEmpty = true := by
  unfold hsatSum
  split
  · exact hF _ rfl
  · exact hL _ rfl
  · rfl

theorem hsatInter_noEmpty {x : Nat} {F L : Option (Hom V I U)} {G : List (Hom V I U)} (hF : ∀ f, F = some f → f.noEmpty = true)
    (hL : ∀ f, L = some f → f.noEmpty = true) : (hsatInter lt x F G L).noEmpty = true := by
  unfold hsatInter
  split
  · exact hF _ rfl
  · exact hL _ rfl
  · rfl

theorem hsatFix_noEmpty {x : Nat} {F L : Hom V I U} {G : List (Hom V I U)} (hF : F.noEmpty = true) (hL : L.noEmpty = true) :
    (hsatFix lt x F G L).noEmpty = true := by
  unfold hsatFix
  split
  · exact hF
  · split
    · exact hL
    · rfl

theorem hrewrite_noEmpty (hlt : StrictTotal lt) (hord : Iterates ord) (o : OB I) : ∀ {h : Hom V I U}, h.noEmpty = true →
    (hrewrite env lt ord o h).noEmpty = true := by
  induction o with
  | nil => intro h hh; unfold hrewrite; exact hh
  | node id nst nxt ihn ih =>
    have hF : ∀ hs : List (Hom V I U), (∀ h ∈ hs, h.noEmpty = true) → (∀ h ∈ (hparts env nxt.lvl id hs).F, h.noEmpty = true) ∧
        ∀ h ∈ (hparts env nxt.lvl id hs).L, h.noEmpty = true := by
      intro hs hn
      refine ⟨fun h hm => hn h ((hparts_mem hs).1 h hm), fun h hm => ?_⟩
      obtain ⟨y, hy⟩ := (hparts_mem hs).2 h hm
      simpa [Hom.noEmpty] using hn _ hy
    have hFi : ∀ hs : List (Hom V I U), (∀ h ∈ hs, h.noEmpty = true) → ∀ h ∈ hs ++ [Hom.id], h.noEmpty = true := by
      intro hs hn h hm
      rcases List.mem_append.1 hm with hm | hm
      · exact hn h hm
      · rw [List.mem_singleton] at hm; subst hm; rfl
    have hnar : ∀ (K : NAry) (hs : List (Hom V I U)), hs ≠ [] → (∀ h ∈ hs, h.noEmpty = true) →
        (hnary K lt ord hs).noEmpty = true := fun K hs h1 h2 => hnary_noEmpty hlt hord hs h1 h2
    intro h hh
    unfold hrewrite
    split
    · exact hh
    · rename_i hs he
      cases he
      have hn := (noEmpty_mk (K := .sum)).1 hh
      obtain ⟨h1, h2⟩ := hF _ hn.2
      dsimp only
      split
      · exact hh
      · refine hsatSum_noEmpty (fun f hf => ?_) (fun f hf => ?_)
        · have h3 : ∀ h ∈ (if (hparts env nxt.lvl id hs).hasId = true then (hparts env nxt.lvl id hs).F ++ [Hom.id]
              else (hparts env nxt.lvl id hs).F), h.noEmpty = true := by
            split
            · exact hFi _ h1
            · exact h1
          generalize (if (hparts env nxt.lvl id hs).hasId = true then (hparts env nxt.lvl id hs).F ++ [Hom.id]
            else (hparts env nxt.lvl id hs).F) = F at h3 hf
          split at hf
          · cases hf
          · rename_i hne
            rw [← Option.some.inj hf]
            exact ih (hnar _ _ hne h3)
        · split at hf
          · cases hf
          · rename_i hne
            rw [← Option.some.inj hf]
            exact hloc_noEmpty (ihn (hnar _ _ hne h2))
    · rename_i hs he
      cases he
      have hn := (noEmpty_mk (K := .inter)).1 hh
      obtain ⟨h1, h2⟩ := hF _ hn.2
      dsimp only
      split
      · exact hh
      · refine hsatInter_noEmpty (fun f hf => ?_) (fun f hf => ?_)
        · have h3 : ∀ h ∈ (if (hparts env nxt.lvl id hs).hasId = true then (hparts env nxt.lvl id hs).F ++ [Hom.id]
              else (hparts env nxt.lvl id hs).F), h.noEmpty = true := by
            split
            · exact hFi _ h1
            · exact h1
          generalize (if (hparts env nxt.lvl id hs).hasId = true then (hparts env nxt.lvl id hs).F ++ [Hom.id]
            else (hparts env nxt.lvl id hs).F) = F at h3 hf
          split at hf
          · cases hf
          · rename_i hne
            rw [← Option.some.inj hf]
            exact ih (hnar _ _ hne h3)
        · split at hf
          · cases hf
          · rename_i hne
            rw [← Option.some.inj hf]
            exact hloc_noEmpty (ihn (hnar _ _ hne h2))
    · rename_i hs he
      cases he
      have hn := (noEmpty_mk (K := .sum)).1 (show (Hom.sum hs).noEmpty = true by simpa [Hom.noEmpty] using hh)
      obtain ⟨h1, h2⟩ := hF _ hn.2
      dsimp only
      split
      · exact hh
      · refine hsatFix_noEmpty ?_ ?_
        · split
          · rfl
          · exact ih (hfix_noEmpty (hnar _ _ (by simp) (hFi _ h1)))
        · split
          · rfl
          · exact hloc_noEmpty (ihn (hfix_noEmpty (hnar _ _ (by simp) (hFi _ h2))))
    · exact hh

/-- The library does not build sums and intersections without operands. -/
theorem Built.noEmpty (hlt : StrictTotal lt) (hord : Iterates ord) {h : Hom V I U} (hb : Built env lt ord h) :
    h.noEmpty = true := by
  induction hb with
  | id | const | consF | consH | fn | ind => rfl
  | comp _ _ ih1 ih2 => exact hcomp_noEmpty ih1 ih2
  | sum _ he ih =>
    unfold hsum at he
    split at he
    · cases he
    · cases he; exact hnary_noEmpty hlt hord _ (by assumption) ih
  | inter _ he ih =>
    unfold hinter at he
    split at he
    · cases he
    · cases he; exact hnary_noEmpty hlt hord _ (by assumption) ih
  | fix _ ih => exact hfix_noEmpty ih
  | ite _ _ _ he ih1 ih2 ih3 =>
    unfold hite at he
    split at he
    · cases he
    · split at he
      · cases he; exact ih2
      · split at he <;> cases he
        · exact ih2
        · rfl
  | loc x _ ih => exact hloc_noEmpty ih
  | rewrite o _ ih => exact hrewrite_noEmpty hlt hord o ih


/-! ## Conditions of use of what is built -/

section
variable {E : Type} {env : User V I U} {C : Cfg V E} {sc : Scope I U}

theorem HTy.id_inv {o : OB I} {t : Ty} (ht : HTy env C sc o .id t) : t = o.ty := by
  cases ht with
  | id => rfl
  | skip h => exact absurd rfl h

theorem HTy.fix_of {h : Hom V I U} (o : OB I) : HTy env C sc o h o.ty → HTy env C sc o (.fix h) o.ty := by
  induction o with
  | nil => intro h; exact .fix trivial h
  | node id nst nxt _ ih =>
    intro h
    cases hs : (Hom.fix ‹_›).skip env nxt.lvl id with
    | false => exact .fix hs h
    | true =>
      rw [← liftTy_ty]
      exact .skip (by simp) hs (ih (h.sk_ty (by simpa [Hom.skip] using hs)))

theorem HTy.fix_inv {h : Hom V I U} {o : OB I} {t : Ty} (ht : HTy env C sc o (.fix h) t) : HTy env C sc o h o.ty := by
  generalize hg : Hom.fix h = g at ht
  induction ht with
  | @skip id nst nxt g t _ hsk _ ih =>
    subst hg
    have := (ih rfl).above (id := id) (nst := nst) (by simpa [Hom.skip] using hsk)
    rwa [liftTy_ty] at this
  | fix _ h1 => cases hg; exact h1
  | _ => cases hg

theorem HTy.ite_of {i a b : Hom V I U} (hsel : i.selector env = true) (o : OB I) : ∀ {t : Ty}, HTy env C sc o i o.ty → HTy env C sc o a t →
    HTy env C sc o b t → HTy env C sc o (.ite i a b) t := by
  induction o with
  | nil => intro t h h' h''; exact .ite trivial hsel h h' h''
  | node id nst nxt _ ih =>
    intro t h h' h''
    cases hs : (Hom.ite i a b).skip env nxt.lvl id with
    | false => exact .ite hs hsel h h' h''
    | true =>
      have hs' : (i.skip env nxt.lvl id = true ∧ b.skip env nxt.lvl id = true) ∧ a.skip env nxt.lvl id = true := by
        simpa [Hom.skip] using hs
      obtain ⟨t', rfl, h1⟩ := h'.sk hs'.2
      exact .skip (by simp) hs (ih (h.sk_ty hs'.1.1) h1 (h''.sk_lift hs'.1.2))

theorem HTy.hcompGen_of {a b : Hom V I U} {o : OB I} {t : Ty} (hb : HTy env C sc o b o.ty) (ha : HTy env C sc o a t) :
    HTy env C sc o (hcompGen a b) t := by
  unfold hcompGen
  split
  · rename_i h; subst h; rw [ha.id_inv]; exact hb
  · split
    · exact ha
    · exact HTy.comp_of o hb ha

theorem HTy.hfix_of {h : Hom V I U} {o : OB I} (ht : HTy env C sc o h o.ty) : HTy env C sc o (hfix h) o.ty := by
  unfold hfix
  split
  · exact .id _
  · exact ht
  · exact .fix_of o ht

theorem HTy.hite_of {i a b k : Hom V I U} (hk : hite env i a b = .ok k) {o : OB I} {t : Ty} (hi : HTy env C sc o i o.ty)
    (ha : HTy env C sc o a t) (hb : HTy env C sc o b t) : HTy env C sc o k t := by
  unfold hite at hk
  split at hk
  · cases hk
  · rename_i hsel
    split at hk
    · cases hk; exact ha
    · split at hk
      · cases hk; exact ha
      · cases hk; exact .ite_of (by simpa using hsel) o hi ha hb

end

end Verif
