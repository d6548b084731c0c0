import Verif.DD.Cost
import Verif.DD.Memo
/-!
# Which operations are evaluated by an operation on SDDs without hierarchy

An operation evaluates, at the next level, operations on a choice of successors: at most one for each operand.
-/

set_option autoImplicit false
set_option linter.unusedSectionVars false

namespace Verif

section
variable {V E : Type} [DecidableEq V] {m : Type → Type} [DDMonad V m] {C : Cfg V E} {L : Logic V m} {rec : Op V → m (SDD V)}

/-! ## The loops -/

theorem emplace_mem {κ β : Type} [DecidableEq κ] {res : List (κ × β)} {e x : κ × β} (h : x ∈ emplace res e) : x ∈ res ∨ x = e := by
  unfold emplace at h
  split at h
  · exact .inl h
  · simpa using h

theorem emplaceAll_mem {κ β : Type} [DecidableEq κ] {es : List (κ × β)} : ∀ {res : List (κ × β)} {x : κ × β},
    x ∈ emplaceAll res es → x ∈ res ∨ x ∈ es := by
  induction es with
  | nil => intro res x h; exact .inl h
  | cons e es ih =>
    intro res x h
    rcases ih h with h | h
    · rcases emplace_mem h with h | h
      · exact .inl h
      · exact .inr (by simp [h])
    · exact .inr (by simp [h])

theorem flatInter_any (b : InterB V) : L.Sat ((flatKind C).inter b) fun _ => True := L.bind' (L.ord' _) fun _ _ => L.pure' trivial

theorem flatSum_any (b : List V) : L.Sat ((flatKind C).sum b) fun _ => True := L.bind' (L.ord' _) fun _ _ => L.pure' trivial

theorem flatDiff_any (v w : V) : L.Sat ((flatKind (m := m) C).diff v w) fun _ => True := L.pure' trivial

theorem mkNode_any (hall : ∀ e, L.allow e) {mk : Nat → List (V × SDD V) → SDD V} (x : Nat) (arcs : List (V × SDD V)) :
    L.Sat (mkNode C mk x arcs) fun _ => True := by
  unfold mkNode
  split
  · exact L.pure' trivial
  · split
    · exact L.raise' (hall _)
    · exact L.pure' trivial

theorem suFinish_any (su : List (SDD V × List V)) : ∀ arcs, L.Sat (suFinish C (flatKind C) su arcs) fun _ => True := by
  induction su with
  | nil => intro arcs; exact L.pure' trivial
  | cons e su ih => intro arcs; obtain ⟨s, vs⟩ := e; exact L.bind' (flatSum_any _) fun _ _ => ih _

theorem suEnd_any (su : List (SDD V × List V)) : L.Sat (suEnd C (flatKind C) su) fun _ => True :=
  L.bind' (L.ord' _) fun _ _ => suFinish_any _ _

/-- Successors satisfy `P` (all of a list of valuations with their operands). (Specification or proof device, not part of the code.) -/
def AllS {α : Type} (P : List (SDD V) → Prop) (l : List (α × List (SDD V))) : Prop := ∀ e ∈ l, P e.2

theorem AllS.append {α : Type} {P : List (SDD V) → Prop} {l l' : List (α × List (SDD V))} (h : AllS P l) (h' : AllS P l') :
    AllS P (l ++ l') := fun e he => (List.mem_append.1 he).elim (h e) (h' e)

theorem scan_keys {P Q : List (SDD V) → Prop} {succ : SDD V} (h0 : Q (sumAdd SDD.isZero C.lt [] succ))
    (h1 : ∀ ks, P ks → Q (sumAdd SDD.isZero C.lt ks succ)) (todo : List (V × List (SDD V))) :
    ∀ cur kept save rem, AllS P todo → AllS P kept → AllS Q save → AllS P rem →
      L.Sat (scan C (flatKind C) succ cur todo kept save rem) fun r => AllS P r.1 ∧ AllS Q r.2.1 ∧ AllS P r.2.2 := by
  have one : ∀ {R : List (SDD V) → Prop} {v : V} {ks : List (SDD V)}, R ks → AllS R [(v, ks)] := by
    intro R v ks h e he; simp at he; subst he; exact h
  induction todo with
  | nil =>
    intro cur kept save rem _ h2 h3 h4
    unfold scan
    refine L.pure' ⟨h2, ?_, h4⟩
    split
    · exact h3
    · exact h3.append (one h0)
  | cons e todo ih =>
    intro cur kept save rem h5 h2 h3 h4
    obtain ⟨rv, rs⟩ := e
    have hrs : P rs := h5 (rv, rs) (by simp)
    have htodo : AllS P todo := fun e he => h5 e (by simp [he])
    unfold scan
    split
    · exact L.pure' ⟨h2.append h5, h3, h4⟩
    · split
      · exact L.pure' ⟨h2.append htodo, h3.append (one (h1 _ hrs)), h4⟩
      · refine L.bind' (flatInter_any _) fun v _ => ?_
        split
        · exact ih _ _ _ _ htodo (h2.append (one hrs)) h3 h4
        · refine L.bind' (flatDiff_any _ _) fun d _ => ?_
          have hsave := h3.append (one (v := v) (h1 _ hrs))
          have hrem : AllS P (if (flatKind (m := m) C).isEmpty d = true then rem else rem ++ [(d, rs)]) := by
            split
            · exact h4
            · exact h4.append (one hrs)
          dsimp only
          generalize (if (flatKind (m := m) C).isEmpty d = true then rem else rem ++ [(d, rs)]) = rem' at hrem ⊢
          split
          · exact L.pure' ⟨h2.append htodo, hsave.append (one h0), hrem⟩
          · exact L.bind' (flatDiff_any _ _) fun _ _ => ih _ _ _ _ htodo h2 hsave hrem

theorem sumArcs_keys {P Q : List (SDD V) → Prop} (arcs : List (V × SDD V))
    (h : ∀ a ∈ arcs, Q (sumAdd SDD.isZero C.lt [] a.2) ∧ ∀ ks, P ks → Q (sumAdd SDD.isZero C.lt ks a.2)) :
    ∀ res save, AllS P res → AllS Q save →
      L.Sat (sumArcs C (flatKind C) arcs res save) fun r => AllS P r.1 ∧ AllS Q r.2 := by
  induction arcs with
  | nil => intro res save h1 h2; exact L.pure' ⟨h1, h2⟩
  | cons a arcs ih =>
    intro res save h1 h2
    obtain ⟨val, succ⟩ := a
    unfold sumArcs
    refine L.bind' (L.ord' _) fun res' hp => ?_
    refine L.bind' (scan_keys (P := P) (Q := Q) (h (val, succ) (by simp)).1 (h (val, succ) (by simp)).2 _ _ _ _ _
      (fun e he => h1 e (hp.mem_iff.1 he)) (by simp [AllS]) h2 (by simp [AllS])) fun r hr => ?_
    obtain ⟨res2, save2, rem⟩ := r
    exact ih (fun a ha => h a (by simp [ha])) _ _ (fun e he => (emplaceAll_mem he).elim (hr.1 e) (hr.2.2 e)) hr.2.1

/-- The successors of an SDD. (Specification or proof device, not part of the code.) -/
def succsOf : SDD V → List (SDD V)
  | .flat _ arcs => arcs.map Prod.snd
  | _ => []

/-- `ks` are successors of the SDDs of `xs`, at most one for each. (Specification or proof device, not part of the code.) -/
def Pick (C : Cfg V E) (xs ks : List (SDD V)) : Prop :=
  (ks.Pairwise fun a b => C.lt a b = true) ∧ ∃ g : SDD V → SDD V, (∀ x ∈ xs, g x = .zero ∨ g x ∈ succsOf x) ∧
    ∀ s, s ∈ ks ↔ s ≠ .zero ∧ ∃ x ∈ xs, g x = s

theorem Pick.nil (xs : List (SDD V)) : Pick C xs [] :=
  ⟨by simp, fun _ => .zero, fun _ _ => .inl rfl, fun s => by
    simp only [List.not_mem_nil, false_iff, not_and, not_exists]
    rintro h x - rfl; exact h rfl⟩

theorem Pick.mono {xs ks : List (SDD V)} (h : Pick C xs ks) {y : SDD V} (hy : y ∉ xs) : Pick C (y :: xs) ks := by
  obtain ⟨h1, g, h2, h3⟩ := h
  refine ⟨h1, fun x => if x = y then .zero else g x, fun x hx => ?_, fun s => ?_⟩
  · dsimp only
    split
    · exact .inl rfl
    · rename_i hne
      exact h2 x (by simpa [hne] using hx)
  · rw [h3]
    refine and_congr_right fun hs => ⟨?_, ?_⟩
    · rintro ⟨x, hx, rfl⟩
      exact ⟨x, by simp [hx], if_neg fun (e : x = y) => hy (e ▸ hx)⟩
    · rintro ⟨x, hx, rfl⟩
      by_cases e : x = y
      · simp [e] at hs
      · exact ⟨x, by simpa [e] using hx, by simp [e]⟩

theorem Pick.add (hC : C.Lawful) {xs ks : List (SDD V)} (h : Pick C xs ks) {y : SDD V} (hy : y ∉ xs) {s : SDD V} (hs : s ∈ succsOf y) :
    Pick C (y :: xs) (sumAdd SDD.isZero C.lt ks s) := by
  obtain ⟨h1, g, h2, h3⟩ := h
  refine ⟨?_, fun x => if x = y then s else g x, fun x hx => ?_, fun s' => ?_⟩
  · unfold sumAdd
    split
    · exact h1
    · exact insertBy_sorted hC.lt_st _ _ h1
  · dsimp only
    split
    · rename_i e; subst e; exact .inr hs
    · rename_i hne
      exact h2 x (by simpa [hne] using hx)
  · rw [mem_sumAdd hC.lt_st, h3]
    have hz : ∀ a : SDD V, a.isZero = false ↔ a ≠ .zero := by intro a; cases a <;> simp [SDD.isZero]
    rw [hz]
    constructor
    · rintro (⟨rfl, h⟩ | ⟨h, x, hx, rfl⟩)
      · exact ⟨h, y, by simp, by simp⟩
      · exact ⟨h, x, by simp [hx], if_neg fun (e : x = y) => hy (e ▸ hx)⟩
    · rintro ⟨h, x, hx, rfl⟩
      by_cases e : x = y
      · left; simp only [e, if_true] at h ⊢; exact ⟨trivial, h⟩
      · right; simp only [e, if_false] at h ⊢
        exact ⟨h, x, by simpa [e] using hx, rfl⟩

theorem Pick.perm {xs ys ks : List (SDD V)} (h : Pick C xs ks) (hp : xs.Perm ys) : Pick C ys ks := by
  obtain ⟨h1, g, h2, h3⟩ := h
  refine ⟨h1, g, fun x hx => h2 x (hp.mem_iff.2 hx), fun s => ?_⟩
  rw [h3]
  refine and_congr_right fun _ => exists_congr fun x => ?_
  rw [hp.mem_iff]

theorem sumOperands_keys (hC : C.Lawful) (hall : ∀ e, L.allow e) (head : SDD V) (xs : List (SDD V)) :
    ∀ (done : List (SDD V)) (res : List (V × List (SDD V))), (done ++ xs).Nodup → AllS (Pick C done) res →
      L.Sat (sumOperands C (flatKind C) head xs res) fun r => AllS (Pick C (done ++ xs)) r := by
  induction xs with
  | nil => intro done res _ h; exact L.pure' (by simpa using h)
  | cons x xs ih =>
    intro done res hn h
    have hx : x ∉ done := fun hd => by
      rw [List.nodup_append] at hn
      exact hn.2.2 x hd x (by simp) rfl
    unfold sumOperands
    split
    swap
    · exact L.raise' (hall _)
    split
    · exact L.raise' (hall _)
    · rename_i y arcs hv
      have hxa : x = .flat y arcs := by
        cases x <;> simp [flatKind] at hv
        obtain ⟨rfl, rfl⟩ := hv; rfl
      refine L.bind' (L.ord' _) fun arcs' hp => ?_
      refine L.bind' (sumArcs_keys (P := Pick C done) (Q := Pick C (x :: done)) arcs' ?_ _ _ h (by simp [AllS])) fun r hr => ?_
      · intro a ha
        have hs : a.2 ∈ succsOf x := by
          rw [hxa]; exact List.mem_map_of_mem (hp.mem_iff.1 ha)
        exact ⟨(Pick.nil done).add hC hx hs, fun ks hk => hk.add hC hx hs⟩
      · have hperm : (x :: done ++ xs).Perm (done ++ x :: xs) := by
          simpa using (List.perm_middle (a := x) (l₁ := done) (l₂ := xs)).symm
        refine L.mono' (ih (x :: done) _ (hperm.nodup_iff.2 hn) ?_) ?_
        · intro e he
          rcases emplaceAll_mem he with he | he
          · exact (hr.1 e he).mono hx
          · exact hr.2 e he
        · intro r h e he
          exact (h e he).perm hperm

theorem sumSquare_keys {P : List (SDD V) → Prop} (hrec : ∀ ks, P ks → 2 ≤ ks.length → L.Sat (rec (.sum ks)) fun _ => True)
    (res : List (V × List (SDD V))) : ∀ su, AllS P res → L.Sat (sumSquare C (flatKind C) rec res su) fun _ => True := by
  induction res with
  | nil => intro su _; exact L.pure' trivial
  | cons e res ih =>
    intro su h
    obtain ⟨v, ks⟩ := e
    have hk : P ks := h (v, ks) (by simp)
    unfold sumSquare
    refine L.bind' (P := fun _ => True) ?_ fun _ _ => ih _ fun e he => h e (by simp [he])
    match ks, hk with
    | [], _ => exact L.pure' trivial
    | [x], _ => exact L.pure' trivial
    | x :: y :: l, hk => exact hrec _ hk (by simp)

theorem sumWork_keys (hC : C.Lawful) (hall : ∀ e, L.allow e) {head : SDD V} {xs : List (SDD V)} (hn : (head :: xs).Nodup)
    (hrec : ∀ ks, Pick C (head :: xs) ks → 2 ≤ ks.length → L.Sat (rec (.sum ks)) fun _ => True) :
    L.Sat (sumWork C (flatKind C) rec head xs) fun _ => True := by
  unfold sumWork
  split
  · exact L.raise' (hall _)
  · rename_i x arcs hv
    have hxa : head = .flat x arcs := by
      cases head <;> simp [flatKind] at hv
      obtain ⟨rfl, rfl⟩ := hv; rfl
    refine L.bind' (L.ord' _) fun arcs' hp => ?_
    refine L.bind' (sumOperands_keys hC hall head xs [head] _ hn ?_) fun r hr => ?_
    · intro e he
      rcases emplaceAll_mem he with he | he
      · simp at he
      · obtain ⟨a, ha, rfl⟩ := List.mem_map.1 he
        refine (Pick.nil []).add hC (by simp) ?_
        rw [hxa]; exact List.mem_map_of_mem (hp.mem_iff.1 ha)
    · refine L.bind' (L.ord' _) fun r' hp' => ?_
      refine L.bind' (sumSquare_keys hrec _ _ fun e he => hr e (hp'.mem_iff.1 he)) fun su _ => ?_
      exact L.bind' (suEnd_any _) fun _ _ => mkNode_any hall _ _

/-! ## The linear version of the sum -/

theorem upsert_mem {κ β : Type} {lt : κ → κ → Bool} {k : κ} {new : β} {upd : β → β} {l : List (κ × β)} {e : κ × β}
    (h : e ∈ upsert lt k new upd l) : e ∈ l ∨ e = (k, new) ∨ ∃ k' b, (k', b) ∈ l ∧ lt k k' = false ∧ lt k' k = false ∧ e = (k', upd b) := by
  induction l with
  | nil => simp [upsert] at h; exact .inr (.inl h)
  | cons x l ih =>
    obtain ⟨k', b⟩ := x
    unfold upsert at h
    split at h
    · rw [List.mem_cons] at h
      rcases h with h | h
      · exact .inr (.inl h)
      · exact .inl h
    · split at h
      · rw [List.mem_cons] at h
        rcases h with h | h
        · exact .inl (by simp [h])
        · rcases ih h with h | h | ⟨k2, b2, h1, h2⟩
          · exact .inl (by simp [h])
          · exact .inr (.inl h)
          · exact .inr (.inr ⟨k2, b2, by simp [h1], h2⟩)
      · rename_i h1 h2
        rw [List.mem_cons] at h
        rcases h with h | h
        · exact .inr (.inr ⟨k', b, by simp, by simpa using h1, by simpa using h2, h⟩)
        · exact .inl (by simp [h])

/-- While the values `seen` of an operand have been added. (Specification or proof device, not part of the code.) -/
def FastInv (P Q : List (SDD V) → Prop) (seen : List E) (map : List (E × List (SDD V))) : Prop :=
  ∀ e ∈ map, Q e.2 ∧ (e.1 ∉ seen → P e.2)

theorem fastArc_keys (hC : C.Lawful) {P Q : List (SDD V) → Prop} {succ : SDD V} (h0 : Q (sumAdd SDD.isZero C.lt [] succ))
    (h1 : ∀ ks, P ks → Q (sumAdd SDD.isZero C.lt ks succ)) (vals : List E) :
    ∀ seen map, vals.Nodup → (∀ v ∈ vals, v ∉ seen) → FastInv P Q seen map → FastInv P Q (vals.reverse ++ seen) (fastArc C succ vals map) := by
  induction vals with
  | nil => intro seen map _ _ h; exact h
  | cons v vals ih =>
    intro seen map hn hv h
    rw [List.nodup_cons] at hn
    have : (v :: vals).reverse ++ seen = vals.reverse ++ (v :: seen) := by simp
    rw [this]
    refine ih (v :: seen) _ hn.2 (fun w hw hs => ?_) fun e he => ?_
    · rw [List.mem_cons] at hs
      rcases hs with rfl | hs
      · exact hn.1 hw
      · exact hv w (by simp [hw]) hs
    · rcases upsert_mem he with he | rfl | ⟨k', b, hb, h2, h3, rfl⟩
      · exact ⟨(h e he).1, fun hs => (h e he).2 fun h' => hs (by simp [h'])⟩
      · exact ⟨h0, fun hs => absurd List.mem_cons_self hs⟩
      · have hk : v = k' := hC.elt_st.eq_of (by simp [h2]) (by simp [h3])
        subst hk
        exact ⟨h1 _ ((h _ hb).2 (hv v (by simp))), fun hs => absurd List.mem_cons_self hs⟩

theorem fastArcs_keys (hC : C.Lawful) {P Q : List (SDD V) → Prop} (arcs : List (V × SDD V))
    (h : ∀ a ∈ arcs, Q (sumAdd SDD.isZero C.lt [] a.2) ∧ ∀ ks, P ks → Q (sumAdd SDD.isZero C.lt ks a.2))  :
    ∀ seen map, (arcs.Pairwise fun a b => ∀ e, ¬ (C.vmem e a.1 ∧ C.vmem e b.1)) → (∀ a ∈ arcs, ∀ v ∈ C.velems a.1, v ∉ seen) →
      FastInv P Q seen map →
      ∃ seen', FastInv P Q seen' (arcs.foldl (fun map a => fastArc C a.2 (C.velems a.1) map) map) := by
  induction arcs with
  | nil => intro seen map _ _ h; exact ⟨seen, h⟩
  | cons a arcs ih =>
    intro seen map hd hs hi
    rw [List.pairwise_cons] at hd
    have := fastArc_keys hC (h a (by simp)).1 (h a (by simp)).2 (C.velems a.1) seen map (hC.nodup_elems _) (hs a (by simp)) hi
    refine ih (fun a ha => h a (by simp [ha])) _ _ hd.2 (fun b hb v hv => ?_) this
    simp only [List.mem_append, List.mem_reverse, not_or]
    refine ⟨fun hv' => hd.1 b hb v ⟨(hC.mem_elems _ _).1 hv', (hC.mem_elems _ _).1 hv⟩, hs b (by simp [hb]) v hv⟩

theorem fastOperands_keys (hC : C.Lawful) (hall : ∀ e, L.allow e) (head : SDD V) (xs : List (SDD V)) (hw : ∀ x ∈ xs, WF C x) :
    ∀ (done : List (SDD V)) (map : List (E × List (SDD V))), (done ++ xs).Nodup → AllS (Pick C done) map →
      L.Sat (fastOperands C head xs map) fun r => AllS (Pick C (done ++ xs)) r := by
  induction xs with
  | nil => intro done res _ h; exact L.pure' (by simpa using h)
  | cons x xs ih =>
    intro done map hn h
    have hx : x ∉ done := fun hd => by
      rw [List.nodup_append] at hn
      exact hn.2.2 x hd x (by simp) rfl
    unfold fastOperands
    split
    swap
    · exact L.raise' (hall _)
    split
    swap
    · exact L.raise' (hall _)
    rename_i y arcs _
    refine L.bind' (L.ord' _) fun arcs' hp => ?_
    obtain ⟨n, hd⟩ := hw _ List.mem_cons_self
    obtain ⟨t', -, hg, -⟩ := hd.flat_inv
    have hperm : (.flat y arcs :: done ++ xs).Perm (done ++ .flat y arcs :: xs) := by
      simpa using (List.perm_middle (a := .flat y arcs) (l₁ := done) (l₂ := xs)).symm
    refine L.mono' (ih (fun x hx => hw x (by simp [hx])) (.flat y arcs :: done) _ (hperm.nodup_iff.2 hn) ?_) fun r h e he => (h e he).perm hperm
    obtain ⟨seen, hf⟩ := fastArcs_keys (P := Pick C done) (Q := Pick C (.flat y arcs :: done)) hC arcs'
      (fun a ha => by
        have hs : a.2 ∈ succsOf (.flat y arcs) := List.mem_map_of_mem (hp.mem_iff.1 ha)
        exact ⟨(Pick.nil done).add hC hx hs, fun ks hk => hk.add hC hx hs⟩)
      [] map (hg.disj.perm hp.symm fun h e he => h e he.symm) (by simp)
      (fun e he => ⟨(h e he).mono hx, fun _ => h e he⟩)
    exact fun e he => (hf e he).1

theorem fastSquare_keys {P : List (SDD V) → Prop} (hrec : ∀ ks, P ks → 2 ≤ ks.length → L.Sat (rec (.sum ks)) fun _ => True)
    (res : List (E × List (SDD V))) : ∀ su, AllS P res → L.Sat (fastSquare C rec res su) fun _ => True := by
  induction res with
  | nil => intro su _; exact L.pure' trivial
  | cons e res ih =>
    intro su h
    obtain ⟨v, ks⟩ := e
    have hk : P ks := h (v, ks) (by simp)
    unfold fastSquare
    refine L.bind' (P := fun _ => True) ?_ fun _ _ => ih _ fun e he => h e (by simp [he])
    match ks, hk with
    | [], _ => exact L.pure' trivial
    | [x], _ => exact L.pure' trivial
    | x :: y :: l, hk => exact hrec _ hk (by simp)

theorem fastWork_keys (hC : C.Lawful) (hall : ∀ e, L.allow e) {x : Nat} {xs : List (SDD V)} (hn : xs.Nodup) (hw : ∀ x ∈ xs, WF C x)
    (hrec : ∀ ks, Pick C xs ks → 2 ≤ ks.length → L.Sat (rec (.sum ks)) fun _ => True) :
    L.Sat (fastWork C rec x xs) fun _ => True := by
  unfold fastWork
  split
  · exact L.raise' (hall _)
  · refine L.bind' (fastOperands_keys hC hall _ _ hw [] [] (by simpa using hn) (by simp [AllS])) fun r hr => ?_
    refine L.bind' (fastSquare_keys hrec _ _ hr) fun su _ => ?_
    exact L.bind' (L.ord' _) fun _ _ => mkNode_any hall _ _

/-! ## Intersection and difference -/

theorem ddInter2_keys (hC : C.Lawful) {a b : SDD V} (hrec : ∀ ks, (ks.Pairwise fun a b => C.lt a b = true) → (∀ s, s ∈ ks ↔ s = a ∨ s = b) → a ≠ .zero → b ≠ .zero →
    2 ≤ ks.length → L.Sat (rec (.inter ks)) fun _ => True) :
    L.Sat (ddInter rec (interAdd SDD.isZero C.lt (interAdd SDD.isZero C.lt {} a) b)) fun _ => True := by
  obtain ⟨h1, h2, h3, h4⟩ := foldl_interAdd (isEmpty := SDD.isZero) (D := fun _ => True) hC.lt_st [a, b] {} (by simp) BGood.nil (by simp)
  simp only [List.foldl_cons, List.foldl_nil] at h1 h2 h3 h4
  generalize interAdd SDD.isZero C.lt (interAdd SDD.isZero C.lt {} a) b = r at *
  unfold ddInter
  cases hz : r.hasZero with
  | true => rw [h1 hz]; exact L.pure' trivial
  | false =>
    have h4 := h4 hz
    have hne : ∀ x ∈ r.set, x ≠ .zero := by
      rintro x hx rfl
      have := h2.ne _ hx
      simp [SDD.isZero] at this
    match hr : r.set with
    | [] => exact L.pure' trivial
    | [x] => exact L.pure' trivial
    | x :: y :: l =>
      rw [hr] at h4 h2 hne
      exact hrec _ h2.sorted (fun s => by rw [h4]; simp) (hne _ ((h4 a).2 (by simp))) (hne _ ((h4 b).2 (by simp))) (by simp)

theorem interArc_keys (hC : C.Lawful) {lval : V} {lsucc : SDD V} {Q : SDD V → SDD V → Prop}
    (hrec : ∀ a b ks, Q a b → (ks.Pairwise fun a b => C.lt a b = true) → (∀ s, s ∈ ks ↔ s = a ∨ s = b) → a ≠ .zero → b ≠ .zero →
      2 ≤ ks.length → L.Sat (rec (.inter ks)) fun _ => True) (rhs : List (V × SDD V)) (hr : ∀ a ∈ rhs, Q lsucc a.2) :
    ∀ su, L.Sat (interArc C (flatKind C) rec lval lsucc rhs su) fun _ => True := by
  induction rhs with
  | nil => intro su; exact L.pure' trivial
  | cons a rhs ih =>
    intro su
    obtain ⟨rval, rsucc⟩ := a
    have ih := ih fun a ha => hr a (by simp [ha])
    unfold interArc
    refine L.bind' (flatInter_any _) fun v _ => ?_
    split
    · exact ih _
    · refine L.bind' (ddInter2_keys hC fun ks => hrec _ _ ks (hr (rval, rsucc) (by simp))) fun s _ => ?_
      split
      · exact ih _
      · exact ih _

theorem interArcs_keys (hC : C.Lawful) {Q : SDD V → SDD V → Prop}
    (hrec : ∀ a b ks, Q a b → (ks.Pairwise fun a b => C.lt a b = true) → (∀ s, s ∈ ks ↔ s = a ∨ s = b) → a ≠ .zero → b ≠ .zero →
      2 ≤ ks.length → L.Sat (rec (.inter ks)) fun _ => True) {rhs : List (V × SDD V)} (lhs : List (V × SDD V))
    (h : ∀ a ∈ lhs, ∀ b ∈ rhs, Q a.2 b.2) :
    ∀ su, L.Sat (interArcs C (flatKind C) rec rhs lhs su) fun _ => True := by
  induction lhs with
  | nil => intro su; exact L.pure' trivial
  | cons a lhs ih =>
    intro su
    obtain ⟨lval, lsucc⟩ := a
    unfold interArcs
    exact L.bind' (interArc_keys hC hrec _ (fun b hb => h (lval, lsucc) (by simp) b hb) _) fun _ _ => ih (fun a ha => h a (by simp [ha])) _

theorem interWork2_keys (hC : C.Lawful) (hall : ∀ e, L.allow e) {x : Nat} {r y : SDD V}
    (hrec : ∀ a b ks, a ∈ succsOf r → b ∈ succsOf y → (ks.Pairwise fun a b => C.lt a b = true) → (∀ s, s ∈ ks ↔ s = a ∨ s = b) → a ≠ .zero → b ≠ .zero →
      2 ≤ ks.length → L.Sat (rec (.inter ks)) fun _ => True) :
    L.Sat (interWork C (flatKind C) rec x r [y]) fun _ => True := by
  unfold interWork
  split
  swap
  · exact L.raise' (hall _)
  split
  swap
  · exact L.raise' (hall _)
  rename_i n1 lhs n2 rhs h1 h2
  have e1 : r = .flat n1 lhs := by
    cases r <;> simp [flatKind] at h1
    obtain ⟨rfl, rfl⟩ := h1; rfl
  have e2 : y = .flat n2 rhs := by
    cases y <;> simp [flatKind] at h2
    obtain ⟨rfl, rfl⟩ := h2; rfl
  subst e1 e2
  refine L.bind' (L.ord' _) fun lhs' hp1 => ?_
  refine L.bind' (L.ord' _) fun rhs' hp2 => ?_
  refine L.bind' (interArcs_keys (Q := fun a b => a ∈ succsOf (.flat n1 lhs) ∧ b ∈ succsOf (.flat n2 rhs)) hC
    (fun a b ks hq => hrec a b ks hq.1 hq.2) lhs' (fun a ha b hb =>
      ⟨List.mem_map_of_mem (hp1.mem_iff.1 ha), List.mem_map_of_mem (hp2.mem_iff.1 hb)⟩) _) fun su _ => ?_
  split
  · exact L.pure' trivial
  · refine L.bind' (suEnd_any _) fun _ _ => ?_
    refine L.bind' (mkNode_any hall _ _) fun _ _ => ?_
    unfold interWork
    exact L.pure' trivial

theorem diffFirst_any (un : V) (lhs : List (V × SDD V)) : ∀ su, L.Sat (diffFirst C (flatKind C) un lhs su) fun _ => True := by
  induction lhs with
  | nil => intro su; exact L.pure' trivial
  | cons a lhs ih =>
    intro su
    obtain ⟨v, s⟩ := a
    unfold diffFirst
    refine L.bind' (flatDiff_any _ _) fun _ _ => ?_
    split <;> exact ih _

theorem diffArc_keys {lval : V} {lsucc : SDD V} {Q : SDD V → SDD V → Prop}
    (hrec : ∀ a b, Q a b → a ≠ .zero → b ≠ .zero → a ≠ b → L.Sat (rec (.diff a b)) fun _ => True) (rhs : List (V × SDD V))
    (hr : ∀ a ∈ rhs, Q lsucc a.2) :
    ∀ su, L.Sat (diffArc C (flatKind C) rec lval lsucc rhs su) fun _ => True := by
  induction rhs with
  | nil => intro su; exact L.pure' trivial
  | cons a rhs ih =>
    intro su
    obtain ⟨rval, rsucc⟩ := a
    have ih := ih fun a ha => hr a (by simp [ha])
    unfold diffArc
    refine L.bind' (flatInter_any _) fun v _ => ?_
    split
    · exact ih _
    · refine L.bind' (P := fun _ => True) ?_ fun s _ => ?_
      · unfold ddDiff
        split
        · exact L.pure' trivial
        · split
          · exact L.pure' trivial
          · rename_i h1 h2
            rw [not_or] at h1
            exact hrec _ _ (hr (rval, rsucc) (by simp)) h1.2 h2 h1.1
      · split
        · exact ih _
        · exact ih _

theorem diffArcs_keys {Q : SDD V → SDD V → Prop}
    (hrec : ∀ a b, Q a b → a ≠ .zero → b ≠ .zero → a ≠ b → L.Sat (rec (.diff a b)) fun _ => True)
    {rhs : List (V × SDD V)} (lhs : List (V × SDD V)) (h : ∀ a ∈ lhs, ∀ b ∈ rhs, Q a.2 b.2) :
    ∀ su, L.Sat (diffArcs C (flatKind C) rec rhs lhs su) fun _ => True := by
  induction lhs with
  | nil => intro su; exact L.pure' trivial
  | cons a lhs ih =>
    intro su
    obtain ⟨lval, lsucc⟩ := a
    unfold diffArcs
    exact L.bind' (diffArc_keys hrec _ (fun b hb => h (lval, lsucc) (by simp) b hb) _) fun _ _ => ih (fun a ha => h a (by simp [ha])) _

theorem diffWork_keys (hall : ∀ e, L.allow e) {l r : SDD V} {x y : Nat} {lhs rhs : List (V × SDD V)}
    (hrec : ∀ a b, a ∈ lhs.map Prod.snd → b ∈ rhs.map Prod.snd → a ≠ .zero → b ≠ .zero → a ≠ b → L.Sat (rec (.diff a b)) fun _ => True) :
    L.Sat (diffWork C (flatKind C) rec l r x y lhs rhs) fun _ => True := by
  unfold diffWork
  split
  swap
  · exact L.raise' (hall _)
  refine L.bind' (L.ord' _) fun lhs' hp1 => ?_
  refine L.bind' (L.ord' _) fun rhs' hp2 => ?_
  refine L.bind' (flatSum_any _) fun un _ => ?_
  refine L.bind' (diffFirst_any _ _ _) fun su _ => ?_
  refine L.bind' (diffArcs_keys (Q := fun a b => a ∈ lhs.map Prod.snd ∧ b ∈ rhs.map Prod.snd) (fun a b hq => hrec a b hq.1 hq.2) lhs'
    (fun a ha b hb => ⟨List.mem_map_of_mem (hp1.mem_iff.1 ha), List.mem_map_of_mem (hp2.mem_iff.1 hb)⟩) _) fun su _ => ?_
  split
  · exact L.pure' trivial
  · exact L.bind' (suEnd_any _) fun _ _ => mkNode_any hall _ _

end
end Verif
