import Verif.Hom.RelBuild
import Verif.Order.Order
/-!
# Access to nested levels

`carrier` and `function`, which build the succession of `local` leading to the level of an identifier, from an order.
-/

set_option autoImplicit false
set_option linter.unusedSectionVars false

namespace Verif

variable {V E I U : Type} [DecidableEq V] [DecidableEq I] [DecidableEq U]

/-- `carrier`, `/repo/sdd/order/carrier.hh:21-31`.  `none`: `o.node(target)` throws (`/repo/sdd/order/order.hh:171-184`), or a position
of the path is outside the vector of nodes (undefined). -/
def carrier (o : Ord I) (target : I) (h : Hom V I U) : Option (Hom V I U) :=
  (o.node target).bind fun n => n.path.reverse.foldlM (fun h p => (o.at? p).map fun m => hloc m.var h) h

/-- `function`, `/repo/sdd/hom/function.hh:338-349`.  `none`: the identifier is not found. -/
def hfunction (o : Ord I) (i : I) (u : U) : Option (Hom V I U) :=
  (o.node i).bind fun n => carrier o i (.fn n.var u)

/-- `local(id, o, h)`, `/repo/sdd/hom/local.hh:139-150`. -/
def hlocal (o : Ord I) (i : I) (h : Hom V I U) : Option (Hom V I U) := (o.node i).map fun n => hloc n.var h

/-! ## Specification -/

/-- The SDD `x`, of order `o`, in which the set of values `v` of each arc of the level `i` is replaced by `g v`: `Img i g o x p` if
the path `p` belongs to it.  Other levels are unchanged. (Specification or proof device, not part of the code.) -/
def Img (C : Cfg V E) (i : I) (g : V → V) : OB I → SDD V → Path E → Prop
  | .node id _ nxt, .flat y arcs, .flat z b q =>
    z = y ∧ ∃ arc ∈ arcs, if id = OB.uid i then C.vmem b (g arc.1) ∧ Mem C q arc.2 else C.vmem b arc.1 ∧ Img C i g nxt arc.2 q
  | .node _ nst nxt, .hier y arcs, .hier z n q =>
    z = y ∧ ∃ arc ∈ arcs, (Img C i g nst arc.1 n ∧ Mem C q arc.2) ∨ (Mem C n arc.1 ∧ Img C i g nxt arc.2 q)
  | _, _, _ => False

/-- The value of the level `i` is replaced according to `f`, the values of other levels are kept.
(Specification or proof device, not part of the code.) -/
def SetAt (i : I) (f : E → E → Prop) : OB I → PRel E
  | .node id _ nxt, .flat x a q, .flat x' a' q' =>
    x' = x ∧ if id = OB.uid i then f a a' ∧ q' = q else a' = a ∧ SetAt i f nxt q q'
  | .node _ nst nxt, .hier x n q, .hier x' n' q' =>
    x' = x ∧ ((SetAt i f nst n n' ∧ q' = q) ∨ (n' = n ∧ SetAt i f nxt q q'))
  | _, _, _ => False

/-- The element `i` of an order is a flat level. (Specification or proof device, not part of the code.) -/
def FlatAt (i : I) : OB I → Prop
  | .nil => False
  | .node id nst nxt => (id = OB.uid i ∧ nst = .nil) ∨ FlatAt i nst ∨ FlatAt i nxt

/-- The SDD `x`, of order `o`, in which each SDD `y` of the level of `i` is replaced by the set of the paths `q` such that `P y q`. Other levels are
unchanged. (Specification or proof device, not part of the code.) -/
def CarryImg (C : Cfg V E) (i : I) (P : SDD V → Path E → Prop) : OB I → SDD V → Path E → Prop
  | .nil, _, _ => False
  | .node id nst nxt, x, p =>
    if OB.uid i ∈ (OB.node id nst nxt).level.map Prod.fst then P x p
    else match x, p with
    | .flat y arcs, .flat z b q => z = y ∧ ∃ arc ∈ arcs, C.vmem b arc.1 ∧ CarryImg C i P nxt arc.2 q
    | .hier y arcs, .hier z n q =>
      z = y ∧ ∃ arc ∈ arcs, (CarryImg C i P nst arc.1 n ∧ Mem C q arc.2) ∨ (Mem C n arc.1 ∧ CarryImg C i P nxt arc.2 q)
    | _, _ => False

/-- The level of `i`: the nested order to which it belongs. (Specification or proof device, not part of the code.) -/
def LevelOf (i : I) : OB I → OB I → Prop
  | .nil, _ => False
  | .node id nst nxt, l =>
    if OB.uid i ∈ (OB.node id nst nxt).level.map Prod.fst then l = .node id nst nxt
    else LevelOf i nst l ∨ LevelOf i nxt l

/-! ## What is built -/

/-- The element `i`, with the nested order `m` and the variable `x`, of a level. (Specification or proof device, not part of the code.) -/
inductive Elem (i : OId I) : OB I → OB I → Nat → Prop where
  | here {m nxt : OB I} : Elem i (.node i m nxt) m nxt.lvl
  | next {id : OId I} {nst nxt m : OB I} {x : Nat} : Elem i nxt m x → Elem i (.node id nst nxt) m x

/-- The element `i` (with the nested order `m` and the variable `x`) belongs to the level `l` which is nested in the elements `vs`, from the top.
(Specification or proof device, not part of the code.) -/
inductive Within (i : OId I) : OB I → List Nat → OB I → OB I → Nat → Prop where
  | here {o m : OB I} {x : Nat} : Elem i o m x → Within i o [] o m x
  | next {id : OId I} {nst nxt l m : OB I} {y : Nat} {vs : List Nat} {x : Nat} : Within i nxt (y :: vs) l m x →
      Within i (.node id nst nxt) (y :: vs) l m x
  | nested {id : OId I} {nst nxt l m : OB I} {vs : List Nat} {x : Nat} : Within i nst vs l m x →
      Within i (.node id nst nxt) (nxt.lvl :: vs) l m x

theorem Elem.lt {i : OId I} {o m : OB I} {x : Nat} (h : Elem i o m x) : x < o.lvl := by
  induction h with
  | here => simp [OB.lvl, OB.level]
  | next _ ih => simp only [OB.lvl, OB.level, List.length_cons] at *; omega

theorem Within.lt {i : OId I} {o l m : OB I} {y : Nat} {vs : List Nat} {x : Nat} (h : Within i o (y :: vs) l m x) : y < o.lvl := by
  generalize hv : y :: vs = w at h
  induction h with
  | here => cases hv
  | next _ ih => have := ih hv; simp only [OB.lvl, OB.level, List.length_cons] at *; omega
  | nested => cases hv; simp [OB.lvl, OB.level]

theorem Elem.mem {i : OId I} {o m : OB I} {x : Nat} (h : Elem i o m x) : i ∈ o.ids := by
  induction h with
  | here => simp [OB.ids]
  | next _ ih => simp [OB.ids, ih]

theorem Within.mem {i : OId I} {o l m : OB I} {vs : List Nat} {x : Nat} (h : Within i o vs l m x) : i ∈ o.ids := by
  induction h with
  | here h => exact h.mem
  | next _ ih => simp [OB.ids, ih]
  | nested _ ih => simp [OB.ids, ih]

open Verif.Ord in
/-- The path of a node gives the elements in which it is nested. -/
theorem Ord.Rep.within {nodes : List (Option (ONode I))} (ob : OB I) : ∀ {p : Nat} {h : Option Nat} {path : List Nat},
    Rep nodes p h ob path → ∀ k, k < ob.ids.length → ∀ n, nodes[p + k]? = some (some n) →
      ∃ ps vs l m, n.path = path ++ ps ∧ ps.map (fun j => (nodes[j]?).join.map ONode.var) = vs.map some ∧
        Within n.id ob vs l m n.var := by
  induction ob with
  | nil => intro p h path _ k hk; simp [OB.ids] at hk
  | node id nst nxt ihn ih =>
    intro p h path hr k hk n hn
    obtain ⟨rfl, n1, m1, h1, h2, h3⟩ := hr
    simp only [OB.ids, List.length_cons, List.length_append] at hk
    match k with
    | 0 =>
      rw [Nat.add_zero, h1] at hn
      cases hn
      exact ⟨[], [], _, _, by simp, rfl, .here .here⟩
    | k + 1 =>
      by_cases hk' : k < nst.ids.length
      · obtain ⟨ps, vs, l, m, a1, a2, a3⟩ := ihn h2 k hk' n (by rw [← hn]; congr 1; omega)
        refine ⟨p :: ps, nxt.lvl :: vs, l, m, by rw [a1]; simp, ?_, .nested a3⟩
        rw [List.map_cons, List.map_cons, a2, h1]
        rfl
      · obtain ⟨ps, vs, l, m, a1, a2, a3⟩ := ih h3 (k - nst.ids.length) (by omega) n (by rw [← hn]; congr 1; omega)
        cases vs with
        | nil =>
          cases a3 with
          | here a3 => exact ⟨ps, [], _, _, a1, a2, .here (.next a3)⟩
        | cons y vs => exact ⟨ps, y :: vs, l, m, a1, a2, .next a3⟩

theorem foldlM_loc {g : Nat → Option Nat} (ps : List Nat) : ∀ (vs : List Nat) (h : Hom V I U),
    ps.map g = vs.map some → ps.reverse.foldlM (fun h p => (g p).map fun x => hloc x h) h = some (vs.foldr hloc h) := by
  induction ps with
  | nil =>
    intro vs h hv
    cases vs with
    | nil => rfl
    | cons => cases hv
  | cons p ps ih =>
    intro vs h hv
    cases vs with
    | nil => cases hv
    | cons v vs =>
      simp only [List.map_cons, List.cons.injEq] at hv
      rw [List.reverse_cons, List.foldlM_append, ih vs h hv.2]
      simp [hv.1]

open Verif.Ord in
/-- The node of an identifier, and the succession of `local` which leads to it. -/
theorem carrier_spec {ob : OB I} {o : Ord I} (ho : Ord.ofBuilder ob = .ok o) {i : I} (hi : i ∈ ob.userIds) :
    ∃ n vs l m, o.node i = some n ∧ Within (OB.uid i) ob vs l m n.var ∧
      ∀ h : Hom V I U, carrier o i h = some (vs.foldr hloc h) := by
  have hof := Ord.ofBuilder_spec ob
  rw [ho] at hof
  obtain ⟨_, hof⟩ := hof
  have hids := hof.nodes_ids
  cases hn : o.node i with
  | none =>
    exfalso
    unfold Ord.node at hn
    simp only [OB.userIds, List.mem_map, List.mem_filter] at hi
    obtain ⟨j, ⟨hj, hj'⟩, rfl⟩ := hi
    rw [← hids.1, List.mem_map] at hj
    obtain ⟨n, hn1, rfl⟩ := hj
    rw [List.find?_eq_none] at hn
    refine hn n hn1 ?_
    obtain ⟨⟨a, b⟩, _, _, _, _, _⟩ := n
    have hj'' : a = 0 := by simpa using hj'
    subst hj''
    simp [OB.uid]
  | some n =>
    have h1 : n ∈ o.nodes.filterMap _root_.id ∧ n.id = OB.uid i := by
      unfold Ord.node at hn
      exact ⟨List.mem_of_find?_eq_some hn, by simpa using List.find?_some hn⟩
    have h2 : some n ∈ o.nodes := by
      obtain ⟨a, ha, hb⟩ := List.mem_filterMap.1 h1.1
      rw [← hb]; exact ha
    obtain ⟨k, hk, hk'⟩ := List.getElem_of_mem h2
    obtain ⟨ps, vs, l, m, a1, a2, a3⟩ := hof.rep.within ob k (by rw [← hof.len]; exact hk) n
      (by rw [Nat.zero_add, List.getElem?_eq_getElem hk, hk'])
    refine ⟨n, vs, l, m, rfl, h1.2 ▸ a3, fun h => ?_⟩
    unfold carrier
    rw [hn]
    simp only [List.nil_append] at a1
    rw [Option.bind_some, a1, ← foldlM_loc ps vs h a2]
    congr 1
    funext h p
    unfold Ord.at?
    cases (o.nodes[p]?).join <;> rfl

/-! ## Its meaning -/

section
variable {env : User V I U} {C : Cfg V E} {sc : Scope I U}

theorem foldr_hloc_ne {vs : List Nat} {h : Hom V I U}
    (hne : h ≠ .id) : vs.foldr hloc h = vs.foldr .loc h ∧ vs.foldr Hom.loc h ≠ .id := by
  induction vs with
  | nil => exact ⟨rfl, hne⟩
  | cons v vs ih =>
    simp only [List.foldr_cons]
    rw [ih.1]
    exact ⟨by unfold hloc; rw [if_neg ih.2], by simp⟩

theorem foldr_loc_skip {i : OId I} {id : OId I} {nxt l m : OB I} {y : Nat} {vs : List Nat} {x : Nat} {h : Hom V I U}
    (hw : Within i nxt (y :: vs) l m x) : ((y :: vs).foldr Hom.loc h).skip env nxt.lvl id = true := by
  have := hw.lt
  simp only [List.foldr_cons, Hom.skip, decide_eq_true_eq]
  omega

theorem not_img {i : I} {g : V → V} (o : OB I) : ∀ {x : SDD V} {p : Path E}, OB.uid i ∉ o.ids → ¬ Img C i g o x p := by
  induction o with
  | nil => intro x p _ h; cases x <;> cases p <;> simp [Img] at h
  | node id nst nxt ihn ih =>
    intro x p hi h
    simp only [OB.ids, List.mem_cons, List.mem_append, not_or] at hi
    cases x <;> cases p <;> simp only [Img] at h
    · obtain ⟨_, arc, _, h⟩ := h
      rw [if_neg (Ne.symm hi.1)] at h
      exact ih hi.2.2 h.2
    · obtain ⟨_, arc, _, h | h⟩ := h
      · exact ihn hi.2.1 h.1
      · exact ih hi.2.2 h.2

theorem not_setAt {i : I} {f : E → E → Prop} (o : OB I) : ∀ {p p' : Path E}, OB.uid i ∉ o.ids → ¬ SetAt i f o p p' := by
  induction o with
  | nil => intro p p' _ h; cases p <;> cases p' <;> simp [SetAt] at h
  | node id nst nxt ihn ih =>
    intro x p hi h
    simp only [OB.ids, List.mem_cons, List.mem_append, not_or] at hi
    cases x <;> cases p <;> simp only [SetAt] at h
    · rw [if_neg (Ne.symm hi.1)] at h
      exact ih hi.2.2 h.2.2
    · obtain ⟨_, h | h⟩ := h
      · exact ihn hi.2.1 h.1
      · exact ih hi.2.2 h.2

/-- A user's identifier occurs once. (Specification or proof device, not part of the code.) -/
def OnceIn (i : OId I) (o : OB I) : Prop := o.ids.count i ≤ 1

theorem OnceIn.node {i id : OId I} {nst nxt : OB I} (h : OnceIn i (.node id nst nxt)) :
    OnceIn i nst ∧ OnceIn i nxt ∧ (i ∈ nst.ids → id ≠ i ∧ i ∉ nxt.ids) ∧ (i ∈ nxt.ids → id ≠ i ∧ i ∉ nst.ids) ∧
      (id = i → i ∉ nst.ids ∧ i ∉ nxt.ids) := by
  unfold OnceIn at *
  simp only [OB.ids, List.count_cons, List.count_append] at h
  have h1 : ∀ l : List (OId I), i ∈ l ↔ 0 < l.count i := fun l => List.count_pos_iff.symm
  simp only [h1]
  by_cases he : id = i
  · simp only [he, beq_self_eq_true, if_true] at h
    refine ⟨by omega, by omega, fun h => by omega, fun h => by omega, fun _ => by omega⟩
  · have : (id == i) = false := by simpa using he
    simp only [this] at h
    refine ⟨by omega, by omega, fun _ => ⟨he, by simp at h; omega⟩, fun _ => ⟨he, by simp at h; omega⟩, fun h => absurd h he⟩

theorem OnceIn.of_nodup {i : I} {o : OB I} (h : o.userIds.Nodup) : OnceIn (OB.uid i) o := by
  unfold OnceIn
  by_contra hc
  have h1 : 2 ≤ o.ids.count (OB.uid i) := by omega
  have h2 : 2 ≤ o.userIds.count i := by
    unfold OB.userIds
    refine le_trans h1 ?_
    rw [← List.count_filter (p := fun j : OId I => j.artificial == 0) (a := OB.uid i) (by simp [OB.uid])]
    exact List.count_le_count_map (f := OId.user) (x := OB.uid i)
  have := List.nodup_iff_count_le_one.1 h i
  omega

theorem img_next {id : OId I} {nst nxt : OB I} {i : I} {g : V → V} {x : SDD V} {p : Path E} {f : SDD V → SDD V} (h3 : id ≠ OB.uid i)
    (h4 : OB.uid i ∉ nst.ids) (ih' : ∀ hd s, ArcOf C x hd s → ∀ p, Mem C p (f s) ↔ Img C i g nxt s p) :
    (∃ hd s q, p = Head.cons hd q ∧ ArcOf C x hd s ∧ Mem C q (f s)) ↔ Img C i g (.node id nst nxt) x p := by
  constructor
  · rintro ⟨hd, s, q, rfl, ha, hq⟩
    rw [ih' hd s ha] at hq
    cases hd with
    | flat y a =>
      cases x with
      | flat z arcs =>
        obtain ⟨rfl, v, hv, hav⟩ := ha
        exact ⟨rfl, (v, s), hv, by rw [if_neg h3]; exact ⟨hav, hq⟩⟩
      | _ => simp [ArcOf] at ha
    | hier y a =>
      cases x with
      | hier z arcs =>
        obtain ⟨rfl, v, hv, hav⟩ := ha
        exact ⟨rfl, (v, s), hv, Or.inr ⟨hav, hq⟩⟩
      | _ => simp [ArcOf] at ha
  · intro h
    cases x <;> cases p <;> simp only [Img] at h
    · rename_i y arcs z a q
      obtain ⟨rfl, arc, h5, h6⟩ := h
      rw [if_neg h3] at h6
      have ha : ArcOf C (.flat z arcs) (.flat z a) arc.2 := ⟨rfl, arc.1, h5, h6.1⟩
      exact ⟨.flat _ _, arc.2, _, rfl, ha, (ih' _ _ ha _).2 h6.2⟩
    · rename_i y arcs z n q
      obtain ⟨rfl, arc, h5, h6 | h6⟩ := h
      · exact absurd h6.1 (not_img nst h4)
      · have ha : ArcOf C (.hier z arcs) (.hier z n) arc.2 := ⟨rfl, arc.1, h5, h6.1⟩
        exact ⟨.hier _ _, arc.2, _, rfl, ha, (ih' _ _ ha _).2 h6.2⟩

/-- `fn` below the elements which precede its target in its level. -/
theorem Ev.elem_img (hC : C.Lawful) {i : I} {u : U} {o m : OB I} {k : Nat} (h : Elem (OB.uid i) o m k) : m = .nil →
    OnceIn (OB.uid i) o → ∀ {x r : SDD V}, Dom C o.ty x → Ev env C (.fn k u) o x r →
      ∀ p, Mem C p r ↔ Img C i (env.fn u) o x p := by
  induction h with
  | @here m nxt =>
    rintro rfl hi x r hx e p
    cases e with
    | zero => constructor <;> intro h
              · exact absurd h (not_mem_zero _)
              · cases p <;> simp [Img] at h
    | skip f _ hb => cases x <;> simp [Below, Hom.skip] at hb
    | fnOne => rcases dom_cases hx with h | ⟨h, _⟩ | ⟨_, _, _, _, h, _⟩ | ⟨_, _, _, _, _, _, h, _⟩ <;> cases h
    | fn hh hr =>
      rw [hr.2]
      constructor
      · rintro ⟨b, q, rfl, arc, h1, h2, h3⟩
        exact ⟨rfl, arc, h1, by rw [if_pos rfl]; exact ⟨h2, h3⟩⟩
      · intro h
        cases p with
        | flat z b q =>
          obtain ⟨rfl, arc, h1, h2⟩ := h
          rw [if_pos rfl] at h2
          exact ⟨b, q, rfl, arc, h1, h2.1, h2.2⟩
        | _ => simp [Img] at h
  | @next id nst nxt m k hel ih =>
    rintro hm hi x r hx e p
    have hlt := hel.lt
    obtain ⟨h1, h2⟩ := (Ev.skip_iff hC (by simp [Hom.skip]; omega) hx).1 e
    obtain ⟨h3, h4⟩ := hi.node.2.2.2.1 hel.mem
    have ih' : ∀ hd s, ArcOf C x hd s → ∀ p, Mem C p (evOf env C (.fn k u) nxt s) ↔ Img C i (env.fn u) nxt s p :=
      fun hd s ha p => ih hm hi.node.2.1 (ha.dom hx).1 ((h1 hd s ha).ev hC) p
    rw [h2.2]
    exact img_next h3 h4 ih'
/-- `function` on a level at any depth: the values of the arcs of this level are changed, and nothing else. -/
theorem Ev.within_img (hC : C.Lawful) {i : I} {u : U} {o l m : OB I} {vs : List Nat} {k : Nat} (h : Within (OB.uid i) o vs l m k) :
    m = .nil → OnceIn (OB.uid i) o → ∀ {x r : SDD V}, Dom C o.ty x → Ev env C (vs.foldr .loc (.fn k u)) o x r →
      ∀ p, Mem C p r ↔ Img C i (env.fn u) o x p := by
  induction h with
  | here h => exact Ev.elem_img hC h
  | @next id nst nxt l m y vs k hw ih =>
    intro hm hi x r hx e p
    obtain ⟨h1, h2⟩ := (Ev.skip_iff hC (foldr_loc_skip hw) hx).1 e
    obtain ⟨h3, h4⟩ := hi.node.2.2.2.1 hw.mem
    have ih' : ∀ hd s, ArcOf C x hd s → ∀ p, Mem C p (evOf env C ((y :: vs).foldr .loc (.fn k u)) nxt s) ↔
        Img C i (env.fn u) nxt s p :=
      fun hd s ha p => ih hm hi.node.2.1 (ha.dom hx).1 ((h1 hd s ha).ev hC) p
    rw [h2.2]
    exact img_next h3 h4 ih'
  | @nested id nst nxt l m vs k hw ih =>
    intro hm hi x r hx e p
    obtain ⟨h3, h4⟩ := hi.node.2.2.1 hw.mem
    rw [List.foldr_cons] at e
    have hne : nst ≠ .nil := by rintro rfl; have := hw.mem; simp [OB.ids] at this
    rcases dom_cases hx with rfl | ⟨h1, _⟩ | ⟨id', nxt', arcs, h1, rfl, hg, hs⟩ | ⟨id', nst', nxt', arcs, h1, _, rfl, hg, hn, hs⟩
    · cases e.of_zero
      constructor <;> intro h
      · exact absurd h (not_mem_zero _)
      · cases p <;> simp [Img] at h
    · cases h1
    · cases h1; exact absurd rfl hne
    · cases h1
      cases e with
      | skip f _ hb => simp [Below, Hom.skip] at hb
      | loc f hh hf hr =>
        rw [hr.2]
        constructor
        · rintro ⟨n, q, rfl, arc, h5, h6, h7⟩
          exact ⟨rfl, arc, h5, Or.inl ⟨(ih hm hi.node.1 (hn _ h5) (hf arc h5) n).1 h6, h7⟩⟩
        · intro h
          cases p with
          | hier z n q =>
            obtain ⟨rfl, arc, h5, h6 | h6⟩ := h
            · exact ⟨n, q, rfl, arc, h5, (ih hm hi.node.1 (hn _ h5) (hf arc h5) n).2 h6.1, h6.2⟩
            · exact absurd h6.2 (not_img _ h4)
          | _ => simp [Img] at h

/-- A function can be applied. -/
theorem HTy.function {i : OId I} {u : U} {o l m : OB I} {vs : List Nat} {k : Nat} (h : Within i o vs l m k) (hm : m = .nil) :
    HTy env C sc o (vs.foldr .loc (.fn k u)) o.ty := by
  subst hm
  generalize hm : (OB.nil : OB I) = m at h
  induction h with
  | here h =>
    subst hm
    generalize hm : (OB.nil : OB I) = m at h
    induction h with
    | here => subst hm; exact .fn
    | @next id nst nxt m k h ih =>
      rw [← liftTy_ty (id := id) (nst := nst)]
      have := h.lt
      exact (ih hm).above (by simp [Hom.skip]; omega)
  | @next id nst nxt l m y vs k hw ih =>
    rw [← liftTy_ty (id := id) (nst := nst)]
    exact (ih hm).above (foldr_loc_skip hw)
  | @nested id nst nxt l m vs k hw ih =>
    have hne : nst ≠ .nil := by rintro rfl; have := hw.mem; simp [OB.ids] at this
    have := HTy.loc (id := id) (nxt := nxt) hne (ih hm)
    have he : (OB.node id nst nxt).ty = .hier nxt.lvl nst.ty nxt.ty := by
      cases nst with
      | nil => exact absurd rfl hne
      | node => rfl
    rw [he]
    exact this

theorem setAt_next {id : OId I} {nst nxt : OB I} {i : I} {f : E → E → Prop} {p p' : Path E} (h3 : id ≠ OB.uid i)
    (h4 : OB.uid i ∉ nst.ids) : liftRel (SetAt i f nxt) p p' ↔ SetAt i f (.node id nst nxt) p p' := by
  constructor
  · rintro ⟨hd, q, q', rfl, rfl, h⟩
    cases hd with
    | flat x a => exact ⟨rfl, by rw [if_neg h3]; exact ⟨rfl, h⟩⟩
    | hier x n => exact ⟨rfl, Or.inr ⟨rfl, h⟩⟩
  · intro h
    cases p <;> cases p' <;> simp only [SetAt] at h
    · rw [if_neg h3] at h
      obtain ⟨rfl, rfl, h⟩ := h
      exact ⟨.flat _ _, _, _, rfl, rfl, h⟩
    · obtain ⟨rfl, h | ⟨rfl, h⟩⟩ := h
      · exact absurd h.1 (not_setAt nst h4)
      · exact ⟨.hier _ _, _, _, rfl, rfl, h⟩

/-- The relation of a function of an additive user. -/
theorem Rl.function {i : I} {u : U} {o l m : OB I} {vs : List Nat} {k : Nat} (h : Within (OB.uid i) o vs l m k) (hm : m = .nil)
    (hi : OnceIn (OB.uid i) o) (f : E → E → Prop)
    (hf : ∀ v, (∃ a, C.vmem a v) → ∀ b, C.vmem b (env.fn u v) ↔ ∃ a, C.vmem a v ∧ f a b) :
    Rl env C sc o (vs.foldr .loc (.fn k u)) o.ty (SetAt i f o) := by
  induction h with
  | here h =>
    induction h with
    | here =>
      subst hm
      refine ⟨_, .fn f hf, fun p hp p' => ?_⟩
      constructor
      · rintro ⟨a, b, q, rfl, rfl, h⟩
        exact ⟨rfl, by rw [if_pos rfl]; exact ⟨h, rfl⟩⟩
      · intro h
        cases p <;> cases p' <;> simp only [SetAt] at h
        · rw [if_pos trivial] at h
          obtain ⟨rfl, h, rfl⟩ := h
          obtain ⟨⟨_, rfl⟩, _⟩ := (pty_cons (hd := .flat _ _)).1 (liftTy_ty (id := OB.uid i) ▸ hp)
          exact ⟨_, _, _, rfl, rfl, h⟩
        · obtain ⟨⟨h, _⟩, _⟩ := (pty_cons (hd := .hier _ _)).1 (liftTy_ty (id := OB.uid i) ▸ hp)
          exact absurd rfl h
    | @next id nst nxt m k h ih =>
      rw [← liftTy_ty (id := id) (nst := nst)]
      have := h.lt
      obtain ⟨h3, h4⟩ := hi.node.2.2.2.1 h.mem
      exact ((ih hm hi.node.2.1).above (by simp [Hom.skip]; omega)).congr fun p _ p' => setAt_next h3 h4
  | @next id nst nxt l m y vs k hw ih =>
    obtain ⟨h3, h4⟩ := hi.node.2.2.2.1 hw.mem
    rw [← liftTy_ty (id := id) (nst := nst)]
    exact ((ih hm hi.node.2.1).above (foldr_loc_skip hw)).congr fun p _ p' => setAt_next h3 h4
  | @nested id nst nxt l m vs k hw ih =>
    obtain ⟨h3, h4⟩ := hi.node.2.2.1 hw.mem
    have hne : nst ≠ .nil := by rintro rfl; have := hw.mem; simp [OB.ids] at this
    have he : (OB.node id nst nxt).ty = .hier nxt.lvl nst.ty nxt.ty := by
      cases nst with
      | nil => exact absurd rfl hne
      | node => rfl
    rw [he, List.foldr_cons]
    refine (Rl.loc (id := id) (nxt := nxt) hne (ih hm hi.node.1)).congr fun p hp p' => ?_
    constructor
    · rintro ⟨n, n', q, rfl, rfl, h⟩
      exact ⟨rfl, Or.inl ⟨h, rfl⟩⟩
    · intro h
      cases p <;> cases p' <;> simp only [SetAt] at h
      · obtain ⟨⟨h, _⟩, _⟩ := (pty_cons (hd := .flat _ _)).1 (liftTy_ty (id := id) ▸ hp)
        exact absurd h hne
      · obtain ⟨rfl, ⟨h, rfl⟩ | ⟨rfl, h⟩⟩ := h
        · obtain ⟨⟨_, rfl, _⟩, _⟩ := (pty_cons (hd := .hier _ _)).1 (liftTy_ty (id := id) ▸ hp)
          exact ⟨_, _, _, rfl, rfl, h⟩
        · exact absurd h (not_setAt _ h4)

/-! ## `function` and `carrier` from an order -/

theorem Within.flat {i : I} {o l m : OB I} {vs : List Nat} {x : Nat} (h : Within (OB.uid i) o vs l m x)
    (hi : OnceIn (OB.uid i) o) (hf : FlatAt i o) : m = .nil := by
  have hmem : ∀ o : OB I, FlatAt i o → OB.uid i ∈ o.ids := by
    intro o
    induction o with
    | nil => exact fun h => h.elim
    | node id nst nxt ihn ih =>
      rintro (⟨rfl, _⟩ | h | h)
      · simp [OB.ids]
      · simp [OB.ids, ihn h]
      · simp [OB.ids, ih h]
  induction h with
  | here h =>
    induction h with
    | here =>
      rcases hf with ⟨_, h⟩ | h | h
      · exact h
      · exact absurd (hmem _ h) (hi.node.2.2.2.2 rfl).1
      · exact absurd (hmem _ h) (hi.node.2.2.2.2 rfl).2
    | next h ih =>
      obtain ⟨h3, h4⟩ := hi.node.2.2.2.1 h.mem
      rcases hf with ⟨h, _⟩ | h | h
      · exact absurd h h3
      · exact absurd (hmem _ h) h4
      · exact ih hi.node.2.1 h
  | next hw ih =>
    obtain ⟨h3, h4⟩ := hi.node.2.2.2.1 hw.mem
    rcases hf with ⟨h, _⟩ | h | h
    · exact absurd h h3
    · exact absurd (hmem _ h) h4
    · exact ih hi.node.2.1 h
  | nested hw ih =>
    obtain ⟨h3, h4⟩ := hi.node.2.2.1 hw.mem
    rcases hf with ⟨h, _⟩ | h | h
    · exact absurd h h3
    · exact ih hi.node.1 h
    · exact absurd (hmem _ h) h4

theorem FlatAt.mem {i : I} (o : OB I) (h : FlatAt i o) : i ∈ o.userIds := by
  induction o with
  | nil => exact h.elim
  | node id nst nxt ihn ih =>
    rw [Ord.userIds_node]
    rcases h with ⟨rfl, _⟩ | h | h
    · simp [OB.uid]
    · simp [ihn h]
    · simp [ih h]

/-- What `function` builds. -/
theorem hfunction_spec {ob : OB I} {o : Ord I} (ho : Ord.ofBuilder ob = .ok o) {i : I} (hi : FlatAt i ob) {u : U}
    {h : Hom V I U} (hh : hfunction o i u = some h) :
    ∃ vs l k, Within (OB.uid i) ob vs l .nil k ∧ OnceIn (OB.uid i) ob ∧ h = vs.foldr .loc (.fn k u) := by
  have hof := Ord.ofBuilder_spec ob
  rw [ho] at hof
  have ho1 := OnceIn.of_nodup (i := i) hof.1
  obtain ⟨n, vs, l, m, h1, h2, h3⟩ := carrier_spec (V := V) (U := U) ho hi.mem
  have hm := h2.flat ho1 hi
  subst hm
  unfold hfunction at hh
  rw [h1, Option.bind_some, h3, (foldr_hloc_ne (by simp)).1] at hh
  cases hh
  exact ⟨vs, l, _, h2, ho1, rfl⟩

theorem Elem.level {i : OId I} {o m : OB I} {x : Nat} (h : Elem i o m x) : i ∈ o.level.map Prod.fst := by
  induction h with
  | here => simp [OB.level]
  | next _ ih => simp only [OB.level, List.map_cons, List.mem_cons, ih, or_true]

theorem level_ids {i : OId I} (o : OB I) (h : i ∈ o.level.map Prod.fst) : i ∈ o.ids := by
  induction o with
  | nil => simp [OB.level] at h
  | node id nst nxt _ ih =>
    simp only [OB.level, List.map_cons, List.mem_cons] at h
    rcases h with rfl | h
    · simp [OB.ids]
    · simp [OB.ids, ih h]

theorem Within.not_level {i : OId I} {o l m : OB I} {y : Nat} {vs : List Nat} {x : Nat} (h : Within i o (y :: vs) l m x)
    (hi : OnceIn i o) : i ∉ o.level.map Prod.fst := by
  generalize hv : y :: vs = w at h
  induction h with
  | here => cases hv
  | next hw ih =>
    obtain ⟨h3, h4⟩ := hi.node.2.2.2.1 hw.mem
    simp only [OB.level, List.map_cons, List.mem_cons, not_or]
    exact ⟨Ne.symm h3, ih hi.node.2.1 hv⟩
  | nested hw =>
    obtain ⟨h3, h4⟩ := hi.node.2.2.1 hw.mem
    simp only [OB.level, List.map_cons, List.mem_cons, not_or]
    exact ⟨Ne.symm h3, fun h => h4 (level_ids _ h)⟩

theorem Within.levelOf {i : I} {o l m : OB I} {vs : List Nat} {x : Nat} (h : Within (OB.uid i) o vs l m x)
    (hi : OnceIn (OB.uid i) o) : LevelOf i o l := by
  induction h with
  | here h =>
    have := h.level
    cases h with
    | here => unfold LevelOf; rw [if_pos this]
    | next => unfold LevelOf; rw [if_pos this]
  | next hw ih =>
    unfold LevelOf
    rw [if_neg ((Within.next hw).not_level hi)]
    exact Or.inr (ih hi.node.2.1)
  | nested hw ih =>
    unfold LevelOf
    rw [if_neg ((Within.nested hw).not_level hi)]
    exact Or.inl (ih hi.node.1)

theorem LevelOf.mem {i : I} {o l : OB I} (h : LevelOf i o l) : OB.uid i ∈ o.ids := by
  induction o with
  | nil => exact h.elim
  | node id nst nxt ihn ih =>
    unfold LevelOf at h
    split at h
    · rename_i h1; exact level_ids _ h1
    · rcases h with h | h
      · simp [OB.ids, ihn h]
      · simp [OB.ids, ih h]

theorem LevelOf.unique {i : I} {o l l' : OB I} (hi : OnceIn (OB.uid i) o) (h : LevelOf i o l) (h' : LevelOf i o l') : l = l' := by
  induction o with
  | nil => exact h.elim
  | node id nst nxt ihn ih =>
    unfold LevelOf at h h'
    split at h
    · rename_i h1
      rw [if_pos h1] at h'
      rw [h, h']
    · rename_i h1
      rw [if_neg h1] at h'
      rcases h with h | h <;> rcases h' with h' | h'
      · exact ihn hi.node.1 h h'
      · exact absurd h'.mem (hi.node.2.2.1 h.mem).2
      · exact absurd h.mem (hi.node.2.2.1 h'.mem).2
      · exact ih hi.node.2.1 h h'

theorem not_carryImg {i : I} {P : SDD V → Path E → Prop} (o : OB I) : ∀ {x : SDD V} {p : Path E}, OB.uid i ∉ o.ids →
    ¬ CarryImg C i P o x p := by
  induction o with
  | nil => intro x p _ h; exact h
  | node id nst nxt ihn ih =>
    intro x p hi h
    unfold CarryImg at h
    rw [if_neg fun h => hi (level_ids _ h)] at h
    simp only [OB.ids, List.mem_cons, List.mem_append, not_or] at hi
    cases x <;> cases p <;> simp only at h
    · obtain ⟨_, arc, _, h⟩ := h
      exact ih hi.2.2 h.2
    · obtain ⟨_, arc, _, h | h⟩ := h
      · exact ihn hi.2.1 h.1
      · exact ih hi.2.2 h.2

/-- `carrier` leads to the level of its target, and changes nothing else. -/
theorem Ev.within_carry (hC : C.Lawful) {i : I} {h : Hom V I U} {P : SDD V → Path E → Prop} {o l m : OB I}
    {vs : List Nat} {k : Nat} (hw : Within (OB.uid i) o vs l m k)
    (hP : ∀ {x r : SDD V}, Dom C l.ty x → Ev env C h l x r → ∀ p, Mem C p r ↔ P x p) :
    OnceIn (OB.uid i) o → ∀ {x r : SDD V}, Dom C o.ty x → Ev env C (vs.foldr .loc h) o x r →
      ∀ p, Mem C p r ↔ CarryImg C i P o x p := by
  induction hw with
  | here hel =>
    intro _ x r hx e p
    rw [hP hx e]
    have := hel.level
    cases hel with
    | here => unfold CarryImg; rw [if_pos this]
    | next => unfold CarryImg; rw [if_pos this]
  | @next id nst nxt l m y vs k hw ih =>
    intro hi x r hx e p
    obtain ⟨h1, h2⟩ := (Ev.skip_iff hC (foldr_loc_skip hw) hx).1 e
    obtain ⟨h3, h4⟩ := hi.node.2.2.2.1 hw.mem
    have ih' : ∀ hd s, ArcOf C x hd s → ∀ p, Mem C p (evOf env C ((y :: vs).foldr .loc h) nxt s) ↔ CarryImg C i P nxt s p :=
      fun hd s ha p => ih hP hi.node.2.1 (ha.dom hx).1 ((h1 hd s ha).ev hC) p
    rw [h2.2]
    unfold CarryImg
    rw [if_neg ((Within.next hw).not_level hi)]
    constructor
    · rintro ⟨hd, s, q, rfl, ha, hq⟩
      rw [ih' hd s ha] at hq
      cases hd with
      | flat y a =>
        cases x with
        | flat z arcs =>
          obtain ⟨rfl, v, hv, hav⟩ := ha
          exact ⟨rfl, (v, s), hv, hav, hq⟩
        | _ => simp [ArcOf] at ha
      | hier y a =>
        cases x with
        | hier z arcs =>
          obtain ⟨rfl, v, hv, hav⟩ := ha
          exact ⟨rfl, (v, s), hv, Or.inr ⟨hav, hq⟩⟩
        | _ => simp [ArcOf] at ha
    · intro h
      cases x <;> cases p <;> simp only at h
      · rename_i y arcs z a q
        obtain ⟨rfl, arc, h5, h6⟩ := h
        have ha : ArcOf C (.flat z arcs) (.flat z a) arc.2 := ⟨rfl, arc.1, h5, h6.1⟩
        exact ⟨.flat _ _, arc.2, _, rfl, ha, (ih' _ _ ha _).2 h6.2⟩
      · rename_i y arcs z n q
        obtain ⟨rfl, arc, h5, h6 | h6⟩ := h
        · exact absurd h6.1 (not_carryImg nst h4)
        · have ha : ArcOf C (.hier z arcs) (.hier z n) arc.2 := ⟨rfl, arc.1, h5, h6.1⟩
          exact ⟨.hier _ _, arc.2, _, rfl, ha, (ih' _ _ ha _).2 h6.2⟩
  | @nested id nst nxt l m vs k hw ih =>
    intro hi x r hx e p
    obtain ⟨h3, h4⟩ := hi.node.2.2.1 hw.mem
    rw [List.foldr_cons] at e
    have hne : nst ≠ .nil := by rintro rfl; have := hw.mem; simp [OB.ids] at this
    unfold CarryImg
    rw [if_neg ((Within.nested hw).not_level hi)]
    rcases dom_cases hx with rfl | ⟨h1, _⟩ | ⟨id', nxt', arcs, h1, rfl, hg, hs⟩ | ⟨id', nst', nxt', arcs, h1, _, rfl, hg, hn, hs⟩
    · cases e.of_zero
      constructor <;> intro h
      · exact absurd h (not_mem_zero _)
      · cases p <;> simp at h
    · cases h1
    · cases h1; exact absurd rfl hne
    · cases h1
      cases e with
      | skip f _ hb => simp [Below, Hom.skip] at hb
      | loc f hh hf hr =>
        rw [hr.2]
        constructor
        · rintro ⟨n, q, rfl, arc, h5, h6, h7⟩
          exact ⟨rfl, arc, h5, Or.inl ⟨(ih hP hi.node.1 (hn _ h5) (hf arc h5) n).1 h6, h7⟩⟩
        · intro h
          cases p with
          | hier z n q =>
            obtain ⟨rfl, arc, h5, h6 | h6⟩ := h
            · exact ⟨n, q, rfl, arc, h5, (ih hP hi.node.1 (hn _ h5) (hf arc h5) n).2 h6.1, h6.2⟩
            · exact absurd h6.2 (not_carryImg _ h4)
          | _ => simp at h

/-- A carried homomorphism can be applied. -/
theorem HTy.carry {i : OId I} {h : Hom V I U} {o l m : OB I} {vs : List Nat} {k : Nat} (hw : Within i o vs l m k)
    (ht : HTy env C sc l h l.ty) : HTy env C sc o (vs.foldr .loc h) o.ty := by
  induction hw with
  | here => exact ht
  | @next id nst nxt l m y vs k hw ih =>
    rw [← liftTy_ty (id := id) (nst := nst)]
    exact (ih ht).above (foldr_loc_skip hw)
  | @nested id nst nxt l m vs k hw ih =>
    have hne : nst ≠ .nil := by rintro rfl; have := hw.mem; simp [OB.ids] at this
    have := HTy.loc (id := id) (nxt := nxt) hne (ih ht)
    have he : (OB.node id nst nxt).ty = .hier nxt.lvl nst.ty nxt.ty := by
      cases nst with
      | nil => exact absurd rfl hne
      | node => rfl
    rw [he]
    exact this

/-- What `carrier` builds. -/
theorem hcarrier_spec {ob : OB I} {o : Ord I} (ho : Ord.ofBuilder ob = .ok o) {i : I} (hi : i ∈ ob.userIds)
    {h h' : Hom V I U} (hne : h ≠ .id) (hh : carrier o i h = some h') :
    ∃ vs l m k, Within (OB.uid i) ob vs l m k ∧ OnceIn (OB.uid i) ob ∧ h' = vs.foldr .loc h := by
  have hof := Ord.ofBuilder_spec ob
  rw [ho] at hof
  have ho1 := OnceIn.of_nodup (i := i) hof.1
  obtain ⟨n, vs, l, m, h1, h2, h3⟩ := carrier_spec (V := V) (U := U) ho hi
  rw [h3, (foldr_hloc_ne hne).1] at hh
  cases hh
  exact ⟨vs, l, m, _, h2, ho1, rfl⟩

theorem Within.elem_absurd {i : OId I} {o m : OB I} {x : Nat} (h : Elem i o m x) : OnceIn i o → ∀ {y : Nat} {vs : List Nat} {l m' : OB I} {x' : Nat},
    Within i o (y :: vs) l m' x' → False := by
  induction h with
  | here =>
    intro hi y vs l m' x' h'
    cases h' with
    | next h' => exact absurd h'.mem (hi.node.2.2.2.2 rfl).2
    | nested h' => exact absurd h'.mem (hi.node.2.2.2.2 rfl).1
  | next h ih =>
    intro hi y vs l m' x' h'
    cases h' with
    | next h' => exact ih hi.node.2.1 h'
    | nested h' => exact absurd h.mem (hi.node.2.2.1 h'.mem).2

theorem Within.unique {i : OId I} {o l m : OB I} {vs : List Nat} {x : Nat} (h : Within i o vs l m x) (hi : OnceIn i o) :
    ∀ {vs' : List Nat} {l' m' : OB I} {x' : Nat}, Within i o vs' l' m' x' → vs = vs' ∧ l = l' ∧ m = m' ∧ x = x' := by
  have elem : ∀ {o m m' : OB I} {x x' : Nat}, Elem i o m x → OnceIn i o → Elem i o m' x' → m = m' ∧ x = x' := by
    intro o m m' x x' h
    induction h with
    | here =>
      intro hi h'
      cases h' with
      | here => exact ⟨rfl, rfl⟩
      | next h' => exact absurd h'.mem (hi.node.2.2.2.2 rfl).2
    | next h ih =>
      intro hi h'
      cases h' with
      | here => exact absurd h.mem (hi.node.2.2.2.2 rfl).2
      | next h' => exact ih hi.node.2.1 h'
  induction h with
  | here h =>
    intro vs' l' m' x' h'
    cases h' with
    | here h' => obtain ⟨h1, h2⟩ := elem h hi h'; exact ⟨rfl, rfl, h1, h2⟩
    | next h' =>
      cases h with
      | here => exact absurd h'.mem (hi.node.2.2.2.2 rfl).2
      | next h =>
        exfalso
        have := hi.node.2.1
        exact Within.elem_absurd h this h'
    | nested h' =>
      cases h with
      | here => exact absurd h'.mem (hi.node.2.2.2.2 rfl).1
      | next h => exact absurd h.mem (hi.node.2.2.1 h'.mem).2
  | next h ih =>
    intro vs' l' m' x' h'
    cases h' with
    | here h' =>
      cases h' with
      | here => exact absurd h.mem (hi.node.2.2.2.2 rfl).2
      | next h' => exact (Within.elem_absurd h' hi.node.2.1 h).elim
    | next h' => exact ih hi.node.2.1 h'
    | nested h' => exact absurd h.mem (hi.node.2.2.1 h'.mem).2
  | nested h ih =>
    intro vs' l' m' x' h'
    cases h' with
    | here h' =>
      cases h' with
      | here => exact absurd h.mem (hi.node.2.2.2.2 rfl).1
      | next h' => exact absurd h'.mem (hi.node.2.2.1 h.mem).2
    | next h' => exact absurd h'.mem (hi.node.2.2.1 h.mem).2
    | nested h' =>
      obtain ⟨rfl, rfl, rfl, rfl⟩ := ih hi.node.1 h'
      exact ⟨rfl, rfl, rfl, rfl⟩

theorem Elem.of_level {i : OId I} {o m : OB I} (h : (i, m) ∈ o.level) : ∃ x, Elem i o m x := by
  induction o with
  | nil => simp [OB.level] at h
  | node id nst nxt _ ih =>
    simp only [OB.level, List.mem_cons, Prod.mk.injEq] at h
    rcases h with ⟨rfl, rfl⟩ | h
    · exact ⟨_, .here⟩
    · obtain ⟨x, hx⟩ := ih h
      exact ⟨x, .next hx⟩

end
end Verif
