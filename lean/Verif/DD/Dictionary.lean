import Verif.DD.Outcome
import Verif.Order.Init
import Verif.Values.FlatSet
/-!
# The dictionary

The program `/repo/examples/dictionary/dictionary.cc`, as part of a session of the library.
-/

set_option autoImplicit false
set_option linter.unusedSectionVars false

namespace Verif

section
variable {V E I : Type} [DecidableEq V] {C : Cfg V E} {orc : Nat → Nat → List Nat} {cap : OpKind → Nat}

/-- The construction of an SDD from an order is a sequence of calls of constructors: the session which holds it is reachable. -/
theorem Sess.Reach.sddOfOrder (init : I → V) : ∀ (fuel : Nat) (o : Ord I) (x : SDD V) (s : Sess V), Sess.Reach C orc cap s →
    sddOfOrder (C.withLt s.lt) (CM orc V) init fuel o = some x → Sess.Reach C orc cap { s with handles := x :: s.handles } := by
  have one : ∀ s : Sess V, Sess.Reach C orc cap s → Sess.Reach C orc cap { s with handles := .one :: s.handles } :=
    fun s hs => .step _ _ hs (.call s .one (by simp [Call.args]))
  intro fuel
  induction fuel with
  | zero =>
    intro o x s hs h
    rw [Verif.sddOfOrder] at h
    split at h
    · cases h; exact one s hs
    · cases h
  | succ fuel ih =>
    intro o x s hs h
    rw [Verif.sddOfOrder] at h
    split at h
    · cases h; exact one s hs
    · split at h
      · rename_i nst nxt v id _ _ _ _
        split at h
        · rw [Option.map_eq_some_iff] at h
          obtain ⟨y, hy, rfl⟩ := h
          have h1 := ih nxt y s hs hy
          have h2 := Sess.Reach.step _ _ h1 (.call _ (.flat v (init id.user) y) (by simp [Call.args]))
          refine .step _ _ h2 (.drop _ (_ :: s.handles) ?_)
          intro z hz
          rcases List.mem_cons.1 hz with rfl | hz
          · exact List.mem_cons_self
          · exact List.mem_cons_of_mem _ (List.mem_cons_of_mem _ hz)
        · split at h
          · rename_i n y hn hy
            cases h
            have h1 := ih nst n s hs hn
            have h1' := ih nxt y _ h1 hy
            have h2 := Sess.Reach.step _ _ h1' (.call _ (.hier v n y) (by simp [Call.args]))
            refine .step _ _ h2 (.drop _ (_ :: s.handles) ?_)
            intro z hz
            rcases List.mem_cons.1 hz with rfl | hz
            · exact List.mem_cons_self
            · exact List.mem_cons_of_mem _ (List.mem_cons_of_mem _ (List.mem_cons_of_mem _ hz))
          · cases h
      · cases h

end

namespace Dictionary

variable {E : Type} [DecidableEq E] {elt : E → E → Bool}

/-! ## The program -/

/-- `conf::Values`: `flat_set<char>`. (`/repo/examples/dictionary/dictionary.cc`, lines 11-16.) -/
abbrev Values (E : Type) (elt : E → E → Bool) : Type := FSet E elt

/-- The order, `/repo/examples/dictionary/dictionary.cc:67-71`. -/
def builder (n : Nat) : OB Nat := OB.ofList (List.range n)

/-- The initializer of a word, `/repo/examples/dictionary/dictionary.cc:78-81`; `c` is the character `'#'`. -/
def letter (helt : StrictTotal elt) (c : E) (line : List E) (pos : Nat) : Values E elt :=
  if h : pos < line.length then FSet.ofList helt [line[pos]] else FSet.ofList helt [c]

/-- The length of the longest word, `/repo/examples/dictionary/dictionary.cc:54-61`. -/
def maxSize (lines : List (List E)) : Nat := lines.foldl (fun m line => if m > line.length then m else line.length) 0

variable {C : Cfg (Values E elt) E} {orc : Nat → Nat → List Nat} {cap : OpKind → Nat}

/-- The executions of the loop, `/repo/examples/dictionary/dictionary.cc:73-83`: after `lines` (the last one first) the session is `s` and `dict` is held. Between two lines there
may be any other use of the library which keeps `dict`. -/
inductive Run (C : Cfg (Values E elt) E) (orc : Nat → Nat → List Nat) (cap : OpKind → Nat) (helt : StrictTotal elt) (c : E) (n : Nat) (o : Ord Nat) :
    List (List E) → Sess (Values E elt) → SDD (Values E elt) → Prop where
  | start (s : Sess (Values E elt)) : Sess.Reach C orc cap s → .zero ∈ s.handles → Run C orc cap helt c n o [] s .zero
  | line (lines : List (List E)) (s : Sess (Values E elt)) (dict word r : SDD (Values E elt)) (line : List E) (m : Mach (Values E elt)) :
      Run C orc cap helt c n o lines s dict →
      sddOfOrder (C.withLt s.lt) (CM orc (Values E elt)) (letter helt c line) n o = some word →
      sumC (C.withLt s.lt) orc cap [dict, word] s.mach = (.ok r, m) →
      Run C orc cap helt c n o (line :: lines) ⟨s.lt, m, r :: s.handles⟩ r
  | other (lines : List (List E)) (s s' : Sess (Values E elt)) (dict : SDD (Values E elt)) : Run C orc cap helt c n o lines s dict →
      Sess.Step C orc cap s s' → dict ∈ s'.handles → Run C orc cap helt c n o lines s' dict

/-! ## Words -/

/-- A word completed with `'#'`. (Specification, not part of the code.) -/
def padded (c : E) (n : Nat) (w : List E) : List E := w ++ List.replicate (n - w.length) c

/-- The path of a word: the first letter is at the top. (Specification, not part of the code.) -/
def path : List E → Path E
  | [] => .nil
  | a :: w => .flat w.length a (path w)

theorem path_inj : ∀ {w w' : List E}, path w = path w' → w = w' := by
  intro w
  induction w with
  | nil => intro w' h; cases w' <;> simp [path] at h ⊢
  | cons a w ih =>
    intro w' h
    cases w' with
    | nil => simp [path] at h
    | cons b w' =>
      simp only [path, Path.flat.injEq] at h
      rw [h.2.1, ih h.2.2]

theorem maxSize_spec (lines : List (List E)) : ∀ w ∈ lines, w.length ≤ maxSize lines := by
  have : ∀ (l : List (List E)) (m : Nat), m ≤ l.foldl (fun m line => if m > line.length then m else line.length) m ∧
      ∀ w ∈ l, w.length ≤ l.foldl (fun m line => if m > line.length then m else line.length) m := by
    intro l
    induction l with
    | nil => intro m; simp
    | cons v l ih =>
      intro m
      obtain ⟨h1, h2⟩ := ih (if m > v.length then m else v.length)
      rw [List.foldl_cons]
      refine ⟨le_trans ?_ h1, fun w hw => ?_⟩
      · split <;> omega
      · rcases List.mem_cons.1 hw with rfl | hw
        · refine le_trans ?_ h1; split <;> omega
        · exact h2 w hw
  exact (this lines 0).2

theorem ofList_cons (i : Nat) (l : List Nat) : OB.ofList (i :: l) = .node (OB.uid i) .nil (OB.ofList l) := by
  simp [OB.ofList, OB.push]

theorem assigns_iff (f : Nat → E) : ∀ (l : List Nat) (p : Path E), Assigns (fun i (a : E) => a = f i) (OB.ofList l) p ↔ p = path (l.map f) := by
  intro l
  induction l with
  | nil => intro p; rfl
  | cons i l ih =>
    intro p
    have hl : (OB.ofList l).level.length = l.length := by
      clear ih
      induction l with
      | nil => rfl
      | cons j l ih => rw [ofList_cons, OB.level, List.length_cons, List.length_cons, ih]
    rw [ofList_cons]
    cases p with
    | nil => simp [Assigns, path]
    | flat x a q => simp [Assigns, path, hl, ih, OB.uid]
    | hier => simp [Assigns, path]

theorem padded_eq (c : E) {n : Nat} {w : List E} (hw : w.length ≤ n) :
    (List.range n).map (fun i => if h : i < w.length then w[i] else c) = padded c n w := by
  refine List.ext_getElem (by simp [padded]; omega) fun i h1 h2 => ?_
  simp only [List.getElem_map, List.getElem_range, padded, List.getElem_append, List.getElem_replicate]

/-- Words without `'#'` are not confused. -/
theorem padded_inj {c : E} {n : Nat} {w w' : List E} (hc : c ∉ w) (hc' : c ∉ w')
    (h : padded c n w = padded c n w') : w = w' := by
  have key : ∀ {w : List E}, c ∉ w → (padded c n w).filter (· ≠ c) = w := by
    intro w hc
    rw [padded, List.filter_append, List.filter_eq_self.2, List.filter_eq_nil_iff.2, List.append_nil]
    · intro a ha; simp [List.eq_of_mem_replicate ha]
    · intro a ha; simpa using fun (e : a = c) => hc (e ▸ ha)
  rw [← key hc, ← key hc', h]

end Dictionary
end Verif
