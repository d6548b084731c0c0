import Verif.Hom.Cached
import Verif.Hom.RelRewrite
import Verif.Hom.Same
/-!
# Histories of applications of homomorphisms

What the user of one manager observes: a sequence of applications of homomorphisms (which return, raise, or are stopped), of
operations on SDDs, of resets of the caches and of changes of the addresses of the nodes which are not in memory.
-/

set_option autoImplicit false
set_option linter.unusedSectionVars false

namespace Verif

variable {V E I U : Type} [DecidableEq V] [DecidableEq I] [DecidableEq U]

/-- A configured library: the user's code, the configuration of values, the iteration orders of hash tables (and the choice of the
entries discarded by the caches), the sizes of the caches of operations and of the cache of homomorphisms.
(Model of the environment: what the user or the system does.) -/
structure Lib (V E I U : Type) where
  env : User V I U
  C : Cfg V E
  orc : Nat → Nat → List Nat
  cap : OpKind → Nat
  hcap : Nat

/-- Application of a homomorphism with the caches in the state `s`; `n` bounds the depth of the evaluation.
(`/repo/sdd/hom/definition.hh`, lines 107-119.) -/
def Lib.apply (L : Lib V E I U) (n : Nat) (h : Hom V I U) (o : OB I) (x : SDD V) (s : HMach V I U) :
    Except (Err V) (SDD V) × HMach V I U :=
  homC L.env L.C L.orc L.cap L.hcap n h o x s

/-- A point where code of the user may throw (`guardX`), in the evaluation of a homomorphism.
(Model of the environment: what the user or the system does.) -/
def guardH {orc : Nat → Nat → List Nat} {α : Type} (stop : Nat → Option (Err V)) (x : HM orc V I U α) : HM orc V I U α := fun s =>
  match stop s.dd.tick with
  | some e => (.error e, { s with dd := { s.dd with tick := s.dd.tick + 1 } })
  | none => x { s with dd := { s.dd with tick := s.dd.tick + 1 } }

/-- Application of a homomorphism during which the code of the user (functions, inductive homomorphisms, operations on values) may throw:
at the beginning and at the end of the evaluation of each homomorphism and of each operation on SDDs, and before each of those they make
(between these points the caches do not change). Nothing catches exceptions in the evaluation, and the cache stores a result only after the
evaluation has returned (`/repo/sdd/mem/cache.hh:236-258`). -/
def Lib.applyX (L : Lib V E I U) (stop : Nat → Option (Err V)) (n : Nat) (h : Hom V I U) (o : OB I) (x : SDD V) (s : HMach V I U) :
    Except (Err V) (SDD V) × HMach V I U :=
  runH (m := HM L.orc V I U) L.env L.C (fun op => HM.lift (guardX stop (autoRun (runX L.C L.orc L.cap stop) op)))
    (fun f h o x => guardH stop (homCache L.hcap
      (fun h o x => guardH stop (f h o x) >>= fun r => guardH stop (pure r)) h o x)) n h o x s

/-- A correct use of a homomorphism: it can be applied under the order `o` to SDDs of this order. (Specification, not part of the code.) -/
structure Lib.Use (L : Lib V E I U) (sc : Scope I U) (h : Hom V I U) (o : OB I) (x : SDD V) : Prop where
  order : sc.S o
  ty : ∃ t, HTy L.env L.C sc o h t
  dom : Dom L.C o.ty x

/-! ### Code of the user which uses the library -/

/-- Evaluation during which the code of the user uses the library: the list of the applications in progress, whose results will be stored in
the cache, is known. (Effects of `/repo/sdd/mem/cache.hh`, lines 211-261; the list is on the call stack: these are the calls of
`cache::operator()` which are at line 239.) -/
def RM (orc : Nat → Nat → List Nat) (V I U : Type) (α : Type) : Type := List (Hom V I U × SDD V) → HM orc V I U α

instance (orc : Nat → Nat → List Nat) (V I U : Type) : DDMonad V (RM orc V I U) where
  pure a := fun _ => (pure a : HM orc V I U _)
  bind x f := fun st => ((x st : HM orc V I U _) >>= fun a => f a st : HM orc V I U _)
  raise e := fun _ => (DDMonad.raise e : HM orc V I U _)
  ord l := fun _ => (DDMonad.ord l : HM orc V I U _)

/-- What the code of the user does to the caches when it is called, by itself using the library; it may throw. Arguments: the applications in
progress, the date, the caches. (Model of the environment: what the user or the system does.) -/
abbrev Acts (V I U : Type) := List (Hom V I U × SDD V) → Nat → HMach V I U → Option (Err V) × HMach V I U

/-- A point where the code of the user may be called. (Model of the environment: what the user or the system does.) -/
def userR {orc : Nat → Nat → List Nat} {α : Type} (act : Acts V I U) (x : RM orc V I U α) : RM orc V I U α := fun st s =>
  match act st s.dd.tick { s with dd := { s.dd with tick := s.dd.tick + 1 } } with
  | (some e, s') => (.error e, s')
  | (none, s') => x st s'

/-- `homCache`, keeping the list of the applications in progress (`cache::operator()`, `/repo/sdd/mem/cache.hh:211-261`: the evaluation is
between the look-up, lines 221-225, and the insertion, line 258). -/
def homCacheR {orc : Nat → Nat → List Nat} (cap : Nat) (f : Hom V I U → OB I → SDD V → RM orc V I U (SDD V))
    (h : Hom V I U) (o : OB I) (x : SDD V) : RM orc V I U (SDD V) := fun st =>
  homCache cap (fun h o x => f h o x (if h.shouldCache then (h, x) :: st else st)) h o x

/-- Application of a homomorphism during which the code of the user (functions, inductive homomorphisms) may use the library, at the beginning
and at the end of the evaluation of each homomorphism, and before each application and each operation on SDDs (between these points the library
does not read or change the caches, `/repo/sdd/mem/cache.hh:211-261`). It may throw at these points, and the operations on values may throw too. -/
def Lib.applyR (L : Lib V E I U) (act : Acts V I U) (stop : Nat → Option (Err V)) (n : Nat) (h : Hom V I U) (o : OB I) (x : SDD V) :
    RM L.orc V I U (SDD V) :=
  runH (m := RM L.orc V I U) L.env L.C
    (fun op => userR act fun _ => HM.lift (guardX stop (autoRun (runX L.C L.orc L.cap stop) op)))
    (fun f h o x => userR act (homCacheR L.hcap (fun h o x => userR act (f h o x) >>= fun r => userR act (pure r)) h o x)) n h o x

/-- The applications made by an evaluation, at any depth. (Specification, not part of the code.) -/
inductive HCalls (env : User V I U) (C : Cfg V E) : OB I → Hom V I U → SDD V → OB I → Hom V I U → SDD V → Prop where
  | refl (o : OB I) (h : Hom V I U) (x : SDD V) : HCalls env C o h x o h x
  | step {o o1 o' : OB I} {h h1 h' : Hom V I U} {x x1 x' : SDD V} : HCall env C o h x o1 h1 x1 → HCalls env C o1 h1 x1 o' h' x' →
      HCalls env C o h x o' h' x'

/-- The evaluation of `h` on `x` does not need one of the applications `st`. (Specification, not part of the code.) -/
def Lib.Free (L : Lib V E I U) (st : List (Hom V I U × SDD V)) (h : Hom V I U) (o : OB I) (x : SDD V) : Prop :=
  ∀ o' h' x', HCalls L.env L.C o h x o' h' x' → (h', x') ∉ st

/-- What the code of the user may do while the applications `st` are in progress: any correct use of the library, which may itself call code of
the user, but no evaluation of an application in progress. (Model of the environment: what the user or the system does.) -/
inductive Lib.Nested (sc : Scope I U) (L : Lib V E I U) : List (Hom V I U × SDD V) → HMach V I U → HMach V I U → Prop where
  | refl (st : List (Hom V I U × SDD V)) (s : HMach V I U) : Nested sc L st s s
  /-- an application, which returns, raises or is stopped anywhere -/
  | apply {st : List (Hom V I U × SDD V)} {s s' : HMach V I U} (act : Acts V I U) (stop : Nat → Option (Err V)) (n : Nat) {h : Hom V I U}
      {o : OB I} {x : SDD V} : Nested sc L st s s' → (∀ st k s, Nested sc L st s (act st k s).2) → L.Use sc h o x → L.Free st h o x →
      Nested sc L st s (L.applyR act stop n h o x st s').2
  /-- an operation on SDDs, which returns or raises -/
  | call {st : List (Hom V I U × SDD V)} {s s' : HMach V I U} (stop : Nat → Option (Err V)) (c : Call V) : Nested sc L st s s' →
      (∀ x ∈ c.args, WF L.C x) → Nested sc L st s { s' with dd := (c.runX L.C L.orc L.cap stop s'.dd).2 }
  /-- `reset_hom_cache`, `/repo/sdd/manager.hh:189-194` -/
  | resetHom {st : List (Hom V I U × SDD V)} {s s' : HMach V I U} : Nested sc L st s s' → Nested sc L st s { s' with homs := [] }
  /-- `context::clear`, `/repo/sdd/dd/context.hh:103-111` -/
  | resetDD {st : List (Hom V I U × SDD V)} {s s' : HMach V I U} : Nested sc L st s s' →
      Nested sc L st s { s' with dd := ⟨fun _ => [], s'.dd.tick⟩ }

/-- What is expected of the configuration, the user and the use. (Specification, not part of the code.) -/
structure Lib.OK (L : Lib V E I U) (sc : Scope I U) : Prop where
  lawful : L.C.Lawful
  cap : ∀ k, 0 < L.cap k
  hcap : 0 < L.hcap
  honest : Honest L.env L.C
  closed : sc.Closed
  transfer : Transfer L.env L.C sc

/-- The SDDs kept in memory by the caches: those reachable from an operand or a result of a cached operation or application, or from
an SDD held by a homomorphism of a cached application (`/repo/sdd/mem/cache_entry.hh`, `/repo/sdd/hom/evaluation.hh:91-103`). -/
def HMach.Live (s : HMach V I U) (a : SDD V) : Prop :=
  (∃ k, ∃ e ∈ s.dd.cache k, (∃ x ∈ e.1.operands, Sub a x) ∨ Sub a e.2) ∨
    ∃ e ∈ s.homs, Sub a e.1.2 ∨ Sub a e.2 ∨ ∃ c, Hom.Const c e.1.1 ∧ Sub a c

/-- The library when nodes have other addresses (`lt`), in which the user's code is `env`.
(Model of the environment: what the user or the system does.) -/
def Lib.withLt (L : Lib V E I U) (lt : SDD V → SDD V → Bool) (env : User V I U) : Lib V E I U :=
  { L with C := L.C.withLt lt, env := env }

/-- The states of the caches after any history, for the uses of `sc`; `L` tells the current addresses.
(Model of the environment: what the user or the system does.) -/
inductive Lib.Reach (sc : Scope I U) : Lib V E I U → HMach V I U → Prop where
  /-- a new manager -/
  | init {L : Lib V E I U} : Reach sc L ⟨⟨fun _ => [], 0⟩, []⟩
  /-- an application, which returns, raises or is stopped anywhere -/
  | apply {L : Lib V E I U} {s : HMach V I U} (n : Nat) {h : Hom V I U} {o : OB I} {x : SDD V} : Reach sc L s → L.Use sc h o x →
      Reach sc L (L.apply n h o x s).2
  /-- an application during which the code of the user may throw -/
  | thrown {L : Lib V E I U} {s : HMach V I U} (stop : Nat → Option (Err V)) (n : Nat) {h : Hom V I U} {o : OB I} {x : SDD V} :
      Reach sc L s → L.Use sc h o x → Reach sc L (L.applyX stop n h o x s).2
  /-- an application during which the code of the user may use the library and throw -/
  | reenter {L : Lib V E I U} {s : HMach V I U} (act : Acts V I U) (stop : Nat → Option (Err V)) (n : Nat) {h : Hom V I U} {o : OB I}
      {x : SDD V} : Reach sc L s → (∀ st k s, L.Nested sc st s (act st k s).2) → L.Use sc h o x →
      Reach sc L (L.applyR act stop n h o x [] s).2
  /-- an operation on SDDs, which returns or raises -/
  | call {L : Lib V E I U} {s : HMach V I U} (c : Call V) : Reach sc L s → (∀ x ∈ c.args, WF L.C x) →
      Reach sc L { s with dd := (c.run L.C L.orc L.cap s.dd).2 }
  /-- an operation on SDDs during which the code of the user may throw -/
  | callThrown {L : Lib V E I U} {s : HMach V I U} (stop : Nat → Option (Err V)) (c : Call V) : Reach sc L s → (∀ x ∈ c.args, WF L.C x) →
      Reach sc L { s with dd := (c.runX L.C L.orc L.cap stop s.dd).2 }
  /-- `reset_hom_cache`, `/repo/sdd/manager.hh:189-194` -/
  | resetHom {L : Lib V E I U} {s : HMach V I U} : Reach sc L s → Reach sc L { s with homs := [] }
  /-- `context::clear`, `/repo/sdd/dd/context.hh:103-111` -/
  | resetDD {L : Lib V E I U} {s : HMach V I U} : Reach sc L s → Reach sc L { s with dd := ⟨fun _ => [], s.dd.tick⟩ }
  /-- nodes which are not kept by the caches get other addresses; the user's code handles SDDs as sets of paths -/
  | realloc {L : Lib V E I U} {s : HMach V I U} (lt : SDD V → SDD V → Bool) (env : User V I U) : Reach sc L s → L.OK sc →
      StrictTotal lt → (∀ a b, s.Live a → s.Live b → L.C.lt a b = lt a b) → User.Same L.C (L.C.withLt lt) L.env env →
      env.Canon (L.C.withLt lt) → Reach sc (L.withLt lt env) s

/-- In some history, the application of `h` to `x` under the order `o` returns `r`. (Specification, not part of the code.) -/
def Lib.Returns (L : Lib V E I U) (sc : Scope I U) (h : Hom V I U) (o : OB I) (x r : SDD V) : Prop :=
  ∃ s n, L.Reach sc s ∧ (L.apply n h o x s).1 = .ok r

section
variable {L : Lib V E I U} {sc : Scope I U}

/-- The errors which correct uses may raise. (Specification, not part of the code.) -/
def okErr (e : Err V) : Prop := e = .fuel ∨ e = .overflow

theorem Lib.OK.sat (hL : L.OK sc) {n : Nat} {h : Hom V I U} {o : OB I} {x : SDD V} (hu : L.Use sc h o x) :
    (homLogic L.env L.C sc L.orc okErr).Sat (L.apply n h o x) (Ev L.env L.C h o x) := by
  obtain ⟨t, ht⟩ := hu.ty
  exact runH_sat hL.closed hL.lawful (Or.inr (Or.inr rfl)) (Or.inl rfl) hL.honest
    (fun t ht => cached_dd hL.lawful hL.cap (Or.inr (Or.inr rfl)) t ht) (cached_call hL.transfer hL.hcap) n o h t x
    hu.order ht hu.dom

theorem guardH_sat {env : User V I U} {C : Cfg V E} {orc : Nat → Nat → List Nat} {allow : Err V → Prop} {α : Type}
    {stop : Nat → Option (Err V)} (hstop : ∀ k e, stop k = some e → allow e) {x : HM orc V I U α} {P : α → Prop}
    (h : (homLogic env C sc orc allow).Sat x P) : (homLogic env C sc orc allow).Sat (guardH stop x) P := by
  intro s hs
  unfold guardH
  split
  · rename_i e he
    exact ⟨hs, hstop _ _ he⟩
  · exact h _ hs

/-- An application during which the code of the user throws raises this exception or returns the meaning of the homomorphism; in all cases
the caches stay right. -/
theorem Lib.OK.satX (hL : L.OK sc) {stop : Nat → Option (Err V)} {allow : Err V → Prop} (hov : L.C.limit = none ∨ allow .overflow)
    (hfuel : allow .fuel) (hstop : ∀ k e, stop k = some e → allow e) {n : Nat} {h : Hom V I U} {o : OB I} {x : SDD V}
    (hu : L.Use sc h o x) : (homLogic L.env L.C sc L.orc allow).Sat (L.applyX stop n h o x) (Ev L.env L.C h o x) := by
  obtain ⟨t, ht⟩ := hu.ty
  refine runH_sat (L := homLogic L.env L.C sc L.orc allow) hL.closed hL.lawful hov hfuel hL.honest (fun t ht op hop => ?_)
    (fun f o h t x h1 h2 h3 h4 h5 h6 => ?_) n o h t x hu.order ht hu.dom
  · exact lift_sat (guardX_sat hstop (autoRun_ok (L := cachedLogic L.C L.orc allow)
      (fun n t h1 h2 => runX_ok hL.lawful hL.cap hov hstop n t h1 (Or.inr h2)) t ht op hop))
  · refine guardH_sat hstop (cached_call hL.transfer hL.hcap _ o h t x h1 h2 h3 h4 h5 ?_)
    exact (homLogic L.env L.C sc L.orc allow).bind' (guardH_sat hstop h6)
      fun r hr => guardH_sat hstop ((homLogic L.env L.C sc L.orc allow).pure' hr)

/-- Postconditions for any list of applications in progress. (Specification or proof device, not part of the code.) -/
def allR {orc : Nat → Nat → List Nat} (Λ : Logic V (HM orc V I U)) : Logic V (RM orc V I U) where
  Sat x P := ∀ st, Λ.Sat (x st) P
  allow := Λ.allow
  pure' h _ := Λ.pure' h
  bind' h1 h2 st := Λ.bind' (h1 st) fun a ha => h2 a ha st
  raise' h _ := Λ.raise' h
  ord' l _ := Λ.ord' l
  mono' h1 h2 st := Λ.mono' (h1 st) h2

theorem userR_sat {env : User V I U} {C : Cfg V E} {orc : Nat → Nat → List Nat} {allow : Err V → Prop} {α : Type} {act : Acts V I U}
    (hact : ∀ st k s, HMachOK env C sc s → HMachOK env C sc (act st k s).2) (herr : ∀ st k s e, HMachOK env C sc s → (act st k s).1 = some e → allow e)
    {x : RM orc V I U α} {P : α → Prop} (h : (allR (homLogic env C sc orc allow)).Sat x P) :
    (allR (homLogic env C sc orc allow)).Sat (userR act x) P := by
  intro st s hs
  have h1 := hact st s.dd.tick { s with dd := { s.dd with tick := s.dd.tick + 1 } } hs
  have h2 := herr st s.dd.tick { s with dd := { s.dd with tick := s.dd.tick + 1 } }
  unfold userR
  split
  · rename_i e s' he
    rw [he] at h1 h2
    exact ⟨h1, h2 e hs rfl⟩
  · rename_i s' he
    rw [he] at h1
    exact h st s' h1

/-- An application during which the code of the user uses the library. -/
theorem Lib.OK.satR (hL : L.OK sc) {act : Acts V I U} {stop : Nat → Option (Err V)} {allow : Err V → Prop}
    (hov : L.C.limit = none ∨ allow .overflow) (hfuel : allow .fuel) (hstop : ∀ k e, stop k = some e → allow e)
    (hact : ∀ st k s, HMachOK L.env L.C sc s → HMachOK L.env L.C sc (act st k s).2)
    (herr : ∀ st k s e, HMachOK L.env L.C sc s → (act st k s).1 = some e → allow e) {n : Nat} {h : Hom V I U} {o : OB I} {x : SDD V}
    (hu : L.Use sc h o x) (st : List (Hom V I U × SDD V)) :
    (homLogic L.env L.C sc L.orc allow).Sat (L.applyR act stop n h o x st) (Ev L.env L.C h o x) := by
  obtain ⟨t, ht⟩ := hu.ty
  refine runH_sat (L := allR (homLogic L.env L.C sc L.orc allow)) hL.closed hL.lawful hov hfuel hL.honest (fun t ht op hop => ?_)
    (fun f o h t x h1 h2 h3 h4 h5 h6 => ?_) n o h t x hu.order ht hu.dom st
  · exact userR_sat hact herr fun _ => lift_sat (guardX_sat hstop (autoRun_ok (L := cachedLogic L.C L.orc allow)
      (fun n t h1 h2 => runX_ok hL.lawful hL.cap hov hstop n t h1 (Or.inr h2)) t ht op hop))
  · refine userR_sat hact herr fun st => cached_call hL.transfer hL.hcap _ o h t x h1 h2 h3 h4 h5 ?_
    exact (allR (homLogic L.env L.C sc L.orc allow)).bind' (userR_sat hact herr h6)
      (fun r hr => userR_sat hact herr ((allR (homLogic L.env L.C sc L.orc allow)).pure' hr)) _

/-- What the code of the user does keeps the caches right. -/
theorem Lib.Nested.ok (hL : L.OK sc) {st : List (Hom V I U × SDD V)} {s s' : HMach V I U} (h : L.Nested sc st s s')
    (hs : HMachOK L.env L.C sc s) : HMachOK L.env L.C sc s' := by
  induction h with
  | refl => exact hs
  | apply act stop n _ _ hu _ ih iha =>
    exact (hL.satR (allow := fun _ => True) (Or.inr trivial) trivial (fun _ _ _ => trivial) (fun st k s hs => iha st k s hs)
      (fun _ _ _ _ _ _ => trivial) hu _ _ (ih hs)).1
  | call stop c _ hw ih =>
    exact ⟨(Call.runX_sat (allow := fun _ => True) hL.lawful hL.cap (Or.inr trivial) (.all fun _ _ => trivial) (fun _ _ _ => trivial)
      hw _ (ih hs).1).1, (ih hs).2⟩
  | resetHom _ ih => exact ⟨(ih hs).1, fun e he => by simp at he⟩
  | resetDD _ ih => exact ⟨fun _ e he => by simp at he, (ih hs).2⟩

/-- The entries of the caches stay right when nodes which they do not keep get other addresses. -/
theorem HMachOK.withLt {env env' : User V I U} {C : Cfg V E} {lt : SDD V → SDD V → Bool} (hC : C.Lawful) (hlt : StrictTotal lt)
    {s : HMach V I U} (hs : HMachOK env C sc s) (h : ∀ a b, s.Live a → s.Live b → C.lt a b = lt a b) (hU : User.Same C (C.withLt lt) env env')
    (hc : env'.Canon (C.withLt lt)) : HMachOK env' (C.withLt lt) sc s := by
  have ha : Readdr C (C.withLt lt) := ⟨hC, hC.withLt hlt, rfl⟩
  have hwf : ∀ {x}, (∀ a, Sub a x → s.Live a) → WF C x → WF (C.withLt lt) x :=
    fun hx hw => hw.withLt fun a b h1 h2 => h a b (hx a h1) (hx b h2)
  refine ⟨fun k e he n hn => ?_, fun e he => ?_⟩
  · have h0 : OpOK C (.any n) e.1 := by
      refine OpOK.withLt (lt := C.lt) hn fun x hx y hy a b h1 h2 => ?_
      exact (h a b (Or.inl ⟨k, e, he, Or.inl ⟨x, hx, h1⟩⟩) (Or.inl ⟨k, e, he, Or.inl ⟨y, hy, h2⟩⟩)).symm
    have := hs.1 k e he n h0
    exact ⟨hwf (fun a h1 => Or.inl ⟨k, e, he, Or.inr h1⟩) this.1, OpSpec.withLt.2 this.2⟩
  · obtain ⟨o, t, hS, ht, hx, h0, hev⟩ := hs.2 e he
    have hx' := hwf (fun a h1 => Or.inr ⟨e, he, Or.inl h1⟩) hx.wf
    have hw' : e.1.1.WF (C.withLt lt) := fun c hcc =>
      hwf (fun a h1 => Or.inr ⟨e, he, Or.inr (Or.inr ⟨c, hcc, h1⟩)⟩) (ht.wf c hcc)
    have hr' := hwf (fun a h1 => Or.inr ⟨e, he, Or.inr (Or.inl h1)⟩) (hev.dom ht hx).wf
    obtain ⟨r', h1, h2, h3⟩ := hev.same ha hU hc ht hx (.refl _) hw' hx' (.refl _)
    have : r' = e.2 := canonical_ext ha.lawful' h3 hr' (ha.same.2 h2.symm)
    subst this
    exact ⟨o, t, hS, ht.same ha hU hc (.refl _) hw', (Same.refl _).dom ha hx hx', h0, h1⟩

/-- All the entries of the caches are right, after any history. -/
theorem Lib.Reach.ok (hL : L.OK sc) {s : HMach V I U} (h : L.Reach sc s) : HMachOK L.env L.C sc s := by
  induction h with
  | init => exact ⟨fun _ e he => by simp at he, fun e he => by simp at he⟩
  | apply n _ hu ih => exact (hL.sat hu _ (ih hL)).1
  | thrown stop n _ hu ih =>
    exact (hL.satX (allow := fun _ => True) (Or.inr trivial) trivial (fun _ _ _ => trivial) hu _ (ih hL)).1
  | reenter act stop n _ hact hu ih =>
    exact (hL.satR (allow := fun _ => True) (Or.inr trivial) trivial (fun _ _ _ => trivial) (fun st k s hs => (hact st k s).ok hL hs)
      (fun _ _ _ _ _ _ => trivial) hu _ _ (ih hL)).1
  | @callThrown L s stop c _ hw ih =>
    refine ⟨?_, (ih hL).2⟩
    exact (Call.runX_sat (allow := fun _ => True) hL.lawful hL.cap (Or.inr trivial) (.all fun _ _ => trivial) (fun _ _ _ => trivial)
      hw s.dd (ih hL).1).1
  | @call L s c _ hw ih =>
    refine ⟨?_, (ih hL).2⟩
    exact (Call.run_sat (allow := fun _ => True) hL.lawful hL.cap (Or.inr trivial) (.all fun _ _ => trivial) hw s.dd (ih hL).1).1
  | resetHom _ ih => exact ⟨(ih hL).1, fun e he => by simp at he⟩
  | resetDD _ ih => exact ⟨fun _ e he => by simp at he, (ih hL).2⟩
  | realloc lt env _ hL0 hlt h hU hc ih => exact (ih hL0).withLt hL0.lawful hlt h hU hc

/-- When the meaning is defined, the evaluation terminates even if the code of the user uses the library. -/
theorem Lib.OK.totalR (hL : L.OK sc) (hlim : L.C.limit = none) {act : Acts V I U} {stop : Nat → Option (Err V)} (hstop : ∀ k, stop k = none)
    (hact : ∀ st k s, HMachOK L.env L.C sc s → HMachOK L.env L.C sc (act st k s).2) (herr : ∀ st k s, (act st k s).1 = none)
    {h : Hom V I U} {o : OB I} {x r : SDD V} (hu : L.Use sc h o x) (e : Ev L.env L.C h o x r) :
    ∃ N, ∀ n, N ≤ n → ∀ st s, HMachOK L.env L.C sc s → (L.applyR act stop n h o x st s).1 = .ok r := by
  have hact' : ∀ st k s e, HMachOK L.env L.C sc s → (act st k s).1 = some e → False := fun st k s e _ h => by simp [herr] at h
  have hstop' : ∀ k e, stop k = some e → False := fun k e h => by simp [hstop] at h
  obtain ⟨t, ht⟩ := hu.ty
  obtain ⟨N, hN⟩ := runH_total (L := allR (homLogic L.env L.C sc L.orc fun _ => False)) hL.closed hL.lawful (Or.inl hlim) hL.honest
    (dd := fun op => userR act fun _ => HM.lift (guardX stop (autoRun (runX L.C L.orc L.cap stop) op)))
    (call := fun f h o x => userR act (homCacheR L.hcap (fun h o x => userR act (f h o x) >>= fun r => userR act (pure r)) h o x))
    (fun t ht op hop => userR_sat hact hact' fun _ => lift_sat (guardX_sat hstop'
      (autoRun_ok (L := cachedLogic L.C L.orc fun _ => False)
        (fun n t h1 h2 => runX_ok hL.lawful hL.cap (Or.inl hlim) hstop' n t h1 (Or.inr h2)) t ht op hop)))
    (fun f o h t x h1 h2 h3 h4 h5 h6 => userR_sat hact hact' fun st => cached_call hL.transfer hL.hcap _ o h t x h1 h2 h3 h4 h5
      ((allR (homLogic L.env L.C sc L.orc fun _ => False)).bind' (userR_sat hact hact' h6)
        (fun r hr => userR_sat hact hact' ((allR (homLogic L.env L.C sc L.orc fun _ => False)).pure' hr)) _)) e hu.order ht hu.dom
  refine ⟨N, fun n hn st s hs => ?_⟩
  have hsat : (homLogic L.env L.C sc L.orc fun _ => False).Sat (L.applyR act stop n h o x st) (Ev L.env L.C h o x) := hN n hn st
  have h1 := (hsat s hs).2
  match hr : (L.applyR act stop n h o x st s).1, h1 with
  | .ok a, h1 => rw [h1.det hL.lawful e]

/-- What is returned is the meaning. -/
theorem Lib.Returns.ev (hL : L.OK sc) {h : Hom V I U} {o : OB I} {x r : SDD V} (hr : L.Returns sc h o x r)
    (hu : L.Use sc h o x) : Ev L.env L.C h o x r := by
  obtain ⟨s, n, hs, he⟩ := hr
  have := (hL.sat hu (n := n) s (hs.ok hL)).2
  rw [he] at this
  exact this

/-- Results do not depend on histories. -/
theorem Lib.Returns.det (hL : L.OK sc) {h : Hom V I U} {o : OB I} {x r r' : SDD V} (hu : L.Use sc h o x)
    (hr : L.Returns sc h o x r) (hr' : L.Returns sc h o x r') : r = r' :=
  (hr.ev hL hu).det hL.lawful (hr'.ev hL hu)

/-- Results do not depend on addresses: the same homomorphism applied to the same set of paths returns the same set of paths. -/
theorem Lib.Returns.same {L' : Lib V E I U} (hL : L.OK sc) (hL' : L'.OK sc) (hv : L'.C.vmem = L.C.vmem) (hU : User.Same L.C L'.C L.env L'.env)
    (hc : L'.env.Canon L'.C) {h h' : Hom V I U} {o : OB I} {x x' r r' : SDD V} (hu : L.Use sc h o x) (hu' : L'.Use sc h' o x')
    (hh : Hom.Same L.C h h') (hx : Same L.C x x') (hr : L.Returns sc h o x r) (hr' : L'.Returns sc h' o x' r') : Same L.C r r' := by
  have ha : Readdr L.C L'.C := ⟨hL.lawful, hL'.lawful, hv⟩
  obtain ⟨t, ht⟩ := hu.ty
  obtain ⟨t', ht'⟩ := hu'.ty
  obtain ⟨r2, h1, h2, _⟩ := (hr.ev hL hu).same ha hU hc ht hu.dom hh ht'.wf hu'.dom.wf hx
  rw [(hr'.ev hL' hu').det hL'.lawful h1]
  exact h2

/-- When the meaning is defined, the evaluation terminates, after any history. -/
theorem Lib.OK.total (hL : L.OK sc) (hlim : L.C.limit = none) {h : Hom V I U} {o : OB I} {x r : SDD V} (hu : L.Use sc h o x)
    (e : Ev L.env L.C h o x r) : ∃ N, ∀ n, N ≤ n → ∀ s, L.Reach sc s → (L.apply n h o x s).1 = .ok r := by
  obtain ⟨t, ht⟩ := hu.ty
  obtain ⟨N, hN⟩ := runH_total (L := homLogic L.env L.C sc L.orc fun _ => False) hL.closed hL.lawful (Or.inl hlim) hL.honest
    (fun t ht => cached_dd hL.lawful hL.cap (Or.inl hlim) t ht) (cached_call hL.transfer hL.hcap) e hu.order ht hu.dom
  refine ⟨N, fun n hn s hs => ?_⟩
  have := (hN n hn s (hs.ok hL)).2
  match hr : (L.apply n h o x s).1, this with
  | .ok r', h => rw [h.det hL.lawful e]

theorem Lib.OK.returns (hL : L.OK sc) (hlim : L.C.limit = none) {h : Hom V I U} {o : OB I} {x r : SDD V} (hu : L.Use sc h o x)
    (e : Ev L.env L.C h o x r) : L.Returns sc h o x r := by
  obtain ⟨N, hN⟩ := hL.total hlim hu e
  exact ⟨_, N, .init, hN N le_rfl _ .init⟩

end
end Verif
