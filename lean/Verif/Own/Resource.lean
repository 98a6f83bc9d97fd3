import Verif.Own.Base

/-
Resources and guards: include/daw/daw_unique_resource.h, daw_scope_guard.h, daw_countable_resource.h, daw_allow_once.h,
daw_take.h and daw_not_null.h.
-/

namespace Verif.Own.Resource
open Cxx

/-! ## unique_resource -/

/-- The variables (dead, empty or with a resource), the calls of the deleter and what `release` returned.
(Objects and members of `unique_resource`, daw_unique_resource.h 19-99.) -/
structure World where
  vars : List (Option (Option Int))
  calls : List Int
  released : List Int
  deriving DecidableEq

/-- Before anything happened. (Objects and members of `unique_resource`, daw_unique_resource.h 19-99.) -/
def World.init : World := ⟨[], [], []⟩

/-- `if( value ) Deleter{ }( *value )`, daw_unique_resource.h 52-56 and 61-63: the value stays. -/
def del (w : World) (i : Nat) : Cxx World := do
  match ← live w.vars i with
  | none => pure w
  | some r => pure { w with calls := w.calls ++ [r] }

/-- `reset( T )`, daw_unique_resource.h 58-65. -/
def resetTo (w : World) (i : Nat) (r : Int) : Cxx World := do
  let w ← del w i
  pure { w with vars := w.vars.set i (some (some r)) }

/-- `release( )`, daw_unique_resource.h 67-70: an empty one dereferences an empty optional. -/
def release (w : World) (i : Nat) : Cxx (World × Int) := do
  match ← live w.vars i with
  | none => ub
  | some r => pure ({ w with vars := w.vars.set i (some none) }, r)

/-- What a program does with its resources; lines of daw_unique_resource.h. -/
inductive Op where
  /-- the default constructor, 23 -/
  | makeEmpty
  /-- the constructor from a value, 41-43 -/
  | make (r : Int)
  /-- the move constructor, 24-26 -/
  | move (j : Nat)
  /-- the move assignment, 28-32 -/
  | moveAssign (i j : Nat)
  /-- `reset( )`, 52-56 -/
  | reset (i : Nat)
  /-- `reset( T )`, 58-65, and `emplace`, 45-50 -/
  | resetTo (i : Nat) (r : Int)
  /-- `release( )`, 67-70 -/
  | release (i : Nat)
  /-- the destructor, 37-39 -/
  | destroy (i : Nat)

/-- One operation; the lines are those at the constructors of `Op`.
(Objects and members of `unique_resource`, daw_unique_resource.h 19-99.) -/
def step (w : World) : Op → Cxx World
  | .makeEmpty => pure { w with vars := w.vars ++ [some none] }
  | .make r => pure { w with vars := w.vars ++ [some (some r)] }
  | .move j => do
    let v ← live w.vars j
    pure { w with vars := w.vars.set j (some none) ++ [some v] }
  | .moveAssign i j => do
    let (w, r) ← release w j
    resetTo w i r
  | .reset i => del w i
  | .resetTo i r => resetTo w i r
  | .release i => do
    let (w, r) ← release w i
    pure { w with released := w.released ++ [r] }
  | .destroy i => do
    let w ← del w i
    pure { w with vars := w.vars.set i none }

/-- A program. (Objects and members of `unique_resource`, daw_unique_resource.h 19-99.) -/
def run : List Op → World → Cxx World
  | [], w => pure w
  | o :: os, w => do
    let w ← step w o
    run os w

/-- One for an operation that hands over `r`. (Specification, no line of the source.) -/
def gives (r : Int) : Op → Nat
  | .make q => ind q r
  | .resetTo _ q => ind q r
  | _ => 0

/-- How often the program hands over `r`. (Specification, no line of the source.) -/
def handed (r : Int) (os : List Op) : Nat := tot (gives r) os

/-- One for a live variable that holds `r`. (Specification, no line of the source.) -/
def cnt (r : Int) : Option (Option Int) → Nat
  | some (some q) => ind q r
  | _ => 0

/-- How many live variables hold `r`. (Specification, no line of the source.) -/
def held (r : Int) (w : World) : Nat := tot (cnt r) w.vars

/-- How often the deleter was called with `r`. (Specification, no line of the source.) -/
def deleted (r : Int) (w : World) : Nat := tot (fun q => ind q r) w.calls

/-- How often `r` was released. (Specification, no line of the source.) -/
def released (r : Int) (w : World) : Nat := tot (fun q => ind q r) w.released

/-- The operation is not `reset( )` of a variable that holds a resource. (Specification, no line of the source.) -/
def Good (w : World) : Op → Prop
  | .reset i => w.vars[i]? = some (some none)
  | _ => True

/-- All operations of the program are `Good` where they happen. (Specification, no line of the source.) -/
def GoodRun : List Op → World → Prop
  | [], _ => True
  | o :: os, w => Good w o ∧ ∀ w', step w o = pure w' → GoodRun os w'

theorem del_eq {w w' : World} {i : Nat} (r : Int) (h : del w i = pure w') :
    ∃ v, w.vars[i]? = some (some v) ∧ w'.vars = w.vars ∧ w'.released = w.released ∧ deleted r w' = deleted r w + cnt r (some v) := by
  unfold del at h
  rw [bind_eq_pure] at h
  obtain ⟨v, e, h⟩ := h
  refine ⟨v, live_eq e, ?_⟩
  cases v with
  | none =>
    dsimp only at h
    rw [pure_inj] at h
    subst h
    exact ⟨rfl, rfl, rfl⟩
  | some q =>
    dsimp only at h
    rw [pure_inj] at h
    subst h
    refine ⟨rfl, rfl, ?_⟩
    unfold deleted
    rw [tot_snoc]; rfl

theorem resetTo_eq {w w' : World} {i : Nat} {q : Int} (r : Int) (h : resetTo w i q = pure w') :
    deleted r w' + held r w' = deleted r w + held r w + ind q r ∧ w'.released = w.released := by
  unfold resetTo at h
  rw [bind_eq_pure] at h
  obtain ⟨w1, e, h⟩ := h
  obtain ⟨v, hv, h1, h2, h3⟩ := del_eq r e
  rw [pure_inj] at h
  subst h
  refine ⟨?_, h2⟩
  have h4 := tot_set (cnt r) w.vars i (some v) (some (some q)) hv
  have h5 : cnt r (some (some q)) = ind q r := rfl
  unfold held
  dsimp only
  rw [h1]
  unfold deleted at *
  dsimp only
  omega

theorem release_eq {w w' : World} {i : Nat} {q : Int} (h : release w i = pure (w', q)) :
    w.vars[i]? = some (some (some q)) ∧ w' = { w with vars := w.vars.set i (some none) } := by
  unfold release at h
  rw [bind_eq_pure] at h
  obtain ⟨v, e, h⟩ := h
  have e := live_eq e
  cases v with
  | none => exact absurd h (ub_ne_pure _)
  | some r =>
    dsimp only at h
    rw [pure_inj] at h
    injection h with h1 h2
    rw [← h2]
    exact ⟨e, h1.symm⟩

theorem step_mass {w w' : World} {o : Op} (r : Int) (hg : Good w o) (h : step w o = pure w') :
    deleted r w' + held r w' + released r w' = deleted r w + held r w + released r w + gives r o := by
  have h0 : cnt r (some none) = 0 := rfl
  have h00 : cnt r none = 0 := rfl
  cases o with
  | makeEmpty =>
    rw [step, pure_inj] at h
    subst h
    have h1 := tot_snoc (cnt r) w.vars (some none)
    have h2 : gives r .makeEmpty = 0 := rfl
    unfold deleted held released
    dsimp only
    omega
  | make q =>
    rw [step, pure_inj] at h
    subst h
    have h1 := tot_snoc (cnt r) w.vars (some (some q))
    have h2 : gives r (.make q) = cnt r (some (some q)) := rfl
    unfold deleted held released
    dsimp only
    omega
  | move j =>
    rw [step, bind_eq_pure] at h
    obtain ⟨v, e, h⟩ := h
    rw [pure_inj] at h
    subst h
    have h1 := tot_set (cnt r) w.vars j (some v) (some none) (live_eq e)
    have h2 := tot_snoc (cnt r) (w.vars.set j (some none)) (some v)
    have h3 : gives r (.move j) = 0 := rfl
    unfold deleted held released
    dsimp only
    omega
  | moveAssign i j =>
    rw [step, bind_eq_pure] at h
    obtain ⟨⟨w1, q⟩, e, h⟩ := h
    obtain ⟨h1, h2⟩ := release_eq e
    subst h2
    dsimp only at h
    obtain ⟨h3, h4⟩ := resetTo_eq r h
    have h5 := tot_set (cnt r) w.vars j (some (some q)) (some none) h1
    have h6 : cnt r (some (some q)) = ind q r := rfl
    have h7 : gives r (.moveAssign i j) = 0 := rfl
    unfold released
    rw [h4]
    unfold deleted held at *
    dsimp only at *
    omega
  | reset i =>
    rw [step] at h
    obtain ⟨v, hv, h1, h2, h3⟩ := del_eq r h
    have hg : w.vars[i]? = some (some none) := hg
    rw [hg] at hv
    injection hv with hv
    injection hv with hv
    subst hv
    have h4 : gives r (.reset i) = 0 := rfl
    unfold held released
    rw [h1, h2]
    omega
  | resetTo i q =>
    rw [step] at h
    obtain ⟨h1, h2⟩ := resetTo_eq r h
    have h3 : gives r (.resetTo i q) = ind q r := rfl
    unfold released
    rw [h2]
    omega
  | release i =>
    rw [step, bind_eq_pure] at h
    obtain ⟨⟨w1, q⟩, e, h⟩ := h
    obtain ⟨h1, h2⟩ := release_eq e
    subst h2
    dsimp only at h
    rw [pure_inj] at h
    subst h
    have h5 := tot_set (cnt r) w.vars i (some (some q)) (some none) h1
    have h6 : cnt r (some (some q)) = ind q r := rfl
    have h7 : gives r (.release i) = 0 := rfl
    have h8 := tot_snoc (fun q => ind q r) w.released q
    unfold deleted held released
    dsimp only at *
    omega
  | destroy i =>
    rw [step, bind_eq_pure] at h
    obtain ⟨w1, e, h⟩ := h
    obtain ⟨v, hv, h1, h2, h3⟩ := del_eq r e
    rw [pure_inj] at h
    subst h
    have h5 := tot_set (cnt r) w.vars i (some v) none hv
    have h7 : gives r (.destroy i) = 0 := rfl
    unfold deleted held released at *
    dsimp only at *
    rw [h1, h2]
    omega

/-- C104, as far as it holds: a program that does not call `reset( )` on a variable with a resource deletes, holds or has released
every resource exactly as often as it was handed in.  Missing: `reset( )`, see `C104_reset_violated`. -/
theorem C104_conservation_partial (os : List Op) (r : Int) : ∀ w w', GoodRun os w → run os w = pure w' →
    deleted r w' + held r w' + released r w' = deleted r w + held r w + released r w + handed r os := by
  induction os with
  | nil => intro w w' _ h; rw [run, pure_inj] at h; subst h; rfl
  | cons o os ih =>
    intro w w' hg h
    rw [run, bind_eq_pure] at h
    obtain ⟨w1, e, h⟩ := h
    have h1 := step_mass r hg.1 e
    have h2 := ih w1 w' (hg.2 w1 e) h
    unfold handed at *
    rw [tot_cons]
    omega

/-- C104: in such a program a resource handed in once and not released is deleted exactly once when all variables are gone. -/
theorem C104_exactly_once_partial (os : List Op) (r : Int) (w : World) (hg : GoodRun os .init) (h : run os .init = pure w)
    (hgone : ∀ v ∈ w.vars, v = none) (hrel : r ∉ w.released) (hone : handed r os = 1) : deleted r w = 1 := by
  have h1 := C104_conservation_partial os r _ _ hg h
  have h2 : held r w = 0 := tot_eq_zero _ _ (fun v hv => by rw [hgone v hv]; rfl)
  have h3 : released r w = 0 := tot_eq_zero _ _ (fun q hq => ind_ne (fun e => hrel (e ▸ hq)))
  have h4 : deleted r .init = 0 ∧ held r .init = 0 ∧ released r .init = 0 := ⟨rfl, rfl, rfl⟩
  omega

/-- Two resources, moves and a replacement. -/
example : run [.make 5, .move 0, .makeEmpty, .moveAssign 2 1, .resetTo 2 6, .destroy 2, .destroy 1, .destroy 0] .init =
    pure ⟨[none, none, none], [5, 6], []⟩ := by decide +kernel

/-- C104 does not hold for `reset( )`: it deletes the resource and keeps it, and the destructor deletes it again. -/
theorem C104_reset_violated (r : Int) : run [.make r, .reset 0, .destroy 0] .init = pure ⟨[none], [r, r], []⟩ := rfl

/-- C104: the move assignment from an empty (for example moved-from) variable is undefined. -/
theorem C104_move_empty_violated (r : Int) : run [.make r, .move 0, .moveAssign 1 0] .init = ub := rfl

/-! ## ScopeGuard -/

/-- The guards (dead, without or with a function), the functions run and the functions cancelled, in order.
(Objects and members of `ScopeGuard`, daw_scope_guard.h 37-84.) -/
structure Guards where
  vars : List (Option (Option Int))
  ran : List Int
  cancelled : List Int
  deriving DecidableEq

/-- Before anything happened. (Objects and members of `ScopeGuard`, daw_scope_guard.h 37-84.) -/
def Guards.init : Guards := ⟨[], [], []⟩

/-- What a program does with its guards; lines of daw_scope_guard.h. -/
inductive GOp where
  /-- the constructors from a function, 46-54, and `on_scope_exit`, 86-91 -/
  | make (f : Int)
  /-- the move constructor, 43: `std::optional` leaves the source engaged -/
  | move (j : Nat)
  /-- the move assignment, 44 -/
  | moveAssign (i j : Nat)
  /-- `cancel( )`, 56-59 -/
  | cancel (i : Nat)
  /-- `run_now( )`, 61-66 -/
  | runNow (i : Nat)
  /-- the destructor, 68-74 -/
  | destroy (i : Nat)

/-- One operation; the lines are those at the constructors of `GOp`.  `bad f` says that `f` throws; the program catches the
exception and goes on.  `assert` is on. (Objects and members of `ScopeGuard`, daw_scope_guard.h 37-84.) -/
def gstep (bad : Int → Bool) (w : Guards) : GOp → Cxx Guards
  | .make f => pure { w with vars := w.vars ++ [some (some f)] }
  | .move j => do
    let v ← live w.vars j
    pure { w with vars := w.vars ++ [some v] }
  | .moveAssign i j => do
    let _ ← live w.vars i
    let v ← live w.vars j
    pure { w with vars := w.vars.set i (some v) }
  | .cancel i => do
    match ← live w.vars i with
    | none => pure w
    | some f => pure { w with vars := w.vars.set i (some none), cancelled := w.cancelled ++ [f] }
  | .runNow i => do
    match ← live w.vars i with
    | none => abort
    | some f =>
      if bad f then pure { w with ran := w.ran ++ [f] }
      else pure { w with vars := w.vars.set i (some none), ran := w.ran ++ [f] }
  | .destroy i => do
    match ← live w.vars i with
    | none => pure { w with vars := w.vars.set i none }
    | some f => pure { w with vars := w.vars.set i none, ran := w.ran ++ [f] }

/-- A program. (Objects and members of `ScopeGuard`, daw_scope_guard.h 37-84.) -/
def grun (bad : Int → Bool) : List GOp → Guards → Cxx Guards
  | [], w => pure w
  | o :: os, w => do
    let w ← gstep bad w o
    grun bad os w

/-- One for an operation that hands over the function `f`. (Specification, no line of the source.) -/
def ggives (f : Int) : GOp → Nat
  | .make g => ind g f
  | _ => 0

/-- The operation does not move. (Specification, no line of the source.) -/
def stays : GOp → Prop
  | .move _ => False
  | .moveAssign _ _ => False
  | _ => True

/-- Run, guarded or cancelled. (Specification, no line of the source.) -/
def gmass (f : Int) (w : Guards) : Nat := tot (fun g => ind g f) w.ran + tot (cnt f) w.vars + tot (fun g => ind g f) w.cancelled

theorem gstep_mass {bad : Int → Bool} {w w' : Guards} {o : GOp} (f : Int) (hb : bad f = false) (hs : stays o)
    (h : gstep bad w o = pure w') : gmass f w' = gmass f w + ggives f o := by
  unfold gmass
  have h0 : cnt f (some none) = 0 := rfl
  have h00 : cnt f none = 0 := rfl
  cases o with
  | make g =>
    rw [gstep, pure_inj] at h
    subst h
    have h1 := tot_snoc (cnt f) w.vars (some (some g))
    have h2 : ggives f (.make g) = cnt f (some (some g)) := rfl
    dsimp only
    omega
  | move j => exact hs.elim
  | moveAssign i j => exact hs.elim
  | cancel i =>
    have h3 : ggives f (.cancel i) = 0 := rfl
    rw [gstep, bind_eq_pure] at h
    obtain ⟨v, e, h⟩ := h
    cases v with
    | none =>
      dsimp only at h
      rw [pure_inj] at h
      rw [h, h3]; rfl
    | some g =>
      dsimp only at h
      rw [pure_inj] at h
      subst h
      have h1 := tot_set (cnt f) w.vars i (some (some g)) (some none) (live_eq e)
      have h2 : cnt f (some (some g)) = ind g f := rfl
      have h4 := tot_snoc (fun g => ind g f) w.cancelled g
      dsimp only at *
      omega
  | runNow i =>
    have h3 : ggives f (.runNow i) = 0 := rfl
    rw [gstep, bind_eq_pure] at h
    obtain ⟨v, e, h⟩ := h
    cases v with
    | none => exact absurd h (abort_ne_pure _)
    | some g =>
      dsimp only at h
      have h1 := tot_set (cnt f) w.vars i (some (some g)) (some none) (live_eq e)
      have h2 : cnt f (some (some g)) = ind g f := rfl
      have h4 := tot_snoc (fun g => ind g f) w.ran g
      split at h
      · rename_i hbad
        rw [pure_inj] at h
        subst h
        have h5 : ind g f = 0 := ind_ne (fun e => by rw [e, hb] at hbad; cases hbad)
        dsimp only at *
        omega
      · rw [pure_inj] at h
        subst h
        dsimp only at *
        omega
  | destroy i =>
    have h3 : ggives f (.destroy i) = 0 := rfl
    rw [gstep, bind_eq_pure] at h
    obtain ⟨v, e, h⟩ := h
    have h1 := tot_set (cnt f) w.vars i (some v) none (live_eq e)
    cases v with
    | none =>
      dsimp only at h
      rw [pure_inj] at h
      subst h
      dsimp only at *
      omega
    | some g =>
      dsimp only at h
      rw [pure_inj] at h
      subst h
      have h2 : cnt f (some (some g)) = ind g f := rfl
      have h4 := tot_snoc (fun g => ind g f) w.ran g
      dsimp only at *
      omega

/-- C105, as far as it holds: in a program that moves no guard, a function that does not throw and is guarded once is, when all
guards are gone, run exactly once, or not at all if it was cancelled.  Missing: moves of guards and throwing functions, see
`C105_move_violated`, `C105_move_assign_violated` and `C105_throw_violated`. -/
theorem C105_exactly_once_partial (bad : Int → Bool) (os : List GOp) (f : Int) (w : Guards) (hb : bad f = false)
    (hs : ∀ o ∈ os, stays o) (h : grun bad os .init = pure w) (hgone : ∀ v ∈ w.vars, v = none) (hone : tot (ggives f) os = 1) :
    tot (fun g => ind g f) w.ran = (if f ∈ w.cancelled then 0 else 1) := by
  have key : ∀ (os : List GOp) w w', (∀ o ∈ os, stays o) → grun bad os w = pure w' → gmass f w' = gmass f w + tot (ggives f) os := by
    intro os
    induction os with
    | nil => intro w w' _ h; rw [grun, pure_inj] at h; subst h; rfl
    | cons o os ih =>
      intro w w' hs h
      rw [grun, bind_eq_pure] at h
      obtain ⟨w1, e, h⟩ := h
      have h1 := gstep_mass f hb (hs o List.mem_cons_self) e
      have h2 := ih w1 w' (fun o ho => hs o (List.mem_cons_of_mem _ ho)) h
      rw [tot_cons]
      omega
  have h1 := key os _ _ hs h
  have h2 : tot (cnt f) w.vars = 0 := tot_eq_zero _ _ (fun v hv => by rw [hgone v hv]; rfl)
  have h3 : gmass f .init = 0 := rfl
  unfold gmass at h1
  have h4 : gmass f .init = tot (fun g => ind g f) Guards.init.ran + tot (cnt f) Guards.init.vars
    + tot (fun g => ind g f) Guards.init.cancelled := rfl
  split
  · rename_i hm
    have := le_tot (fun g => ind g f) w.cancelled f hm
    rw [ind_self] at this
    omega
  · rename_i hm
    have : tot (fun g => ind g f) w.cancelled = 0 := tot_eq_zero _ _ (fun g hg => ind_ne (fun e => hm (e ▸ hg)))
    omega

/-- Guards end in any order; one is run early, one cancelled. -/
example : grun (fun _ => false) [.make 1, .make 2, .make 3, .runNow 1, .cancel 2, .destroy 2, .destroy 1, .destroy 0] .init =
    pure ⟨[none, none, none], [2, 1], [3]⟩ := by decide +kernel

/-- C105 does not hold for the move constructor: both guards run the function. -/
theorem C105_move_violated (f : Int) :
    grun (fun _ => false) [.make f, .move 0, .destroy 1, .destroy 0] .init = pure ⟨[none, none], [f, f], []⟩ := rfl

/-- C105 does not hold for the move assignment: the function of the target is never run and the other twice. -/
theorem C105_move_assign_violated (f g : Int) :
    grun (fun _ => false) [.make f, .make g, .moveAssign 1 0, .destroy 1, .destroy 0] .init = pure ⟨[none, none], [f, f], []⟩ := rfl

/-- C105 does not hold for a function that throws in `run_now`: the destructor runs it again. -/
theorem C105_throw_violated (f : Int) :
    grun (fun _ => true) [.make f, .runNow 0, .destroy 0] .init = pure ⟨[none], [f, f], []⟩ := rfl

/-- The destructor of `on_exit_success`, daw_scope_guard.h 106-123, at run time with exceptions: `uncaught` is
`std::uncaught_exceptions( )` then.  Returns whether the handler runs. -/
def exitSuccess (uncaught : Nat) : Bool := uncaught == 0

/-- Programs with exceptions and guards: nothing, `throw`, one after the other, `on_exit_success` with handler `h` around a scope, an
object whose destructor runs code around a scope, and a scope in `try`/`catch( ... )`.
(Uses of `on_exit_success`, daw_scope_guard.h 94-124.) -/
inductive Prog where
  | skip
  | fail
  | seq (a b : Prog)
  | guard (h : Nat) (body : Prog)
  | cleanup (dtor body : Prog)
  | try_ (body : Prog)

/-- Execution while `u` exceptions are in flight: whether it throws and the handlers run.  `none` is `std::terminate`: a destructor
lets an exception escape.  Handlers do not throw. (Uses of `on_exit_success`, daw_scope_guard.h 94-124.) -/
def Prog.exec : Prog → Nat → Option (Bool × List Nat)
  | .skip, _ => some (false, [])
  | .fail, _ => some (true, [])
  | .seq a b, u => do
    let (t, l) ← a.exec u
    if t then some (true, l) else do
      let (t, m) ← b.exec u
      some (t, l ++ m)
  | .guard h body, u => do
    let (t, l) ← body.exec u
    some (t, if exitSuccess (u + t.toNat) then l ++ [h] else l)
  | .cleanup d body, u => do
    let (t, l) ← body.exec u
    let (t', m) ← d.exec (u + t.toNat)
    if t' then none else some (t, l ++ m)
  | .try_ body, u => do
    let (_, l) ← body.exec u
    some (false, l)

/-- What should happen: a handler runs exactly if its scope does not throw. (Specification, no line of the source.) -/
def Prog.want : Prog → Option (Bool × List Nat)
  | .skip => some (false, [])
  | .fail => some (true, [])
  | .seq a b => do
    let (t, l) ← a.want
    if t then some (true, l) else do
      let (t, m) ← b.want
      some (t, l ++ m)
  | .guard h body => do
    let (t, l) ← body.want
    some (t, if t then l else l ++ [h])
  | .cleanup d body => do
    let (t, l) ← body.want
    let (t', m) ← d.want
    if t' then none else some (t, l ++ m)
  | .try_ body => do
    let (_, l) ← body.want
    some (false, l)

/-- No guard. (Specification, no line of the source.) -/
def Prog.plain : Prog → Prop
  | .skip => True
  | .fail => True
  | .seq a b => a.plain ∧ b.plain
  | .guard _ _ => False
  | .cleanup d body => d.plain ∧ body.plain
  | .try_ body => body.plain

/-- No guard in a destructor. (Specification, no line of the source.) -/
def Prog.tame : Prog → Prop
  | .skip => True
  | .fail => True
  | .seq a b => a.tame ∧ b.tame
  | .guard _ body => body.tame
  | .cleanup d body => d.plain ∧ body.tame
  | .try_ body => body.tame

theorem exec_plain (p : Prog) (hp : p.plain) (u : Nat) : p.exec u = p.want := by
  induction p generalizing u with
  | skip => rfl
  | fail => rfl
  | seq a b iha ihb =>
    unfold Prog.exec Prog.want
    rw [iha hp.1 u, ihb hp.2 u]
  | guard h body ih => exact hp.elim
  | cleanup d body ihd ihb =>
    unfold Prog.exec Prog.want
    rw [ihb hp.2 u]
    congr 1
    funext x
    obtain ⟨t, l⟩ := x
    dsimp only
    rw [ihd hp.1]
  | try_ body ih =>
    unfold Prog.exec Prog.want
    rw [ih hp u]

/-- C106, as far as it holds: in a program that uses no guard in a destructor, exactly the handlers of the scopes left normally
run, in the order in which the scopes end.  Missing: guards in code that runs during stack unwinding, see
`C106_unwinding_violated`. -/
theorem C106_success_partial (p : Prog) (hp : p.tame) : p.exec 0 = p.want := by
  induction p with
  | skip => rfl
  | fail => rfl
  | seq a b iha ihb =>
    unfold Prog.exec Prog.want
    rw [iha hp.1, ihb hp.2]
  | guard h body ih =>
    unfold Prog.exec Prog.want
    rw [ih hp]
    congr 1
    funext x
    obtain ⟨t, l⟩ := x
    cases t <;> rfl
  | cleanup d body ihd ihb =>
    unfold Prog.exec Prog.want
    rw [ihb hp.2]
    congr 1
    funext x
    obtain ⟨t, l⟩ := x
    dsimp only
    rw [exec_plain d hp.1]
  | try_ body ih =>
    unfold Prog.exec Prog.want
    rw [ih hp]

/-- The inner scope throws, the outer one catches it. -/
example : (Prog.guard 1 (.seq (.try_ (.guard 2 (.seq (.guard 3 .skip) .fail))) (.cleanup .skip .skip))).exec 0 = some (false, [3, 1]) := rfl

/-- C106 does not hold during stack unwinding: a destructor that runs a guarded scope to its normal end does not run the handler
when the destructor is called because of an exception. -/
theorem C106_unwinding_violated : (Prog.try_ (.cleanup (.guard 1 .skip) .fail)).exec 0 = some (false, []) ∧
    (Prog.try_ (.cleanup (.guard 1 .skip) .fail)).want = some (false, [1]) := ⟨rfl, rfl⟩

/-! ## countable_resource_t -/

/-- What a program does with objects; lines of daw_countable_resource.h. -/
inductive NOp where
  /-- the constructors, 21-27 -/
  | make
  /-- the copy assignment, 29-31: it counts and has no `return` -/
  | assign (i : Nat)
  /-- the destructor, 33-35 -/
  | destroy (i : Nat)

/-- The objects alive and the counter, an integer of `m` values that wraps around.
(Members of `countable_resource_t`, daw_countable_resource.h 17-40.) -/
structure Counted where
  vars : List (Option Unit)
  count : Nat
  deriving DecidableEq

/-- One operation.  All are single atomic operations on the counter, so a concurrent program is one of these sequences.
(Members of `countable_resource_t`, daw_countable_resource.h 17-40.) -/
def nstep (m : Nat) (w : Counted) : NOp → Cxx Counted
  | .make => pure ⟨w.vars ++ [some ()], (w.count + 1) % m⟩
  | .assign i => do
    let _ ← live w.vars i
    ub
  | .destroy i => do
    let _ ← live w.vars i
    pure ⟨w.vars.set i none, (w.count + (m - 1)) % m⟩

/-- A program. (Members of `countable_resource_t`, daw_countable_resource.h 17-40.) -/
def nrun (m : Nat) : List NOp → Counted → Cxx Counted
  | [], w => pure w
  | o :: os, w => do
    let w ← nstep m w o
    nrun m os w

/-- One for an object that is alive. (Members of `countable_resource_t`, daw_countable_resource.h 17-40.) -/
def alive : Option Unit → Nat
  | some _ => 1
  | none => 0

/-- C107, as far as it holds: after every program of constructions and destructions the counter is the number of objects alive,
modulo the size of its type.  Missing: the copy assignment, see `C107_assign_violated`. -/
theorem C107_count_partial (m : Nat) (hm : 0 < m) (os : List NOp) (w : Counted) (h : nrun m os ⟨[], 0⟩ = pure w) :
    w.count = tot alive w.vars % m := by
  have key : ∀ (os : List NOp) w w', w.count = tot alive w.vars % m → nrun m os w = pure w' → w'.count = tot alive w'.vars % m := by
    intro os
    induction os with
    | nil => intro w w' hw h; rw [nrun, pure_inj] at h; rw [← h]; exact hw
    | cons o os ih =>
      intro w w' hw h
      rw [nrun, bind_eq_pure] at h
      obtain ⟨w1, e, h⟩ := h
      refine ih w1 w' ?_ h
      cases o with
      | make =>
        rw [nstep, pure_inj] at e
        subst e
        dsimp only
        rw [hw, tot_snoc, Nat.mod_add_mod]; rfl
      | assign i =>
        rw [nstep, bind_eq_pure] at e
        obtain ⟨_, _, e⟩ := e
        exact absurd e (ub_ne_pure _)
      | destroy i =>
        rw [nstep, bind_eq_pure] at e
        obtain ⟨u, eu, e⟩ := e
        rw [pure_inj] at e
        subst e
        have h1 := tot_set alive w.vars i (some u) none (live_eq eu)
        have h2 : alive (some u) = 1 := rfl
        have h3 : alive none = 0 := rfl
        dsimp only
        rw [hw, Nat.mod_add_mod, show tot alive w.vars + (m - 1) = tot alive (w.vars.set i none) + m by omega, Nat.add_mod_right]
  exact key os _ _ (by rw [tot_nil, Nat.zero_mod]) h

example : nrun 256 [.make, .make, .destroy 0, .make] ⟨[], 0⟩ = pure ⟨[none, some (), some ()], 2⟩ := by decide +kernel

/-- C107: every use of the copy assignment is undefined; it flows off the end of a function that returns a reference. -/
theorem C107_assign_violated (m : Nat) : nrun m [.make, .make, .assign 0] ⟨[], 0⟩ = ub := rfl

/-! ## allow_once_t -/

/-- What threads do with an `allow_once_t`: `check( )` (also by the conversion to `bool`) and `reset( )`; daw_allow_once.h 20-30.
Each is a single atomic operation, so every concurrent execution is one sequence of these. -/
inductive AOp where
  | check
  | reset
  deriving DecidableEq

/-- The flag after the operation and what `check` returns: the exchange of the flag with `true`.
(Members of `allow_once_t`, daw_allow_once.h 14-31.) -/
def astep (called : Bool) : AOp → Bool × Option Bool
  | .check => (true, some called)
  | .reset => (false, none)

/-- The results of all operations. (Members of `allow_once_t`, daw_allow_once.h 14-31.) -/
def arun (called : Bool) : List AOp → List (Option Bool)
  | [] => []
  | o :: os => (astep called o).2 :: arun (astep called o).1 os

/-- C108: a `check( )` returns false exactly if no `check( )` happened since the construction or the last `reset( )`: between two
resets exactly one caller, the first, is told so. -/
theorem C108_once (os : List AOp) (k : Nat) (h : os[k]? = some .check) :
    (arun false os)[k]? = some (some false) ↔
      ∀ j, j < k → os[j]? = some .check → ∃ i, j < i ∧ i < k ∧ os[i]? = some .reset := by
  have key : ∀ (os : List AOp) (c : Bool) (k : Nat), os[k]? = some .check →
      ((arun c os)[k]? = some (some false) ↔ (c = false ∨ ∃ i : Nat, i < k ∧ os[i]? = some .reset) ∧
        ∀ j, j < k → os[j]? = some .check → ∃ i, j < i ∧ i < k ∧ os[i]? = some .reset) := by
    intro os
    induction os with
    | nil => intro c k h; simp at h
    | cons o os ih =>
      intro c k h
      cases k with
      | zero =>
        rw [List.getElem?_cons_zero] at h
        injection h with h
        subst h
        rw [arun, List.getElem?_cons_zero]
        cases c with
        | false => simp [astep]
        | true => simp [astep]
      | succ k =>
        rw [List.getElem?_cons_succ] at h
        rw [arun, List.getElem?_cons_succ, ih _ k h]
        cases o with
        | check =>
          constructor
          · rintro ⟨h1, h2⟩
            have h1 : ∃ i : Nat, i < k ∧ os[i]? = some .reset := by
              rcases h1 with h1 | h1
              · cases h1
              · exact h1
            obtain ⟨i, hi, hr⟩ := h1
            refine ⟨Or.inr ⟨i + 1, by omega, by rw [List.getElem?_cons_succ]; exact hr⟩, ?_⟩
            intro j hj hc
            cases j with
            | zero => exact ⟨i + 1, by omega, by omega, by rw [List.getElem?_cons_succ]; exact hr⟩
            | succ j =>
              rw [List.getElem?_cons_succ] at hc
              obtain ⟨i', a, b, c⟩ := h2 j (by omega) hc
              exact ⟨i' + 1, by omega, by omega, by rw [List.getElem?_cons_succ]; exact c⟩
          · rintro ⟨_, h2⟩
            constructor
            · obtain ⟨i, a, b, c⟩ := h2 0 (by omega) (by rw [List.getElem?_cons_zero])
              cases i with
              | zero => omega
              | succ i => rw [List.getElem?_cons_succ] at c; exact Or.inr ⟨i, by omega, c⟩
            · intro j hj hc
              obtain ⟨i, a, b, c⟩ := h2 (j + 1) (by omega) (by rw [List.getElem?_cons_succ]; exact hc)
              cases i with
              | zero => omega
              | succ i => rw [List.getElem?_cons_succ] at c; exact ⟨i, by omega, by omega, c⟩
        | reset =>
          constructor
          · rintro ⟨_, h2⟩
            refine ⟨Or.inr ⟨0, by omega, by rw [List.getElem?_cons_zero]⟩, ?_⟩
            intro j hj hc
            cases j with
            | zero => rw [List.getElem?_cons_zero] at hc; cases hc
            | succ j =>
              rw [List.getElem?_cons_succ] at hc
              obtain ⟨i', a, b, c⟩ := h2 j (by omega) hc
              exact ⟨i' + 1, by omega, by omega, by rw [List.getElem?_cons_succ]; exact c⟩
          · rintro ⟨_, h2⟩
            refine ⟨Or.inl rfl, ?_⟩
            intro j hj hc
            obtain ⟨i, a, b, c⟩ := h2 (j + 1) (by omega) (by rw [List.getElem?_cons_succ]; exact hc)
            cases i with
            | zero => omega
            | succ i => rw [List.getElem?_cons_succ] at c; exact ⟨i, by omega, by omega, c⟩
  rw [key os false k h]
  exact ⟨fun h => h.2, fun h => ⟨Or.inl rfl, h⟩⟩

example : arun false [.check, .check, .reset, .check, .check] = [some false, some true, none, some false, some true] := rfl

/-! ## take_t -/

/-- `take`, daw_take.h 28-38: `mv v` is what moving leaves behind, `dflt` is `T{ }`, `rst` is `reset_on_take<T>`.  Returns what is
left and the result. -/
def take (rst : Bool) (dflt : Int) (mv : Int → Int) (v : Int) : Int × Int := (if rst then dflt else mv v, v)

/-- The move assignment of `take_t`, daw_take.h 60-64, of variable `j` to variable `i`. -/
def takeAssign (rst : Bool) (dflt : Int) (mv : Int → Int) (vars : List (Option Int)) (i j : Nat) : Cxx (List (Option Int)) := do
  let _ ← live vars i
  let v ← live vars j
  pure ((vars.set j (some (take rst dflt mv v).1)).set i (some (take rst dflt mv v).2))

/-- C109: after the move assignment the target has the value and the source, if it is another variable, is the default value; a
self move keeps the value. -/
theorem C109_take_assign (dflt : Int) (mv : Int → Int) (vars : List (Option Int)) (i j : Nat) (a b : Int)
    (hi : vars[i]? = some (some a)) (hj : vars[j]? = some (some b)) :
    ∃ vars', takeAssign true dflt mv vars i j = pure vars' ∧ vars'[i]? = some (some b) ∧
      (i ≠ j → vars'[j]? = some (some dflt)) ∧ ∀ k, k ≠ i → k ≠ j → vars'[k]? = vars[k]? := by
  refine ⟨(vars.set j (some dflt)).set i (some b), ?_, ?_, ?_, ?_⟩
  · unfold takeAssign; rw [live_of hi, live_of hj]; rfl
  · rw [List.getElem?_set_self (by rw [List.length_set]; exact lt_of_some hi)]
  · intro hij; rw [List.getElem?_set_ne hij, List.getElem?_set_self (lt_of_some hj)]
  · intro k h1 h2; rw [List.getElem?_set_ne (Ne.symm h1), List.getElem?_set_ne (Ne.symm h2)]

example : takeAssign true 0 id [some 4, some 5] 0 1 = pure [some 5, some 0] := by decide +kernel

/-! ## not_null -/

/-- What a program does with a `not_null<T *>` at run time; lines of daw_not_null.h.  Pointers are addresses, null is zero. -/
inductive PtrOp where
  /-- `operator=( pointer )`, 119-128 and 138-146 -/
  | assign (p : Int)
  /-- `operator++`, 206-210 and 222-227 -/
  | inc
  /-- `operator--`, 213-219 and 230-237 -/
  | dec
  /-- `operator+=`, 244-250, and `operator+` -/
  | add (n : Int)
  /-- `operator-=`, 256-262, and `operator-` -/
  | sub (n : Int)

/-- The constructor, 94-101 and 130-136. -/
def construct (p : Int) : Cxx Int := if p = 0 then abort else pure p

/-- One operation with objects of size `sz`: pointer arithmetic that leaves the addresses `0 … 2^63-1` is undefined, an assumption
(`DAW_ASSUME`) that does not hold is too, a failed `assert` aborts. -/
def pstep (sz : Int) (p : Int) (o : PtrOp) : Cxx Int :=
  match o with
  | .assign q => if q = 0 then abort else pure q
  | .inc => if p = 0 then ub else if p + sz < 0 ∨ 2 ^ 63 ≤ p + sz then ub else pure (p + sz)
  | .dec => if p = 0 then ub else if p - sz < 0 ∨ 2 ^ 63 ≤ p - sz then ub else if p - sz = 0 then abort else pure (p - sz)
  | .add n => if p = 0 then ub else if p + n * sz < 0 ∨ 2 ^ 63 ≤ p + n * sz then ub
    else if p + n * sz = 0 then abort else pure (p + n * sz)
  | .sub n => if p = 0 then ub else if p - n * sz < 0 ∨ 2 ^ 63 ≤ p - n * sz then ub
    else if p - n * sz = 0 then abort else pure (p - n * sz)

/-- A program on one pointer. (Members of `not_null`, daw_not_null.h 65-315.) -/
def prun (sz : Int) : List PtrOp → Int → Cxx Int
  | [], p => pure p
  | o :: os, p => do
    let p ← pstep sz p o
    prun sz os p

/-- C110: after any sequence of operations that neither stopped the program nor left the addresses, the pointer is not null; so
`get`, `operator*` and `operator->` may assume it.
Missing: smart pointers moved from, see `C110_moved_violated`. -/
theorem C110_never_null_partial (sz : Int) (hsz : 0 < sz) (p q : Int) (hp : 0 ≤ p) (os : List PtrOp)
    (hpos : ∀ o ∈ os, ∀ r, o = .assign r → 0 ≤ r) (h : (do let a ← construct p; prun sz os a) = pure q) : 0 < q := by
  have key : ∀ (os : List PtrOp) (p q : Int), (∀ o ∈ os, ∀ r, o = .assign r → 0 ≤ r) → 0 < p → prun sz os p = pure q → 0 < q := by
    intro os
    induction os with
    | nil => intro p q _ hp h; rw [prun, pure_inj] at h; rw [← h]; exact hp
    | cons o os ih =>
      intro p q hpos hp h
      rw [prun, bind_eq_pure] at h
      obtain ⟨p', e, h⟩ := h
      refine ih p' q (fun o ho => hpos o (List.mem_cons_of_mem _ ho)) ?_ h
      cases o with
      | assign r =>
        have := hpos _ List.mem_cons_self r rfl
        rw [pstep] at e
        split at e
        · exact absurd e (abort_ne_pure _)
        · rw [pure_inj] at e; omega
      | inc =>
        rw [pstep, if_neg (by omega)] at e
        split at e
        · exact absurd e (ub_ne_pure _)
        · rw [pure_inj] at e; omega
      | dec =>
        rw [pstep, if_neg (by omega)] at e
        split at e
        · exact absurd e (ub_ne_pure _)
        · split at e
          · exact absurd e (abort_ne_pure _)
          · rw [pure_inj] at e; omega
      | add n =>
        rw [pstep, if_neg (by omega)] at e
        split at e
        · exact absurd e (ub_ne_pure _)
        · split at e
          · exact absurd e (abort_ne_pure _)
          · rw [pure_inj] at e; omega
      | sub n =>
        rw [pstep, if_neg (by omega)] at e
        split at e
        · exact absurd e (ub_ne_pure _)
        · split at e
          · exact absurd e (abort_ne_pure _)
          · rw [pure_inj] at e; omega
  rw [bind_eq_pure] at h
  obtain ⟨a, e, h⟩ := h
  refine key os a q hpos ?_ h
  unfold construct at e
  split at e
  · exact absurd e (abort_ne_pure _)
  · rw [pure_inj] at e; omega

example : (do let a ← construct 16; prun 4 [.inc, .add 3, .dec, .sub 2] a) = pure 20 := by decide +kernel

/-- The defaulted move constructor of `not_null<std::shared_ptr<T>>` moves `m_ptr`, daw_not_null.h 78: the source is left null.
Returns source and new object. -/
def moveShared (p : Int) : Int × Int := (0, p)

/-- `get( )`, daw_not_null.h 153-163: `DAW_ASSUME( m_ptr != null_value )`. -/
def get (p : Int) : Cxx Int := if p = 0 then ub else pure p

/-- C110 does not hold for smart pointers: a moved-from `not_null` is null and its `get( )` undefined. -/
theorem C110_moved_violated (p : Int) : get (moveShared p).1 = ub := rfl

end Verif.Own.Resource
