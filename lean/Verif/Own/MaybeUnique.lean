import Verif.Own.Base

/-
`daw::maybe_unique_ptr` with the default deleter, include/daw/daw_maybe_unique_ptr.h.  Pointers are integers, null is zero.
-/

namespace Verif.Own.MaybeUnique
open Cxx

/-- A `maybe_unique_ptr`: the pointer in `m_ptr`, and `m_owned`; daw_maybe_unique_ptr.h 23-25.  The deleter has no state. -/
structure Var where
  ptr : Int
  owned : Bool
  deriving DecidableEq

/-- The variables of the program (dead ones are `none`), the pointers passed to the deleter, and what `release` returned together
with the ownership at that time. (Objects and members of `maybe_unique_ptr`, daw_maybe_unique_ptr.h 17-238.) -/
structure World where
  vars : List (Option Var)
  calls : List Int
  released : List (Bool × Int)
  deriving DecidableEq

/-- Before anything happened. (Objects and members of `maybe_unique_ptr`, daw_maybe_unique_ptr.h 17-238.) -/
def World.init : World := ⟨[], [], []⟩

/-- `reset()`, daw_maybe_unique_ptr.h 159-166; the inner `m_ptr.reset( )` is daw_unique_ptr.h 195-200, which calls the default
deleter whatever the pointer. -/
def reset (w : World) (i : Nat) : Cxx World := do
  let u ← live w.vars i
  if u.owned then pure { w with vars := w.vars.set i (some ⟨0, true⟩), calls := w.calls ++ [u.ptr] }
  else pure { w with vars := w.vars.set i (some ⟨0, true⟩) }

/-- `reset( p, owned )`, daw_maybe_unique_ptr.h 168-176: an owned pointer is replaced by `p` at once, and then `m_ptr.reset( p )`
runs again. -/
def resetTo (w : World) (i : Nat) (p : Int) (b : Bool) : Cxx World := do
  let u ← live w.vars i
  if u.owned then pure { w with vars := w.vars.set i (some ⟨p, b⟩), calls := w.calls ++ [u.ptr, p] }
  else pure { w with vars := w.vars.set i (some ⟨p, b⟩), calls := w.calls ++ [0] }

/-- `release( )`, daw_maybe_unique_ptr.h 138-141. -/
def release (w : World) (i : Nat) : Cxx (World × Int) := do
  let u ← live w.vars i
  pure ({ w with vars := w.vars.set i (some ⟨0, true⟩) }, u.ptr)

/-- What a program does with its pointers. (Objects and members of `maybe_unique_ptr`, daw_maybe_unique_ptr.h 17-238.) -/
inductive Op where
  /-- `maybe_unique_ptr( )`, 31 and 72 -/
  | makeEmpty
  /-- `maybe_unique_ptr( p )` and `maybe_unique_ptr( p, owned )`, 33-40 -/
  | make (p : Int) (owned : Bool)
  /-- the move constructor, 74-76 -/
  | moveCtor (j : Nat)
  /-- the move assignment, 99-106 -/
  | moveAssign (i j : Nat)
  /-- `reset( )` -/
  | reset (i : Nat)
  /-- `reset( p, owned )` -/
  | resetTo (i : Nat) (p : Int) (owned : Bool)
  /-- `release( )` by the user -/
  | release (i : Nat)
  /-- the member `swap`, 198-202 -/
  | swap (i j : Nat)
  /-- the destructor, 134-136 -/
  | destroy (i : Nat)

/-- One operation; the lines are those at the constructors of `Op`.
(Objects and members of `maybe_unique_ptr`, daw_maybe_unique_ptr.h 17-238.) -/
def step (w : World) : Op → Cxx World
  | .makeEmpty => pure { w with vars := w.vars ++ [some ⟨0, true⟩] }
  | .make p b => pure { w with vars := w.vars ++ [some ⟨p, b⟩] }
  | .moveCtor j => do
    let (w, p) ← release w j
    let v ← live w.vars j
    pure { w with vars := w.vars.set j (some { v with owned := true }) ++ [some ⟨p, v.owned⟩] }
  | .moveAssign i j =>
    if i = j then do
      let _ ← live w.vars i
      pure w
    else do
      let w ← reset w i
      let (w, p) ← release w j
      let v ← live w.vars j
      pure { w with vars := (w.vars.set j (some { v with owned := true })).set i (some ⟨p, v.owned⟩) }
  | .reset i => reset w i
  | .resetTo i p b => resetTo w i p b
  | .release i => do
    let u ← live w.vars i
    let (w, p) ← release w i
    pure { w with released := w.released ++ [(u.owned, p)] }
  | .swap i j => do
    let u ← live w.vars i
    let v ← live w.vars j
    pure { w with vars := (w.vars.set i (some v)).set j (some u) }
  | .destroy i => do
    let w ← reset w i
    pure { w with vars := w.vars.set i none }

/-- A program. (Objects and members of `maybe_unique_ptr`, daw_maybe_unique_ptr.h 17-238.) -/
def run : List Op → World → Cxx World
  | [], w => pure w
  | o :: os, w => do
    let w ← step w o
    run os w

/-- One for an operation that hands over `p` together with its ownership. (Specification, no line of the source.) -/
def gives (p : Int) : Op → Nat
  | .make q true => ind q p
  | .resetTo _ q true => ind q p
  | _ => 0

/-- How often the program hands over `p` together with its ownership. (Specification, no line of the source.) -/
def handed (p : Int) (os : List Op) : Nat := tot (gives p) os

/-- One for a live variable that owns `p`. (Specification, no line of the source.) -/
def cnt (p : Int) : Option Var → Nat
  | none => 0
  | some u => if u.owned then ind u.ptr p else 0

/-- How many live variables own `p`. (Specification, no line of the source.) -/
def held (p : Int) (w : World) : Nat := tot (cnt p) w.vars

/-- How often the deleter was called with `p`. (Specification, no line of the source.) -/
def deleted (p : Int) (w : World) : Nat := tot (fun q => ind q p) w.calls

/-- How often `p` was released by an owner. (Specification, no line of the source.) -/
def released (p : Int) (w : World) : Nat := tot (fun x => if x.1 then ind x.2 p else 0) w.released

/-- The operation avoids the two faults of the class: it moves from an owner, and it resets to a new pointer only where none is
owned. (Specification, no line of the source.) -/
def Good (w : World) : Op → Prop
  | .moveCtor j => ∀ u, w.vars[j]? = some (some u) → u.owned = true
  | .moveAssign i j => i = j ∨ ∀ u, w.vars[j]? = some (some u) → u.owned = true
  | .resetTo i p _ => p = 0 ∨ ∀ u, w.vars[i]? = some (some u) → u.owned = false
  | _ => True

/-- All operations of the program are `Good` where they happen. (Specification, no line of the source.) -/
def GoodRun : List Op → World → Prop
  | [], _ => True
  | o :: os, w => Good w o ∧ ∀ w', step w o = pure w' → GoodRun os w'

theorem reset_mass {w w' : World} {i : Nat} {p : Int} (hp : p ≠ 0) (h : reset w i = pure w') :
    deleted p w' + held p w' = deleted p w + held p w ∧ w'.vars[i]? = some (some ⟨0, true⟩) ∧ w'.released = w.released ∧
      ∀ j, j ≠ i → w'.vars[j]? = w.vars[j]? := by
  unfold reset at h
  rw [bind_eq_pure] at h
  obtain ⟨u, e, h⟩ := h
  have e := live_eq e
  have h1 := tot_set (cnt p) w.vars i (some u) (some ⟨0, true⟩) e
  have h2 : cnt p (some ⟨0, true⟩) = 0 := by rw [cnt, if_pos rfl, ind_ne (Ne.symm hp)]
  split at h
  · rename_i ho
    rw [pure_inj] at h
    subst h
    have h3 : cnt p (some u) = ind u.ptr p := by rw [cnt, if_pos ho]
    refine ⟨?_, List.getElem?_set_self (lt_of_some e), rfl, fun j hj => List.getElem?_set_ne (Ne.symm hj)⟩
    have h4 := tot_snoc (fun q => ind q p) w.calls u.ptr
    unfold deleted held
    dsimp only at h4 ⊢
    omega
  · rename_i ho
    rw [pure_inj] at h
    subst h
    have h3 : cnt p (some u) = 0 := by rw [cnt, if_neg ho]
    refine ⟨?_, List.getElem?_set_self (lt_of_some e), rfl, fun j hj => List.getElem?_set_ne (Ne.symm hj)⟩
    unfold deleted held
    dsimp only
    omega

theorem release_eq {w w' : World} {i : Nat} {q : Int} (h : release w i = pure (w', q)) :
    ∃ u, w.vars[i]? = some (some u) ∧ q = u.ptr ∧ w' = { w with vars := w.vars.set i (some ⟨0, true⟩) } := by
  unfold release at h
  rw [bind_eq_pure] at h
  obtain ⟨u, e, h⟩ := h
  have e := live_eq e
  rw [pure_inj] at h
  injection h with h1 h2
  exact ⟨u, e, h2.symm, h1.symm⟩

theorem gives_empty (p : Int) : gives p .makeEmpty = 0 := rfl
theorem gives_moveCtor (p : Int) (j : Nat) : gives p (.moveCtor j) = 0 := rfl
theorem gives_moveAssign (p : Int) (i j : Nat) : gives p (.moveAssign i j) = 0 := rfl
theorem gives_reset (p : Int) (i : Nat) : gives p (.reset i) = 0 := rfl
theorem gives_release (p : Int) (i : Nat) : gives p (.release i) = 0 := rfl
theorem gives_swap (p : Int) (i j : Nat) : gives p (.swap i j) = 0 := rfl
theorem gives_destroy (p : Int) (i : Nat) : gives p (.destroy i) = 0 := rfl
theorem gives_true (p q : Int) : gives p (.make q true) = ind q p := rfl
theorem gives_false (p q : Int) : gives p (.make q false) = 0 := rfl

theorem step_mass {w w' : World} {o : Op} {p : Int} (hp : p ≠ 0) (hg : Good w o) (h : step w o = pure w') :
    deleted p w' + held p w' + released p w' = deleted p w + held p w + released p w + handed p [o] := by
  have h0 : cnt p (some ⟨0, true⟩) = 0 := by rw [cnt, if_pos rfl, ind_ne (Ne.symm hp)]
  unfold handed
  rw [tot_cons, tot_nil]
  cases o with
  | makeEmpty =>
    rw [gives_empty]
    rw [step, pure_inj] at h
    subst h
    have := tot_snoc (cnt p) w.vars (some ⟨0, true⟩)
    unfold deleted held released
    dsimp only
    omega
  | make q b =>
    rw [step, pure_inj] at h
    subst h
    have := tot_snoc (cnt p) w.vars (some ⟨q, b⟩)
    unfold deleted held released
    cases b with
    | true =>
      rw [gives_true]
      have e : cnt p (some ⟨q, true⟩) = ind q p := by rw [cnt, if_pos rfl]
      dsimp only
      omega
    | false =>
      rw [gives_false]
      have e : cnt p (some ⟨q, false⟩) = 0 := by rw [cnt, if_neg (by simp)]
      dsimp only
      omega
  | moveCtor j =>
    rw [gives_moveCtor]
    rw [step, bind_eq_pure] at h
    obtain ⟨⟨w1, q⟩, e, h⟩ := h
    obtain ⟨u, eu, eq, ew⟩ := release_eq e
    subst eq ew
    dsimp only at h
    rw [live_of (List.getElem?_set_self (lt_of_some eu)), pure_bind, pure_inj] at h
    subst h
    have ho := hg u eu
    have h1 := tot_set (cnt p) w.vars j (some u) (some ⟨0, true⟩) eu
    have h2 := tot_snoc (cnt p) (w.vars.set j (some ⟨0, true⟩)) (some ⟨u.ptr, true⟩)
    have h3 : cnt p (some u) = ind u.ptr p := by rw [cnt, if_pos ho]
    have h4 : cnt p (some ⟨u.ptr, true⟩) = ind u.ptr p := by rw [cnt, if_pos rfl]
    unfold deleted held released
    dsimp only
    rw [List.set_set]
    omega
  | moveAssign i j =>
    rw [gives_moveAssign]
    rw [step] at h
    split at h
    · rw [bind_eq_pure] at h
      obtain ⟨_, _, h⟩ := h
      rw [pure_inj] at h
      rw [h]; rfl
    · rename_i hij
      rw [bind_eq_pure] at h
      obtain ⟨w1, e1, h⟩ := h
      rw [bind_eq_pure] at h
      obtain ⟨⟨w2, q⟩, e2, h⟩ := h
      obtain ⟨m1, s1, r1, f1⟩ := reset_mass hp e1
      obtain ⟨u, eu, eq, ew⟩ := release_eq e2
      subst eq ew
      dsimp only at h
      rw [live_of (List.getElem?_set_self (lt_of_some eu)), pure_bind, pure_inj] at h
      subst h
      have ho : u.owned = true := by
        rcases hg with hg | hg
        · exact absurd hg hij
        · exact hg u (by rw [← f1 j (Ne.symm hij)]; exact eu)
      have h1 := tot_set (cnt p) w1.vars j (some u) (some ⟨0, true⟩) eu
      have h2 := tot_set (cnt p) (w1.vars.set j (some ⟨0, true⟩)) i (some ⟨0, true⟩) (some ⟨u.ptr, true⟩)
        (by rw [List.getElem?_set_ne (Ne.symm hij)]; exact s1)
      have h3 : cnt p (some u) = ind u.ptr p := by rw [cnt, if_pos ho]
      have h4 : cnt p (some ⟨u.ptr, true⟩) = ind u.ptr p := by rw [cnt, if_pos rfl]
      unfold deleted held released at *
      dsimp only
      rw [List.set_set, r1]
      omega
  | reset i =>
    rw [gives_reset]
    rw [step] at h
    obtain ⟨m1, s1, r1, f1⟩ := reset_mass hp h
    unfold released
    rw [r1]
    omega
  | resetTo i q b =>
    rw [step] at h
    unfold resetTo at h
    rw [bind_eq_pure] at h
    obtain ⟨u, e, h⟩ := h
    have e := live_eq e
    have h1 := tot_set (cnt p) w.vars i (some u) (some ⟨q, b⟩) e
    have hb : cnt p (some ⟨q, b⟩) = gives p (Op.resetTo i q b) := by
      cases b with
      | true => rw [cnt, if_pos rfl, gives]
      | false => rw [cnt, if_neg (by simp)]; rfl
    split at h
    · rename_i ho
      rw [pure_inj] at h
      subst h
      have hq : q = 0 := by
        rcases hg with hg | hg
        · exact hg
        · rw [hg u e] at ho; cases ho
      have h3 : cnt p (some u) = ind u.ptr p := by rw [cnt, if_pos ho]
      have h4 := tot_append (fun q => ind q p) w.calls [u.ptr, q]
      rw [tot_cons, tot_cons, tot_nil, hq, ind_ne (Ne.symm hp)] at h4
      unfold deleted held released
      rw [hq] at h1 hb ⊢
      dsimp only at h4 ⊢
      omega
    · rename_i ho
      rw [pure_inj] at h
      subst h
      have h3 : cnt p (some u) = 0 := by rw [cnt, if_neg ho]
      have h4 := tot_snoc (fun q => ind q p) w.calls 0
      rw [ind_ne (Ne.symm hp)] at h4
      unfold deleted held released
      dsimp only
      omega
  | release i =>
    rw [gives_release]
    rw [step, bind_eq_pure] at h
    obtain ⟨u, e, h⟩ := h
    have e := live_eq e
    rw [bind_eq_pure] at h
    obtain ⟨⟨w1, q⟩, e1, h⟩ := h
    obtain ⟨v, ev, eq, ew⟩ := release_eq e1
    rw [e] at ev
    injection ev with ev
    injection ev with ev
    subst ev eq ew
    dsimp only at h
    rw [pure_inj] at h
    subst h
    have h1 := tot_set (cnt p) w.vars i (some u) (some ⟨0, true⟩) e
    have h2 := tot_snoc (fun x : Bool × Int => if x.1 then ind x.2 p else 0) w.released (u.owned, u.ptr)
    unfold deleted held released
    rw [show cnt p (some u) = if u.owned then ind u.ptr p else 0 from rfl] at h1
    dsimp only at h2 ⊢
    omega
  | swap i j =>
    rw [gives_swap]
    rw [step, bind_eq_pure] at h
    obtain ⟨u, eu, h⟩ := h
    rw [bind_eq_pure] at h
    obtain ⟨v, ev, h⟩ := h
    have eu := live_eq eu
    have ev := live_eq ev
    rw [pure_inj] at h
    subst h
    have h1 := tot_set (cnt p) w.vars i (some u) (some v) eu
    unfold deleted held released
    dsimp only
    by_cases hij : i = j
    · subst hij
      rw [eu] at ev
      injection ev with ev
      injection ev with ev
      subst ev
      have h2 := tot_set (cnt p) (w.vars.set i (some u)) i (some u) (some u) (List.getElem?_set_self (lt_of_some eu))
      omega
    · have h2 := tot_set (cnt p) (w.vars.set i (some v)) j (some v) (some u) (by rw [List.getElem?_set_ne hij]; exact ev)
      omega
  | destroy i =>
    rw [gives_destroy]
    rw [step, bind_eq_pure] at h
    obtain ⟨w1, e1, h⟩ := h
    rw [pure_inj] at h
    subst h
    obtain ⟨m1, s1, r1, f1⟩ := reset_mass hp e1
    have h1 := tot_set (cnt p) w1.vars i _ none s1
    have h2 : cnt p none = 0 := rfl
    unfold deleted held released at *
    dsimp only at m1 ⊢
    rw [r1]
    omega

/-- C98, as far as it holds: as long as no program step moves from a variable that does not own its pointer, or resets an owning
variable to a new pointer, every pointer is deleted, owned or released by an owner exactly as often as it was handed over
together with its ownership.  Missing: those two operations, see `C98_move_violated` and `C98_reset_violated`. -/
theorem C98_conservation_partial (os : List Op) (p : Int) (hp : p ≠ 0) :
    ∀ w w', GoodRun os w → run os w = pure w' →
      deleted p w' + held p w' + released p w' = deleted p w + held p w + released p w + handed p os := by
  induction os with
  | nil => intro w w' _ h; rw [run, pure_inj] at h; rw [h]; rfl
  | cons o os ih =>
    intro w w' hg h
    rw [run, bind_eq_pure] at h
    obtain ⟨w1, e, h⟩ := h
    have h1 := ih w1 w' (hg.2 w1 e) h
    have h2 := step_mass hp hg.1 e
    have h3 : handed p (o :: os) = handed p [o] + handed p os := by
      unfold handed
      rw [tot_cons, tot_cons, tot_nil]; omega
    omega

/-- C98: in such programs an object handed over without its ownership is never deleted. -/
theorem C98_borrowed_partial (os : List Op) (p : Int) (hp : p ≠ 0) (w : World) (hg : GoodRun os .init)
    (h : run os .init = pure w) (hn : handed p os = 0) : deleted p w = 0 := by
  have h1 := C98_conservation_partial os p hp _ _ hg h
  have h4 : deleted p .init = 0 ∧ held p .init = 0 ∧ released p .init = 0 := ⟨rfl, rfl, rfl⟩
  omega

/-- C98: in such programs an object handed over once with its ownership is deleted exactly once when all variables are gone,
unless it was released. -/
theorem C98_exactly_once_partial (os : List Op) (p : Int) (hp : p ≠ 0) (w : World) (hg : GoodRun os .init)
    (h : run os .init = pure w) (hgone : ∀ v ∈ w.vars, v = none) (hrel : released p w = 0) (hone : handed p os = 1) :
    deleted p w = 1 := by
  have h1 := C98_conservation_partial os p hp _ _ hg h
  have h2 : held p w = 0 := tot_eq_zero _ _ (fun a ha => by rw [hgone a ha]; rfl)
  have h4 : deleted p .init = 0 ∧ held p .init = 0 ∧ released p .init = 0 := ⟨rfl, rfl, rfl⟩
  omega

/-- An owned and a borrowed object, swapped, reset and moved. -/
example : run [.make 10 true, .make 20 false, .swap 0 1, .resetTo 0 30 true, .moveCtor 1, .destroy 0, .destroy 1, .destroy 2]
    .init = pure ⟨[none, none, none], [0, 30, 0, 10], []⟩ := by decide +kernel

example : GoodRun [.make 10 true, .make 20 false, .swap 0 1, .resetTo 0 30 true, .moveCtor 1] .init := by
  refine ⟨trivial, fun w h => ?_⟩
  rw [step, pure_inj] at h; subst h
  refine ⟨trivial, fun w h => ?_⟩
  rw [step, pure_inj] at h; subst h
  refine ⟨trivial, fun w h => ?_⟩
  have e : step ⟨World.init.vars ++ [some ⟨10, true⟩] ++ [some ⟨20, false⟩], [], []⟩ (.swap 0 1) =
    pure ⟨[some ⟨20, false⟩, some ⟨10, true⟩], [], []⟩ := by decide +kernel
  have h := e.symm.trans h
  rw [pure_inj] at h; subst h
  refine ⟨Or.inr (fun u hu => ?_), fun w h => ?_⟩
  · injection hu with hu; injection hu with hu; rw [← hu]
  have e : step ⟨[some ⟨20, false⟩, some ⟨10, true⟩], [], []⟩ (.resetTo 0 30 true) =
    pure ⟨[some ⟨30, true⟩, some ⟨10, true⟩], [0], []⟩ := by decide +kernel
  have h := e.symm.trans h
  rw [pure_inj] at h; subst h
  refine ⟨fun u hu => ?_, fun w h => trivial⟩
  injection hu with hu; injection hu with hu; rw [← hu]

/-- C98 does not hold when a pointer that is not owned is moved: the move constructor takes the ownership flag after `release`
has set it, so the new variable owns the object and deletes it. -/
theorem C98_move_violated (p : Int) :
    run [.make p false, .moveCtor 0, .destroy 1] .init = pure ⟨[some ⟨0, true⟩, none], [p], []⟩ := rfl

/-- C98, the move assignment: the same. -/
theorem C98_assign_violated (p : Int) :
    run [.make p false, .makeEmpty, .moveAssign 1 0, .destroy 1] .init = pure ⟨[some ⟨0, true⟩, none], [0, p], []⟩ := rfl

/-- C98 does not hold for `reset( p )` of an owner: the new object is deleted at once and again at the end. -/
theorem C98_reset_violated (p q : Int) :
    run [.make p true, .resetTo 0 q true, .destroy 0] .init = pure ⟨[none], [p, q, q], []⟩ := rfl

end Verif.Own.MaybeUnique
