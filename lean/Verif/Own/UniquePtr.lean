import Verif.Own.Base

/-
`daw::unique_ptr`, include/daw/daw_unique_ptr.h.  Pointers and handles are integers, the null pointer is zero.
-/

namespace Verif.Own.UniquePtr
open Cxx

/-- What a deleter type fixes: `check` says that it declares `does_validity_check`, `dflt` is its `default_pointer_value`;
daw_unique_ptr.h 67-97. -/
structure Cfg where
  check : Bool
  dflt : Int

/-- `default_deleter`, daw_unique_ptr.h 29-65. -/
def plain : Cfg := ⟨true, 0⟩

/-- A `unique_ptr`: `m_ptr` and the state of the deleter it derives from, daw_unique_ptr.h 99-114. -/
structure Var where
  ptr : Int
  del : Nat
  deriving DecidableEq

/-- The program: its variables (dead ones are `none`), the calls of deleters with their state, and what `release` returned.
(Objects and members of `unique_ptr`, daw_unique_ptr.h 100-261 and 264-403.) -/
structure World where
  vars : List (Option Var)
  calls : List (Nat × Int)
  released : List Int
  deriving DecidableEq

/-- Before anything happened. (Objects and members of `unique_ptr`, daw_unique_ptr.h 100-261 and 264-403.) -/
def World.init : World := ⟨[], [], []⟩

/-- `reset()`, daw_unique_ptr.h 195-200 and 342-347. -/
def reset (c : Cfg) (w : World) (i : Nat) : Cxx World := do
  let u ← live w.vars i
  if c.check = true ∨ u.ptr ≠ 0 then
    pure { w with vars := w.vars.set i (some { u with ptr := c.dflt }), calls := w.calls ++ [(u.del, u.ptr)] }
  else pure w

/-- `release()`, daw_unique_ptr.h 174-177 and 329-332. -/
def release (c : Cfg) (w : World) (i : Nat) : Cxx (World × Int) := do
  let u ← live w.vars i
  pure ({ w with vars := w.vars.set i (some { u with ptr := c.dflt }) }, u.ptr)

/-- `m_ptr = p`, daw_unique_ptr.h 149 and 204. -/
def store (w : World) (i : Nat) (p : Int) : Cxx World := do
  let u ← live w.vars i
  pure { w with vars := w.vars.set i (some { u with ptr := p }) }

/-- What a program does with its pointers. (Objects and members of `unique_ptr`, daw_unique_ptr.h 100-261 and 264-403.) -/
inductive Op where
  /-- `unique_ptr( )` and `unique_ptr( nullptr )` with a default constructed deleter, 117 and 130 -/
  | makeEmpty
  /-- `unique_ptr( p )`, 118-119 -/
  | make (p : Int)
  /-- `unique_ptr( unique_ptr && )`, 132-133: the deleter is default constructed -/
  | moveCtor (j : Nat)
  /-- `operator=( unique_ptr && )`, 146-152 -/
  | moveAssign (i j : Nat)
  /-- `reset( )` -/
  | reset (i : Nat)
  /-- `reset( p )`, 202-205 -/
  | resetTo (i : Nat) (p : Int)
  /-- `release( )` by the user -/
  | release (i : Nat)
  /-- `swap`, 227-230: of the pointers only -/
  | swap (i j : Nat)
  /-- `get_deleter( ) = d`, 179-181 -/
  | setDeleter (i d : Nat)
  /-- the destructor, 170-172 -/
  | destroy (i : Nat)

/-- One operation; the lines are those at the constructors of `Op`.
(Objects and members of `unique_ptr`, daw_unique_ptr.h 100-261 and 264-403.) -/
def step (c : Cfg) (w : World) : Op → Cxx World
  | .makeEmpty => pure { w with vars := w.vars ++ [some ⟨c.dflt, 0⟩] }
  | .make p => pure { w with vars := w.vars ++ [some ⟨p, 0⟩] }
  | .moveCtor j => do
    let (w, p) ← release c w j
    pure { w with vars := w.vars ++ [some ⟨p, 0⟩] }
  | .moveAssign i j =>
    if i = j then do
      let _ ← live w.vars i
      pure w
    else do
      let w ← reset c w i
      let (w, p) ← release c w j
      store w i p
  | .reset i => reset c w i
  | .resetTo i p => do
    let w ← reset c w i
    store w i p
  | .release i => do
    let (w, p) ← release c w i
    pure { w with released := w.released ++ [p] }
  | .swap i j => do
    let u ← live w.vars i
    let v ← live w.vars j
    let w ← store w i v.ptr
    store w j u.ptr
  | .setDeleter i d => do
    let u ← live w.vars i
    pure { w with vars := w.vars.set i (some { u with del := d }) }
  | .destroy i => do
    let w ← reset c w i
    pure { w with vars := w.vars.set i none }

/-- A program. (Objects and members of `unique_ptr`, daw_unique_ptr.h 100-261 and 264-403.) -/
def run (c : Cfg) : List Op → World → Cxx World
  | [], w => pure w
  | o :: os, w => do
    let w ← step c w o
    run c os w

/-- How often the program hands `p` to a `unique_ptr`. (Specification, no line of the source.) -/
def handed (p : Int) (os : List Op) : Nat :=
  tot (fun o => match o with
    | .make q => ind q p
    | .resetTo _ q => ind q p
    | _ => 0) os

/-- One for a live variable that holds `p`. (Specification, no line of the source.) -/
def cnt (p : Int) : Option Var → Nat
  | none => 0
  | some u => ind u.ptr p

/-- How many live variables hold `p`. (Specification, no line of the source.) -/
def held (p : Int) (w : World) : Nat := tot (cnt p) w.vars

/-- How often a deleter was called with `p`. (Specification, no line of the source.) -/
def deleted (p : Int) (w : World) : Nat := tot (fun x => ind x.2 p) w.calls

/-- How often `release` returned `p`. (Specification, no line of the source.) -/
def released (p : Int) (w : World) : Nat := tot (fun q => ind q p) w.released

/-- All there is of `p`. (Specification, no line of the source.) -/
def mass (p : Int) (w : World) : Nat := deleted p w + held p w + released p w

theorem held_set (p : Int) (w : World) (i : Nat) (u v : Var) (h : w.vars[i]? = some (some u)) :
    held p { w with vars := w.vars.set i (some v) } + ind u.ptr p = held p w + ind v.ptr p :=
  tot_set (cnt p) w.vars i (some u) (some v) h

theorem held_drop (p : Int) (w : World) (i : Nat) (u : Var) (h : w.vars[i]? = some (some u)) :
    held p { w with vars := w.vars.set i none } + ind u.ptr p = held p w :=
  tot_set (cnt p) w.vars i (some u) none h

theorem held_new (p : Int) (w : World) (u : Var) :
    held p { w with vars := w.vars ++ [some u] } = held p w + ind u.ptr p :=
  tot_snoc (cnt p) w.vars (some u)

theorem reset_mass {c : Cfg} {w w' : World} {i : Nat} {p : Int} (hd : p ≠ c.dflt) (hz : c.check = true ∨ p ≠ 0)
    (h : reset c w i = pure w') :
    mass p w' = mass p w ∧ (∃ u, w'.vars[i]? = some (some u) ∧ ind u.ptr p = 0) ∧
      ∀ j, j ≠ i → w'.vars[j]? = w.vars[j]? := by
  unfold reset at h
  rw [bind_eq_pure] at h
  obtain ⟨u, e, h⟩ := h
  have e := live_eq e
  split at h
  · rw [pure_inj] at h
    subst h
    refine ⟨?_, ⟨{ u with ptr := c.dflt }, ?_, ind_ne (Ne.symm hd)⟩, ?_⟩
    · have h1 := held_set p w i u { u with ptr := c.dflt } e
      have h2 : ind c.dflt p = 0 := ind_ne (Ne.symm hd)
      unfold mass
      have h3 : deleted p { w with vars := w.vars.set i (some { u with ptr := c.dflt }), calls := w.calls ++ [(u.del, u.ptr)] }
          = deleted p w + ind u.ptr p := tot_snoc (fun x : Nat × Int => ind x.2 p) w.calls (u.del, u.ptr)
      have h4 : held p { w with vars := w.vars.set i (some { u with ptr := c.dflt }), calls := w.calls ++ [(u.del, u.ptr)] }
          = held p { w with vars := w.vars.set i (some { u with ptr := c.dflt }) } := rfl
      have h5 : released p { w with vars := w.vars.set i (some { u with ptr := c.dflt }), calls := w.calls ++ [(u.del, u.ptr)] }
          = released p w := rfl
      dsimp only at h1
      omega
    · exact List.getElem?_set_self (lt_of_some e)
    · intro j hj
      exact List.getElem?_set_ne (Ne.symm hj)
  · rename_i hn
    rw [pure_inj] at h
    subst h
    refine ⟨rfl, ⟨u, e, ?_⟩, fun _ _ => rfl⟩
    apply ind_ne
    intro hp
    apply hn
    rcases hz with hz | hz
    · left; exact hz
    · right; rw [hp]; exact hz

theorem release_mass {c : Cfg} {w w' : World} {i : Nat} {p q : Int} (hd : p ≠ c.dflt) (h : release c w i = pure (w', q)) :
    mass p w' + ind q p = mass p w ∧ ∀ j, j ≠ i → w'.vars[j]? = w.vars[j]? := by
  unfold release at h
  rw [bind_eq_pure] at h
  obtain ⟨u, e, h⟩ := h
  have e := live_eq e
  rw [pure_inj] at h
  injection h with h1 h2
  subst h1 h2
  refine ⟨?_, fun j hj => List.getElem?_set_ne (Ne.symm hj)⟩
  have h1 := held_set p w i u { u with ptr := c.dflt } e
  have h2 : ind c.dflt p = 0 := ind_ne (Ne.symm hd)
  dsimp only at h1
  unfold mass
  have h3 : deleted p { w with vars := w.vars.set i (some { u with ptr := c.dflt }) } = deleted p w := rfl
  have h5 : released p { w with vars := w.vars.set i (some { u with ptr := c.dflt }) } = released p w := rfl
  omega

theorem store_mass {w w' : World} {i : Nat} {p q : Int} {u : Var} (hu : w.vars[i]? = some (some u)) (h : store w i q = pure w') :
    mass p w' + ind u.ptr p = mass p w + ind q p ∧ w'.vars[i]? = some (some { u with ptr := q }) ∧
      ∀ j, j ≠ i → w'.vars[j]? = w.vars[j]? := by
  unfold store at h
  rw [live_of hu, pure_bind, pure_inj] at h
  subst h
  refine ⟨?_, List.getElem?_set_self (lt_of_some hu), fun j hj => List.getElem?_set_ne (Ne.symm hj)⟩
  have h1 := held_set p w i u { u with ptr := q } hu
  dsimp only at h1
  unfold mass
  have h3 : deleted p { w with vars := w.vars.set i (some { u with ptr := q }) } = deleted p w := rfl
  have h5 : released p { w with vars := w.vars.set i (some { u with ptr := q }) } = released p w := rfl
  omega

theorem step_mass {c : Cfg} {w w' : World} {o : Op} {p : Int} (hd : p ≠ c.dflt) (hz : c.check = true ∨ p ≠ 0)
    (h : step c w o = pure w') : mass p w' = mass p w + handed p [o] := by
  have new (w : World) (u : Var) : mass p { w with vars := w.vars ++ [some u] } = mass p w + ind u.ptr p := by
    have := held_new p w u
    unfold mass
    have h3 : deleted p { w with vars := w.vars ++ [some u] } = deleted p w := rfl
    have h5 : released p { w with vars := w.vars ++ [some u] } = released p w := rfl
    omega
  unfold handed
  rw [tot_cons, tot_nil]
  cases o with
  | makeEmpty =>
    rw [step, pure_inj] at h
    subst h
    rw [new, ind_ne (Ne.symm hd)]
  | make q =>
    rw [step, pure_inj] at h
    subst h
    rw [new]; rfl
  | moveCtor j =>
    rw [step, bind_eq_pure] at h
    obtain ⟨⟨w1, q⟩, e, h⟩ := h
    dsimp only at h
    rw [pure_inj] at h
    subst h
    rw [new]
    exact (release_mass hd e).1
  | moveAssign i j =>
    rw [step] at h
    split at h
    · rw [bind_eq_pure] at h
      obtain ⟨_, _, h⟩ := h
      rw [pure_inj] at h
      rw [h]; rfl
    · rename_i hij
      rw [bind_eq_pure] at h
      obtain ⟨w1, e1, h⟩ := h
      rw [bind_eq_pure] at h
      obtain ⟨⟨w2, q⟩, e2, h⟩ := h
      dsimp only at h
      obtain ⟨m1, ⟨u, eu, zu⟩, f1⟩ := reset_mass hd hz e1
      obtain ⟨m2, f2⟩ := release_mass hd e2
      have m3 := (store_mass (p := p) (by rw [f2 i hij]; exact eu) h).1
      dsimp only
      omega
  | reset i =>
    rw [step] at h
    exact (reset_mass hd hz h).1
  | resetTo i q =>
    rw [step, bind_eq_pure] at h
    obtain ⟨w1, e1, h⟩ := h
    obtain ⟨m1, ⟨u, eu, zu⟩, f1⟩ := reset_mass hd hz e1
    have m3 := (store_mass (p := p) eu h).1
    dsimp only
    omega
  | release i =>
    rw [step, bind_eq_pure] at h
    obtain ⟨⟨w1, q⟩, e, h⟩ := h
    dsimp only at h
    rw [pure_inj] at h
    subst h
    have m := (release_mass hd e).1
    unfold mass at m ⊢
    have h1 : released p { w1 with released := w1.released ++ [q] } = released p w1 + ind q p :=
      tot_snoc (fun q => ind q p) w1.released q
    have h2 : deleted p { w1 with released := w1.released ++ [q] } = deleted p w1 := rfl
    have h3 : held p { w1 with released := w1.released ++ [q] } = held p w1 := rfl
    dsimp only
    omega
  | swap i j =>
    rw [step, bind_eq_pure] at h
    obtain ⟨u, eu, h⟩ := h
    rw [bind_eq_pure] at h
    obtain ⟨v, ev, h⟩ := h
    rw [bind_eq_pure] at h
    obtain ⟨w1, e1, h⟩ := h
    have eu := live_eq eu
    have ev := live_eq ev
    obtain ⟨m1, s1, f1⟩ := store_mass (p := p) eu e1
    dsimp only
    by_cases hij : i = j
    · subst hij
      rw [eu] at ev
      injection ev with ev
      injection ev with ev
      subst ev
      have m2 := (store_mass (p := p) s1 h).1
      dsimp only at m2
      omega
    · have m2 := (store_mass (p := p) (by rw [f1 j (Ne.symm hij)]; exact ev) h).1
      omega
  | setDeleter i d =>
    rw [step, bind_eq_pure] at h
    obtain ⟨u, e, h⟩ := h
    have e := live_eq e
    rw [pure_inj] at h
    subst h
    have h1 := held_set p w i u { u with del := d } e
    dsimp only at h1 ⊢
    unfold mass
    have h3 : deleted p { w with vars := w.vars.set i (some { u with del := d }) } = deleted p w := rfl
    have h5 : released p { w with vars := w.vars.set i (some { u with del := d }) } = released p w := rfl
    omega
  | destroy i =>
    rw [step, bind_eq_pure] at h
    obtain ⟨w1, e1, h⟩ := h
    rw [pure_inj] at h
    subst h
    obtain ⟨m1, ⟨u, eu, zu⟩, f1⟩ := reset_mass hd hz e1
    have h1 := held_drop p w1 i u eu
    dsimp only
    unfold mass at m1 ⊢
    have h3 : deleted p { w1 with vars := w1.vars.set i none } = deleted p w1 := rfl
    have h5 : released p { w1 with vars := w1.vars.set i none } = released p w1 := rfl
    omega

/-- C96: over every program, a pointer other than the empty value (and, for a deleter without validity check, other than zero) is
passed to a deleter, held by a live variable, or was released, exactly as often as it was handed over: it is neither lost nor
deleted twice. -/
theorem C96_conservation (c : Cfg) (os : List Op) (p : Int) (hd : p ≠ c.dflt) (hz : c.check = true ∨ p ≠ 0) :
    ∀ w w', run c os w = pure w' →
      deleted p w' + held p w' + released p w' = deleted p w + held p w + released p w + handed p os := by
  induction os with
  | nil => intro w w' h; rw [run, pure_inj] at h; rw [h]; rfl
  | cons o os ih =>
    intro w w' h
    rw [run, bind_eq_pure] at h
    obtain ⟨w1, e, h⟩ := h
    have h1 := ih w1 w' h
    have h2 := step_mass hd hz e
    have h3 : handed p (o :: os) = handed p [o] + handed p os := by
      unfold handed
      rw [tot_cons, tot_cons, tot_nil]; omega
    unfold mass at h2
    omega

/-- C96: with the default deleter, once all variables are gone, every object handed over once and not released was deleted
exactly once.
Missing: deleters with a sentinel of their own and deleters that throw or are replaced, see `C96_sentinel_violated` and `C96_deleter_violated`. -/
theorem C96_exactly_once_partial (os : List Op) (w : World) (p : Int) (h : run plain os .init = pure w) (hp : p ≠ 0)
    (hgone : ∀ v ∈ w.vars, v = none) (hrel : p ∉ w.released) (hone : handed p os = 1) : deleted p w = 1 := by
  have h1 := C96_conservation plain os p hp (Or.inl rfl) _ _ h
  have h2 : held p w = 0 := tot_eq_zero _ _ (fun a ha => by rw [hgone a ha]; rfl)
  have h3 : released p w = 0 := tot_eq_zero _ _ (fun a ha => ind_ne (fun e => hrel (e ▸ ha)))
  have h4 : deleted p .init = 0 ∧ held p .init = 0 ∧ released p .init = 0 := ⟨rfl, rfl, rfl⟩
  omega

example := C96_exactly_once_partial [.make 10, .moveCtor 0, .destroy 0, .destroy 1] _ 10 rfl (by decide) (by decide) (by decide) (by decide)

/-- C96: as long as a variable holds an object that was handed over once, the object is not deleted and nobody else holds it. -/
theorem C96_exclusive (os : List Op) (w : World) (p : Int) (i : Nat) (u : Var) (h : run plain os .init = pure w) (hp : p ≠ 0)
    (hi : w.vars[i]? = some (some u)) (hu : u.ptr = p) (hone : handed p os = 1) :
    deleted p w = 0 ∧ released p w = 0 ∧ ∀ j v, w.vars[j]? = some (some v) → v.ptr = p → j = i := by
  have h1 := C96_conservation plain os p hp (Or.inl rfl) _ _ h
  have h4 : deleted p .init = 0 ∧ held p .init = 0 ∧ released p .init = 0 := ⟨rfl, rfl, rfl⟩
  have h2 := held_drop p w i u hi
  rw [hu, ind_self] at h2
  refine ⟨by omega, by omega, ?_⟩
  intro j v hj hv
  by_cases hij : j = i
  · exact hij
  · have h5 : some v ∈ w.vars.set i none := by
      apply List.mem_of_getElem? (i := j)
      rw [List.getElem?_set_ne (Ne.symm hij)]
      exact hj
    have h6 := le_tot (cnt p) _ _ h5
    have h7 : cnt p (some v) = 1 := by rw [cnt, hv, ind_self]
    unfold held at h1 h2 h4
    dsimp only at h2
    omega

example := C96_exclusive [.make 10, .moveCtor 0, .destroy 0] _ 10 1 _ rfl (by decide) rfl (by decide) (by decide)

/-- C96: a deleter without validity check is never called with the null pointer. -/
theorem C96_no_null (d : Int) (os : List Op) : ∀ w w', run ⟨false, d⟩ os w = pure w' → deleted 0 w = 0 → deleted 0 w' = 0 := by
  have hr (w w' : World) (i : Nat) (h : reset ⟨false, d⟩ w i = pure w') (h0 : deleted 0 w = 0) : deleted 0 w' = 0 := by
    unfold reset at h
    rw [bind_eq_pure] at h
    obtain ⟨u, e, h⟩ := h
    split at h
    · rename_i hc
      rw [pure_inj] at h
      subst h
      have h3 : deleted 0 { w with vars := w.vars.set i (some { u with ptr := d }), calls := w.calls ++ [(u.del, u.ptr)] }
          = deleted 0 w + ind u.ptr 0 := tot_snoc (fun x : Nat × Int => ind x.2 0) w.calls (u.del, u.ptr)
      rcases hc with hc | hc
      · cases hc
      · rw [ind_ne hc] at h3
        dsimp only
        omega
    · rw [pure_inj] at h
      rw [← h]; exact h0
  have hrel (w w' : World) (i : Nat) (q : Int) (h : release ⟨false, d⟩ w i = pure (w', q)) : w'.calls = w.calls := by
    unfold release at h
    rw [bind_eq_pure] at h
    obtain ⟨u, e, h⟩ := h
    rw [pure_inj] at h
    injection h with h
    rw [← h]
  have hst (w w' : World) (i : Nat) (q : Int) (h : store w i q = pure w') : w'.calls = w.calls := by
    unfold store at h
    rw [bind_eq_pure] at h
    obtain ⟨u, e, h⟩ := h
    rw [pure_inj] at h
    rw [← h]
  have cg {w w' : World} (h : w'.calls = w.calls) (h0 : deleted 0 w = 0) : deleted 0 w' = 0 := by
    unfold deleted at *
    rw [h]; exact h0
  have hs (w w' : World) (o : Op) (h : step ⟨false, d⟩ w o = pure w') (h0 : deleted 0 w = 0) : deleted 0 w' = 0 := by
    cases o with
    | makeEmpty => rw [step, pure_inj] at h; rw [← h]; exact h0
    | make q => rw [step, pure_inj] at h; rw [← h]; exact h0
    | moveCtor j =>
      rw [step, bind_eq_pure] at h
      obtain ⟨⟨w1, q⟩, e, h⟩ := h
      dsimp only at h
      rw [pure_inj] at h
      rw [← h]
      have := cg (hrel _ _ _ _ e) h0
      exact this
    | moveAssign i j =>
      rw [step] at h
      split at h
      · rw [bind_eq_pure] at h
        obtain ⟨_, _, h⟩ := h
        rw [pure_inj] at h
        rw [← h]; exact h0
      · rw [bind_eq_pure] at h
        obtain ⟨w1, e1, h⟩ := h
        rw [bind_eq_pure] at h
        obtain ⟨⟨w2, q⟩, e2, h⟩ := h
        exact cg (hst _ _ _ _ h) (cg (hrel _ _ _ _ e2) (hr _ _ _ e1 h0))
    | reset i => rw [step] at h; exact hr _ _ _ h h0
    | resetTo i q =>
      rw [step, bind_eq_pure] at h
      obtain ⟨w1, e1, h⟩ := h
      exact cg (hst _ _ _ _ h) (hr _ _ _ e1 h0)
    | release i =>
      rw [step, bind_eq_pure] at h
      obtain ⟨⟨w1, q⟩, e, h⟩ := h
      dsimp only at h
      rw [pure_inj] at h
      rw [← h]
      have := cg (hrel _ _ _ _ e) h0
      exact this
    | swap i j =>
      rw [step, bind_eq_pure] at h
      obtain ⟨u, eu, h⟩ := h
      rw [bind_eq_pure] at h
      obtain ⟨v, ev, h⟩ := h
      rw [bind_eq_pure] at h
      obtain ⟨w1, e1, h⟩ := h
      exact cg (hst _ _ _ _ h) (cg (hst _ _ _ _ e1) h0)
    | setDeleter i d =>
      rw [step, bind_eq_pure] at h
      obtain ⟨u, e, h⟩ := h
      rw [pure_inj] at h
      rw [← h]; exact h0
    | destroy i =>
      rw [step, bind_eq_pure] at h
      obtain ⟨w1, e1, h⟩ := h
      rw [pure_inj] at h
      rw [← h]
      have := hr _ _ _ e1 h0
      exact this
  induction os with
  | nil => intro w w' h h0; rw [run, pure_inj] at h; rw [← h]; exact h0
  | cons o os ih =>
    intro w w' h h0
    rw [run, bind_eq_pure] at h
    obtain ⟨w1, e, h⟩ := h
    exact ih w1 w' h (hs _ _ _ e h0)

/-- Two objects; the first is moved along, the second released: one deletion of each kind. -/
example : run plain [.make 10, .make 20, .moveCtor 0, .moveAssign 1 2, .destroy 0, .destroy 1, .destroy 2] .init =
    pure ⟨[none, none, none], [(0, 20), (0, 0), (0, 10), (0, 0)], []⟩ := by decide +kernel

/-- C96 does not extend to handles with another empty value: for a file descriptor deleter with `default_pointer_value = -1`
and no validity check, the descriptor zero is never closed, and an empty `unique_ptr` closes minus one. -/
theorem C96_sentinel_violated :
    run ⟨false, -1⟩ [.make 0, .destroy 0] .init = pure ⟨[none], [], []⟩ ∧
    run ⟨false, -1⟩ [.makeEmpty, .destroy 0] .init = pure ⟨[none], [(0, -1)], []⟩ := by decide +kernel

/-- C96, the deleter: moving a `unique_ptr` does not take the deleter along; the object is deleted by a default constructed
one. -/
theorem C96_deleter_violated (p : Int) (d : Nat) (hd : d ≠ 0) :
    ∃ w, run plain [.make p, .setDeleter 0 d, .moveCtor 0, .destroy 1] .init = pure w ∧ (d, p) ∉ w.calls ∧ (0, p) ∈ w.calls := by
  refine ⟨_, rfl, ?_, ?_⟩
  · simp [World.init]
    omega
  · simp [World.init]

example := C96_deleter_violated 10 3 (by decide)

/-- Comparison of pointers: `operator<`, daw_unique_ptr.h 454-458. -/
def lt (a b : Int) : Bool := decide (a < b)
/-- daw_unique_ptr.h 460-464. -/
def le (a b : Int) : Bool := not (lt a b)
/-- daw_unique_ptr.h 466-470. -/
def gt (a b : Int) : Bool := lt b a
/-- daw_unique_ptr.h 472-476. -/
def ge (a b : Int) : Bool := not (lt a b)

/-- C97: `<`, `>` and `>=` compare the stored pointers. -/
theorem C97_compare_partial (a b : Int) : (lt a b = true ↔ a < b) ∧ (gt a b = true ↔ a > b) ∧ (ge a b = true ↔ a ≥ b) := by
  unfold lt gt ge lt
  simp

/-- C97: `<=` is the negation of `<`, so it answers wrongly for every two different pointers. -/
theorem C97_le_violated (a b : Int) (h : a ≠ b) : ¬(le a b = true ↔ a ≤ b) := by
  unfold le lt
  simp
  omega

example : le 1 2 = false := by decide

end Verif.Own.UniquePtr
