import Verif.Base
import Verif.Containers.Lists

/-
`daw::function_ref`, include/daw/daw_function_ref.h.
-/

namespace Verif.Util.FunctionRef
open Cxx

/-- An object with a call operator: its class and its state. (Rule of C++ or its library, no line of the source.) -/
structure Obj where
  cls : Nat
  state : Nat
  deriving DecidableEq

/-- The union `data_t`, daw_function_ref.h 41-50, with the member that is active; the pointer to a function may be null. -/
inductive Data where
  | obj (addr : Nat)
  | fn (f : Option Nat)
  deriving DecidableEq

/-- The values of `m_thunk`, daw_function_ref.h 53, 120: null, `fp_thunk`, and `obj_thunk` of a class. -/
inductive Thunk where
  | null
  | fp
  | obj (cls : Nat)
  deriving DecidableEq

/-- `function_ref`, daw_function_ref.h 52-53, 119-120. -/
structure Ref where
  data : Data
  thunk : Thunk
  deriving DecidableEq

/-- The objects by address, those that have ended are `none`; and the reference. (Rule of C++ or its library, no line of the source.) -/
structure World where
  heap : List (Option Obj)
  ref : Ref
  deriving DecidableEq

/-- What the functions and the call operators of the classes do. (Rule of C++ or its library, no line of the source.) -/
structure Code where
  fn : Nat → Nat → Nat
  obj : Nat → Nat → Nat → Nat

/-- A living object. (Rule of C++ or its library, no line of the source.) -/
def alive (heap : List (Option Obj)) (a : Nat) : Cxx Obj :=
  match heap[a]? with
  | some (some o) => pure o
  | _ => ub

/-- The constructor from an object, daw_function_ref.h 67-73, 133-139, and the assignment, 75-83, 141-149. -/
def ofObj (heap : List (Option Obj)) (a : Nat) : Cxx Ref := do
  let o ← alive heap a
  pure ⟨.obj a, .obj o.cls⟩

/-- The constructor from a pointer to a function, daw_function_ref.h 85-89, and the assignment, 91-96; those of the specialization for `void`,
151-162, set another thunk. -/
def ofFn (isVoid : Bool) (f : Option Nat) : Cxx Ref :=
  if f = none then abort else pure ⟨.fn f, if isVoid then .fp else .null⟩

/-- A call of a pointer to a function, which has to be the active member and not null. (Rule of C++ or its library, no line of the source.) -/
def callFn (c : Code) (d : Data) (x : Nat) : Cxx Nat :=
  match d with
  | .fn (some f) => pure (c.fn f x)
  | _ => ub

/-- `fp_thunk`, daw_function_ref.h 62-64, 129-131. -/
def fpThunk (c : Code) (d : Data) (x : Nat) : Cxx Nat := callFn c d x

/-- `obj_thunk`, daw_function_ref.h 55-60, 122-127. -/
def objThunk (c : Code) (heap : List (Option Obj)) (cls : Nat) (d : Data) (x : Nat) : Cxx Nat :=
  match d with
  | .obj a => do
    let o ← alive heap a
    if o.cls = cls then pure (c.obj cls o.state x) else ub
  | .fn _ => ub

/-- A call through `m_thunk`, which must not be null. (Rule of C++ or its library, no line of the source.) -/
def callThunk (c : Code) (w : World) (x : Nat) : Cxx Nat :=
  match w.ref.thunk with
  | .null => ub
  | .fp => fpThunk c w.ref.data x
  | .obj cls => objThunk c w.heap cls w.ref.data x

/-- `operator( )`, daw_function_ref.h 98-103, and for `void`, 164-166; what a function for `void` does is its value here. -/
def call (c : Code) (isVoid : Bool) (w : World) (x : Nat) : Cxx Nat :=
  if isVoid then callThunk c w x
  else if w.ref.thunk = .null then callFn c w.ref.data x
  else callThunk c w x

/-- What a program does with a reference and with objects. (Specification, no line of the source.) -/
inductive Op where
  | bindObj (a : Nat)
  | bindFn (f : Option Nat)
  | create (o : Obj)
  | destroy (a : Nat)
  | change (a : Nat) (state : Nat)
  deriving DecidableEq

/-- One such step: a binding is an assignment. (Specification, no line of the source.) -/
def step (isVoid : Bool) (w : World) : Op → Cxx World
  | .bindObj a => do
    let r ← ofObj w.heap a
    pure { w with ref := r }
  | .bindFn f => do
    let r ← ofFn isVoid f
    pure { w with ref := r }
  | .create o => pure { w with heap := w.heap ++ [some o] }
  | .destroy a => do
    let _ ← alive w.heap a
    pure { w with heap := w.heap.set a none }
  | .change a s => do
    let o ← alive w.heap a
    pure { w with heap := w.heap.set a (some { o with state := s }) }

/-- A program. (Specification, no line of the source.) -/
def run (isVoid : Bool) (w : World) : List Op → Cxx World
  | [] => pure w
  | o :: os => do
    let w ← step isVoid w o
    run isVoid w os

/-- The target that a program bound last. (Specification, no line of the source.) -/
def target (t : Data) : List Op → Data
  | [] => t
  | .bindObj a :: os => target (.obj a) os
  | .bindFn f :: os => target (.fn f) os
  | _ :: os => target t os

/-- What a direct call of the target gives at the moment. (Specification, no line of the source.) -/
def direct (c : Code) (heap : List (Option Obj)) (x : Nat) : Data → Cxx Nat
  | .fn (some f) => pure (c.fn f x)
  | .fn none => ub
  | .obj a =>
    match heap[a]? with
    | some (some o) => pure (c.obj o.cls o.state x)
    | _ => ub

/-- The thunk fits the union, and the class the object, as long as it lives. (Specification, no line of the source.) -/
def Fits (isVoid : Bool) (w : World) : Prop :=
  match w.ref.data with
  | .fn _ => w.ref.thunk = if isVoid then .fp else .null
  | .obj a => ∃ cls, w.ref.thunk = .obj cls ∧ a < w.heap.length ∧ ∀ o, w.heap[a]? = some (some o) → o.cls = cls

theorem alive_pure {heap : List (Option Obj)} {a : Nat} {o : Obj} (h : alive heap a = pure o) : heap[a]? = some (some o) := by
  unfold alive at h
  split at h
  · rename_i o' ho
    rw [ho, pure_inj.mp h]
  · exact absurd h (ub_ne_pure _)

theorem step_fits {isVoid : Bool} {w w' : World} {op : Op} (hw : Fits isVoid w) (h : step isVoid w op = pure w') :
    Fits isVoid w' ∧ w'.ref.data = target w.ref.data [op] := by
  cases op with
  | bindObj a =>
    simp only [step, ofObj] at h
    obtain ⟨r, hr, h2⟩ := bind_eq_pure.mp h
    obtain ⟨o, ho, h3⟩ := bind_eq_pure.mp hr
    have he := alive_pure ho
    rw [← pure_inj.mp h2, ← pure_inj.mp h3]
    refine ⟨?_, rfl⟩
    refine ⟨o.cls, rfl, (List.getElem?_eq_some_iff.mp he).1, fun o' ho' => ?_⟩
    dsimp only at ho'
    rw [he] at ho'
    cases ho'
    rfl
  | bindFn f =>
    simp only [step, ofFn] at h
    obtain ⟨r, hr, h2⟩ := bind_eq_pure.mp h
    split at hr
    · exact absurd hr (abort_ne_pure _)
    · rw [← pure_inj.mp h2, ← pure_inj.mp hr]
      exact ⟨rfl, rfl⟩
  | create o =>
    rw [← pure_inj.mp h]
    refine ⟨?_, rfl⟩
    unfold Fits at hw ⊢
    dsimp only
    split at hw
    · exact hw
    · obtain ⟨cls, h1, h2, h3⟩ := hw
      refine ⟨cls, h1, by simp; omega, fun o' ho' => h3 o' ?_⟩
      rwa [List.getElem?_append_left h2] at ho'
  | destroy a =>
    simp only [step] at h
    obtain ⟨o, ho, h2⟩ := bind_eq_pure.mp h
    rw [← pure_inj.mp h2]
    refine ⟨?_, rfl⟩
    unfold Fits at hw ⊢
    dsimp only
    split at hw
    · exact hw
    · rename_i b _
      obtain ⟨cls, h1, h2, h3⟩ := hw
      refine ⟨cls, h1, by simpa using h2, fun o' ho' => ?_⟩
      by_cases hab : a = b
      · subst hab
        rw [List.getElem?_set_self h2] at ho'
        cases ho'
      · rw [List.getElem?_set_ne hab] at ho'
        exact h3 o' ho'
  | change a s =>
    simp only [step] at h
    obtain ⟨o, ho, h2⟩ := bind_eq_pure.mp h
    rw [← pure_inj.mp h2]
    refine ⟨?_, rfl⟩
    unfold Fits at hw ⊢
    dsimp only
    split at hw
    · exact hw
    · rename_i b _
      obtain ⟨cls, h1, h2, h3⟩ := hw
      refine ⟨cls, h1, by simpa using h2, fun o' ho' => ?_⟩
      by_cases hab : a = b
      · subst hab
        rw [List.getElem?_set_self h2] at ho'
        cases ho'
        exact h3 o (alive_pure ho)
      · rw [List.getElem?_set_ne hab] at ho'
        exact h3 o' ho'

theorem target_append (t : Data) (o : Op) (os : List Op) : target t (o :: os) = target (target t [o]) os := by
  cases o <;> rfl

theorem run_fits {isVoid : Bool} {w w' : World} {ops : List Op} (hw : Fits isVoid w) (h : run isVoid w ops = pure w') :
    Fits isVoid w' ∧ w'.ref.data = target w.ref.data ops := by
  induction ops generalizing w with
  | nil =>
    rw [← pure_inj.mp h]
    exact ⟨hw, rfl⟩
  | cons o os ih =>
    obtain ⟨v, hv, h2⟩ := bind_eq_pure.mp h
    obtain ⟨f1, f2⟩ := step_fits hw hv
    obtain ⟨g1, g2⟩ := ih f1 h2
    exact ⟨g1, by rw [g2, f2]; exact (target_append _ _ _).symm⟩

/-- A call through the reference is a call of what was bound last, with the state that it has now; it is undefined if that has ended. -/
theorem C277_function_ref (c : Code) (isVoid : Bool) (heap : List (Option Obj)) (f : Nat) (r : Ref) (hr : ofFn isVoid (some f) = pure r)
    (ops : List Op) (w : World) (h : run isVoid ⟨heap, r⟩ ops = pure w) (x : Nat) :
    call c isVoid w x = direct c w.heap x (target (.fn (some f)) ops) := by
  have hre := pure_inj.mp hr
  subst hre
  obtain ⟨hf, ht⟩ := run_fits (w := ⟨heap, _⟩) (by unfold Fits; rfl) h
  dsimp only at ht
  rw [← ht]
  unfold Fits at hf
  unfold call direct
  cases hd : w.ref.data with
  | fn g =>
    rw [hd] at hf
    dsimp only at hf
    cases isVoid <;> cases g <;> simp [hf, hd, callThunk, fpThunk, callFn]
  | obj a =>
    rw [hd] at hf
    obtain ⟨cls, h1, h2, h3⟩ := hf
    have hcall : (if isVoid = true then callThunk c w x else if w.ref.thunk = .null then callFn c (.obj a) x else callThunk c w x) =
        objThunk c w.heap cls (.obj a) x := by
      cases isVoid <;> simp [h1, hd, callThunk]
    rw [hcall]
    dsimp only [objThunk, alive]
    cases ho : w.heap[a]? with
    | none => rfl
    | some o' =>
      cases o' with
      | none => rfl
      | some o =>
        have := h3 o ho
        subst this
        show (if o.cls = o.cls then pure (c.obj o.cls o.state x) else ub) = _
        rw [if_pos rfl]

example : run true ⟨[], ⟨.fn (some 0), .fp⟩⟩ [.create ⟨3, 5⟩, .bindFn (some 2), .bindObj 0, .change 0 7] =
    pure ⟨[some ⟨3, 7⟩], ⟨.obj 0, .obj 3⟩⟩ := by decide +kernel

/-- A reference to a temporary object: the constructor takes it, and the call is undefined. -/
theorem C277_temporary_finding (c : Code) (isVoid : Bool) (r : Ref) (o : Obj) (x : Nat) :
    ∃ w, run isVoid ⟨[], r⟩ [.create o, .bindObj 0, .destroy 0] = pure w ∧ call c isVoid w x = ub :=
  ⟨⟨[none], ⟨.obj 0, .obj o.cls⟩⟩, rfl, by cases isVoid <;> rfl⟩

end Verif.Util.FunctionRef
