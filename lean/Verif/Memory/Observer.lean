import Verif.Base
import Verif.Containers.Lists

/-
Pointers that own nothing, include/daw/daw_observer_ptr.h, and functions of pointers, include/daw/daw_monadic_pointer_ops.h.
-/

namespace Verif.Memory.Observer
open Verif Verif.Cxx

/-- A pointer: null or an address. (Rule of C++ or its library, no line of the source.) -/
abbrev Ptr := Option Nat

/-- `observer_ptr`, daw_observer_ptr.h 22-28. -/
structure ObserverPtr where
  ptr : Ptr := none
  deriving DecidableEq

/-- `operator=`, daw_observer_ptr.h 42-45. -/
def ObserverPtr.assign (_ : ObserverPtr) (p : Ptr) : ObserverPtr := ⟨p⟩

/-- `release`, daw_observer_ptr.h 47-51. -/
def ObserverPtr.release (o : ObserverPtr) : ObserverPtr × Ptr :=
  let tmp := o.ptr
  (⟨none⟩, tmp)

/-- `reset`, daw_observer_ptr.h 53-55. -/
def ObserverPtr.reset (_ : ObserverPtr) (p : Ptr := none) : ObserverPtr := ⟨p⟩

/-- `get`, daw_observer_ptr.h 57-59. -/
def ObserverPtr.get (o : ObserverPtr) : Ptr := o.ptr

/-- A write through `get_out`, daw_observer_ptr.h 61-63. -/
def ObserverPtr.out (_ : ObserverPtr) (p : Ptr) : ObserverPtr := ⟨p⟩

/-- `operator bool`, daw_observer_ptr.h 65-67. -/
def ObserverPtr.toBool (o : ObserverPtr) : Bool := o.ptr.isSome

/-- `operator*` and `value`, daw_observer_ptr.h 69-77: the element read; an address where there is no element any more is undefined. -/
def ObserverPtr.value {T : Type} (mem : List (Option T)) (o : ObserverPtr) : Cxx T :=
  match o.ptr with
  | none => Cxx.abort
  | some a => do
    let cell ← rd mem a
    match cell with
    | some x => pure x
    | none => ub

/-- `std::strong_ordering`. (Rule of C++ or its library, no line of the source.) -/
abbrev Strong := Ordering

/-- `std::less` of two pointers: a total order, here null first and then by the address. (Rule of C++ or its library, no line of the source.) -/
def stdLess : Ptr → Ptr → Bool
  | none, none => false
  | none, some _ => true
  | some _, none => false
  | some a, some b => decide (a < b)

/-- `operator<=>` with a pointer, daw_observer_ptr.h 97-106. -/
def ObserverPtr.cmp (o : ObserverPtr) (other : Ptr) : Strong := if o.ptr = other then .eq else if stdLess o.ptr other then .lt else .gt

/-- `operator==` with a pointer, daw_observer_ptr.h 88-90. -/
def ObserverPtr.eqPtr (o : ObserverPtr) (other : Ptr) : Bool := o.ptr = other

/-- `operator!=` with a pointer, daw_observer_ptr.h 92-94. -/
def ObserverPtr.nePtr (o : ObserverPtr) (other : Ptr) : Bool := o.ptr ≠ other

/-- `and_then`, daw_monadic_pointer_ops.h 19-29, with the value-initialized result `dflt`. -/
def andThen {P R : Type} (toBool : P → Bool) (dflt : R) (p : P) (f : P → Cxx R) : Cxx R := if toBool p then f p else pure dflt

/-- `or_else`, daw_monadic_pointer_ops.h 31-38. -/
def orElse {P : Type} (toBool : P → Bool) (p : P) (f : Unit → Cxx P) : Cxx P := if !toBool p then f () else pure p

/-- `transform`, daw_monadic_pointer_ops.h 40-43. -/
def transform {P R : Type} (p : P) (f : P → Cxx R) : Cxx R := f p

/-- What a program does to an observer. (Specification, no line of the source.) -/
inductive Op where
  | assign (p : Ptr)
  | release
  | reset (p : Ptr)
  | resetNull
  | out (p : Ptr)

/-- A step of the program, with what it returns, daw_observer_ptr.h 42-63. -/
def step (o : ObserverPtr) : Op → ObserverPtr × List Ptr
  | .assign p => (o.assign p, [])
  | .release =>
    let (o', p) := o.release
    (o', [p])
  | .reset p => (o.reset p, [])
  | .resetNull => (o.reset, [])
  | .out p => (o.out p, [])

/-- A program and what its releases return, daw_observer_ptr.h 42-63. -/
def runOps : ObserverPtr → List Op → ObserverPtr × List Ptr
  | o, [] => (o, [])
  | o, op :: ops =>
    let (o', r) := step o op
    let (o'', rs) := runOps o' ops
    (o'', r ++ rs)

/-- What the operation stores. (Specification, no line of the source.) -/
def Op.stores : Op → Ptr
  | .assign p => p
  | .release => none
  | .reset p => p
  | .resetNull => none
  | .out p => p

/-! ## Proofs -/

/-- **C321.**  After any program an observer has what the last operation stored, and each release returns what the operation before it stored. -/
theorem C321_program (ops : List Op) (op : Op) (p : Ptr) :
    (runOps ⟨p⟩ (ops ++ [op])).1.get = op.stores ∧ (runOps ⟨p⟩ (ops ++ [op, .release])).2 = (runOps ⟨p⟩ (ops ++ [op])).2 ++ [op.stores] := by
  have h2 : ∀ (o : ObserverPtr), (step o op).1 = ⟨op.stores⟩ := by
    intro o
    cases op <;> rfl
  have happ : ∀ (xs ys : List Op) (o : ObserverPtr), runOps o (xs ++ ys) = ((runOps (runOps o xs).1 ys).1, (runOps o xs).2 ++ (runOps (runOps o xs).1 ys).2) := by
    intro xs ys
    induction xs with
    | nil => intro o; simp [runOps]
    | cons x xs ih => intro o; simp [runOps, ih]
  constructor
  · rw [happ]
    simp [runOps, h2, ObserverPtr.get]
  · rw [happ ops [op, .release], happ ops [op]]
    have h3 : ∀ (o : ObserverPtr), step o .release = (⟨none⟩, [o.ptr]) := fun _ => rfl
    simp [runOps, h2, h3]

example : (runOps ⟨none⟩ [.assign (some 3), .release, .reset (some 4), .release]).2 = [some 3, some 4] := rfl

/-- **C321.**  Reading through an observer reads what the pointer points to; with a null pointer the program ends, it is never undefined; the bool tells which. -/
theorem C321_value {T : Type} (mem : List (Option T)) (o : ObserverPtr) :
    (o.toBool = false → o.value mem = Cxx.abort) ∧ (∀ (a : Nat) (x : T), o.get = some a → mem[a]? = some (some x) → o.toBool = true ∧ o.value mem = pure x) := by
  constructor
  · intro h
    obtain ⟨p⟩ := o
    cases p with
    | none => rfl
    | some a => simp [ObserverPtr.toBool] at h
  · intro a x h1 h2
    obtain ⟨p⟩ := o
    simp only [ObserverPtr.get] at h1
    subst h1
    refine ⟨rfl, ?_⟩
    simp [ObserverPtr.value, rd_some h2]

example : (ObserverPtr.mk (some 1)).value [some 'a', some 'b'] = pure 'b' := rfl

theorem stdLess_trans (a b c : Ptr) (h1 : stdLess a b = true) (h2 : stdLess b c = true) : stdLess a c = true := by
  cases a <;> cases b <;> cases c <;> simp [stdLess] at *
  omega

theorem stdLess_tri (a b : Ptr) : stdLess a b = true ∨ a = b ∨ stdLess b a = true := by
  cases a <;> cases b <;> simp [stdLess]
  omega

theorem stdLess_irrefl (a : Ptr) : stdLess a a = false := by
  cases a <;> simp [stdLess]

/-- **C321.**  The comparison with a pointer is equal exactly if `==` is true and `!=` false, the comparison of the other way round is the opposite, and less is transitive: it is a total order. -/
theorem C321_order (a b c : Ptr) :
    ((ObserverPtr.mk a).cmp b = .eq ↔ a = b) ∧ ((ObserverPtr.mk a).eqPtr b = true ↔ a = b) ∧ ((ObserverPtr.mk a).nePtr b = !(ObserverPtr.mk a).eqPtr b) ∧
    (ObserverPtr.mk b).cmp a = ((ObserverPtr.mk a).cmp b).swap ∧
    ((ObserverPtr.mk a).cmp b = .lt → (ObserverPtr.mk b).cmp c = .lt → (ObserverPtr.mk a).cmp c = .lt) := by
  have key : ∀ (x y : Ptr), (ObserverPtr.mk x).cmp y = .lt ↔ stdLess x y = true := by
    intro x y
    unfold ObserverPtr.cmp
    by_cases h : x = y
    · subst h
      simp [stdLess_irrefl]
    · simp [h]
  refine ⟨?_, by simp [ObserverPtr.eqPtr], by simp [ObserverPtr.nePtr, ObserverPtr.eqPtr], ?_, ?_⟩
  · unfold ObserverPtr.cmp
    by_cases h : a = b
    · simp [h]
    · simp only [h, if_false, iff_false]
      split <;> simp
  · unfold ObserverPtr.cmp
    by_cases h : a = b
    · subst h
      simp
    · have h' : ¬b = a := fun e => h e.symm
      simp only [h, h', if_false]
      rcases stdLess_tri a b with h1 | h1 | h1
      · have h2 : stdLess b a = false := by
          cases h3 : stdLess b a
          · rfl
          · have := stdLess_trans a b a h1 h3
            rw [stdLess_irrefl] at this
            cases this
        rw [if_pos h1, h2]
        rfl
      · exact absurd h1 h
      · have h2 : stdLess a b = false := by
          cases h3 : stdLess a b
          · rfl
          · have := stdLess_trans a b a h3 h1
            rw [stdLess_irrefl] at this
            cases this
        rw [if_pos h1, h2]
        rfl
  · rw [key, key, key]
    exact stdLess_trans a b c

/-- **C321.**  `and_then` calls its function exactly for pointers that are not null, `or_else` exactly for null; chains of `and_then` do not depend on how they are grouped and
`or_else` of something that is not null never calls. -/
theorem C321_monad {R : Type} (p : Ptr) (dflt : R) (f : Ptr → Cxx Ptr) (g : Ptr → Cxx R) (e : Unit → Cxx Ptr) :
    (p = none → andThen Option.isSome dflt p g = pure dflt ∧ orElse Option.isSome p e = e ()) ∧
    (p ≠ none → andThen Option.isSome dflt p g = g p ∧ orElse Option.isSome p e = pure p) ∧
    (andThen Option.isSome none p f >>= fun q => andThen Option.isSome dflt q g) = andThen Option.isSome dflt p fun x => f x >>= fun q => andThen Option.isSome dflt q g := by
  refine ⟨?_, ?_, ?_⟩
  · rintro rfl
    exact ⟨rfl, rfl⟩
  · intro h
    obtain ⟨a, rfl⟩ := Option.ne_none_iff_exists'.1 h
    exact ⟨rfl, rfl⟩
  · cases p <;> simp [andThen]

/-- **C321.**  `transform` is the function applied to a pointer that is not null.  Missing: null. -/
theorem C321_transform_partial {R : Type} (a : Nat) (dflt : R) (f : Ptr → Cxx R) : transform (some a) f = andThen Option.isSome dflt (some a) f := rfl

/-- **C321** (finding).  `transform` calls its function with null, so one that reads ends the program where `and_then` gives the default. -/
theorem C321_transform_violated {T : Type} (mem : List (Option T)) (dflt : T) :
    transform (ObserverPtr.mk none) (fun o => o.value mem) = Cxx.abort ∧ andThen ObserverPtr.toBool dflt (ObserverPtr.mk none) (fun o => o.value mem) = pure dflt := ⟨rfl, rfl⟩

end Verif.Memory.Observer
