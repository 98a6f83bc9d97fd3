import Verif.Own.Optional

/-
`expected_t<void>`, include/daw/daw_expected.h 254-402: whether a function came back or threw.
-/

namespace Verif.Own.ExpectedVoid
open Cxx

/-- What is thrown: an object derived from `std::exception` with its message, or another; with its identity.
(Rule of C++ or its library, no line of the source.) -/
structure Thrown where
  ident : Nat
  what : Option String
  deriving DecidableEq

/-- The variant of `expected_t<void>`, daw_expected.h 261-264: empty, an exception (`none` is a null `exception_ptr`), a value. -/
inductive ExpV where
  | empty
  | exc (e : Option Thrown)
  | val
  deriving DecidableEq

/-- What a function does. (Rule of C++ or its library, no line of the source.) -/
inductive Out where
  | ret
  | raise (e : Thrown)
  deriving DecidableEq

/-- What the caller sees. (Rule of C++ or its library, no line of the source.) -/
inductive Seen where
  | got
  | rethrown (e : Thrown)
  | terminated
  | undefined
  deriving DecidableEq

/-- `variant_from_code`, daw_expected.h 319-331, and with it `from_code`, 342-347, and the constructor from a function, 336-337. -/
def fromCode : Out → ExpV
  | .ret => .val
  | .raise e => .exc (some e)

/-- `has_value`, daw_expected.h 357-359. -/
def hasValue : ExpV → Bool
  | .val => true
  | _ => false

/-- `has_exception`, daw_expected.h 361-363. -/
def hasException : ExpV → Bool
  | .exc _ => true
  | _ => false

/-- `empty`, daw_expected.h 369-372. -/
def isEmpty : ExpV → Bool
  | .empty => true
  | _ => false

/-- `operator bool`, daw_expected.h 374-376. -/
def toBool (x : ExpV) : Bool := !isEmpty x

/-- `throw_if_exception`, daw_expected.h 378-383: rethrowing a null `exception_ptr` is undefined. -/
def throwIf : ExpV → Option Seen
  | .exc none => some .undefined
  | .exc (some e) => some (.rethrown e)
  | _ => none

/-- `get`, daw_expected.h 385-390. -/
def get (x : ExpV) : Seen :=
  if isEmpty x then .terminated else (throwIf x).getD .got

/-- `get_exception_message`, daw_expected.h 392-401: undefined for a null `exception_ptr`. -/
def message (x : ExpV) : Option String :=
  match throwIf x with
  | some (.rethrown e) => some (e.what.getD "")
  | some _ => none
  | none => some ""

/-- `get_exception_ptr`, daw_expected.h 365-367: undefined if there is none. -/
def exceptionPtr : ExpV → Cxx (Option Thrown)
  | .exc e => pure e
  | _ => ub

/-- What a program does with an `expected_t<void>`; lines of daw_expected.h. -/
inductive Op where
  /-- `set_value( )` and `set_value( x )`, 283-290 -/
  | setValue
  /-- `operator=( bool )`, 293-296: also reached by a number, a pointer, and a lambda without capture, by way of a pointer to
  function -/
  | assignBool (b : Bool)
  /-- `e = f` for a lambda `f` without capture; `f` does this when called -/
  | assignFunction (f : Out)
  /-- `clear`, 298-300 -/
  | clear
  /-- `set_exception( ptr )`, 349-351, and `operator=( ptr )`, 305-308 -/
  | setException (e : Option Thrown)
  /-- `set_exception( )`, 353-355; `cur` is the exception being handled, if any -/
  | setCurrent (cur : Option Thrown)
  /-- assignment of `from_code( f )` -/
  | assignCode (f : Out)

/-- One operation. (Members of `expected_t<void>`, daw_expected.h 254-402.) -/
def step (_ : ExpV) : Op → ExpV
  | .setValue => .val
  | .assignBool _ => .val
  | .assignFunction _ => .val
  | .clear => .empty
  | .setException e => .exc e
  | .setCurrent e => .exc e
  | .assignCode f => fromCode f

/-- A program on one object. (Members of `expected_t<void>`, daw_expected.h 254-402.) -/
def run (x : ExpV) (os : List Op) : ExpV := os.foldl step x

/-- The operation stores no null exception. (Specification, no line of the source.) -/
def Op.good : Op → Bool
  | .setException none => false
  | .setCurrent none => false
  | _ => true

theorem run_ne_null : ∀ (os : List Op) (x : ExpV), (∀ o ∈ os, o.good = true) → x ≠ .exc none → run x os ≠ .exc none := by
  intro os
  induction os with
  | nil => intro x _ h; exact h
  | cons o os ih =>
    intro x h _
    refine ih (step x o) (fun o ho => h o (List.mem_cons_of_mem _ ho)) ?_
    have := h o List.mem_cons_self
    cases o with
    | setException e => cases e <;> simp_all [step, Op.good]
    | setCurrent e => cases e <;> simp_all [step, Op.good]
    | assignCode f => cases f <;> simp [step, fromCode]
    | setValue => simp [step]
    | assignBool b => simp [step]
    | assignFunction f => simp [step]
    | clear => simp [step]

/-- C348: `get` of the result of `from_code( f )` does what the call of `f` does, and the message is that of the exception. -/
theorem C348_from_code (f : Out) : get (fromCode f) = (match f with | .ret => .got | .raise e => .rethrown e) ∧
    (∀ e m, f = .raise e → e.what = some m → message (fromCode f) = some m) := by
  refine ⟨by cases f <;> rfl, fun e m h1 h2 => ?_⟩
  subst h1
  simp [message, throwIf, fromCode, h2]

/-- C348, as far as it holds: after every program that stores no null exception exactly one of `empty`, `has_value` and
`has_exception` holds; `get` comes back exactly if there is a value, throws the exception stored exactly if there is one, and
terminates the program exactly if the object is empty.  Missing: null exceptions, see `C348_null_exception_violated`. -/
theorem C348_states_partial (os : List Op) (h : ∀ o ∈ os, o.good = true) :
    let x := run .empty os
    (isEmpty x = true ↔ get x = .terminated) ∧ (hasValue x = true ↔ get x = .got) ∧
    (hasException x = true ↔ ∃ e, get x = .rethrown e ∧ exceptionPtr x = pure (some e)) ∧ get x ≠ .undefined ∧ (message x).isSome = true ∧
    (isEmpty x).toNat + (hasValue x).toNat + (hasException x).toNat = 1 := by
  have h0 := run_ne_null os .empty h (by decide)
  generalize run .empty os = x at h0
  cases x with
  | empty => simp [get, isEmpty, hasValue, hasException, message, throwIf]
  | val => simp [get, isEmpty, hasValue, hasException, message, throwIf]
  | exc e =>
    cases e with
    | none => exact absurd rfl h0
    | some e => simp [get, isEmpty, hasValue, hasException, throwIf, message, exceptionPtr]

example : ∀ o ∈ [Op.setValue, .assignCode (.raise ⟨3, some "no"⟩), .setCurrent (some ⟨4, none⟩)], o.good = true := by decide

/-- C348: the last operation alone decides. -/
theorem C348_last (os : List Op) (o : Op) (x y : ExpV) : run x (os ++ [o]) = run y [o] := by
  unfold run
  rw [List.foldl_append]
  cases o <;> rfl

/-- C348: what `get` tells after each kind of operation, whatever was done before. -/
theorem C348_outcomes (os : List Op) (x : ExpV) (f : Out) (e : Thrown) :
    get (run x (os ++ [.setValue])) = .got ∧ get (run x (os ++ [.clear])) = .terminated ∧
    get (run x (os ++ [.setException (some e)])) = .rethrown e ∧ get (run x (os ++ [.setCurrent (some e)])) = .rethrown e ∧
    get (run x (os ++ [.setException none])) = .undefined ∧
    get (run x (os ++ [.assignCode f])) = (match f with | .ret => .got | .raise e => .rethrown e) := by
  rw [C348_last os .setValue x .empty, C348_last os .clear x .empty, C348_last os (.setException (some e)) x .empty,
    C348_last os (.setCurrent (some e)) x .empty, C348_last os (.setException none) x .empty, C348_last os (.assignCode f) x .empty]
  refine ⟨rfl, rfl, rfl, rfl, rfl, ?_⟩
  cases f <;> rfl

example : get (run .val ([.clear, .setException none] ++ [.setValue])) = .got := by decide

/-- C348 does not hold after `set_exception( )` outside of a handler: there is an exception, and to get it or its message is
undefined. -/
theorem C348_null_exception_violated (os : List Op) (x : ExpV) :
    hasException (run x (os ++ [.setCurrent none])) = true ∧ get (run x (os ++ [.setCurrent none])) = .undefined ∧
    message (run x (os ++ [.setCurrent none])) = none := by
  rw [C348_last os _ x .empty]
  exact ⟨rfl, rfl, rfl⟩

/-- C348 does not hold for assignments: `e = false` is a success, and so is `e = f` for a function that throws whenever it is
called, since it is not called. -/
theorem C348_assign_violated (os : List Op) (x : ExpV) (e : Thrown) :
    get (run x (os ++ [.assignBool false])) = .got ∧ get (run x (os ++ [.assignFunction (.raise e)])) = .got ∧
    get (run x (os ++ [.assignCode (.raise e)])) = .rethrown e := by
  rw [C348_last os _ x .empty, C348_last os _ x .empty, C348_last os _ x .empty]
  exact ⟨rfl, rfl, rfl⟩

/-- C348, `operator bool` and the message as tests for an exception are wrong: the one is true for an exception, the other is empty
for one that is not derived from `std::exception`. -/
theorem C348_tests_finding (n : Nat) :
    toBool (fromCode (.raise ⟨n, none⟩)) = true ∧ hasValue (fromCode (.raise ⟨n, none⟩)) = false ∧
    message (fromCode (.raise ⟨n, none⟩)) = message (fromCode .ret) := ⟨rfl, rfl, rfl⟩

end Verif.Own.ExpectedVoid
