import Verif.Own.Base

/-
include/daw/daw_optional.h (comparisons) and include/daw/daw_expected.h.
-/

namespace Verif.Own.Optional
open Cxx

/-! ## The comparisons of optional -/

/-- The six comparison operators. (Operators of daw_optional.h 252-475.) -/
inductive Rel where
  | eq | ne | lt | le | gt | ge
  deriving DecidableEq

/-- The operator on the values. (Specification, no line of the source.) -/
def Rel.val : Rel → Int → Int → Bool
  | .eq, x, y => x == y
  | .ne, x, y => x != y
  | .lt, x, y => decide (x < y)
  | .le, x, y => decide (x ≤ y)
  | .gt, x, y => decide (x > y)
  | .ge, x, y => decide (x ≥ y)

/-- `optional ⋄ optional`, daw_optional.h 252-316. -/
def optOpt : Rel → Option Int → Option Int → Bool
  | .eq, a, b => if a.isSome != b.isSome then false else
    match a, b with
    | some x, some y => Rel.eq.val x y
    | _, _ => true
  | .ne, a, b => if a.isSome != b.isSome then true else
    match a, b with
    | some x, some y => Rel.ne.val x y
    | _, _ => false
  | .lt, a, b =>
    match b with
    | none => false
    | some y => match a with
      | none => true
      | some x => Rel.lt.val x y
  | .le, a, b =>
    match a with
    | none => true
    | some x => match b with
      | none => false
      | some y => Rel.le.val x y
  | .gt, a, b =>
    match a with
    | none => false
    | some x => match b with
      | none => true
      | some y => Rel.gt.val x y
  | .ge, a, b =>
    match b with
    | none => true
    | some y => match a with
      | none => false
      | some x => Rel.ge.val x y

/-- `optional ⋄ nullopt`, daw_optional.h 318-321, 328-331, 338-341, 348-351, 359-362, 370-374. -/
def optNull : Rel → Option Int → Bool
  | .eq, a => !a.isSome
  | .ne, a => a.isSome
  | .lt, _ => false
  | .le, a => !a.isSome
  | .gt, a => a.isSome
  | .ge, _ => true

/-- `nullopt ⋄ optional`, daw_optional.h 323-326, 333-336, 343-346, 353-357, 364-368, 376-379. -/
def nullOpt : Rel → Option Int → Bool
  | .eq, b => !b.isSome
  | .ne, b => b.isSome
  | .lt, b => b.isSome
  | .le, _ => true
  | .gt, _ => false
  | .ge, b => b.isSome

/-- `optional ⋄ value`, daw_optional.h 381-387, 397-403, 413-419, 429-435, 445-451, 461-467. -/
def optVal : Rel → Option Int → Int → Bool
  | r, some x, y => r.val x y
  | .eq, none, _ => false
  | .ne, none, _ => true
  | .lt, none, _ => true
  | .le, none, _ => true
  | .gt, none, _ => false
  | .ge, none, _ => false

/-- `value ⋄ optional`, daw_optional.h 389-395, 405-411, 421-427, 437-443, 453-459, 469-475. -/
def valOpt : Rel → Int → Option Int → Bool
  | .ge, x, some y => Rel.gt.val y x
  | r, x, some y => r.val x y
  | .eq, _, none => false
  | .ne, _, none => true
  | .lt, _, none => false
  | .le, _, none => false
  | .gt, _, none => true
  | .ge, _, none => true

/-- What the operators mean: the empty state is below all values. (Specification, no line of the source.) -/
def Rel.means : Rel → Option Int → Option Int → Prop
  | .eq, a, b => a = b
  | .ne, a, b => a ≠ b
  | .lt, a, b => ∃ y, b = some y ∧ ∀ x, a = some x → x < y
  | .le, a, b => ∀ x, a = some x → ∃ y, b = some y ∧ x ≤ y
  | .gt, a, b => ∃ x, a = some x ∧ ∀ y, b = some y → y < x
  | .ge, a, b => ∀ y, b = some y → ∃ x, a = some x ∧ y ≤ x

/-- The meanings fit together: a total order and its companions. -/
theorem means_order (a b : Option Int) : (Rel.le.means a b ↔ ¬ Rel.gt.means a b) ∧ (Rel.ge.means a b ↔ Rel.le.means b a) ∧
    (Rel.lt.means a b ↔ Rel.gt.means b a) ∧ (Rel.eq.means a b ↔ Rel.le.means a b ∧ Rel.ge.means a b) ∧
    (Rel.le.means a b ∨ Rel.le.means b a) := by
  cases a <;> cases b <;> simp [Rel.means] <;> omega

/-- C111: comparing two optionals. -/
theorem C111_opt_opt (r : Rel) (a b : Option Int) : optOpt r a b = true ↔ r.means a b := by
  cases r <;> cases a <;> cases b <;> simp [optOpt, Rel.val, Rel.means]

/-- C111: comparing an optional with `nullopt`. -/
theorem C111_opt_null (r : Rel) (a : Option Int) : optNull r a = true ↔ r.means a none := by
  cases r <;> cases a <;> simp [optNull, Rel.means]

/-- C111: comparing an optional with a value. -/
theorem C111_opt_val (r : Rel) (a : Option Int) (v : Int) : optVal r a v = true ↔ r.means a (some v) := by
  cases r <;> cases a <;> simp [optVal, Rel.val, Rel.means]

/-- C111, as far as it holds: comparing `nullopt` with an optional.  Missing: `>=`, see `C111_null_ge_violated`. -/
theorem C111_null_opt_partial (r : Rel) (hr : r ≠ .ge) (b : Option Int) : nullOpt r b = true ↔ r.means none b := by
  cases r <;> cases b <;> simp [nullOpt, Rel.means] at hr ⊢

example := C111_null_opt_partial .lt (by decide) (some 4)

/-- C111, as far as it holds: comparing a value with an optional.  Missing: `>=`, see `C111_val_ge_violated`. -/
theorem C111_val_opt_partial (r : Rel) (hr : r ≠ .ge) (v : Int) (b : Option Int) : valOpt r v b = true ↔ r.means (some v) b := by
  cases r <;> cases b <;> simp [valOpt, Rel.val, Rel.means] at hr ⊢

example := C111_val_opt_partial .lt (by decide) 3 (some 4)

/-- C111 does not hold for `nullopt >= optional`: the answer is the opposite for every optional. -/
theorem C111_null_ge_violated (b : Option Int) : nullOpt .ge b = true ↔ ¬ Rel.ge.means none b := by
  cases b <;> simp [nullOpt, Rel.means]

/-- C111 does not hold for `value >= optional` whenever the optional has a value: the answer is the opposite. -/
theorem C111_val_ge_violated (v x : Int) : valOpt .ge v (some x) = true ↔ ¬ Rel.ge.means (some v) (some x) := by
  simp [valOpt, Rel.val, Rel.means]

example : optOpt .lt none (some 3) = true ∧ valOpt .ge 4 (some 3) = false := by decide

/-! ## expected_t -/

/-- The variant of `expected_t<T>`, daw_expected.h 50-53: empty, an exception (`none` is a null `exception_ptr`), a value, or
valueless by exception. -/
inductive Exp where
  | empty
  | exc (e : Option Nat)
  | val (v : Int)
  | broken
  deriving DecidableEq

/-- What a function does: it returns a value or throws. (Members of `expected_t`, daw_expected.h 42-250.) -/
inductive Out where
  | ret (v : Int)
  | raise (e : Nat)
  deriving DecidableEq

/-- What a user of `get` sees: the value, the exception rethrown, the program terminated or undefined behaviour.
(Members of `expected_t`, daw_expected.h 42-250.) -/
inductive Seen where
  | got (v : Int)
  | rethrown (e : Nat)
  | terminated
  | undefined
  deriving DecidableEq

/-- `variant_from_code` and `from_code`, daw_expected.h 118-146, also the constructor from a function. -/
def fromCode : Out → Exp
  | .ret v => .val v
  | .raise e => .exc (some e)

/-- `expected_from_code<Result>( f )`, daw_expected.h 404-414: the static `from_code` is called on `result` and what it returns is
dropped. -/
def fromCodeAs (_ : Out) : Exp := .empty

/-- `has_value`, 156-158. -/
def hasValue : Exp → Bool
  | .val _ => true
  | _ => false

/-- `has_exception`, 160-162. -/
def hasException : Exp → Bool
  | .exc _ => true
  | _ => false

/-- `empty`, 168-171. -/
def isEmpty : Exp → Bool
  | .empty => true
  | _ => false

/-- `operator bool`, 173-175. -/
def toBool (x : Exp) : Bool := !isEmpty x

/-- `throw_if_exception`, 177-182: rethrowing a null `exception_ptr` is undefined. -/
def throwIf : Exp → Option Seen
  | .exc none => some .undefined
  | .exc (some e) => some (.rethrown e)
  | _ => none

/-- `get`, 206-220 by `get_ptr`, 185-203. -/
def get (x : Exp) : Seen :=
  if isEmpty x then .terminated else
  match throwIf x with
  | some s => s
  | none =>
    match x with
    | .val v => .got v
    | _ => .undefined

/-- What a program does with an `expected_t`; lines of daw_expected.h. -/
inductive XOp where
  /-- `set_value` and assignment of a value, 76-92 -/
  | setValue (v : Int)
  /-- the same with a value whose copy throws while the variant has dropped its old content -/
  | setThrowing
  /-- `set_exception( ptr )`, 148-150, and assignment, 97-100 -/
  | setException (e : Option Nat)
  /-- `set_exception( )`, 152-154; `cur` is the exception being handled, if any -/
  | setCurrent (cur : Option Nat)
  /-- `clear`, 102-104 -/
  | clear
  /-- assignment of `from_code( f )` -/
  | assignCode (f : Out)

/-- One operation. (Members of `expected_t`, daw_expected.h 42-250.) -/
def xstep (_ : Exp) : XOp → Exp
  | .setValue v => .val v
  | .setThrowing => .broken
  | .setException e => .exc e
  | .setCurrent e => .exc e
  | .clear => .empty
  | .assignCode f => fromCode f

/-- A program on one object. (Members of `expected_t`, daw_expected.h 42-250.) -/
def xrun (x : Exp) (os : List XOp) : Exp := os.foldl xstep x

/-- The operation stores no null exception and no value whose copy throws. (Specification, no line of the source.) -/
def XOp.good : XOp → Bool
  | .setThrowing => false
  | .setException none => false
  | .setCurrent none => false
  | _ => true

/-- C112: `get` on the result of `from_code( f )` behaves as the call of `f`: it returns the same value or throws the same
exception. -/
theorem C112_from_code (f : Out) : get (fromCode f) = match f with
    | .ret v => .got v
    | .raise e => .rethrown e := by
  cases f <;> rfl

/-- C112, as far as it holds: after any program that stores neither a null exception nor a value whose copy throws, exactly one of
`empty`, `has_value` and `has_exception` holds, `get` returns exactly if `has_value`, throws exactly if `has_exception`, terminates
exactly if `empty`, and is never undefined.  Missing: the two excluded cases, see `C112_null_exception_violated` and
`C112_valueless_violated`. -/
theorem C112_states_partial (os : List XOp) (h : ∀ o ∈ os, o.good = true) :
    let x := xrun .empty os
    (isEmpty x = true ↔ get x = .terminated) ∧ (hasValue x = true ↔ ∃ v, get x = .got v) ∧
    (hasException x = true ↔ ∃ e, get x = .rethrown e) ∧ get x ≠ .undefined ∧
    (isEmpty x).toNat + (hasValue x).toNat + (hasException x).toNat = 1 := by
  have key : ∀ (os : List XOp) (x : Exp), (∀ o ∈ os, o.good = true) → (x ≠ .broken ∧ x ≠ .exc none) →
      xrun x os ≠ .broken ∧ xrun x os ≠ .exc none := by
    intro os
    induction os with
    | nil => intro x _ hx; exact hx
    | cons o os ih =>
      intro x h hx
      refine ih (xstep x o) (fun o ho => h o (List.mem_cons_of_mem _ ho)) ?_
      have := h o List.mem_cons_self
      cases o with
      | setValue v => simp [xstep]
      | setThrowing => cases this
      | setException e =>
        cases e with
        | none => cases this
        | some e => simp [xstep]
      | setCurrent e =>
        cases e with
        | none => cases this
        | some e => simp [xstep]
      | clear => simp [xstep]
      | assignCode f => cases f <;> simp [xstep, fromCode]
  obtain ⟨h1, h2⟩ := key os .empty h ⟨by decide, by decide⟩
  generalize xrun .empty os = x at h1 h2
  cases x with
  | empty => simp [get, isEmpty, hasValue, hasException]
  | exc e =>
    cases e with
    | none => exact absurd rfl h2
    | some e => simp [get, isEmpty, hasValue, hasException, throwIf]
  | val v => simp [get, isEmpty, hasValue, hasException, throwIf]
  | broken => exact absurd rfl h1

/-- C112: the last operation decides, whatever happened before. -/
theorem C112_last (os : List XOp) (x : Exp) (v : Int) (e : Nat) :
    get (xrun x (os ++ [.setValue v])) = .got v ∧ get (xrun x (os ++ [.setException (some e)])) = .rethrown e ∧
    get (xrun x (os ++ [.clear])) = .terminated := by
  unfold xrun
  rw [List.foldl_append, List.foldl_append, List.foldl_append]
  exact ⟨rfl, rfl, rfl⟩

example : get (xrun .empty [.setValue 4, .assignCode (.raise 9), .setCurrent (some 8)]) = .rethrown 8 := rfl

/-- C112 does not hold for a null `exception_ptr`, which `set_exception( )` and `expected_from_exception` store when no exception
is being handled: `has_exception` holds and `get` is undefined. -/
theorem C112_null_exception_violated (os : List XOp) (x : Exp) :
    hasException (xrun x (os ++ [.setCurrent none])) = true ∧ get (xrun x (os ++ [.setCurrent none])) = .undefined := by
  unfold xrun
  rw [List.foldl_append]
  exact ⟨rfl, rfl⟩

/-- C112 does not hold after a copy threw in `set_value`: the object is neither empty nor has it a value or exception, and `get` is
undefined. -/
theorem C112_valueless_violated (x : Exp) : get (xrun x [.setThrowing]) = .undefined ∧ isEmpty (xrun x [.setThrowing]) = false ∧
    hasValue (xrun x [.setThrowing]) = false := ⟨rfl, rfl, rfl⟩

/-- C112 does not hold for `expected_from_code<Result>( f )`: the result is empty whatever `f` does, and `get` terminates the
program. -/
theorem C112_from_code_as_violated (f : Out) : get (fromCodeAs f) = .terminated := rfl

/-- C112, `operator bool` as a test for a value is wrong: it also holds for an exception. -/
theorem C112_bool_finding (e : Nat) : toBool (fromCode (.raise e)) = true ∧ hasValue (fromCode (.raise e)) = false := ⟨rfl, rfl⟩

end Verif.Own.Optional
