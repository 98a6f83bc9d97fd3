import Verif.Containers.Lists

/-
`checked_expected_t` of deprecated/daw_checked_expected.h: the result of a call, which is a value or an exception of one of the
types expected, or nothing.

An exception is any `x : X`; a type in the list `ExpectedExceptions...` is the set of the exceptions that its handler catches.
A null `exception_ptr` is `none`.
-/

namespace Verif.Own.Checked
open Cxx

variable {α X : Type}

/-- `is_expected_exception<ExpectedExceptions...>( ptr )`, deprecated/daw_checked_expected.h 31-55: with no type nothing is checked;
to rethrow a null pointer is undefined. -/
def isExpected : List (X → Bool) → Option X → Cxx Unit
  | [], _ => pure ()
  | [e], p =>
    match p with
    | none => ub
    | some x => if e x then pure () else thrown
  | e :: e' :: es, p =>
    match p with
    | none => ub
    | some x => if e x then pure () else isExpected (e' :: es) p

/-- How a call ends. (Specification, no line of the source.) -/
inductive Out (X α : Type) where
  | returned (a : α)
  | threw (x : X)

/-! ### The class for values -/

/-- `checked_expected_t`, deprecated/daw_checked_expected.h 67-68. -/
structure Exp (X α : Type) where
  value : Option α
  exc : Option X
  deriving DecidableEq

/-- The constructor from an `exception_ptr`, deprecated/daw_checked_expected.h 97-102. -/
def Exp.ofPtr (es : List (X → Bool)) (p : Option X) : Cxx (Exp X α) := do
  isExpected es p
  pure ⟨none, p⟩

/-- The constructor with `exception_tag` inside a handler, deprecated/daw_checked_expected.h 121-125. -/
def Exp.ofTag (es : List (X → Bool)) (current : Option X) : Cxx (Exp X α) := do
  let r ← Exp.ofPtr es current
  isExpected es r.exc
  pure r

/-- `from_code`, deprecated/daw_checked_expected.h 130-139; also `checked_from_code`, 389-394, `checked_function_t`, 404-408, and the
constructor from a function, 143-146. -/
def Exp.fromCode (es : List (X → Bool)) : Out X α → Cxx (Exp X α)
  | .returned a => pure ⟨some a, none⟩
  | .threw x => Exp.ofTag es (some x)

/-- `operator=( value_type )`, deprecated/daw_checked_expected.h 91-95. -/
def Exp.assignValue (_ : Exp X α) (a : α) : Exp X α := ⟨some a, none⟩

/-- `operator=( std::exception_ptr )`, deprecated/daw_checked_expected.h 104-110: the type of the exception is not checked. -/
def Exp.assignPtr (_ : Exp X α) (p : Option X) : Exp X α := ⟨none, p⟩

/-- `has_value`, deprecated/daw_checked_expected.h 148-150. -/
def Exp.hasValue (e : Exp X α) : Bool := e.value.isSome

/-- `has_exception`, deprecated/daw_checked_expected.h 152-154. -/
def Exp.hasException (e : Exp X α) : Bool := e.exc.isSome

/-- `empty`, deprecated/daw_checked_expected.h 160-162. -/
def Exp.empty (e : Exp X α) : Bool := !(e.hasValue || e.hasException)

/-- `operator bool`, deprecated/daw_checked_expected.h 164-166. -/
def Exp.toBool (e : Exp X α) : Bool := !e.empty

/-- `get`, deprecated/daw_checked_expected.h 178-186, with `throw_if_exception`, 172-176: what is returned or rethrown. -/
def Exp.get (e : Exp X α) : Cxx (Out X α) :=
  if e.hasException then
    match e.exc with
    | some x => pure (.threw x)
    | none => ub
  else
    match e.value with
    | some a => pure (.returned a)
    | none => ub

/-- The calls that change an object; one that throws leaves it as it was. (Specification, no line of the source.) -/
inductive Op (X α : Type) where
  | value (a : α)
  | ptr (p : Option X)
  | code (o : Out X α)

/-- One call. (Specification, no line of the source.) -/
def step (es : List (X → Bool)) (e : Exp X α) : Op X α → Exp X α
  | .value a => e.assignValue a
  | .ptr p => e.assignPtr p
  | .code o =>
    match (Exp.fromCode es o).run with
    | some (.ok e') => e'
    | _ => e

/-- An exception is of a type that is expected; if no type is given all are. (Specification, no line of the source.) -/
def Fits (es : List (X → Bool)) (x : X) : Prop := es = [] ∨ ∃ e ∈ es, e x = true

instance (es : List (X → Bool)) (x : X) : Decidable (Fits es x) := by unfold Fits; infer_instance

theorem isExpected_some (x : X) : ∀ es : List (X → Bool), isExpected es (some x) = if Fits es x then pure () else thrown := by
  intro es
  induction es with
  | nil =>
    have hf : Fits ([] : List (X → Bool)) x := Or.inl rfl
    rw [if_pos hf]
    rfl
  | cons e es ih =>
    cases es with
    | nil =>
      rw [isExpected]
      by_cases h : e x = true
      · have hf : Fits [e] x := Or.inr ⟨e, by simp, h⟩
        rw [if_pos hf, if_pos h]
      · have hf : ¬ Fits [e] x := by simp [Fits, h]
        rw [if_neg hf, if_neg h]
    | cons e' es =>
      rw [isExpected]
      by_cases h : e x = true
      · have hf : Fits (e :: e' :: es) x := Or.inr ⟨e, by simp, h⟩
        rw [if_pos hf, if_pos h]
      · simp only [h, Bool.false_eq_true, if_false]
        rw [ih]
        have : Fits (e' :: es) x ↔ Fits (e :: e' :: es) x := by simp [Fits, h]
        by_cases hf : Fits (e' :: es) x
        · rw [if_pos hf, if_pos (this.mp hf)]
        · rw [if_neg hf, if_neg (fun hh => hf (this.mpr hh))]

/-- **C226.**  `from_code` holds the value that the function returned or the exception that it threw; an exception of a type that is
not expected is not held: another exception leaves the call. -/
theorem C226_from_code (es : List (X → Bool)) (o : Out X α) :
    (∃ e, Exp.fromCode es o = pure e ∧ e.get = pure o ∧ e.toBool = true ∧
      (e.hasValue = true ↔ ∃ a, o = .returned a) ∧ (e.hasException = true ↔ ∃ x, o = .threw x)) ∧
        (∀ x, o = .threw x → Fits es x) ∨
    (∃ x, o = .threw x ∧ ¬ Fits es x ∧ Exp.fromCode es o = thrown) := by
  cases o with
  | returned a => exact Or.inl ⟨⟨_, rfl, rfl, rfl, by simp [Exp.hasValue], by simp [Exp.hasException]⟩, by simp⟩
  | threw x =>
    by_cases h : Fits es x
    · left
      refine ⟨⟨⟨none, some x⟩, ?_, rfl, rfl, by simp [Exp.hasValue], by simp [Exp.hasException]⟩, by rintro y ⟨⟩; exact h⟩
      rw [Exp.fromCode, Exp.ofTag, Exp.ofPtr, isExpected_some, if_pos h]
      simp only [pure_bind]
      rw [isExpected_some, if_pos h]
      rfl
    · right
      refine ⟨x, rfl, h, ?_⟩
      rw [Exp.fromCode, Exp.ofTag, Exp.ofPtr, isExpected_some, if_neg h]
      rfl

/-- What an object holds after a call. (Specification, no line of the source.) -/
def says (es : List (X → Bool)) (old : Option (Out X α)) : Op X α → Option (Out X α)
  | .value a => some (.returned a)
  | .ptr p => p.map .threw
  | .code (.returned a) => some (.returned a)
  | .code (.threw x) => if Fits es x then some (.threw x) else old

/-- An object holds a value, an exception or nothing. (Specification, no line of the source.) -/
def HoldsOut (e : Exp X α) : Option (Out X α) → Prop
  | none => e.empty = true ∧ e.toBool = false ∧ e.get = ub
  | some (.returned a) => e.hasValue = true ∧ e.hasException = false ∧ e.toBool = true ∧ e.get = pure (.returned a)
  | some (.threw x) => e.hasValue = false ∧ e.hasException = true ∧ e.toBool = true ∧ e.get = pure (.threw x)

/-- The object that holds something. (Specification, no line of the source.) -/
def mk : Option (Out X α) → Exp X α
  | none => ⟨none, none⟩
  | some (.returned a) => ⟨some a, none⟩
  | some (.threw x) => ⟨none, some x⟩

theorem step_mk (es : List (X → Bool)) (s : Option (Out X α)) (o : Op X α) : step es (mk s) o = mk (says es s o) := by
  cases o with
  | value a => rfl
  | ptr p => cases p <;> rfl
  | code o =>
    rw [step]
    rcases C226_from_code es o with ⟨⟨e, h1, h2, h3, h4, h5⟩, h6⟩ | ⟨x, rfl, hx, h⟩
    · rw [h1]
      cases o with
      | returned a => have := pure_inj.mp h1; subst this; rfl
      | threw x =>
        have hf := h6 x rfl
        rw [says, if_pos hf]
        rw [Exp.fromCode, Exp.ofTag, Exp.ofPtr, isExpected_some, if_pos hf] at h1
        simp only [pure_bind] at h1
        rw [isExpected_some, if_pos hf] at h1
        have := pure_inj.mp h1
        subst this
        rfl
    · rw [h, says, if_neg hx]
      rfl

/-- **C226.**  After any history of assignments of values, exceptions and results of calls, an object holds what the last call that
did not throw says, and `get` returns or rethrows it; `get` on an empty object is undefined. -/
theorem C226_history (es : List (X → Bool)) (os : List (Op X α)) :
    HoldsOut (os.foldl (step es) (⟨none, none⟩ : Exp X α)) (os.foldl (says es) none) := by
  have : ∀ s, os.foldl (step es) (mk s) = mk (os.foldl (says es) s) := by
    induction os with
    | nil => intro s; rfl
    | cons o os ih => intro s; rw [List.foldl_cons, List.foldl_cons, step_mk, ih]
  have := this none
  show HoldsOut (os.foldl (step es) (mk none)) _
  rw [this]
  generalize os.foldl (says es) none = s
  match s with
  | none => exact ⟨rfl, rfl, rfl⟩
  | some (.returned a) => exact ⟨rfl, rfl, rfl, rfl⟩
  | some (.threw x) => exact ⟨rfl, rfl, rfl, rfl⟩

/-- **C226 (part).**  If no `exception_ptr` is assigned, the exception an object holds is of a type that is expected. -/
theorem C226_types_partial (es : List (X → Bool)) (os : List (Op X α)) (hp : ∀ p, Op.ptr p ∉ os) (x : X)
    (h : (os.foldl (step es) (⟨none, none⟩ : Exp X α)).get = pure (.threw x)) : Fits es x := by
  have key : ∀ s : Option (Out X α), (∀ y, s = some (.threw y) → Fits es y) → ∀ y, os.foldl (says es) s = some (.threw y) → Fits es y := by
    clear h
    induction os with
    | nil => intro s hs; exact hs
    | cons o os ih =>
      intro s hs
      apply ih (fun p hh => hp p (List.mem_cons_of_mem _ hh))
      intro y hy
      cases o with
      | value a => simp [says] at hy
      | ptr p => exact absurd List.mem_cons_self (hp p)
      | code o =>
        cases o with
        | returned a => simp [says] at hy
        | threw z =>
          rw [says] at hy
          split at hy
          · simp only [Option.some.injEq, Out.threw.injEq] at hy
            subst hy
            assumption
          · exact hs y hy
  have hh := C226_history es os
  refine key none (by simp) x ?_
  match hs : os.foldl (says es) none with
  | none => rw [hs] at hh; rw [hh.2.2] at h; exact absurd h (ub_ne_pure _)
  | some (.returned a) => rw [hs] at hh; rw [hh.2.2.2] at h; have := pure_inj.mp h; cases this
  | some (.threw y) => rw [hs] at hh; rw [hh.2.2.2] at h; have := pure_inj.mp h; cases this; rfl

example := C226_types_partial (X := Nat) (α := Nat) [(· == 1), (· == 2)]

/-- **C226 (violated).**  Any exception can be assigned, also one of a type that is not expected. -/
theorem C226_assign_violated (es : List (X → Bool)) (e : Exp X α) (x : X) :
    (step es e (.ptr (some x))).get = pure (.threw x) := rfl

/-- **C226 (finding).**  A null pointer cannot be given to the constructor if any type is expected. -/
theorem C226_null_finding (e : X → Bool) (es : List (X → Bool)) : (Exp.ofPtr (e :: es) none : Cxx (Exp X α)) = ub := by
  cases es <;> rfl

-- exceptions 1 and 2 are expected
example : ((Exp.fromCode [(· == 1), (· == 2)] (.threw 2) : Cxx (Exp Nat Nat)) = pure ⟨none, some 2⟩) ∧
    (Exp.fromCode [(· == 1), (· == 2)] (.threw 3) : Cxx (Exp Nat Nat)) = thrown := ⟨rfl, rfl⟩
example : ¬ Fits [(fun x : Nat => x == 1)] 3 := by simp [Fits]

/-! ### The class for functions that return nothing -/

/-- `checked_expected_t<void, …>`, deprecated/daw_checked_expected.h 224-225. -/
structure VExp (X : Type) where
  exc : Option X
  value : Bool
  deriving DecidableEq

/-- The constructor from an `exception_ptr`, deprecated/daw_checked_expected.h 281-286. -/
def VExp.ofPtr (es : List (X → Bool)) (p : Option X) : Cxx (VExp X) := do
  isExpected es p
  pure ⟨p, false⟩

/-- `from_code`, deprecated/daw_checked_expected.h 313-328, with the constructor with `exception_tag`, 304-308. -/
def VExp.fromCode (es : List (X → Bool)) : Out X Unit → Cxx (VExp X)
  | .returned _ => pure ⟨none, true⟩
  | .threw x => do
    let r ← VExp.ofPtr es (some x)
    isExpected es r.exc
    pure r

/-- The copy constructor, deprecated/daw_checked_expected.h 239-245, which is taken for a source that is `const`. -/
def VExp.copyConst (e : VExp X) : VExp X :=
  let exc := if e.exc.isSome then e.exc else none
  ⟨exc, e.value⟩

/-- A copy of a source that is not `const`: the constructor for any `T &&`, deprecated/daw_checked_expected.h 271-273, is the better
match. -/
def VExp.copyMutable (_ : VExp X) : VExp X := ⟨none, true⟩

/-- The move constructor, deprecated/daw_checked_expected.h 235-237: the new object and the source. -/
def VExp.move (e : VExp X) : VExp X × VExp X := (⟨e.exc, e.value⟩, ⟨none, false⟩)

/-- The assignment from another object, deprecated/daw_checked_expected.h 246-254; there is no other for temporary objects. -/
def VExp.assign (e rhs : VExp X) : VExp X :=
  let exc := if rhs.exc.isSome then rhs.exc else e.exc
  ⟨exc, rhs.value⟩

/-- `operator=( bool )`, deprecated/daw_checked_expected.h 275-279. -/
def VExp.assignBool (_ : VExp X) (_ : Bool) : VExp X := ⟨none, true⟩

/-- `operator=( std::exception_ptr )`, deprecated/daw_checked_expected.h 288-293. -/
def VExp.assignPtr (es : List (X → Bool)) (_ : VExp X) (p : Option X) : Cxx (VExp X) := do
  isExpected es p
  pure ⟨p, false⟩

/-- `get`, deprecated/daw_checked_expected.h 367-369, with `throw_if_exception`, 361-365: an empty object gives nothing to say. -/
def VExp.get (e : VExp X) : Out X Unit :=
  match e.exc with
  | some x => .threw x
  | none => .returned ()

/-- `has_value`, deprecated/daw_checked_expected.h 341-343. -/
def VExp.hasValue (e : VExp X) : Bool := e.value

/-- `has_exception`, deprecated/daw_checked_expected.h 345-347. -/
def VExp.hasException (e : VExp X) : Bool := e.exc.isSome

/-- **C227 (part).**  `from_code` says how the call ended, or throws if the exception is not expected; a copy of a `const` object is the
same, and assigning the result of a call makes an object say the same if it held no exception, or if the call threw one. -/
theorem C227_from_code_partial (es : List (X → Bool)) (o : Out X Unit) (e : VExp X) :
    (∃ r, VExp.fromCode es o = pure r ∧ r.get = o ∧ r.hasValue = !r.hasException ∧ r.copyConst = r ∧ r.move.1 = r ∧
      (e.hasException = false ∨ r.hasException = true → e.assign r = r)) ∨
    (∃ x, o = .threw x ∧ ¬ Fits es x ∧ VExp.fromCode es o = thrown) := by
  cases o with
  | returned a =>
    refine Or.inl ⟨_, rfl, rfl, rfl, rfl, rfl, ?_⟩
    intro h
    rcases h with h | h
    · have : e.exc = none := by simpa [VExp.hasException] using h
      simp [VExp.assign, this]
    · cases h
  | threw x =>
    by_cases hf : Fits es x
    · refine Or.inl ⟨⟨some x, false⟩, ?_, rfl, rfl, rfl, rfl, fun _ => rfl⟩
      rw [VExp.fromCode, VExp.ofPtr, isExpected_some, if_pos hf]
      simp only [pure_bind]
      rw [isExpected_some, if_pos hf]
      rfl
    · refine Or.inr ⟨x, rfl, hf, ?_⟩
      rw [VExp.fromCode, VExp.ofPtr, isExpected_some, if_neg hf]
      rfl

/-- **C227 (violated).**  If an object that holds an exception is assigned the result of a call that returned, it keeps the exception:
`get` throws, and the object has a value and an exception. -/
theorem C227_assign_violated (es : List (X → Bool)) (x : X) (b : Bool) :
    ∃ r, VExp.fromCode es (.returned ()) = pure r ∧ ((⟨some x, b⟩ : VExp X).assign r).get = .threw x ∧
      ((⟨some x, b⟩ : VExp X).assign r).hasValue = true ∧ ((⟨some x, b⟩ : VExp X).assign r).hasException = true :=
  ⟨_, rfl, rfl, rfl, rfl⟩

/-- **C227 (violated).**  A copy of an object that is not `const` has a value and no exception, whatever its source holds. -/
theorem C227_copy_violated (x : X) (b : Bool) :
    (⟨some x, b⟩ : VExp X).copyMutable.get = .returned () ∧ (⟨some x, b⟩ : VExp X).get = .threw x ∧
      (⟨none, false⟩ : VExp X).copyMutable.hasValue = true := ⟨rfl, rfl, rfl⟩

/-- **C227 (finding).**  Assigning `false` makes the object have a value. -/
theorem C227_false_finding (e : VExp X) : (e.assignBool false).hasValue = true := rfl

example : ∃ r, VExp.fromCode [(· == 1)] (.threw 1) = pure r ∧ r = (⟨some 1, false⟩ : VExp Nat) := ⟨_, rfl, rfl⟩

end Verif.Own.Checked
