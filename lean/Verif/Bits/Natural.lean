import Verif.Bits.IntCmp

/-
`daw::natural_t<T>`, include/daw/daw_natural.h, for a type `T` that is not narrower than `int`: for narrower types the binary
operators do not compile, as they write to the private member of another class.
-/

namespace Verif.Bits.Natural
open Cxx

/-- The result of an arithmetic expression of type `t`: unsigned types wrap around, overflow of signed types is undefined
behaviour. (Rule of C++ or its library, no line of the source.) -/
def arith (t : IntTy) (x : Int) : Cxx Int :=
  if t.signed then (if t.Has x then pure x else ub) else pure (t.conv x)

/-- `validate`, daw_natural.h 29-34, for a value of type `u`. -/
def validate (x : Int) : Cxx Int := if 1 ≤ x then pure x else thrown

/-- The converting constructor and assignment, daw_natural.h 40-50: the value of type `u` is validated, then converted. -/
def assign (t : IntTy) (v : Int) : Cxx Int := do
  let v ← validate v
  pure (t.conv v)

/-- `operator+=` and `operator+`, daw_natural.h 60-66 and 130-139. -/
def add (t : IntTy) (x y : Int) : Cxx Int := arith t (x + y)

/-- `operator-=` and `operator-`, daw_natural.h 68-74 and 141-149. -/
def sub (t : IntTy) (x y : Int) : Cxx Int := do
  let d ← arith t (x - y)
  assign t d

/-- `operator*=` and `operator*`, daw_natural.h 76-82 and 151-160. -/
def mul (t : IntTy) (x y : Int) : Cxx Int := arith t (x * y)

/-- `operator/=` and `operator/`, daw_natural.h 84-90 and 162-171; the division of C++ rounds towards zero. -/
def div (t : IntTy) (x y : Int) : Cxx Int := if y = 0 then ub else arith t (x.tdiv y)

/-- `operator%=` and `operator%`, daw_natural.h 92-98 and 173-182. -/
def mod (t : IntTy) (x y : Int) : Cxx Int := if y = 0 then ub else arith t (x.tmod y)

/-- `operator++`, daw_natural.h 100-113. -/
def inc (t : IntTy) (x : Int) : Cxx Int := arith t (x + 1)

/-- `operator--`, daw_natural.h 115-128. -/
def dec (t : IntTy) (x : Int) : Cxx Int := do
  let d ← arith t (x - 1)
  assign t d

/-- The calls that change a natural number; the operands are natural numbers of the same type, or for `assign` a value of
any integer type. (Members of `natural_t`, daw_natural.h 23-183.) -/
inductive Op where
  | assign (v : Int)
  | add (y : Int)
  | sub (y : Int)
  | mul (y : Int)
  | div (y : Int)
  | mod (y : Int)
  | inc
  | dec

/-- The model of a call. (Members of `natural_t`, daw_natural.h 23-183.) -/
def step (t : IntTy) (x : Int) : Op → Cxx Int
  | .assign v => Natural.assign t v
  | .add y => Natural.add t x y
  | .sub y => Natural.sub t x y
  | .mul y => Natural.mul t x y
  | .div y => Natural.div t x y
  | .mod y => Natural.mod t x y
  | .inc => Natural.inc t x
  | .dec => Natural.dec t x

/-- A sequence of calls. (Members of `natural_t`, daw_natural.h 23-183.) -/
def run (t : IntTy) (x : Int) : List Op → Cxx Int
  | [] => pure x
  | o :: os => do
    let x ← step t x o
    run t x os

/-! ### What the calls mean -/

/-- The number a call should give, in the integers. (Specification, no line of the source.) -/
def meaning (x : Int) : Op → Int
  | .assign v => v
  | .add y => x + y
  | .sub y => x - y
  | .mul y => x * y
  | .div y => x / y
  | .mod y => x % y
  | .inc => x + 1
  | .dec => x - 1

/-- The operand is at least one. (Specification, no line of the source.) -/
def OperandOk : Op → Prop
  | .add y | .sub y | .mul y | .div y | .mod y => 1 ≤ y
  | .assign _ | .inc | .dec => True

theorem arith_has {t : IntTy} {x : Int} (h : t.Has x) : arith t x = pure x := by
  unfold arith
  rw [if_pos h, IntTy.conv_of_has h]
  split <;> rfl

theorem assign_ok {t : IntTy} {x : Int} (h : t.Has x) (h1 : 1 ≤ x) : assign t x = pure x := by
  unfold assign validate
  rw [if_pos h1, pure_bind, IntTy.conv_of_has h]

theorem assign_bad {t : IntTy} {x : Int} (h1 : x < 1) : assign t x = thrown := by
  unfold assign validate
  rw [if_neg (by omega), thrown_bind]

/-- C41, a call, as far as it holds: if the mathematical result is a natural number the type can hold, that is the result.
Missing: the other results, see `C41_error_partial`, `C41_overflow` and the violations. -/
theorem C41_step_partial (t : IntTy) (x : Int) (o : Op) (hx : 1 ≤ x) (ho : OperandOk o)
    (h1 : 1 ≤ meaning x o) (h2 : t.Has (meaning x o)) : step t x o = pure (meaning x o) := by
  cases o with
  | assign v => exact assign_ok h2 h1
  | add y => exact arith_has h2
  | sub y =>
    show (arith t (x - y) >>= assign t) = _
    rw [show arith t (x - y) = pure (x - y) from arith_has h2, pure_bind]
    exact assign_ok h2 h1
  | mul y => exact arith_has h2
  | div y =>
    have hy : 1 ≤ y := ho
    show (if y = 0 then _ else _) = _
    rw [if_neg (by omega), Int.tdiv_eq_ediv_of_nonneg (by omega)]
    exact arith_has h2
  | mod y =>
    have hy : 1 ≤ y := ho
    show (if y = 0 then _ else _) = _
    rw [if_neg (by omega), Int.tmod_eq_emod_of_nonneg (by omega)]
    exact arith_has h2
  | inc => exact arith_has h2
  | dec =>
    show (arith t (x - 1) >>= assign t) = _
    rw [show arith t (x - 1) = pure (x - 1) from arith_has h2, pure_bind]
    exact assign_ok h2 h1

example : step .int 7 (.div 2) = pure 3 := C41_step_partial .int 7 (.div 2) (by decide) (show (1 : Int) ≤ 2 by decide) (by decide) (by decide)

/-- C41, a sequence of calls, as far as it holds: as long as each mathematical result is a natural number the type can hold,
the calls compute it, and the number stays at least one. -/
theorem C41_history_partial (t : IntTy) (os : List Op) (x : Int) (hx : 1 ≤ x)
    (hops : ∀ pre o post, os = pre ++ o :: post →
      OperandOk o ∧ 1 ≤ meaning (pre.foldl meaning x) o ∧ t.Has (meaning (pre.foldl meaning x) o)) :
    run t x os = pure (os.foldl meaning x) ∧ 1 ≤ os.foldl meaning x := by
  induction os generalizing x with
  | nil => exact ⟨rfl, hx⟩
  | cons o os ih =>
    obtain ⟨h1, h2, h3⟩ := hops [] o os rfl
    rw [run, C41_step_partial t x o hx h1 h2 h3, pure_bind]
    refine ih (meaning x o) h2 fun pre o' post e => ?_
    exact hops (o :: pre) o' post (by rw [e]; rfl)

example : run .int 3 [.sub 1, .mul 5, .mod 7, .dec] = pure 2 := rfl

/-- C41, errors, as far as it holds: a difference, decrement or assignment that is not positive is reported.  Missing: for
unsigned types only the result zero is, see `C41_unsigned_violated`. -/
theorem C41_error_partial (t : IntTy) (x : Int) (o : Op) (ho : (∃ v, o = .assign v) ∨ (∃ y, o = .sub y) ∨ o = .dec)
    (h : meaning x o < 1) (ht : t.Has (meaning x o) ∨ ∃ v, o = .assign v) : step t x o = thrown := by
  rcases ho with ⟨v, rfl⟩ | ⟨y, rfl⟩ | rfl
  · exact assign_bad h
  · rcases ht with ht | ⟨v, hv⟩
    · show (arith t (x - y) >>= assign t) = _
      rw [show arith t (x - y) = pure (x - y) from arith_has ht, pure_bind]
      exact assign_bad h
    · cases hv
  · rcases ht with ht | ⟨v, hv⟩
    · show (arith t (x - 1) >>= assign t) = _
      rw [show arith t (x - 1) = pure (x - 1) from arith_has ht, pure_bind]
      exact assign_bad h
    · cases hv

example : step .int 2 (.sub 5) = thrown := C41_error_partial .int 2 (.sub 5) (.inr (.inl ⟨5, rfl⟩)) (by decide) (.inl (by decide))

/-- C41, the stated precondition: a sum, product or increment of a signed type beyond its greatest value is undefined
behaviour, as the comment of the class says. -/
theorem C41_overflow (t : IntTy) (x y : Int) (hs : t.signed = true) :
    (t.max < x + y → step t x (.add y) = ub) ∧ (t.max < x * y → step t x (.mul y) = ub) ∧
    (t.max < x + 1 → step t x .inc = ub) := by
  have key : ∀ z, t.max < z → arith t z = ub := by
    intro z hz
    unfold arith
    rw [if_pos hs, if_neg (fun h => absurd h.2 (by omega))]
  exact ⟨key _, key _, key _⟩

/-- C41 does not hold: quotient and remainder may be zero and are not checked. -/
theorem C41_zero_violated (t : IntTy) : step t 1 (.div 2) = pure 0 ∧ step t 2 (.mod 2) = pure 0 := by
  have h0 : t.Has 0 := by
    have h1 := two_pow_pos (t.bits - 1)
    have h2 := two_pow_pos t.bits
    unfold IntTy.Has IntTy.lowest IntTy.max
    split <;> omega
  constructor
  · exact arith_has h0
  · exact arith_has h0

/-- C41 does not hold for unsigned types: a difference below zero wraps around to a large number and is not reported; a sum
that wraps around is zero; a value of a wider type is checked before it is cut. -/
theorem C41_unsigned_violated : step .uint 1 (.sub 2) = pure 4294967295 ∧ step .uint 4294967295 .inc = pure 0 ∧
    step .uint 1 (.assign 4294967296) = pure 0 := ⟨rfl, rfl, rfl⟩

/-! ### Comparing -/

/-- Values that are not negative are in the common type of two types. -/
theorem common_has_nonneg {t u : IntTy} {x y : Int} (hx : t.Has x) (hy : u.Has y) (hx0 : 0 ≤ x) (hy0 : 0 ≤ y) :
    (t.common u).Has x ∧ (t.common u).Has y := by
  by_cases hs : t.promote.signed = u.promote.signed
  · have hx' := hx.promote
    have hy' := hy.promote
    unfold IntTy.common
    rw [if_pos hs]
    split
    · exact ⟨hx', hy'.widen hs.symm (by assumption)⟩
    · exact ⟨hx'.widen hs (by omega), hy'⟩
  · have hx' := hx.promote
    have hy' := hy.promote
    -- an unsigned type at least as wide as a signed one has its values that are not negative
    have key : ∀ {t u : IntTy} {x : Int}, t.Has x → 0 ≤ x → u.signed = false → t.bits ≤ u.bits → u.Has x := by
      intro t u x h h0 hu hb
      exact (h.unsigned h0).widen (by rw [hu]; rfl) hb
    unfold IntTy.common
    rw [if_neg hs]
    split
    · rename_i ht
      have hu : u.promote.signed = false := by
        cases h : u.promote.signed
        · rfl
        · rw [ht, h] at hs; exact absurd rfl hs
      split
      · exact ⟨key hx' hx0 hu (by assumption), hy'⟩
      · exact ⟨hx', hy'.toSigned hu ht (by omega)⟩
    · rename_i ht
      have ht : t.promote.signed = false := by simpa using ht
      have hu : u.promote.signed = true := by
        cases h : u.promote.signed
        · rw [ht, h] at hs; exact absurd rfl hs
        · rfl
      split
      · exact ⟨hx', key hy' hy0 ht (by assumption)⟩
      · exact ⟨hx'.toSigned ht hu (by omega), hy'⟩

/-- `operator==` of two natural numbers of any types, daw_natural.h 185-189. -/
def opEq (t u : IntTy) (x y : Int) : Bool := cppEq t u x y

/-- `operator!=`, daw_natural.h 191-195. -/
def opNe (t u : IntTy) (x y : Int) : Bool := !cppEq t u x y

/-- `operator<`, daw_natural.h 197-201. -/
def opLt (t u : IntTy) (x y : Int) : Bool := cppLt t u x y

/-- `operator<=`, daw_natural.h 203-207. -/
def opLe (t u : IntTy) (x y : Int) : Bool := !cppLt u t y x

/-- `operator>`, daw_natural.h 209-213. -/
def opGt (t u : IntTy) (x y : Int) : Bool := cppLt u t y x

/-- `operator>=`, daw_natural.h 215-219. -/
def opGe (t u : IntTy) (x y : Int) : Bool := !cppLt t u x y

/-- C41: natural numbers of any two types compare as numbers, although the built in operators are used. -/
theorem C41_compare (t u : IntTy) (x y : Int) (hx : t.Has x) (hy : u.Has y) (hx1 : 1 ≤ x) (hy1 : 1 ≤ y) :
    opEq t u x y = decide (x = y) ∧ opNe t u x y = decide (x ≠ y) ∧ opLt t u x y = decide (x < y) ∧
    opLe t u x y = decide (x ≤ y) ∧ opGt t u x y = decide (y < x) ∧ opGe t u x y = decide (y ≤ x) := by
  obtain ⟨h1, h2⟩ := common_has_nonneg hx hy (by omega) (by omega)
  obtain ⟨h3, h4⟩ := common_has_nonneg hy hx (by omega) (by omega)
  unfold opEq opNe opLt opLe opGt opGe cppEq cppLt
  rw [IntTy.conv_of_has h1, IntTy.conv_of_has h2, IntTy.conv_of_has h3, IntTy.conv_of_has h4]
  refine ⟨rfl, ?_, rfl, ?_, rfl, ?_⟩ <;> (rw [← decide_not]; try (congr 1; simp))

example : opLt .int .uint 3 4000000000 = true :=
  (C41_compare .int .uint 3 4000000000 (by decide) (by decide) (by decide) (by decide)).2.2.1

end Verif.Bits.Natural
