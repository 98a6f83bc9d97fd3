import Verif.Bits.Float
import Verif.Containers.Lists
import Mathlib.Tactic.Linarith
import Mathlib.Tactic.Positivity
import Mathlib.Tactic.FieldSimp
import Mathlib.Tactic.NormNum
import Mathlib.Tactic.Ring
import Mathlib.Algebra.Order.Field.Rat
import Mathlib.Algebra.Order.Field.Power

/-
Powers, parts and neighbours of floating point numbers, include/daw/daw_cxmath.h, by the numbers that the bits stand for.
-/

namespace Verif.Bits.Float
open Cxx

/-- The number that the bits of a finite `Real` stand for, IEEE-754. (Rule of C++ or its library, no line of the source.) -/
def value (r : Real) (v : BitVec r.width) : Rat :=
  (if signOf r v = 1 then -1 else 1) *
    (if expOf r v = 0 then (sigOf r v : Rat) * 2 ^ (1 - exponentBias r - sigBits r)
      else (2 ^ sigBits r + sigOf r v : Rat) * 2 ^ ((expOf r v : Int) - exponentBias r - sigBits r))

/-- Positive infinity. (Rule of C++ or its library, no line of the source.) -/
def posInf : (r : Real) → BitVec r.width
  | .double => 0x7FF0000000000000#64
  | .float => 0x7F800000#32

/-- Negative infinity. (Rule of C++ or its library, no line of the source.) -/
def negInf : (r : Real) → BitVec r.width
  | .double => 0xFFF0000000000000#64
  | .float => 0xFF800000#32

/-- `numeric_limits::max_exponent`. (Rule of C++ or its library, no line of the source.) -/
def maxExponent : Real → Int
  | .double => 1024
  | .float => 128

/-- `numeric_limits::min_exponent`. (Rule of C++ or its library, no line of the source.) -/
def minExponent : Real → Int
  | .double => -1021
  | .float => -125

/-- The bits of two. (Rule of C++ or its library, no line of the source.) -/
def two : (r : Real) → BitVec r.width
  | .double => 0x4000000000000000#64
  | .float => 0x40000000#32

/-- `pow2<Real>`, daw_cxmath.h 777-792, where `bit_cast` is available. -/
def pow2Real (r : Real) (exp : Int) : BitVec r.width :=
  if exp ≥ maxExponent r then posInf r
  else if exp ≤ minExponent r then 0
  else setExponent r 0 exp

/-- The factor of `ldexp`, daw_cxmath.h 985-995: the bits of two with another exponent; the sum is of type `int`. -/
def ldexpFactor (exponent : Int) : Cxx (BitVec 64) :=
  if exponent + 1023 > 2147483647 then ub
  else pure ((two .double &&& ~~~0x7FF0000000000000#64) ||| (BitVec.ofInt 64 (exponent + 1023) <<< 52))

/-- The fields of bits give their number, if the exponent field is that of a normal number. -/
theorem value_normal (r : Real) (v : BitVec r.width) (e : Int) (he : getExponent r v = e) (hs : sigOf r v = 0) (hn : signOf r v = 0)
    (hlo : -exponentBias r < e) : value r v = 2 ^ e := by
  have hg : ((expOf r v : Nat) : Int) - exponentBias r = e := by
    rw [← he, (C43_get r v).2.2.1]
    cases r <;> rfl
  have h0 : expOf r v ≠ 0 := by
    intro h
    rw [h] at hg
    simp at hg
    omega
  unfold value
  rw [hs, hn, if_neg (by decide), if_neg h0, hg]
  have h2 : (2 : Rat) ≠ 0 := by norm_num
  rw [one_mul, Nat.cast_zero, add_zero, ← zpow_natCast, ← zpow_add₀ h2]
  congr 1
  omega

theorem fields_zero (r : Real) : sigOf r (0 : BitVec r.width) = 0 ∧ signOf r (0 : BitVec r.width) = 0 := by
  cases r <;> exact ⟨rfl, rfl⟩

theorem fields_one (r : Real) : getExponent r (one r) = 0 ∧ sigOf r (one r) = 0 ∧ signOf r (one r) = 0 := by
  cases r <;> exact ⟨by decide, by decide, by decide⟩

theorem fields_two (r : Real) : sigOf r (two r) = 0 ∧ signOf r (two r) = 0 := by
  cases r <;> exact ⟨by decide, by decide⟩

/-- Setting the exponent of bits without sign and significand gives a power of two. -/
theorem value_setExponent (r : Real) (d : BitVec r.width) (hs : sigOf r d = 0) (hn : signOf r d = 0) (e : Int)
    (hlo : -exponentBias r < e) (hhi : e ≤ exponentBias r) : value r (setExponent r d e) = 2 ^ e := by
  by_cases h0 : e = 0
  · subst h0
    obtain ⟨h1, h2, h3⟩ := fields_one r
    exact value_normal r (one r) 0 h1 h2 h3 hlo
  · have hb : exponentBias r + exponentBias r < 2 ^ expBits r := by cases r <;> decide
    obtain ⟨h1, h2, h3⟩ := C43_set_exponent_partial r d e h0 (by omega) (by omega)
    exact value_normal r _ e h1 (h2.trans hs) (h3.trans hn) hlo

/-- `pow2` gives the power of two for exponents of normal numbers, without the lowest two; infinity for larger ones; and zero for those
where half of the least number is more. -/
theorem C257_pow2_partial (r : Real) (e : Int) :
    (minExponent r < e → e < maxExponent r → value r (pow2Real r e) = 2 ^ e ∧ ieee r (pow2Real r e) = .normal) ∧
      (maxExponent r ≤ e → pow2Real r e = posInf r) ∧
      (e < 1 - exponentBias r - sigBits r - 1 → pow2Real r e = 0) := by
  have hmin : minExponent r = 2 - exponentBias r := by cases r <;> rfl
  have hmax : maxExponent r = exponentBias r + 1 := by cases r <;> rfl
  have hb : 0 < exponentBias r := by cases r <;> decide
  refine ⟨fun h1 h2 => ?_, fun h => ?_, fun h => ?_⟩
  · have hp : pow2Real r e = setExponent r 0 e := by
      unfold pow2Real
      rw [if_neg (by omega), if_neg (by omega)]
    obtain ⟨z1, z2⟩ := fields_zero r
    rw [hp]
    refine ⟨value_setExponent r 0 z1 z2 e (by omega) (by omega), ?_⟩
    have hexp : getExponent r (setExponent r 0 e) = e := by
      by_cases h0 : e = 0
      · subst h0; exact (fields_one r).1
      · have hb2 : exponentBias r + exponentBias r < 2 ^ expBits r := by cases r <;> decide
        exact (C43_set_exponent_partial r 0 e h0 (by omega) (by omega)).1
    have hg : ((expOf r (setExponent r 0 e) : Nat) : Int) - exponentBias r = e := by
      have h43 := (C43_get r (setExponent r 0 e)).2.2.1
      have hbias : ((2 ^ (expBits r - 1) - 1 : Nat) : Int) = exponentBias r := by cases r <;> rfl
      omega
    have hlast : ((2 ^ expBits r - 1 : Nat) : Int) = exponentBias r + exponentBias r + 1 := by cases r <;> rfl
    unfold ieee
    rw [if_neg (by omega), if_neg (by omega)]
  · unfold pow2Real
    rw [if_pos h]
  · unfold pow2Real
    rw [if_neg (by omega), if_pos (by omega)]

example : value .double (pow2Real .double (-1020)) = 2 ^ (-1020 : Int) :=
  ((C257_pow2_partial .double (-1020)).1 (by decide) (by decide)).1
example : pow2Real .float 128 = 0x7F800000#32 := (C257_pow2_partial .float 128).2.1 (by decide)

/-- `pow2` gives zero for the two lowest exponents of normal numbers, which `numeric_limits::min_exponent` is one above. -/
theorem C257_pow2_violated (r : Real) (e : Int) (h1 : 1 - exponentBias r ≤ e) (h2 : e ≤ 2 - exponentBias r) :
    pow2Real r e = 0 ∧ ∃ v, ieee r v = .normal ∧ value r v = 2 ^ e := by
  have hb : 2 < exponentBias r := by cases r <;> decide
  refine ⟨?_, setExponent r 0 e, ?_, ?_⟩
  · unfold pow2Real
    rw [if_neg (by cases r <;> simp only [maxExponent, exponentBias] at * <;> omega),
      if_pos (by cases r <;> simp only [minExponent, exponentBias] at * <;> omega)]
  · have hbb : exponentBias r + exponentBias r < 2 ^ expBits r := by cases r <;> decide
    have hexp := (C43_set_exponent_partial r 0 e (by omega) (by omega) (by omega)).1
    have hg : ((expOf r (setExponent r 0 e) : Nat) : Int) - exponentBias r = e := by
      have h43 := (C43_get r (setExponent r 0 e)).2.2.1
      have hbias : ((2 ^ (expBits r - 1) - 1 : Nat) : Int) = exponentBias r := by cases r <;> rfl
      omega
    have hlast : ((2 ^ expBits r - 1 : Nat) : Int) = exponentBias r + exponentBias r + 1 := by cases r <;> rfl
    unfold ieee
    rw [if_neg (by omega), if_neg (by omega)]
  · obtain ⟨z1, z2⟩ := fields_zero r
    exact value_setExponent r 0 z1 z2 e (by omega) (by omega)

example : pow2Real .double (-1022) = 0 := (C257_pow2_violated .double (-1022) (by decide) (by decide)).1

/-! ## ldexp -/

theorem ldexpFactor_eq (e : Int) (h0 : e ≠ 0) (h : e + 1023 ≤ 2147483647) : ldexpFactor e = pure (setExponent .double (two .double) e) := by
  unfold ldexpFactor setExponent
  rw [if_neg (by omega), if_neg h0]
  rfl

/-- `ldexp` multiplies by a power of two, for the exponents of normal numbers. -/
theorem C258_ldexp_partial (e : Int) (hlo : -1022 ≤ e) (hhi : e ≤ 1023) : ∃ f, ldexpFactor e = pure f ∧ value .double f = 2 ^ e := by
  by_cases h0 : e = 0
  · subst h0
    refine ⟨one .double, by decide, ?_⟩
    obtain ⟨h1, h2, h3⟩ := fields_one .double
    exact value_normal .double (one .double) 0 h1 h2 h3 (by decide)
  · obtain ⟨z1, z2⟩ := fields_two .double
    have hb : exponentBias .double = 1023 := rfl
    exact ⟨_, ldexpFactor_eq e h0 (by omega), value_setExponent .double (two .double) z1 z2 e (by omega) (by omega)⟩

example : ∃ f, ldexpFactor (-1022) = pure f ∧ value .double f = 2 ^ (-1022 : Int) := C258_ldexp_partial (-1022) (by omega) (by omega)

/-- Outside of that `ldexp` multiplies by zero, by infinity, by negative zero and by negative infinity, although the product of the power of
two with a number can be a number; and the sum can overflow. -/
theorem C258_ldexp_violated :
    ldexpFactor (-1023) = pure 0 ∧ ldexpFactor 1024 = pure (posInf .double) ∧ ldexpFactor 1025 = pure 0x8000000000000000#64 ∧
      ldexpFactor (-1024) = pure (negInf .double) ∧ (∀ e : Int, 2147482624 < e → ldexpFactor e = ub) := by
  refine ⟨by decide, by decide, by decide, by decide, fun e h => ?_⟩
  unfold ldexpFactor
  rw [if_pos (by omega)]

/-! ## Tables of powers -/

/-- The loop of `pow2_impl2<double>` and what follows it, daw_cxmath.h 303-309: numbers as they are without rounding.  `max_shft` is 64, and
the largest `size_t` becomes the next power of two as a `double`. -/
def pow2Impl (exp : Nat) (result : Rat) : Rat :=
  if exp ≥ 64 then pow2Impl (exp - 64) (result * 2 ^ 64)
  else if exp > 0 then result * ((2 ^ exp : Nat) : Rat)
  else result

/-- `pow2_impl2<double>`, daw_cxmath.h 293-314. -/
def pow2Impl2 (exp : Int) : Rat :=
  let result := pow2Impl exp.natAbs 1
  if exp < 0 ∧ result ≠ 0 then 1 / result else result

/-- `pow10_impl`, daw_cxmath.h 316-323, for a result that `size_t` has. -/
def pow10Impl : Nat → Nat → Nat
  | 0, result => result
  | exp + 1, result => pow10Impl exp (result * 10 % 2 ^ 64)

/-- The loop of `fpow10_impl2<double>` and what follows it, daw_cxmath.h 340-346: numbers as they are without rounding, `max_spow` is 19. -/
def fpow10Impl (exp : Nat) (result : Rat) : Rat :=
  if exp ≥ 19 then fpow10Impl (exp - 19) (result * (pow10Impl 19 1 : Rat))
  else if exp > 0 then result * (pow10Impl exp 1 : Rat)
  else result

/-- `fpow10_impl2<double>`, daw_cxmath.h 330-351. -/
def fpow10Impl2 (exp : Int) : Rat :=
  let result := fpow10Impl exp.natAbs 1
  if exp < 0 ∧ result ≠ 0 then 1 / result else result

/-- `calc_pow2s<double>` and `calc_fpow10s<double>`, daw_cxmath.h 362-384: from -307 on, 615 of them. -/
def calcTable (f : Int → Rat) : List Rat := (List.range 615).map fun n : Nat => f ((n : Int) + -307)

/-- `get` of the tables, daw_cxmath.h 401-405 and 413-417: a negative index becomes a large one. -/
def tableGet (tbl : List Rat) (pos : Int) : Cxx Rat :=
  let zero : Int := ((tbl.length / 2 : Nat) : Int)
  rd tbl ((zero + pos) % 2 ^ 64).toNat

/-- `dpow2`, daw_cxmath.h 998-1000. -/
def dpow2 (exp : Int) : Cxx Rat := tableGet (calcTable pow2Impl2) exp

/-- `dpow10`, daw_cxmath.h 1006-1008. -/
def dpow10 (exp : Int) : Cxx Rat := tableGet (calcTable fpow10Impl2) exp

theorem pow2Impl_eq : ∀ (n exp : Nat) (x : Rat), exp ≤ n → pow2Impl exp x = x * 2 ^ exp := by
  intro n
  induction n with
  | zero =>
    intro exp x h
    obtain rfl : exp = 0 := by omega
    unfold pow2Impl
    simp
  | succ n ih =>
    intro exp x h
    unfold pow2Impl
    by_cases h64 : exp ≥ 64
    · rw [if_pos h64, ih (exp - 64) _ (by omega), mul_assoc, ← pow_add]
      congr 2
      omega
    · rw [if_neg h64]
      by_cases h0 : exp > 0
      · rw [if_pos h0]
        push_cast
        rfl
      · obtain rfl : exp = 0 := by omega
        simp

/-- Whole powers of ten are those of the unsigned numbers, which start again after `2 ^ 64`. -/
theorem C259_pow10_wraps : ∀ (n x : Nat), x < 2 ^ 64 → pow10Impl n x = x * 10 ^ n % 2 ^ 64
  | 0, x, h => by rw [pow10Impl, Nat.pow_zero, Nat.mul_one, Nat.mod_eq_of_lt h]
  | n + 1, x, _ => by
    rw [pow10Impl, C259_pow10_wraps n _ (Nat.mod_lt _ (by decide)), Nat.mod_mul_mod, show x * 10 * 10 ^ n = x * 10 ^ (n + 1) by ring]

example : pow10Impl 20 1 = 7766279631452241920 := by decide +kernel

theorem pow10Impl_eq : ∀ (n x : Nat), x * 10 ^ n < 2 ^ 64 → pow10Impl n x = x * 10 ^ n := by
  intro n
  induction n with
  | zero => intro x _; simp [pow10Impl]
  | succ n ih =>
    intro x h
    have h1 : x * 10 ^ (n + 1) = x * 10 * 10 ^ n := by ring
    have h2 : x * 10 ≤ x * 10 * 10 ^ n := Nat.le_mul_of_pos_right _ (Nat.pow_pos (by omega))
    unfold pow10Impl
    rw [Nat.mod_eq_of_lt (by omega), ih (x * 10) (by omega), h1]

theorem fpow10Impl_eq : ∀ (n exp : Nat) (x : Rat), exp ≤ n → fpow10Impl exp x = x * 10 ^ exp := by
  intro n
  have h19 : pow10Impl 19 1 = 10 ^ 19 := by rw [pow10Impl_eq 19 1 (by norm_num)]; norm_num
  induction n with
  | zero =>
    intro exp x h
    obtain rfl : exp = 0 := by omega
    unfold fpow10Impl
    simp
  | succ n ih =>
    intro exp x h
    unfold fpow10Impl
    by_cases h64 : exp ≥ 19
    · rw [if_pos h64, ih (exp - 19) _ (by omega), h19, Nat.cast_pow, Nat.cast_ofNat, mul_assoc, ← pow_add]
      congr 2
      omega
    · rw [if_neg h64]
      by_cases h0 : exp > 0
      · rw [if_pos h0, pow10Impl_eq exp 1 (by
          have : 10 ^ exp ≤ 10 ^ 18 := Nat.pow_le_pow_right (by omega) (by omega)
          have h18 : (10 : Nat) ^ 18 < 2 ^ 64 := by norm_num
          omega)]
        push_cast
        rw [one_mul]
      · obtain rfl : exp = 0 := by omega
        simp

theorem signed_pow (b : Rat) (hb : b ≠ 0) (exp : Int) :
    (if exp < 0 ∧ (b ^ exp.natAbs) ≠ 0 then 1 / b ^ exp.natAbs else b ^ exp.natAbs) = b ^ exp := by
  by_cases h : exp < 0
  · rw [if_pos ⟨h, pow_ne_zero _ hb⟩, one_div, ← zpow_natCast, ← zpow_neg]
    congr 1
    omega
  · rw [if_neg (fun hh => h hh.1), ← zpow_natCast]
    congr 1
    omega

theorem pow2Impl2_eq (exp : Int) : pow2Impl2 exp = 2 ^ exp := by
  unfold pow2Impl2
  rw [pow2Impl_eq exp.natAbs exp.natAbs 1 le_rfl, one_mul]
  exact signed_pow 2 (by norm_num) exp

theorem fpow10Impl2_eq (exp : Int) : fpow10Impl2 exp = 10 ^ exp := by
  unfold fpow10Impl2
  rw [fpow10Impl_eq exp.natAbs exp.natAbs 1 le_rfl, one_mul]
  exact signed_pow 10 (by norm_num) exp

theorem tableGet_in (f : Int → Rat) (e : Int) (hlo : -307 ≤ e) (hhi : e ≤ 307) : tableGet (calcTable f) e = pure (f e) := by
  have hl : (calcTable f).length = 615 := by unfold calcTable; rw [List.length_map, List.length_range]
  unfold tableGet
  dsimp only
  rw [hl, Int.emod_eq_of_lt (by omega) (by omega)]
  have hi : ((615 / 2 : Nat) : Int) + e = 307 + e := rfl
  rw [hi, rd_some (a := f e)]
  have hn : (307 + e).toNat < 615 := by omega
  unfold calcTable
  rw [List.getElem?_map, List.getElem?_range hn, Option.map_some]
  have he : (((307 + e).toNat : Nat) : Int) + -307 = e := by omega
  rw [he]

theorem tableGet_out (f : Int → Rat) (e : Int) (h : e < -307 ∨ 307 < e) (hr : -2147483648 ≤ e ∧ e ≤ 2147483647) :
    tableGet (calcTable f) e = ub := by
  have hl : (calcTable f).length = 615 := by unfold calcTable; rw [List.length_map, List.length_range]
  unfold tableGet
  dsimp only
  rw [hl]
  have hi : ((615 / 2 : Nat) : Int) + e = 307 + e := rfl
  rw [hi]
  apply rd_oob
  rw [hl]
  rcases h with h | h
  · have : (307 + e) % 2 ^ 64 = 307 + e + 2 ^ 64 := by
      rw [← Int.add_emod_right, Int.emod_eq_of_lt (by omega) (by omega)]
    rw [this]
    omega
  · rw [Int.emod_eq_of_lt (by omega) (by omega)]
    omega

/-- `dpow2` and `dpow10` give the powers, without rounding, for exponents from -307 to 307.  All numbers that `dpow2` comes by are powers of
two that a `double` has. -/
theorem C259_tables_partial (e : Int) (hlo : -307 ≤ e) (hhi : e ≤ 307) : dpow2 e = pure (2 ^ e) ∧ dpow10 e = pure (10 ^ e) := by
  constructor
  · unfold dpow2
    rw [tableGet_in _ e hlo hhi, pow2Impl2_eq]
  · unfold dpow10
    rw [tableGet_in _ e hlo hhi, fpow10Impl2_eq]

example : dpow2 (-130) = pure (2 ^ (-130 : Int)) := (C259_tables_partial (-130) (by omega) (by omega)).1

/-- For all other exponents the tables are read outside, although a `double` has 10^308 and the powers of two up to 2^1023. -/
theorem C259_tables_violated (e : Int) (h : e < -307 ∨ 307 < e) (hr : -2147483648 ≤ e ∧ e ≤ 2147483647) :
    dpow2 e = ub ∧ dpow10 e = ub := ⟨tableGet_out _ e h hr, tableGet_out _ e h hr⟩

example : dpow2 1023 = ub := (C259_tables_violated 1023 (by omega) (by omega)).1
example : dpow10 308 = ub := (C259_tables_violated 308 (by omega) (by omega)).2

/-! ## float_parts_t -/

/-- `sign_bit`, daw_cxmath.h 848-850. -/
def partsSignBit (raw : BitVec 32) : Bool := decide (raw >>> 31 = 0)

/-- `is_negative`, daw_cxmath.h 856-858. -/
def partsIsNegative (raw : BitVec 32) : Bool := !partsSignBit raw

/-- `raw_exponent`, daw_cxmath.h 860-863. -/
def partsRawExponent (raw : BitVec 32) : BitVec 8 := ((0x7F800000#32 &&& raw) >>> 23).truncate 8

/-- `exponent`, daw_cxmath.h 865-869. -/
def partsExponent (raw : BitVec 32) : Int := ((partsRawExponent raw).toNat : Int) - 127

/-- `raw_significand`, daw_cxmath.h 871-873. -/
def partsRawSignificand (raw : BitVec 32) : BitVec 32 := 0x007FFFFF#32 &&& raw

/-- `significand`, daw_cxmath.h 875-885: numbers as they are without rounding. -/
def partsSignificand (raw : BitVec 32) : Rat :=
  let result := if value .float raw < 0 then -value .float raw else value .float raw
  let e := partsExponent raw
  if e < 0 then result * value .float (setExponent .float (two .float) (-e))
  else result / value .float (setExponent .float (two .float) (-e))

theorem parts_exponent (raw : BitVec 32) : partsExponent raw = getExponent .float raw := by
  unfold partsExponent partsRawExponent getExponent
  rw [BitVec.and_comm]
  have h : ((raw &&& 0x7F800000#32) >>> 23).toNat < 256 := by
    rw [BitVec.toNat_ushiftRight, and_field raw 0x7F800000#32 23 8 (by decide), Nat.shiftRight_eq_div_pow]
    rw [Nat.mul_div_cancel_left _ (by decide)]
    exact Nat.mod_lt _ (by decide)
  show (((BitVec.truncate 8 ((raw &&& 0x7F800000#32) >>> 23)).toNat : Nat) : Int) - 127 =
    (((raw &&& 0x7F800000#32) >>> 23).toNat : Int) - 127
  rw [BitVec.truncate_eq_setWidth, BitVec.toNat_setWidth, Nat.mod_eq_of_lt h]
  rfl

/-- The fields of `float_parts_t` are those of the number, and its sign, exponent and significand make up the number if it is less than two. -/
theorem C260_parts_partial (raw : BitVec 32) :
    (partsIsNegative raw = true ↔ signOf .float raw = 1) ∧ (partsRawSignificand raw).toNat = sigOf .float raw ∧
      (partsRawExponent raw).toNat = expOf .float raw ∧
      (partsExponent raw ≤ 0 →
        (if partsIsNegative raw then -1 else 1) * partsSignificand raw * 2 ^ partsExponent raw = value .float raw) := by
  have hneg : (partsIsNegative raw = true ↔ signOf .float raw = 1) := by
    have h2 := (fields .float raw).2.2.2
    have e1 : (raw >>> 31).toNat = signOf .float raw := by
      rw [BitVec.toNat_ushiftRight, Nat.shiftRight_eq_div_pow]
      rfl
    unfold partsIsNegative partsSignBit
    rw [Bool.not_eq_true', decide_eq_false_iff_not]
    constructor
    · intro h
      have : signOf .float raw ≠ 0 := fun hz => h (BitVec.eq_of_toNat_eq (by rw [e1, hz]; rfl))
      omega
    · intro h hz
      rw [hz, h] at e1
      exact absurd e1 (by decide)
  have hexpr : ((expOf .float raw : Nat) : Int) - 127 = partsExponent raw := by
    rw [parts_exponent, (C43_get .float raw).2.2.1]
    rfl
  refine ⟨hneg, ?_, ?_, fun hle => ?_⟩
  · unfold partsRawSignificand
    rw [BitVec.and_comm]
    exact and_low raw 0x007FFFFF#32 23 (by decide)
  · have h2 : ((partsRawExponent raw).toNat : Int) - 127 = partsExponent raw := rfl
    rw [← hexpr] at h2
    generalize (partsRawExponent raw).toNat = x at h2 ⊢
    generalize expOf .float raw = y at h2 ⊢
    omega
  · have hlo : 0 ≤ ((expOf .float raw : Nat) : Int) := Int.natCast_nonneg _
    have hp : (0 : Rat) < 2 ^ partsExponent raw := by positivity
    have h2 : (2 : Rat) ≠ 0 := by norm_num
    obtain ⟨z1, z2⟩ := fields_two .float
    have hset : value .float (setExponent .float (two .float) (-partsExponent raw)) = 2 ^ (-partsExponent raw) :=
      value_setExponent .float (two .float) z1 z2 _ (by show -127 < _; omega) (by show _ ≤ (127 : Int); omega)
    have habs : partsSignificand raw * 2 ^ partsExponent raw = (if value .float raw < 0 then -value .float raw else value .float raw) := by
      unfold partsSignificand
      dsimp only
      rw [hset]
      by_cases hl : partsExponent raw < 0
      · rw [if_pos hl, mul_assoc, ← zpow_add₀ h2, neg_add_cancel, zpow_zero, mul_one]
      · have he0 : partsExponent raw = 0 := by omega
        rw [if_neg hl, he0]
        simp
    have hval : value .float raw = (if signOf .float raw = 1 then -1 else 1) *
        (if expOf .float raw = 0 then (sigOf .float raw : Rat) * 2 ^ (1 - exponentBias .float - sigBits .float)
          else (2 ^ sigBits .float + sigOf .float raw : Rat) * 2 ^ ((expOf .float raw : Int) - exponentBias .float - sigBits .float)) := rfl
    have hmag : 0 ≤ (if expOf .float raw = 0 then (sigOf .float raw : Rat) * 2 ^ (1 - exponentBias .float - sigBits .float)
          else (2 ^ sigBits .float + sigOf .float raw : Rat) * 2 ^ ((expOf .float raw : Int) - exponentBias .float - sigBits .float)) := by
      split <;> positivity
    rw [mul_assoc, habs]
    generalize (if expOf .float raw = 0 then (sigOf .float raw : Rat) * 2 ^ (1 - exponentBias .float - sigBits .float)
          else (2 ^ sigBits .float + sigOf .float raw : Rat) * 2 ^ ((expOf .float raw : Int) - exponentBias .float - sigBits .float)) = m
      at hval hmag
    by_cases hs : signOf .float raw = 1
    · rw [if_pos hs] at hval
      rw [if_pos (hneg.mpr hs), hval]
      by_cases hm : m = 0
      · rw [hm]; simp
      · have : 0 < m := lt_of_le_of_ne hmag (Ne.symm hm)
        rw [if_pos (by linarith)]
        ring
    · rw [if_neg hs] at hval
      have hf : partsIsNegative raw = false := by
        cases h : partsIsNegative raw
        · rfl
        · exact absurd (hneg.mp h) hs
      rw [hf, hval]
      simp only [Bool.false_eq_true, if_false, one_mul]
      rw [if_neg (by linarith)]

example : partsSignificand 0xBE800000#32 = 1 := by
  have h := (C260_parts_partial 0xBE800000#32).2.2.2 (by decide)
  have hv : value .float 0xBE800000#32 = -(1 / 4) := by
    show (if (1 : Nat) = 1 then (-1 : Rat) else 1) * (if (125 : Nat) = 0 then _ else (2 ^ 23 + ((0 : Nat) : Rat)) * 2 ^ ((125 : Int) - 127 - 23)) = _
    norm_num
  have he : partsExponent 0xBE800000#32 = -2 := by decide
  have hn : partsIsNegative 0xBE800000#32 = true := by decide
  rw [hv, he, hn] at h
  norm_num at h
  linarith

/-- For larger numbers `significand` multiplies where it should divide: it gives 64 for 8, which has significand one and exponent three.
`sign_bit` is true for numbers without sign. -/
theorem C260_parts_violated :
    (partsExponent 0x41000000#32 = 3 ∧ value .float 0x41000000#32 = 8 ∧ partsSignificand 0x41000000#32 = 64) ∧
      ∀ raw : BitVec 32, partsSignBit raw = true ↔ signOf .float raw = 0 := by
  refine ⟨⟨by decide, ?_, ?_⟩, fun raw => ?_⟩
  · show (if (0 : Nat) = 1 then (-1 : Rat) else 1) * (if (130 : Nat) = 0 then _ else (2 ^ 23 + ((0 : Nat) : Rat)) * 2 ^ ((130 : Int) - 127 - 23)) = _
    norm_num
  · have hv : value .float 0x41000000#32 = 8 := by
      show (if (0 : Nat) = 1 then (-1 : Rat) else 1) *
        (if (130 : Nat) = 0 then _ else (2 ^ 23 + ((0 : Nat) : Rat)) * 2 ^ ((130 : Int) - 127 - 23)) = _
      norm_num
    have he : partsExponent 0x41000000#32 = 3 := by decide
    obtain ⟨z1, z2⟩ := fields_two .float
    unfold partsSignificand
    dsimp only
    rw [hv, he, if_neg (by norm_num), if_neg (by norm_num), value_setExponent .float (two .float) z1 z2 (-3) (by decide) (by decide)]
    norm_num
  · have h := (C260_parts_partial raw).1
    have h2 := (fields .float raw).2.2.2
    unfold partsIsNegative at h
    constructor
    · intro hb
      rw [hb] at h
      simp at h
      omega
    · intro hz
      rw [hz] at h
      simpa using h

/-! ## adj_ulp -/

/-- `adj_ulp`, daw_cxmath.h 1222-1236: on the bits; `-adj` overflows for the least `int`. -/
def adjUlp (d : BitVec 64) (adj : Int) : Cxx (BitVec 64) :=
  if adj = -2147483648 then ub
  else if adj < 0 then pure (d - BitVec.ofNat 64 adj.natAbs)
  else pure (d + BitVec.ofNat 64 adj.natAbs)

/-- Positive finite numbers are in the order of their bits. -/
theorem value_mono (a b : BitVec 64) (h : a.toNat < b.toNat) (hb : b.toNat < 0x7FF0000000000000) :
    value .double a < value .double b := by
  obtain ⟨ha1, ha2, ha3, ha4⟩ := fields .double a
  obtain ⟨hb1, hb2, hb3, hb4⟩ := fields .double b
  have hsb : signOf .double b = 0 := by unfold signOf; simp only [sigBits, expBits]; omega
  have hsa : signOf .double a = 0 := by unfold signOf; simp only [sigBits, expBits]; omega
  have hva : value .double a = (if expOf .double a = 0 then (sigOf .double a : Rat) * 2 ^ (-1074 : Int)
      else (2 ^ 52 + sigOf .double a : Rat) * 2 ^ ((expOf .double a : Int) - 1075)) := by
    unfold value
    rw [hsa, if_neg (by decide), one_mul]
    simp only [exponentBias, sigBits]
    norm_num
    split
    · rfl
    · congr 2
      omega
  have hvb : value .double b = (if expOf .double b = 0 then (sigOf .double b : Rat) * 2 ^ (-1074 : Int)
      else (2 ^ 52 + sigOf .double b : Rat) * 2 ^ ((expOf .double b : Int) - 1075)) := by
    unfold value
    rw [hsb, if_neg (by decide), one_mul]
    simp only [exponentBias, sigBits]
    norm_num
    split
    · rfl
    · congr 2
      omega
  have h2 : (2 : Rat) ≠ 0 := by norm_num
  rw [hva, hvb]
  simp only [sigBits, expBits] at *
  rw [hsa] at ha1
  rw [hsb] at hb1
  generalize sigOf .double a = sa at *
  generalize sigOf .double b = sb at *
  generalize expOf .double a = ea at *
  generalize expOf .double b = eb at *
  have hle : ea < eb ∨ (ea = eb ∧ sa < sb) := by omega
  rcases hle with hle | ⟨rfl, hs⟩
  · have hb0 : eb ≠ 0 := by omega
    rw [if_neg hb0]
    have hsa' : (sa : Rat) < 2 ^ 52 := by exact_mod_cast ha2
    have hsb' : (0 : Rat) ≤ (sb : Rat) := by positivity
    -- both below and above the power of two between them
    have hbound : (if ea = 0 then (sa : Rat) * 2 ^ (-1074 : Int) else (2 ^ 52 + sa : Rat) * 2 ^ ((ea : Int) - 1075)) <
        2 ^ 52 * 2 ^ ((eb : Int) - 1075) := by
      obtain ⟨k, hk⟩ : ∃ k : Nat, eb = ea + 1 + k := ⟨eb - ea - 1, by omega⟩
      have hmul : (2 : Rat) ^ ((eb : Int) - 1075) = 2 ^ ((ea : Int) + 1 - 1075) * 2 ^ k := by
        rw [← zpow_natCast, ← zpow_add₀ h2]
        congr 1
        omega
      have h1k : (1 : Rat) ≤ 2 ^ k := one_le_pow₀ (by norm_num)
      have hpos : (0 : Rat) < 2 ^ ((ea : Int) + 1 - 1075) := by positivity
      have hge : (2 : Rat) ^ ((ea : Int) + 1 - 1075) ≤ 2 ^ ((eb : Int) - 1075) := by rw [hmul]; nlinarith
      split
      · rename_i h0
        subst h0
        have : ((0 : Nat) : Int) + 1 - 1075 = -1074 := by norm_num
        rw [this] at hge
        have hp' : (0 : Rat) < 2 ^ (-1074 : Int) := by positivity
        nlinarith
      · have hd : (2 : Rat) ^ ((ea : Int) + 1 - 1075) = 2 * 2 ^ ((ea : Int) - 1075) := by
          rw [show (ea : Int) + 1 - 1075 = 1 + ((ea : Int) - 1075) by omega, zpow_add₀ h2, zpow_one]
        have hp' : (0 : Rat) < 2 ^ ((ea : Int) - 1075) := by positivity
        rw [hd] at hge
        nlinarith
    have hp : (0 : Rat) < 2 ^ ((eb : Int) - 1075) := by positivity
    nlinarith
  · have hs' : (sa : Rat) < (sb : Rat) := by exact_mod_cast hs
    split
    · have hp : (0 : Rat) < 2 ^ (-1074 : Int) := by positivity
      nlinarith
    · have hp : (0 : Rat) < 2 ^ ((ea : Int) - 1075) := by positivity
      nlinarith

/-- For positive finite numbers `adj_ulp` counts numbers up or down: the bits are next to each other, and no number is between neighbours. -/
theorem C261_adj_ulp_partial (d : BitVec 64) (adj : Int) (hadj : -2147483648 < adj) (hd : d.toNat < 0x7FF0000000000000)
    (hlo : 0 ≤ (d.toNat : Int) + adj) (hhi : (d.toNat : Int) + adj < 0x7FF0000000000000) :
    ∃ u : BitVec 64, adjUlp d adj = pure u ∧ (u.toNat : Int) = d.toNat + adj ∧
      (0 < adj → value .double d < value .double u) ∧ (adj < 0 → value .double u < value .double d) ∧
      (adj = 1 → ∀ w : BitVec 64, w.toNat < 0x7FF0000000000000 → ¬ (value .double d < value .double w ∧ value .double w < value .double u)) := by
  have hnat : ∃ u : BitVec 64, adjUlp d adj = pure u ∧ (u.toNat : Int) = d.toNat + adj := by
    unfold adjUlp
    rw [if_neg (by omega)]
    by_cases hn : adj < 0
    · rw [if_pos hn]
      refine ⟨_, rfl, ?_⟩
      rw [BitVec.toNat_sub, BitVec.toNat_ofNat]
      have h1 : adj.natAbs % 2 ^ 64 = adj.natAbs := Nat.mod_eq_of_lt (by omega)
      rw [h1]
      omega
    · rw [if_neg hn]
      refine ⟨_, rfl, ?_⟩
      rw [BitVec.toNat_add, BitVec.toNat_ofNat]
      omega
  obtain ⟨u, hu, hun⟩ := hnat
  refine ⟨u, hu, hun, fun h => value_mono d u (by omega) (by omega), fun h => value_mono u d (by omega) hd, ?_⟩
  rintro rfl w hw ⟨h1, h2⟩
  rcases Nat.lt_trichotomy w.toNat d.toNat with h | h | h
  · exact absurd (value_mono w d h hd) (by linarith)
  · rw [BitVec.eq_of_toNat_eq h] at h1
    exact absurd h1 (lt_irrefl _)
  · rcases Nat.lt_or_ge w.toNat u.toNat with h' | h'
    · omega
    · rcases Nat.eq_or_lt_of_le h' with h' | h'
      · rw [BitVec.eq_of_toNat_eq h'] at h2
        exact absurd h2 (lt_irrefl _)
      · exact absurd (value_mono u w h' hw) (by linarith)

example : ∃ u : BitVec 64, adjUlp 0x3FF0000000000000#64 1 = pure u ∧ (u.toNat : Int) = 0x3FF0000000000001 := by
  obtain ⟨u, h1, h2, _⟩ := C261_adj_ulp_partial 0x3FF0000000000000#64 1 (by omega) (by decide) (by decide) (by decide)
  exact ⟨u, h1, by rw [h2]; decide⟩

/-- For negative numbers it counts the other way: one up from minus one is below it.  One down from zero is not a number. -/
theorem C261_adj_ulp_violated :
    (∃ u : BitVec 64, adjUlp 0xBFF0000000000000#64 1 = pure u ∧ value .double u < value .double 0xBFF0000000000000#64) ∧
      (∃ u : BitVec 64, adjUlp 0#64 (-1) = pure u ∧ ieee .double u = .nan) ∧ adjUlp 0#64 (-2147483648) = ub := by
  refine ⟨⟨0xBFF0000000000001#64, by decide, ?_⟩, ⟨0xFFFFFFFFFFFFFFFF#64, by decide, by decide⟩, rfl⟩
  show (if (1 : Nat) = 1 then (-1 : Rat) else 1) * (if (1023 : Nat) = 0 then _ else (2 ^ 52 + ((1 : Nat) : Rat)) * 2 ^ ((1023 : Int) - 1023 - 52)) <
    (if (1 : Nat) = 1 then (-1 : Rat) else 1) * (if (1023 : Nat) = 0 then _ else (2 ^ 52 + ((0 : Nat) : Rat)) * 2 ^ ((1023 : Int) - 1023 - 52))
  norm_num

end Verif.Bits.Float
