import Verif.Base
import Verif.Containers.Lists
import Mathlib.Tactic.Linarith
import Mathlib.Tactic.FieldSimp
import Mathlib.Tactic.NormNum
import Mathlib.Data.Rat.Floor
import Mathlib.Algebra.Order.Field.Basic

/-
Rounding and comparison of floating point numbers, include/daw/daw_math.h, in rational arithmetic.
-/

namespace Verif.Bits.Rounding
open Cxx

/-- What a conversion to an integral type does with a number: the part behind the point is dropped. (Rule of C++ or its library, no line of the source.) -/
def trunc (q : Rat) : Int := if 0 ≤ q then ⌊q⌋ else ⌈q⌉

/-- `static_cast` to an integral type with these bounds; it is undefined if the type does not have the number.
(Rule of C++ or its library, no line of the source.) -/
def castTo (lo hi : Int) (q : Rat) : Cxx Int := if lo ≤ trunc q ∧ trunc q ≤ hi then pure (trunc q) else ub

/-- `round`, daw_math.h 46-60: numbers as they are without rounding. -/
def round (lo hi : Int) (d : Rat) : Cxx Int := castTo lo hi (d + 5 / 10)

/-- `floor`, daw_math.h 62-76. -/
def floor (lo hi : Int) (d : Rat) : Cxx Int := castTo lo hi d

/-- `ceil`, daw_math.h 78-92: numbers as they are without rounding. -/
def ceil (lo hi : Int) (d : Rat) : Cxx Int := castTo lo hi (d + 1)

/-- `round_by`, daw_math.h 94-102, for a floating point type; a division by zero gives no number that an integral type has.  Numbers as they
are without rounding. -/
def roundBy (value by' : Rat) : Cxx Rat :=
  if by' = 0 then ub
  else do
    let rnd ← round (-9223372036854775808) 9223372036854775807 (value / by')
    pure ((rnd : Rat) * by')

/-- `floor_by`, daw_math.h 104-112, likewise. -/
def floorBy (value by' : Rat) : Cxx Rat :=
  if by' = 0 then ub
  else do
    let rnd ← floor (-9223372036854775808) 9223372036854775807 (value / by')
    pure ((rnd : Rat) * by')

/-- `ceil_by`, daw_math.h 114-122, likewise. -/
def ceilBy (value by' : Rat) : Cxx Rat :=
  if by' = 0 then ub
  else do
    let rnd ← ceil (-9223372036854775808) 9223372036854775807 (value / by')
    pure ((rnd : Rat) * by')

theorem castTo_pure (lo hi : Int) (q : Rat) (n : Int) (h : castTo lo hi q = pure n) : n = trunc q := by
  unfold castTo at h
  split at h
  · exact (Cxx.pure_inj.mp h).symm
  · exact absurd h (ub_ne_pure n)

theorem castTo_in (lo hi : Int) (q : Rat) (h : lo ≤ trunc q ∧ trunc q ≤ hi) : castTo lo hi q = pure (trunc q) := if_pos h

theorem trunc_nonneg (q : Rat) (h : 0 ≤ q) : (trunc q : Rat) ≤ q ∧ q < trunc q + 1 := by
  unfold trunc
  rw [if_pos h]
  exact ⟨Int.floor_le q, Int.lt_floor_add_one q⟩

theorem trunc_neg (q : Rat) (h : q < 0) : q ≤ (trunc q : Rat) ∧ (trunc q : Rat) < q + 1 := by
  unfold trunc
  rw [if_neg (by linarith)]
  exact ⟨Int.le_ceil q, Int.ceil_lt_add_one q⟩

/-- From minus one half on, `round` gives the nearest integer, and that above of two; `floor` gives the floor of numbers from zero on and of
integers; `ceil` gives the ceiling of numbers above minus one that are not integers. -/
theorem C264_rounding_partial (lo hi : Int) (d : Rat) (n : Int) :
    (round lo hi d = pure n → -1 / 2 ≤ d → (n : Rat) - 1 / 2 ≤ d ∧ d < n + 1 / 2) ∧
    (floor lo hi d = pure n → (0 ≤ d ∨ ∃ z : Int, d = z) → (n : Rat) ≤ d ∧ d < n + 1) ∧
    (ceil lo hi d = pure n → -1 < d → (∀ z : Int, d ≠ z) → (n : Rat) - 1 < d ∧ d ≤ n) := by
  refine ⟨fun h hd => ?_, fun h hd => ?_, fun h hd hz => ?_⟩
  · rw [castTo_pure lo hi _ n h]
    obtain ⟨h1, h2⟩ := trunc_nonneg (d + 5 / 10) (by linarith)
    constructor <;> linarith
  · rw [castTo_pure lo hi _ n h]
    by_cases h0 : 0 ≤ d
    · exact trunc_nonneg d h0
    · rcases hd with hd | ⟨z, rfl⟩
      · exact absurd hd h0
      · have : trunc (z : Rat) = z := by
          unfold trunc
          rw [if_neg h0, Int.ceil_intCast]
        rw [this]
        exact ⟨le_rfl, by linarith⟩
  · rw [castTo_pure lo hi _ n h]
    obtain ⟨h1, h2⟩ := trunc_nonneg (d + 1) (by linarith)
    refine ⟨?_, by linarith⟩
    have hne : d ≠ ((trunc (d + 1) - 1 : Int) : Rat) := hz _
    push_cast at hne
    rcases lt_or_eq_of_le (by linarith : ((trunc (d + 1) : Rat)) - 1 ≤ d) with h3 | h3
    · exact h3
    · exact absurd h3.symm hne

example : ∃ n : Int, round (-2147483648) 2147483647 (7 / 2) = pure n ∧ (n : Rat) - 1 / 2 ≤ 7 / 2 ∧ (7 / 2 : Rat) < n + 1 / 2 :=
  ⟨4, by decide +kernel, (C264_rounding_partial (-2147483648) 2147483647 (7 / 2) 4).1 (by decide +kernel) (by norm_num)⟩

/-- For all other numbers they are wrong: `round` is not nearest for numbers below minus one half, if they are not half way between integers;
`floor` is above negative numbers that are not integers; `ceil` is one too large for integers, and below minus one. -/
theorem C264_rounding_violated (lo hi : Int) (d : Rat) (n : Int) :
    (round lo hi d = pure n → d < -1 / 2 → (∀ z : Int, d + 1 / 2 ≠ z) → (n : Rat) > d + 1 / 2) ∧
    (floor lo hi d = pure n → d < 0 → (∀ z : Int, d ≠ z) → d < (n : Rat)) ∧
    (ceil lo hi d = pure n → (d < -1 ∨ ∃ z : Int, d = z) → n = ⌈d⌉ + 1) := by
  refine ⟨fun h hd hz => ?_, fun h hd hz => ?_, fun h hd => ?_⟩
  · rw [castTo_pure lo hi _ n h]
    obtain ⟨h1, _⟩ := trunc_neg (d + 5 / 10) (by linarith)
    rcases lt_or_eq_of_le h1 with h3 | h3
    · linarith
    · exact absurd (by linarith) (hz (trunc (d + 5 / 10)))
  · rw [castTo_pure lo hi _ n h]
    obtain ⟨h1, _⟩ := trunc_neg d hd
    rcases lt_or_eq_of_le h1 with h3 | h3
    · exact h3
    · exact absurd h3 (hz (trunc d))
  · rw [castTo_pure lo hi _ n h]
    unfold trunc
    rcases hd with hd | ⟨z, rfl⟩
    · rw [if_neg (by linarith), Int.ceil_add_one]
    · split
      · rw [Int.floor_add_one, Int.floor_intCast, Int.ceil_intCast]
      · rw [Int.ceil_add_one]

example : round (-2147483648) 2147483647 (-6 / 5) = pure 0 ∧ floor (-2147483648) 2147483647 (-6 / 5) = pure (-1) ∧
    ceil (-2147483648) 2147483647 2 = pure 3 := by decide +kernel

/-- The functions end in a number if the integral type has what they give, and are undefined otherwise. -/
theorem C264_range (lo hi : Int) (q : Rat) :
    (lo ≤ trunc q ∧ trunc q ≤ hi → floor lo hi q = pure (trunc q)) ∧ (¬ (lo ≤ trunc q ∧ trunc q ≤ hi) → floor lo hi q = ub) :=
  ⟨fun h => castTo_in lo hi q h, fun h => if_neg h⟩

example : floor (-2147483648) 2147483647 2147483648 = ub :=
  (C264_range (-2147483648) 2147483647 2147483648).2 (by decide +kernel)

/-- `floor_by` gives, for quotients from zero on, a multiple that is at most the value and by less than the step; `round_by` the nearest
multiple; `ceil_by` that above, if the quotient is not an integer. -/
theorem C265_by_partial (value by' r : Rat) (hb : 0 < by') (hv : 0 ≤ value) :
    (floorBy value by' = pure r → (∃ k : Int, r = k * by') ∧ r ≤ value ∧ value < r + by') ∧
    (roundBy value by' = pure r → (∃ k : Int, r = k * by') ∧ r - by' / 2 ≤ value ∧ value < r + by' / 2) ∧
    (ceilBy value by' = pure r → (∀ z : Int, value ≠ z * by') → (∃ k : Int, r = k * by') ∧ r - by' < value ∧ value ≤ r) := by
  have hq : 0 ≤ value / by' := div_nonneg hv hb.le
  have hb0 : by' ≠ 0 := hb.ne'
  have hvq : value = value / by' * by' := by field_simp
  refine ⟨fun h => ?_, fun h => ?_, fun h hz => ?_⟩
  · unfold floorBy at h
    rw [if_neg hb0] at h
    obtain ⟨n, hn, h2⟩ := bind_eq_pure.mp h
    obtain rfl := Cxx.pure_inj.mp h2
    obtain ⟨a, b⟩ := (C264_rounding_partial _ _ _ n).2.1 hn (Or.inl hq)
    refine ⟨⟨n, rfl⟩, ?_, ?_⟩
    · exact (le_div_iff₀ hb).mp a
    · have := (div_lt_iff₀ hb).mp b
      linarith
  · unfold roundBy at h
    rw [if_neg hb0] at h
    obtain ⟨n, hn, h2⟩ := bind_eq_pure.mp h
    obtain rfl := Cxx.pure_inj.mp h2
    obtain ⟨a, b⟩ := (C264_rounding_partial _ _ _ n).1 hn (by linarith)
    refine ⟨⟨n, rfl⟩, ?_, ?_⟩
    · have := (le_div_iff₀ hb).mp a
      linarith
    · have := (div_lt_iff₀ hb).mp b
      linarith
  · unfold ceilBy at h
    rw [if_neg hb0] at h
    obtain ⟨n, hn, h2⟩ := bind_eq_pure.mp h
    obtain rfl := Cxx.pure_inj.mp h2
    obtain ⟨a, b⟩ := (C264_rounding_partial _ _ _ n).2.2 hn (by linarith) (fun z hh => hz z (by rw [← hh]; exact hvq))
    refine ⟨⟨n, rfl⟩, ?_, ?_⟩
    · have := (lt_div_iff₀ hb).mp a
      linarith
    · exact (div_le_iff₀ hb).mp b

example : (∃ k : Int, (12 : Rat) = k * 3) ∧ (12 : Rat) - 3 / 2 ≤ 11 ∧ (11 : Rat) < 12 + 3 / 2 :=
  (C265_by_partial 11 3 12 (by norm_num) (by norm_num)).2.1 (by decide +kernel)

/-- `ceil_by` of a multiple gives the next one, and a step of zero is undefined. -/
theorem C265_by_violated :
    ceilBy 6 3 = pure 9 ∧ (∀ v : Rat, roundBy v 0 = ub ∧ floorBy v 0 = ub ∧ ceilBy v 0 = ub) ∧ floorBy (-1) 2 = pure 0 :=
  ⟨by decide +kernel, fun _ => ⟨rfl, rfl, rfl⟩, by decide +kernel⟩

/-! ## nearly_equal -/

/-- A floating point number. (Rule of C++ or its library, no line of the source.) -/
inductive FVal where
  | num (q : Rat)
  | pinf
  | ninf
  | nan
  deriving DecidableEq

/-- `<` of floating point numbers. (Rule of C++ or its library, no line of the source.) -/
def FVal.lt : FVal → FVal → Bool
  | .num a, .num b => decide (a < b)
  | .num _, .pinf => true
  | .ninf, .num _ => true
  | .ninf, .pinf => true
  | _, _ => false

/-- `==` of floating point numbers. (Rule of C++ or its library, no line of the source.) -/
def FVal.eq : FVal → FVal → Bool
  | .num a, .num b => decide (a = b)
  | .pinf, .pinf => true
  | .ninf, .ninf => true
  | _, _ => false

/-- Unary minus of floating point numbers. (Rule of C++ or its library, no line of the source.) -/
def FVal.neg : FVal → FVal
  | .num a => .num (-a)
  | .pinf => .ninf
  | .ninf => .pinf
  | .nan => .nan

/-- `+` of floating point numbers, as numbers are without rounding and overflow. (Rule of C++ or its library, no line of the source.) -/
def FVal.add : FVal → FVal → FVal
  | .num a, .num b => .num (a + b)
  | .num _, .pinf => .pinf
  | .num _, .ninf => .ninf
  | .pinf, .num _ => .pinf
  | .ninf, .num _ => .ninf
  | .pinf, .pinf => .pinf
  | .ninf, .ninf => .ninf
  | _, _ => .nan

/-- `/` of floating point numbers by a positive finite one, as numbers are without rounding and overflow; other divisors are not needed.
(Rule of C++ or its library, no line of the source.) -/
def FVal.div : FVal → FVal → FVal
  | .num a, .num b => .num (a / b)
  | .pinf, .num _ => .pinf
  | .ninf, .num _ => .ninf
  | _, _ => .nan

/-- `abs` of a type that is not integral, daw_math.h 124-128. -/
def FVal.abs (t : FVal) : FVal := if t.lt (.num 0) then t.neg else t

/-- `nearly_equal` of floating point numbers, daw_math.h 252-285; `maxValue` is the largest number of the type and `minExponent` its negative
`min_exponent`. -/
def nearlyEqual (maxValue : Rat) (minExponent : Int) (a b : FVal) (epsilon : Rat) : Bool :=
  if !a.eq a then (if !b.eq b then true else false)
  else if !b.eq b then false
  else
    let absA := a.abs
    let absB := b.abs
    let diff := (a.add b.neg).abs
    if !diff.eq diff then true
    else if a.eq b then true
    else if a.eq (.num 0) || b.eq (.num 0) || diff.lt (.num minExponent) then diff.lt (.num (epsilon * minExponent))
    else
      let sum := absA.add absB
      let least := if (FVal.num maxValue).lt sum then .num maxValue else sum
      (diff.div least).lt (.num epsilon)

theorem abs_num (q : Rat) : (FVal.num q).abs = .num |q| := by
  unfold FVal.abs FVal.lt
  by_cases h : q < 0
  · simp only [h, decide_true, if_true, FVal.neg]
    rw [abs_of_neg h]
  · simp only [h, decide_false, Bool.false_eq_true, if_false]
    rw [abs_of_nonneg (by linarith)]

theorem abs_pinf : FVal.pinf.abs = .pinf := rfl

theorem abs_ninf : FVal.ninf.abs = .pinf := rfl

/-- What `nearly_equal` says of two numbers. -/
theorem nearlyEqual_num (M : Rat) (m : Int) (hm : m ≤ 0) (p q eps : Rat) (he : 0 ≤ eps) :
    nearlyEqual M m (.num p) (.num q) eps = true ↔
      p = q ∨ (p ≠ 0 ∧ q ≠ 0 ∧ |p - q| / (if M < |p| + |q| then M else |p| + |q|) < eps) := by
  have hm' : (m : Rat) ≤ 0 := by exact_mod_cast hm
  have hself : ∀ x : Rat, (FVal.num x).eq (.num x) = true := fun x => by simp [FVal.eq]
  have hdiff : ((FVal.num p).add (FVal.num q).neg).abs = .num |p - q| := by
    show (FVal.num (p + -q)).abs = _
    rw [abs_num, sub_eq_add_neg]
  unfold nearlyEqual
  simp only [hself, Bool.not_true, Bool.false_eq_true, if_false, hdiff, abs_num]
  by_cases hpq : p = q
  · subst hpq
    simp [hself]
  · have hne : (FVal.num p).eq (.num q) = false := by simp [FVal.eq, hpq]
    rw [hne, if_neg (by decide)]
    have hlt : (FVal.num |p - q|).lt (.num (m : Rat)) = false := by
      have := abs_nonneg (p - q)
      simp only [FVal.lt, decide_eq_false_iff_not]
      linarith
    rw [hlt, Bool.or_false]
    by_cases h0 : p = 0 ∨ q = 0
    · have hc : ((FVal.num p).eq (.num 0) || (FVal.num q).eq (.num 0)) = true := by
        rcases h0 with h0 | h0 <;> simp [FVal.eq, h0]
      rw [hc, if_pos rfl]
      constructor
      · intro h
        have h1 : |p - q| < eps * m := by simpa [FVal.lt] using h
        have h2 := abs_nonneg (p - q)
        have h3 : eps * (m : Rat) ≤ 0 := mul_nonpos_of_nonneg_of_nonpos he hm'
        linarith
      · rintro (h | ⟨h1, h2, _⟩)
        · exact absurd h hpq
        · rcases h0 with h0 | h0
          · exact absurd h0 h1
          · exact absurd h0 h2
    · have hp0 : p ≠ 0 := fun h => h0 (Or.inl h)
      have hq0 : q ≠ 0 := fun h => h0 (Or.inr h)
      have hc : ((FVal.num p).eq (.num 0) || (FVal.num q).eq (.num 0)) = false := by simp [FVal.eq, hp0, hq0]
      rw [hc, if_neg (by decide)]
      have hl : (if (FVal.num M).lt ((FVal.num |p|).add (FVal.num |q|)) = true then FVal.num M else (FVal.num |p|).add (FVal.num |q|)) =
          .num (if M < |p| + |q| then M else |p| + |q|) := by
        show (if (decide (M < |p| + |q|)) = true then FVal.num M else FVal.num (|p| + |q|)) = _
        by_cases hM : M < |p| + |q|
        · rw [if_pos (by simpa using hM), if_pos hM]
        · rw [if_neg (by simpa using hM), if_neg hM]
      rw [hl]
      show decide (|p - q| / _ < eps) = true ↔ _
      rw [decide_eq_true_iff]
      exact ⟨fun h => Or.inr ⟨hp0, hq0, h⟩, fun h => h.elim (fun h => absurd h hpq) (fun h => h.2.2)⟩

/-- `nearly_equal` of numbers that are not zero holds if they are equal or differ by less than the part `epsilon` of the sum of their
magnitudes; it does not depend on the order of the arguments, and every floating point number is nearly equal to itself. -/
theorem C266_nearly_equal_partial (M : Rat) (m : Int) (hm : m ≤ 0) (eps : Rat) (he : 0 ≤ eps) :
    (∀ p q : Rat, p ≠ 0 → q ≠ 0 → |p| + |q| ≤ M →
      (nearlyEqual M m (.num p) (.num q) eps = true ↔ p = q ∨ |p - q| < eps * (|p| + |q|))) ∧
    (∀ a b : FVal, nearlyEqual M m a b eps = nearlyEqual M m b a eps) ∧ (∀ a : FVal, nearlyEqual M m a a eps = true) ∧
    (∀ q : Rat, nearlyEqual M m .pinf (.num q) eps = false ∧ nearlyEqual M m .nan (.num q) eps = false) := by
  refine ⟨fun p q hp hq hM => ?_, fun a b => ?_, fun a => ?_, fun q => ⟨?_, by simp [nearlyEqual, FVal.eq]⟩⟩
  · rw [nearlyEqual_num M m hm p q eps he, if_neg (by linarith)]
    have hpos : 0 < |p| + |q| := add_pos (abs_pos.mpr hp) (abs_pos.mpr hq)
    rw [div_lt_iff₀ hpos]
    constructor
    · rintro (h | ⟨_, _, h⟩)
      · exact Or.inl h
      · exact Or.inr h
    · rintro (h | h)
      · exact Or.inl h
      · exact Or.inr ⟨hp, hq, h⟩
  · cases a with
    | num p =>
      cases b with
      | num q =>
        have h : nearlyEqual M m (.num p) (.num q) eps = true ↔ nearlyEqual M m (.num q) (.num p) eps = true := by
          rw [nearlyEqual_num M m hm p q eps he, nearlyEqual_num M m hm q p eps he, abs_sub_comm, add_comm |p| |q|]
          constructor
          · rintro (h | ⟨h1, h2, h3⟩)
            · exact Or.inl h.symm
            · exact Or.inr ⟨h2, h1, h3⟩
          · rintro (h | ⟨h1, h2, h3⟩)
            · exact Or.inl h.symm
            · exact Or.inr ⟨h2, h1, h3⟩
        exact Bool.eq_iff_iff.mpr h
      | pinf => simp [nearlyEqual, FVal.eq, abs_num, abs_pinf, abs_ninf, FVal.add, FVal.neg, FVal.lt, FVal.div]
      | ninf => simp [nearlyEqual, FVal.eq, abs_num, abs_pinf, abs_ninf, FVal.add, FVal.neg, FVal.lt, FVal.div]
      | nan => simp [nearlyEqual, FVal.eq]
    | pinf => cases b <;> simp [nearlyEqual, FVal.eq, abs_num, abs_pinf, abs_ninf, FVal.add, FVal.neg, FVal.lt, FVal.div]
    | ninf => cases b <;> simp [nearlyEqual, FVal.eq, abs_num, abs_pinf, abs_ninf, FVal.add, FVal.neg, FVal.lt, FVal.div]
    | nan => cases b <;> simp [nearlyEqual, FVal.eq]
  · cases a with
    | num p => exact (nearlyEqual_num M m hm p p eps he).mpr (Or.inl rfl)
    | pinf => rfl
    | ninf => rfl
    | nan => rfl
  · simp [nearlyEqual, FVal.eq, abs_num, abs_pinf, FVal.add, FVal.neg, FVal.lt, FVal.div]

example : nearlyEqual 1000000 (-1021) (.num 1000) (.num 1001) (1 / 1000) = true :=
  ((C266_nearly_equal_partial 1000000 (-1021) (by omega) (1 / 1000) (by norm_num)).1 1000 1001 (by norm_num) (by norm_num)
    (by norm_num)).mpr (Or.inr (by norm_num))

/-- Zero is not nearly equal to any other number, however small and for any `epsilon`: the exponent is used as if it were the least number. -/
theorem C266_nearly_equal_violated (M : Rat) (m : Int) (hm : m ≤ 0) (q eps : Rat) (he : 0 ≤ eps) (hq : q ≠ 0) :
    nearlyEqual M m (.num 0) (.num q) eps = false := by
  rw [Bool.eq_false_iff]
  intro h
  rcases (nearlyEqual_num M m hm 0 q eps he).mp h with h | ⟨h, _⟩
  · exact hq h.symm
  · exact h rfl

example : nearlyEqual 1000000 (-1021) (.num 0) (.num (1 / 1000000)) (1 / 10) = false :=
  C266_nearly_equal_violated 1000000 (-1021) (by omega) (1 / 1000000) (1 / 10) (by norm_num) (by norm_num)

end Verif.Bits.Rounding
