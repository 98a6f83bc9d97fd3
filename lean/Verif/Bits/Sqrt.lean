import Verif.Bits.FloatPow
import Verif.Bits.Zeros

/-
The square root of include/daw/daw_cxmath.h, where `bit_cast` is available.
-/

namespace Verif.Bits.Float
open Verif.Bits.Zeros

/-- What `sqrt` can give. (Rule of C++ or its library, no line of the source.) -/
inductive Root where
  | num (q : Rat)
  | nan
  | inf
  deriving DecidableEq

/-- `sqrt2`, daw_cxmath.h 284-286: the constant as `double` and as `float`. -/
def sqrt2 : Real → Rat
  | .double => 6369051672525773 / 4503599627370496
  | .float => 11863283 / 8388608

/-- `fexp3`, daw_cxmath.h 949-959: numbers as they are without rounding. -/
def fexp3 (r : Real) (f : Rat) (exponent oldExponent : Int) : Rat :=
  let diff := exponent - oldExponent
  if diff > 0 then value r (setExponent r (two r) diff) * f
  else f / value r (setExponent r (two r) (-diff))

/-- The rounds of `sqrt_fast` for the number `f`, daw_cxmath.h 1089-1100: numbers as they are without rounding. -/
def sqrtRounds (r : Real) (f : Rat) : Rat :=
  let y0 := 41731 / 100000 + 59016 / 100000 * f
  let y0 := 5 / 10 * (y0 + f / y0)
  let y0 := if r ≠ .float then 5 / 10 * (y0 + f / y0) else y0
  let z := y0 + f / y0
  let y2 := 25 / 100 * z + f / z
  5 / 10 * (y2 + f / y2)

/-- `sqrt_fast`, daw_cxmath.h 1070-1106: numbers as they are without rounding; division rounds to zero. -/
def sqrtFast (r : Real) (v : BitVec r.width) : Rat :=
  let n := getExponent r v
  let f := fexp3 r (value r v) 0 n
  let y := sqrtRounds r f
  if isOdd (BitVec.ofInt 32 n) then y / sqrt2 r * value r (pow2Real r ((n + 1).tdiv 2))
  else y * value r (pow2Real r (n.tdiv 2))

/-- `sqrt`, daw_cxmath.h 1108-1124. -/
def sqrt (r : Real) (v : BitVec r.width) : Root :=
  match classify r v with
  | .zero => .num 0
  | .nan => .nan
  | .infinity => .inf
  | .subnormal => .num (sqrtFast r v)
  | .normal => .num (sqrtFast r v)

/-- A round of Newton's method. (Specification, no line of the source.) -/
def newton (f y : Rat) : Rat := (y + f / y) / 2

/-- The rounds of the source are four rounds of Newton's method, and five for `double`. -/
theorem sqrtRounds_eq (r : Real) (f : Rat) :
    sqrtRounds r f = newton f (newton f (newton f ((if r ≠ .float then newton f else id)
      (newton f (41731 / 100000 + 59016 / 100000 * f))))) := by
  have h1 : ∀ y : Rat, (5 / 10 : Rat) * (y + f / y) = newton f y := fun y => by unfold newton; ring
  have h2 : ∀ y : Rat, (25 / 100 : Rat) * (y + f / y) + f / (y + f / y) = newton f (newton f y) := by
    intro y
    have hy : y + f / y = 2 * newton f y := by unfold newton; ring
    rw [hy]
    generalize newton f y = w
    unfold newton
    by_cases hw : w = 0
    · subst hw; simp
    · field_simp
      ring
  unfold sqrtRounds
  simp only [h1]
  rw [h2]
  cases r <;> rfl

/-- A round squares the error: if `y²` is `f` with at most `a` more of it, afterwards it is with at most `a²/4`. -/
theorem newton_step (f y a : Rat) (hf : 0 < f) (hy : 0 < y) (h1 : f ≤ y ^ 2) (h2 : y ^ 2 ≤ f * (1 + a)) :
    0 < newton f y ∧ f ≤ newton f y ^ 2 ∧ newton f y ^ 2 ≤ f * (1 + a ^ 2 / 4) := by
  have hsq : newton f y ^ 2 = f + (y ^ 2 - f) ^ 2 / (4 * y ^ 2) := by
    unfold newton
    field_simp
    ring
  have hpos : 0 < newton f y := by unfold newton; positivity
  have h0 : 0 ≤ (y ^ 2 - f) ^ 2 / (4 * y ^ 2) := by positivity
  refine ⟨hpos, by rw [hsq]; linarith, ?_⟩
  rw [hsq]
  have h3 : (y ^ 2 - f) ^ 2 / (4 * y ^ 2) ≤ f * (a ^ 2 / 4) := by
    rw [div_le_iff₀ (by positivity)]
    have hd0 : 0 ≤ y ^ 2 - f := by linarith
    have hd1 : y ^ 2 - f ≤ f * a := by linarith
    have hd2 : (y ^ 2 - f) ^ 2 ≤ (f * a) ^ 2 := pow_le_pow_left₀ hd0 hd1 2
    have hfa : 0 ≤ f * a ^ 2 := by positivity
    nlinarith
  linarith

/-- The rounds come to the root of a number from one to two. -/
theorem sqrtRounds_close (r : Real) (f : Rat) (h1 : 1 ≤ f) (h2 : f < 2) :
    0 < sqrtRounds r f ∧ f ≤ sqrtRounds r f ^ 2 ∧ sqrtRounds r f ^ 2 ≤ f * (1 + 1 / 2 ^ 58) := by
  have hf : 0 < f := by linarith
  have s0 : 0 < (41731 / 100000 + 59016 / 100000 * f : Rat) := by positivity
  have s1 : f ≤ (41731 / 100000 + 59016 / 100000 * f : Rat) ^ 2 := by nlinarith
  have s2 : (41731 / 100000 + 59016 / 100000 * f : Rat) ^ 2 ≤ f * (1 + 28 / 100) := by nlinarith
  obtain ⟨a0, a1, a2⟩ := newton_step f _ _ hf s0 s1 s2
  have mono : ∀ (y a b : Rat), a ≤ b → y ^ 2 ≤ f * (1 + a) → y ^ 2 ≤ f * (1 + b) := by
    intro y a b hab hy
    nlinarith
  replace a2 := mono _ _ (2 / 100) (by norm_num) a2
  rw [sqrtRounds_eq]
  cases r
  · obtain ⟨b0, b1, b2⟩ := newton_step f _ _ hf a0 a1 a2
    obtain ⟨c0, c1, c2⟩ := newton_step f _ _ hf b0 b1 b2
    obtain ⟨d0, d1, d2⟩ := newton_step f _ _ hf c0 c1 c2
    exact ⟨d0, d1, mono _ _ _ (by norm_num) d2⟩
  · obtain ⟨b0, b1, b2⟩ := newton_step f _ _ hf a0 a1 a2
    obtain ⟨c0, c1, c2⟩ := newton_step f _ _ hf b0 b1 b2
    obtain ⟨d0, d1, d2⟩ := newton_step f _ _ hf c0 c1 c2
    obtain ⟨e0, e1, e2⟩ := newton_step f _ _ hf d0 d1 d2
    exact ⟨e0, e1, mono _ _ _ (by norm_num) e2⟩

/-- A positive normal number is a number from one to two times the power of two that its exponent says. -/
theorem value_split (r : Real) (v : BitVec r.width) (hn : ieee r v = .normal) (hp : signOf r v = 0) :
    ∃ f : Rat, 1 ≤ f ∧ f < 2 ∧ value r v = f * 2 ^ getExponent r v ∧ 1 - exponentBias r ≤ getExponent r v ∧ getExponent r v ≤ exponentBias r := by
  obtain ⟨_, hs, he, _⟩ := fields r v
  have hne : expOf r v ≠ 0 ∧ expOf r v ≠ 2 ^ expBits r - 1 := by
    unfold ieee at hn
    constructor
    · intro h; rw [if_pos h] at hn; split at hn <;> exact absurd hn (by decide)
    · intro h
      rw [if_neg (by rw [h]; cases r <;> decide), if_pos h] at hn
      split at hn <;> exact absurd hn (by decide)
  have h43 := (C43_get r v).2.2.1
  have hbias : ((2 ^ (expBits r - 1) - 1 : Nat) : Int) = exponentBias r := by cases r <;> rfl
  have hlast : ((2 ^ expBits r : Nat) : Int) = 2 * exponentBias r + 2 := by cases r <;> rfl
  have h2 : (2 : Rat) ≠ 0 := by norm_num
  have hs' : (sigOf r v : Rat) < 2 ^ sigBits r := by exact_mod_cast hs
  have hpp : (0 : Rat) < 2 ^ sigBits r := by positivity
  refine ⟨(2 ^ sigBits r + sigOf r v : Rat) / 2 ^ sigBits r, ?_, ?_, ?_, by omega, by omega⟩
  · rw [le_div_iff₀ hpp]
    have : (0 : Rat) ≤ sigOf r v := by positivity
    linarith
  · rw [div_lt_iff₀ hpp]
    linarith
  · unfold value
    rw [hp, if_neg (by decide), one_mul, if_neg hne.1]
    have hz : (2 : Rat) ^ ((expOf r v : Int) - exponentBias r - sigBits r) = 2 ^ getExponent r v / 2 ^ sigBits r := by
      rw [zpow_sub₀ h2, zpow_natCast]
      congr 2
      omega
    rw [hz]
    ring

theorem fexp3_eq (r : Real) (f : Rat) (n : Int) (hlo : -exponentBias r ≤ n) (hhi : n ≤ exponentBias r) : fexp3 r f 0 n = f * 2 ^ (-n) := by
  obtain ⟨z1, z2⟩ := fields_two r
  have hb : 0 < exponentBias r := by cases r <;> decide
  unfold fexp3
  dsimp only
  by_cases h : 0 - n > 0
  · rw [if_pos h, value_setExponent r (two r) z1 z2 (0 - n) (by omega) (by omega), zero_sub]
    ring
  · rw [if_neg h, show -(0 - n) = n by omega, value_setExponent r (two r) z1 z2 n (by omega) (by omega), zpow_neg, div_eq_mul_inv]

theorem odd_iff (n : Int) : isOdd (BitVec.ofInt 32 n) = true ↔ n % 2 = 1 := by
  rw [C90_is_odd (by decide), BitVec.toNat_ofInt]
  omega

/-- The square root of a positive normal number, in arithmetic without rounding, is right to the last bit: its square differs from the number by
no more than the part of it that one unit of the significand is.  Zero, infinity and NaN give themselves. -/
theorem C262_sqrt_partial (r : Real) (v : BitVec r.width) :
    (ieee r v = .normal → signOf r v = 0 →
      ∃ q, sqrt r v = .num q ∧ 0 < q ∧ |q ^ 2 - value r v| ≤ value r v / 2 ^ sigBits r) ∧
    (ieee r v = .zero → sqrt r v = .num 0 ∧ value r v = 0) ∧
    (ieee r v = .infinity → sqrt r v = .inf) ∧ (ieee r v = .nan → sqrt r v = .nan) := by
  refine ⟨fun hn hp => ?_, fun h => ⟨?_, ?_⟩, fun h => ?_, fun h => ?_⟩
  · refine ⟨sqrtFast r v, ?_, ?_⟩
    · unfold sqrt
      rw [C43_classify, hn]
    · obtain ⟨f, hf1, hf2, hv, hlo, hhi⟩ := value_split r v hn hp
      have h2 : (2 : Rat) ≠ 0 := by norm_num
      have hb : 5 < exponentBias r ∧ exponentBias r < 2000 := by cases r <;> decide
      have hmin : minExponent r = 2 - exponentBias r := by cases r <;> rfl
      have hmax : maxExponent r = exponentBias r + 1 := by cases r <;> rfl
      have hfe : fexp3 r (value r v) 0 (getExponent r v) = f := by
        rw [fexp3_eq r _ _ (by omega) hhi, hv, mul_assoc, ← zpow_add₀ h2, add_neg_cancel, zpow_zero, mul_one]
      obtain ⟨y0, y1, y2⟩ := sqrtRounds_close r f hf1 hf2
      unfold sqrtFast
      dsimp only
      rw [hfe]
      generalize sqrtRounds r f = y at y0 y1 y2 ⊢
      generalize hN : getExponent r v = n at hv hlo hhi hfe ⊢
      rw [hv]
      have hP : (0 : Rat) < 2 ^ n := by positivity
      by_cases hodd : n % 2 = 1
      · rw [if_pos ((odd_iff n).mpr hodd)]
        obtain ⟨k, hk⟩ : ∃ k, n + 1 = 2 * k := ⟨(n + 1) / 2, by omega⟩
        have hk2 : (n + 1).tdiv 2 = k := by rw [hk, Int.mul_tdiv_cancel_left _ (by decide)]
        rw [hk2, ((C257_pow2_partial r k).1 (by omega) (by omega)).1]
        have hkk : ((2 : Rat) ^ k) ^ 2 = 2 * 2 ^ n := by
          rw [← zpow_natCast, ← zpow_mul, ← zpow_one_add₀ h2]
          congr 1
          push_cast
          omega
        have hs0 : 0 < sqrt2 r := by cases r <;> norm_num [sqrt2]
        have hkp : (0 : Rat) < 2 ^ k := by positivity
        refine ⟨by positivity, ?_⟩
        have hq : (y / sqrt2 r * 2 ^ k) ^ 2 = y ^ 2 * (2 / sqrt2 r ^ 2) * 2 ^ n := by
          rw [mul_pow, div_pow, hkk]
          field_simp
        rw [hq]
        -- the constant is the root of two to the last bit
        have hc1 : 1 - 3 / 4 / 2 ^ sigBits r ≤ 2 / sqrt2 r ^ 2 := by cases r <;> norm_num [sqrt2, sigBits]
        have hc2 : 2 / sqrt2 r ^ 2 ≤ 1 + 3 / 4 / 2 ^ sigBits r := by cases r <;> norm_num [sqrt2, sigBits]
        have he : (1 + 1 / 2 ^ 58) * (1 + 3 / 4 / 2 ^ sigBits r) ≤ 1 + 1 / (2 : Rat) ^ sigBits r := by cases r <;> norm_num [sigBits]
        have he2 : 3 / 4 / (2 : Rat) ^ sigBits r ≤ 1 / 2 ^ sigBits r := by cases r <;> norm_num [sigBits]
        have hc0 : 0 < 2 / sqrt2 r ^ 2 := by positivity
        generalize 2 / sqrt2 r ^ 2 = c at hc0 hc1 hc2 ⊢
        have u1 : y ^ 2 * c ≤ f * (1 + 1 / 2 ^ sigBits r) := by
          calc y ^ 2 * c ≤ (f * (1 + 1 / 2 ^ 58)) * (1 + 3 / 4 / 2 ^ sigBits r) := by
                apply mul_le_mul y2 hc2 hc0.le; positivity
            _ = f * ((1 + 1 / 2 ^ 58) * (1 + 3 / 4 / 2 ^ sigBits r)) := by ring
            _ ≤ _ := mul_le_mul_of_nonneg_left he (by linarith)
        have u2 : f * (1 - 1 / 2 ^ sigBits r) ≤ y ^ 2 * c := by
          calc f * (1 - 1 / 2 ^ sigBits r) ≤ f * c := mul_le_mul_of_nonneg_left (by linarith) (by linarith)
            _ ≤ y ^ 2 * c := mul_le_mul_of_nonneg_right y1 hc0.le
        rw [abs_le]
        have e1 : f * 2 ^ n / 2 ^ sigBits r = f * (1 / 2 ^ sigBits r) * 2 ^ n := by ring
        rw [e1]
        constructor <;> nlinarith
      · have hev : ¬ (isOdd (BitVec.ofInt 32 n) = true) := fun h => hodd ((odd_iff n).mp h)
        rw [if_neg hev]
        obtain ⟨k, hk⟩ : ∃ k, n = 2 * k := ⟨n / 2, by omega⟩
        have hk2 : n.tdiv 2 = k := by rw [hk, Int.mul_tdiv_cancel_left _ (by decide)]
        rw [hk2, ((C257_pow2_partial r k).1 (by omega) (by omega)).1]
        have hkk : ((2 : Rat) ^ k) ^ 2 = 2 ^ n := by
          rw [← zpow_natCast, ← zpow_mul]
          congr 1
          push_cast
          omega
        have hkp : (0 : Rat) < 2 ^ k := by positivity
        refine ⟨by positivity, ?_⟩
        rw [mul_pow, hkk]
        have he : (1 : Rat) / 2 ^ 58 ≤ 1 / 2 ^ sigBits r := by cases r <;> norm_num [sigBits]
        have u1 : y ^ 2 ≤ f * (1 + 1 / 2 ^ sigBits r) := y2.trans (mul_le_mul_of_nonneg_left (by linarith) (by linarith))
        have hnn : 0 ≤ f * 2 ^ n / 2 ^ sigBits r := by positivity
        have e1 : f * 2 ^ n / 2 ^ sigBits r = f * (1 / 2 ^ sigBits r) * 2 ^ n := by ring
        rw [abs_le]
        constructor
        · nlinarith
        · rw [e1]
          nlinarith
  · unfold sqrt
    rw [C43_classify, h]
  · have hz : expOf r v = 0 ∧ sigOf r v = 0 := by
      unfold ieee at h
      by_cases h0 : expOf r v = 0
      · rw [if_pos h0] at h
        by_cases h1 : sigOf r v = 0
        · exact ⟨h0, h1⟩
        · rw [if_neg h1] at h; exact absurd h (by decide)
      · rw [if_neg h0] at h
        split at h
        · split at h <;> exact absurd h (by decide)
        · exact absurd h (by decide)
    unfold value
    rw [if_pos hz.1, hz.2]
    simp
  · unfold sqrt
    rw [C43_classify, h]
  · unfold sqrt
    rw [C43_classify, h]

example : ∃ q, sqrt .double 0x4024000000000000#64 = .num q ∧ 0 < q ∧
    |q ^ 2 - value .double 0x4024000000000000#64| ≤ value .double 0x4024000000000000#64 / 2 ^ 52 :=
  (C262_sqrt_partial .double 0x4024000000000000#64).1 (by decide) (by decide)

theorem newton_half (f y : Rat) (hf : 0 < f) (hy : 0 < y) : 0 < newton f y ∧ y / 2 ≤ newton f y := by
  have h : 0 < f / y := by positivity
  unfold newton
  constructor <;> linarith

/-- For numbers below the normal ones the first guess is far away and the rounds do not come near: the square of the root of the least
number is more than 2^30 times that number.  The root of minus one is a number instead of NaN, and that of minus infinity infinity. -/
theorem C262_sqrt_violated :
    (∃ q, sqrt .double 1#64 = .num q ∧ q ^ 2 > 2 ^ 30 * value .double 1#64) ∧
      (∃ q, sqrt .double 0xBFF0000000000000#64 = .num q ∧ q < 0) ∧ sqrt .double 0xFFF0000000000000#64 = .inf := by
  have h2 : (2 : Rat) ≠ 0 := by norm_num
  refine ⟨⟨sqrtFast .double 1#64, rfl, ?_⟩, ⟨sqrtFast .double 0xBFF0000000000000#64, rfl, ?_⟩, rfl⟩
  · have hv : value .double 1#64 = 2 ^ (-1074 : Int) := by
      show (if (0 : Nat) = 1 then (-1 : Rat) else 1) * (if (0 : Nat) = 0 then ((1 : Nat) : Rat) * 2 ^ (1 - (1023 : Int) - 52) else _) = _
      rw [if_neg (by decide), if_pos rfl, one_mul, Nat.cast_one, one_mul]
      congr 1
    have hN : getExponent .double 1#64 = -1023 := by decide
    have hf : fexp3 .double (value .double 1#64) 0 (-1023) = 2 ^ (-51 : Int) := by
      rw [fexp3_eq .double _ _ (by decide) (by decide), hv, ← zpow_add₀ h2]
      congr 1
    unfold sqrtFast
    dsimp only
    rw [hN, hf, if_pos (by decide), show ((-1023 : Int) + 1).tdiv 2 = -511 by decide,
      ((C257_pow2_partial .double (-511)).1 (by decide) (by decide)).1]
    have hfp : (0 : Rat) < 2 ^ (-51 : Int) := by positivity
    have hy : 41 / 3200 ≤ sqrtRounds .double (2 ^ (-51 : Int)) := by
      rw [sqrtRounds_eq]
      simp only [ne_eq, reduceCtorEq, not_false_eq_true, if_true]
      have g0 : 0 < (41731 / 100000 + 59016 / 100000 * 2 ^ (-51 : Int) : Rat) := by positivity
      obtain ⟨a0, a1⟩ := newton_half _ _ hfp g0
      obtain ⟨b0, b1⟩ := newton_half _ _ hfp a0
      obtain ⟨c0, c1⟩ := newton_half _ _ hfp b0
      obtain ⟨d0, d1⟩ := newton_half _ _ hfp c0
      obtain ⟨_, e1⟩ := newton_half _ _ hfp d0
      linarith
    generalize sqrtRounds .double (2 ^ (-51 : Int)) = y at hy ⊢
    have hs : (141 / 100 : Rat) < sqrt2 .double ∧ sqrt2 .double < 142 / 100 := by norm_num [sqrt2]
    have hq : 9 / 1000 ≤ y / sqrt2 .double := by
      rw [le_div_iff₀ (by linarith)]
      linarith
    generalize y / sqrt2 .double = w at hq ⊢
    rw [hv, mul_pow]
    have e1 : ((2 : Rat) ^ (-511 : Int)) ^ 2 = 2 ^ (52 : Nat) * 2 ^ (-1074 : Int) := by
      rw [← zpow_natCast, ← zpow_natCast, ← zpow_mul, ← zpow_add₀ h2]
      congr 1
    rw [e1]
    have hp : (0 : Rat) < 2 ^ (-1074 : Int) := by positivity
    have hw : (81 / 1000000 : Rat) ≤ w ^ 2 := by nlinarith
    generalize (2 : Rat) ^ (-1074 : Int) = p at hp ⊢
    have h1 : (2 : Rat) ^ 30 * p < 81 / 1000000 * (2 ^ 52 * p) := by nlinarith
    have h3 : (81 / 1000000 : Rat) * (2 ^ 52 * p) ≤ w ^ 2 * (2 ^ 52 * p) := mul_le_mul_of_nonneg_right hw (by positivity)
    exact lt_of_lt_of_le h1 h3
  · have hv : value .double 0xBFF0000000000000#64 = -1 := by
      show (if (1 : Nat) = 1 then (-1 : Rat) else 1) *
        (if (1023 : Nat) = 0 then _ else (2 ^ 52 + ((0 : Nat) : Rat)) * 2 ^ ((1023 : Int) - 1023 - 52)) = _
      norm_num
    have hN : getExponent .double 0xBFF0000000000000#64 = 0 := by decide
    unfold sqrtFast
    dsimp only
    rw [hN, fexp3_eq .double _ 0 (by decide) (by decide), hv, if_neg (by decide), show (0 : Int).tdiv 2 = 0 by decide,
      ((C257_pow2_partial .double 0).1 (by decide) (by decide)).1]
    unfold sqrtRounds
    dsimp only
    simp only [ne_eq, reduceCtorEq, not_false_eq_true, if_true]
    norm_num

/-! ## signbit -/

/-- `signbit` of a floating point number, daw_cxmath.h 1176-1180: a NaN is not less than zero. -/
def signbit (r : Real) (v : BitVec r.width) : Bool :=
  match classify r v with
  | .nan => false
  | .infinity => decide (v = negInf r)
  | _ => decide (value r v < 0)

/-- `signbit` tells the sign of all numbers that are not zero. -/
theorem C263_signbit_partial (r : Real) (v : BitVec r.width) (hn : ieee r v ≠ .nan) (hz : ieee r v ≠ .zero) :
    signbit r v = true ↔ signOf r v = 1 := by
  have hsg := (fields r v).2.2.2
  unfold signbit
  rw [C43_classify]
  have hfin : ieee r v = .normal ∨ ieee r v = .subnormal → (decide (value r v < 0) = true ↔ signOf r v = 1) := by
    intro hc
    rw [decide_eq_true_iff]
    have hmag : 0 < (if expOf r v = 0 then (sigOf r v : Rat) * 2 ^ (1 - exponentBias r - sigBits r)
        else (2 ^ sigBits r + sigOf r v : Rat) * 2 ^ ((expOf r v : Int) - exponentBias r - sigBits r)) := by
      by_cases h0 : expOf r v = 0
      · rw [if_pos h0]
        have hs : sigOf r v ≠ 0 := by
          intro hs
          apply hz
          unfold ieee
          rw [if_pos h0, if_pos hs]
        have : (0 : Rat) < sigOf r v := by exact_mod_cast Nat.pos_of_ne_zero hs
        positivity
      · rw [if_neg h0]
        positivity
    unfold value
    generalize (if expOf r v = 0 then (sigOf r v : Rat) * 2 ^ (1 - exponentBias r - sigBits r)
        else (2 ^ sigBits r + sigOf r v : Rat) * 2 ^ ((expOf r v : Int) - exponentBias r - sigBits r)) = m at hmag
    by_cases h1 : signOf r v = 1
    · rw [if_pos h1]
      exact ⟨fun _ => h1, fun _ => by linarith⟩
    · rw [if_neg h1]
      exact ⟨fun h => by linarith, fun h => absurd h h1⟩
  cases hc : ieee r v with
  | nan => exact absurd hc hn
  | zero => exact absurd hc hz
  | normal => exact hfin (Or.inl hc)
  | subnormal => exact hfin (Or.inr hc)
  | infinity =>
    show decide (v = negInf r) = true ↔ _
    rw [decide_eq_true_iff]
    have hf : expOf r v = 2 ^ expBits r - 1 ∧ sigOf r v = 0 := by
      unfold ieee at hc
      by_cases h0 : expOf r v = 0
      · rw [if_pos h0] at hc; split at hc <;> exact absurd hc (by decide)
      · rw [if_neg h0] at hc
        by_cases h1 : expOf r v = 2 ^ expBits r - 1
        · rw [if_pos h1] at hc
          by_cases h2 : sigOf r v = 0
          · exact ⟨h1, h2⟩
          · rw [if_neg h2] at hc; exact absurd hc (by decide)
        · rw [if_neg h1] at hc; exact absurd hc (by decide)
    constructor
    · rintro rfl
      cases r <;> decide
    · intro h1
      apply BitVec.eq_of_toNat_eq
      have hv := (fields r v).1
      rw [hf.1, hf.2, h1] at hv
      rw [hv]
      cases r <;> rfl

example : signbit .float 0x80000001#32 = true := (C263_signbit_partial .float 0x80000001#32 (by decide) (by decide)).mpr (by decide)

/-- It is false for negative zero and for a NaN with the sign. -/
theorem C263_signbit_violated (r : Real) :
    (∀ v, ieee r v = .nan → signbit r v = false) ∧ (∀ v, ieee r v = .zero → signbit r v = false) ∧
      ∃ v, ieee r v = .zero ∧ signOf r v = 1 := by
  refine ⟨fun v h => ?_, fun v h => ?_, ?_⟩
  · unfold signbit
    rw [C43_classify, h]
  · unfold signbit
    rw [C43_classify, h]
    show decide (value r v < 0) = false
    rw [((C262_sqrt_partial r v).2.1 h).2]
    decide
  · cases r
    · exact ⟨0x80000000#32, by decide, by decide⟩
    · exact ⟨0x8000000000000000#64, by decide, by decide⟩

end Verif.Bits.Float
