import Verif.Base
import Verif.Bits.Reverse

/-
The parts of floating point numbers, include/daw/daw_cxmath.h, on their bits.  `float` and `double` are IEEE-754 binary32 and
binary64, as the code asserts.
-/

namespace Verif.Bits.Float
open Cxx

/-- `float` or `double`. (Rule of C++ or its library, no line of the source.) -/
inductive Real where
  | float
  | double
  deriving DecidableEq

/-- The number of bits of `unsigned_float_type_t`, daw_cxmath.h 45-65. -/
abbrev Real.width : Real → Nat
  | .float => 32
  | .double => 64

/-- `significand_mask_v`, daw_cxmath.h 67-75. -/
def significandMask : (r : Real) → BitVec r.width
  | .double => 0x000FFFFFFFFFFFFF#64
  | .float => 0x007FFFFF#32

/-- `exponent_mask_v`, daw_cxmath.h 80-88. -/
def exponentMask : (r : Real) → BitVec r.width
  | .double => 0x7FF0000000000000#64
  | .float => 0x7F800000#32

/-- `exponent_bias_v`, daw_cxmath.h 93-100. -/
def exponentBias : Real → Int
  | .double => 1023
  | .float => 127

/-- `exponent_start_bit_v`, daw_cxmath.h 102-109. -/
def exponentStart : Real → Nat
  | .double => 52
  | .float => 23

/-- `sign_start_bit_v`, daw_cxmath.h 111-118. -/
def signStart : Real → Nat
  | .double => 63
  | .float => 31

/-- `sign_mask_v`, daw_cxmath.h 120-128. -/
def signMask : (r : Real) → BitVec r.width
  | .double => 0x8000000000000000#64
  | .float => 0x80000000#32

/-- `get_significand_impl`, daw_cxmath.h 137-142. -/
def getSignificand (r : Real) (d : BitVec r.width) : BitVec r.width := d &&& significandMask r

/-- `set_significand_impl`, daw_cxmath.h 144-153. -/
def setSignificand (r : Real) (d sig : BitVec r.width) : BitVec r.width := (d &&& ~~~significandMask r) ||| sig

/-- `get_raw_exponent_impl`, daw_cxmath.h 155-161. -/
def getRawExponent (r : Real) (d : BitVec r.width) : BitVec r.width := d &&& exponentMask r

/-- `set_raw_exponent_impl`, daw_cxmath.h 163-171. -/
def setRawExponent (r : Real) (d exp : BitVec r.width) : BitVec r.width := (d &&& ~~~exponentMask r) ||| exp

/-- `get_exponent_impl`, daw_cxmath.h 173-181. -/
def getExponent (r : Real) (d : BitVec r.width) : Int := ((d &&& exponentMask r) >>> exponentStart r).toNat - exponentBias r

/-- The bits of the number one. (Rule of C++ or its library, no line of the source.) -/
def one : (r : Real) → BitVec r.width
  | .double => 0x3FF0000000000000#64
  | .float => 0x3F800000#32

/-- `set_exponent_impl`, daw_cxmath.h 183-196. -/
def setExponent (r : Real) (d : BitVec r.width) (exp : Int) : BitVec r.width :=
  if exp = 0 then one r
  else (d &&& ~~~exponentMask r) ||| (BitVec.ofInt r.width (exp + exponentBias r) <<< exponentStart r)

/-- `get_sign_raw_impl`, daw_cxmath.h 198-203. -/
def getSignRaw (r : Real) (d : BitVec r.width) : BitVec r.width := d &&& signMask r

/-- `set_sign_raw_impl`, daw_cxmath.h 205-213. -/
def setSignRaw (r : Real) (d sign : BitVec r.width) : BitVec r.width := (d &&& ~~~signMask r) ||| sign

/-- `get_sign_impl`, daw_cxmath.h 215-220. -/
def getSign (r : Real) (d : BitVec r.width) : BitVec r.width := (d &&& signMask r) >>> signStart r

/-- `set_sign_impl`, daw_cxmath.h 222-228. -/
def setSign (r : Real) (d sign : BitVec r.width) : BitVec r.width := setSignRaw r d (sign <<< signStart r)

/-- `is_nan_impl`, daw_cxmath.h 230-236. -/
def isNanImpl (r : Real) (d : BitVec r.width) : Bool := d &&& exponentMask r == exponentMask r && getSignificand r d != 0

/-- `is_zero_impl`, daw_cxmath.h 238-244. -/
def isZeroImpl (r : Real) (d : BitVec r.width) : Bool := !isNanImpl r d && getSignificand r d == 0

/-- `fp_classes`, daw_cxmath.h 40. -/
inductive Class where
  | normal
  | zero
  | subnormal
  | nan
  | infinity
  deriving DecidableEq

/-- `fp_classify_impl( UInt32 )`, daw_cxmath.h 246-261. -/
def classify32 (v : BitVec 32) : Class :=
  let v := v &&& 0x7FFFFFFF#32
  if v = 0 then .zero
  else if v < 0x800000#32 then .subnormal
  else if v > 0x7F800000#32 then .nan
  else if v = 0x7F800000#32 then .infinity
  else .normal

/-- `fp_classify_impl( UInt64 )`, daw_cxmath.h 263-281. -/
def classify64 (v : BitVec 64) : Class :=
  let lx := (v &&& 0x00000000FFFFFFFF#64).truncate 32
  let hx := (v >>> 32).truncate 32
  let lx := lx ||| (hx &&& 0x000FFFFF#32)
  let hx := hx &&& 0x7FF00000#32
  if hx ||| lx = 0 then .zero
  else if hx = 0 then .subnormal
  else if hx = 0x7FF00000#32 then (if lx ≠ 0 then .nan else .infinity)
  else .normal

/-- `fp_classify`, daw_cxmath.h 962-967. -/
def classify : (r : Real) → BitVec r.width → Class
  | .float, v => classify32 v
  | .double, v => classify64 v

/-- `is_nan`, daw_cxmath.h 969-977, where `bit_cast` is available. -/
def isNan (r : Real) (v : BitVec r.width) : Bool := classify r v == .nan

/-- `is_inf`, daw_cxmath.h 1239-1248, where `bit_cast` is available. -/
def isInf (r : Real) (v : BitVec r.width) : Bool := classify r v == .infinity

/-- `is_finite`, daw_cxmath.h 1258-1275, where `bit_cast` is available. -/
def isFinite (r : Real) (v : BitVec r.width) : Bool :=
  match classify r v with
  | .infinity | .nan => false
  | .zero | .subnormal | .normal => true

/-- `copy_sign( Real, Real )`, daw_cxmath.h 1162-1173. -/
def copySign (r : Real) (number sign : BitVec r.width) : BitVec r.width := setSignRaw r number (getSignRaw r sign)

/-- `abs( Real )` on the bits, daw_cxmath.h 1028-1047, in constant evaluation. -/
def abs (r : Real) (number : BitVec r.width) : BitVec r.width := setSign r number 0

/-- `float_parts_t::is_nan`, daw_cxmath.h 899-901. -/
def partsIsNan (raw : BitVec 32) : Bool := raw == 0x7FC00000#32

/-! ### IEEE-754 -/

/-- The number of bits of the significand, without the hidden one. (Rule of C++ or its library, no line of the source.) -/
abbrev sigBits : Real → Nat
  | .float => 23
  | .double => 52

/-- The number of bits of the exponent. (Rule of C++ or its library, no line of the source.) -/
abbrev expBits : Real → Nat
  | .float => 8
  | .double => 11

/-- The significand field. (Rule of C++ or its library, no line of the source.) -/
def sigOf (r : Real) (v : BitVec r.width) : Nat := v.toNat % 2 ^ sigBits r

/-- The exponent field. (Rule of C++ or its library, no line of the source.) -/
def expOf (r : Real) (v : BitVec r.width) : Nat := v.toNat / 2 ^ sigBits r % 2 ^ expBits r

/-- The sign field. (Rule of C++ or its library, no line of the source.) -/
def signOf (r : Real) (v : BitVec r.width) : Nat := v.toNat / 2 ^ (sigBits r + expBits r)

/-- The classes of IEEE-754 by the fields. (Specification, no line of the source.) -/
def ieee (r : Real) (v : BitVec r.width) : Class :=
  if expOf r v = 0 then (if sigOf r v = 0 then .zero else .subnormal)
  else if expOf r v = 2 ^ expBits r - 1 then (if sigOf r v = 0 then .infinity else .nan)
  else .normal

/-- The fields make up the number. -/
theorem fields (r : Real) (v : BitVec r.width) :
    v.toNat = sigOf r v + 2 ^ sigBits r * (expOf r v + 2 ^ expBits r * signOf r v) ∧ sigOf r v < 2 ^ sigBits r ∧
    expOf r v < 2 ^ expBits r ∧ signOf r v < 2 := by
  have h := v.isLt
  unfold sigOf expOf signOf
  cases r <;> simp only [sigBits, expBits, Real.width] at * <;> refine ⟨?_, ?_, ?_, ?_⟩ <;> omega

theorem and_low {w : Nat} (v m : BitVec w) (k : Nat) (hm : m.toNat = 2 ^ k - 1) : (v &&& m).toNat = v.toNat % 2 ^ k := by
  rw [BitVec.toNat_and, hm, Nat.and_two_pow_sub_one_eq_mod]

/-- Masking the bits from `k` to `k + n`. -/
theorem and_field {w : Nat} (v m : BitVec w) (k n : Nat) (hm : m.toNat = 2 ^ k * (2 ^ n - 1)) :
    (v &&& m).toNat = 2 ^ k * (v.toNat / 2 ^ k % 2 ^ n) := by
  rw [BitVec.toNat_and, hm]
  apply Nat.eq_of_testBit_eq
  intro i
  rw [Nat.testBit_and, Nat.testBit_two_pow_mul, Nat.testBit_two_pow_mul, Nat.testBit_two_pow_sub_one, Nat.testBit_mod_two_pow,
    Nat.testBit_div_two_pow]
  by_cases hi : k ≤ i
  · rw [decide_eq_true hi, Bool.true_and, Bool.true_and, Bool.and_comm]
    congr 2
    omega
  · rw [decide_eq_false hi]
    simp

theorem sig_eq (r : Real) (d : BitVec r.width) : (getSignificand r d).toNat = sigOf r d := by
  cases r
  · exact and_low d 0x007FFFFF#32 23 (by decide)
  · exact and_low d 0x000FFFFFFFFFFFFF#64 52 (by decide)

theorem raw_eq (r : Real) (d : BitVec r.width) : (d &&& exponentMask r).toNat = 2 ^ sigBits r * expOf r d := by
  cases r
  · exact and_field d 0x7F800000#32 23 8 (by decide)
  · exact and_field d 0x7FF0000000000000#64 52 11 (by decide)

theorem sign_eq (r : Real) (d : BitVec r.width) : (d &&& signMask r).toNat = 2 ^ (sigBits r + expBits r) * signOf r d := by
  have h := d.isLt
  cases r
  · have := and_field d 0x80000000#32 31 1 (by decide)
    refine this.trans ?_
    unfold signOf
    simp only [sigBits, expBits, Real.width] at *
    omega
  · have := and_field d 0x8000000000000000#64 63 1 (by decide)
    refine this.trans ?_
    unfold signOf
    simp only [sigBits, expBits, Real.width] at *
    omega

/-- C43: the accessors return the fields; the exponent without its bias. -/
theorem C43_get (r : Real) (d : BitVec r.width) :
    (getSignificand r d).toNat = sigOf r d ∧ (getRawExponent r d).toNat = 2 ^ sigBits r * expOf r d ∧
    getExponent r d = (expOf r d : Int) - (2 ^ (expBits r - 1) - 1 : Nat) ∧ (getSign r d).toNat = signOf r d ∧
    (getSignRaw r d).toNat = 2 ^ (sigBits r + expBits r) * signOf r d := by
  refine ⟨sig_eq r d, raw_eq r d, ?_, ?_, sign_eq r d⟩
  · unfold getExponent
    rw [BitVec.toNat_ushiftRight, raw_eq, Nat.shiftRight_eq_div_pow, show exponentStart r = sigBits r by cases r <;> rfl,
      Nat.mul_div_cancel_left _ (Nat.pow_pos (by decide))]
    cases r <;> rfl
  · unfold getSign
    rw [BitVec.toNat_ushiftRight, sign_eq, Nat.shiftRight_eq_div_pow, show signStart r = sigBits r + expBits r by cases r <;> rfl,
      Nat.mul_div_cancel_left _ (Nat.pow_pos (by decide))]

/-- The fields of minus two and a half. -/
example : getExponent .float 0xC0200000#32 = 1 ∧ getSign .float 0xC0200000#32 = 1#32 ∧
    getSignificand .float 0xC0200000#32 = 0x200000#32 := by decide

theorem classify64_eq (v : BitVec 64) : classify64 v = ieee .double v := by
  unfold classify64 ieee
  dsimp only
  have hlt := v.isLt
  have hx : ((v >>> 32).truncate 32).toNat = v.toNat / 2 ^ 32 := by
    rw [BitVec.truncate_eq_setWidth, BitVec.toNat_setWidth, BitVec.toNat_ushiftRight, Nat.shiftRight_eq_div_pow]
    omega
  have hl : ((v &&& 0x00000000FFFFFFFF#64).truncate 32).toNat = v.toNat % 2 ^ 32 := by
    rw [BitVec.truncate_eq_setWidth, BitVec.toNat_setWidth, and_low v 0x00000000FFFFFFFF#64 32 (by decide)]
    exact Nat.mod_mod _ _
  have hxl : ((v >>> 32).truncate 32 &&& 0x000FFFFF#32).toNat = v.toNat / 2 ^ 32 % 2 ^ 20 := by
    rw [and_low _ _ 20 (by decide), hx]
  have hxh : ((v >>> 32).truncate 32 &&& 0x7FF00000#32).toNat = 2 ^ 20 * (v.toNat / 2 ^ 32 / 2 ^ 20 % 2 ^ 11) := by
    rw [and_field _ _ 20 11 (by decide), hx]
  generalize (v >>> 32).truncate 32 &&& 0x000FFFFF#32 = xl at *
  generalize (v >>> 32).truncate 32 &&& 0x7FF00000#32 = xh at *
  generalize (v &&& 0x00000000FFFFFFFF#64).truncate 32 = l at *
  simp only [expBits] at *
  have hor : ∀ a b : BitVec 32, a ||| b = 0 ↔ a.toNat = 0 ∧ b.toNat = 0 := by
    intro a b
    rw [← BitVec.toNat_inj, BitVec.toNat_or]
    constructor
    · intro h
      have h : a.toNat ||| b.toNat = 0 := h
      rw [Nat.or_eq_zero_iff] at h
      exact h
    · rintro ⟨h, h'⟩
      rw [h, h']
      rfl
  have hlo : (l ||| xl = 0) ↔ sigOf .double v = 0 := by
    rw [hor, hl, hxl]
    unfold sigOf
    simp only [sigBits]
    omega
  have hhi : (xh = 0) ↔ expOf .double v = 0 := by
    rw [← BitVec.toNat_inj, hxh]
    show _ = 0 ↔ _
    unfold expOf
    simp only [sigBits, expBits]
    omega
  have hfull : (xh = 0x7FF00000#32) ↔ expOf .double v = 2047 := by
    rw [← BitVec.toNat_inj, hxh]
    show _ = 0x7FF00000 ↔ _
    unfold expOf
    simp only [sigBits, expBits]
    omega
  have hzero : (xh ||| (l ||| xl) = 0) ↔ expOf .double v = 0 ∧ sigOf .double v = 0 := by
    rw [hor, ← hhi, ← hlo]
    constructor
    · rintro ⟨h, h'⟩; exact ⟨BitVec.eq_of_toNat_eq h, BitVec.eq_of_toNat_eq h'⟩
    · rintro ⟨h, h'⟩; rw [h, h']; exact ⟨rfl, rfl⟩
  simp only [hzero, hhi, hfull, ne_eq, hlo]
  by_cases he : expOf .double v = 0
  · by_cases hs : sigOf .double v = 0
    · rw [if_pos ⟨he, hs⟩, if_pos he, if_pos hs]
    · rw [if_neg (fun h => hs h.2), if_pos he, if_pos he, if_neg hs]
  · rw [if_neg (fun h => he h.1), if_neg he, if_neg he]
    by_cases hf : expOf .double v = 2047
    · rw [if_pos hf, if_pos (show expOf .double v = 2 ^ 11 - 1 from hf)]
      by_cases hs : sigOf .double v = 0
      · rw [if_neg (fun h => h hs), if_pos hs]
      · rw [if_pos hs, if_neg hs]
    · rw [if_neg hf, if_neg (show ¬ expOf .double v = 2 ^ 11 - 1 from hf)]

/-- C43: `fp_classify` gives the class of IEEE-754 for every pattern. -/
theorem C43_classify (r : Real) (v : BitVec r.width) : classify r v = ieee r v := by
  obtain ⟨h1, h2, h3, h4⟩ := fields r v
  cases r
  · show classify32 v = _
    unfold classify32 ieee
    have hm : (v &&& 0x7FFFFFFF#32).toNat = v.toNat % 2 ^ 31 := and_low v _ 31 (by decide)
    simp only [BitVec.lt_def, gt_iff_lt, ← BitVec.toNat_inj, hm]
    simp only [sigBits, expBits] at *
    generalize sigOf .float v = s at *
    generalize expOf .float v = e at *
    generalize signOf .float v = g at *
    have hmod : v.toNat % 2 ^ 31 = s + 2 ^ 23 * e := by omega
    rw [hmod]
    show (if s + 2 ^ 23 * e = 0 then _ else if s + 2 ^ 23 * e < 0x800000 then _ else if 0x7F800000 < s + 2 ^ 23 * e then _
      else if s + 2 ^ 23 * e = 0x7F800000 then _ else _) = _
    by_cases he : e = 0
    · subst he
      by_cases hs : s = 0
      · subst hs; rfl
      · rw [if_neg (by omega), if_pos (by omega), if_pos rfl, if_neg hs]
    · rw [if_neg (by omega), if_neg (by omega), if_neg he]
      by_cases hf : e = 255
      · subst hf
        by_cases hs : s = 0
        · subst hs; rfl
        · rw [if_pos (by omega), if_pos rfl, if_neg hs]
      · rw [if_neg (by omega), if_neg (by omega), if_neg (by omega)]
  · exact classify64_eq v

example : classify .float 0x00000001#32 = .subnormal ∧ classify .double 0xFFF0000000000000#64 = .infinity ∧
    classify .double 0x7FF0000000000001#64 = .nan := by decide

/-- C43: the predicates built on it. -/
theorem C43_predicates (r : Real) (v : BitVec r.width) :
    (isNan r v = true ↔ expOf r v = 2 ^ expBits r - 1 ∧ sigOf r v ≠ 0) ∧
    (isInf r v = true ↔ expOf r v = 2 ^ expBits r - 1 ∧ sigOf r v = 0) ∧
    (isFinite r v = true ↔ expOf r v ≠ 2 ^ expBits r - 1) := by
  have hne : (0 : Nat) ≠ 2 ^ expBits r - 1 := by cases r <;> decide
  unfold isNan isInf isFinite
  rw [C43_classify]
  unfold ieee
  by_cases he : expOf r v = 0
  · rw [if_pos he, he]
    by_cases hs : sigOf r v = 0
    · rw [if_pos hs]
      refine ⟨⟨fun h => (by cases h), fun h => absurd h.1 hne⟩, ⟨fun h => (by cases h), fun h => absurd h.1 hne⟩, ⟨fun _ => hne, fun _ => rfl⟩⟩
    · rw [if_neg hs]
      refine ⟨⟨fun h => (by cases h), fun h => absurd h.1 hne⟩, ⟨fun h => (by cases h), fun h => absurd h.1 hne⟩, ⟨fun _ => hne, fun _ => rfl⟩⟩
  · rw [if_neg he]
    by_cases hf : expOf r v = 2 ^ expBits r - 1
    · rw [if_pos hf]
      by_cases hs : sigOf r v = 0
      · rw [if_pos hs]
        refine ⟨⟨fun h => (by cases h), fun h => absurd hs h.2⟩, ⟨fun _ => ⟨hf, hs⟩, fun _ => rfl⟩, ⟨fun h => (by cases h), fun h => absurd hf h⟩⟩
      · rw [if_neg hs]
        refine ⟨⟨fun _ => ⟨hf, hs⟩, fun _ => rfl⟩, ⟨fun h => (by cases h), fun h => absurd h.2 hs⟩, ⟨fun h => (by cases h), fun h => absurd hf h⟩⟩
    · rw [if_neg hf]
      refine ⟨⟨fun h => (by cases h), fun h => absurd h.1 hf⟩, ⟨fun h => (by cases h), fun h => absurd h.1 hf⟩, ⟨fun _ => hf, fun _ => rfl⟩⟩

/-- C43: `is_nan_impl` agrees with the class. -/
theorem C43_is_nan_impl (r : Real) (v : BitVec r.width) : isNanImpl r v = isNan r v := by
  obtain ⟨h1, h2, h3, h4⟩ := fields r v
  rw [Bool.eq_iff_iff, (C43_predicates r v).1]
  unfold isNanImpl
  rw [Bool.and_eq_true, beq_iff_eq, bne_iff_ne, ne_eq, ← BitVec.toNat_inj, ← BitVec.toNat_inj, sig_eq, raw_eq]
  have hm : (exponentMask r).toNat = 2 ^ sigBits r * (2 ^ expBits r - 1) := by cases r <;> decide
  have hz : (0 : BitVec r.width).toNat = 0 := by cases r <;> rfl
  rw [hm, hz, Nat.mul_right_inj (Nat.pos_iff_ne_zero.1 (Nat.pow_pos (by decide)))]

/-- C43 does not hold for `is_zero_impl`, which is true for every number whose significand field is zero, one for example, nor
for `float_parts_t::is_nan`, which knows one of the patterns only. -/
theorem C43_is_zero_violated : isZeroImpl .double (one .double) = true ∧ isZeroImpl .float (one .float) = true ∧
    (∀ v, partsIsNan v = true ↔ v = 0x7FC00000#32) ∧ isNan .float 0x7FC00001#32 = true := by
  refine ⟨by decide, by decide, fun v => ?_, by decide⟩
  unfold partsIsNan
  rw [beq_iff_eq]

/-- C43, `is_zero_impl`, as far as it holds: it is true for both zeros, and false if the significand field is not zero. -/
theorem C43_is_zero_partial (r : Real) (v : BitVec r.width) (h : expOf r v = 0) : isZeroImpl r v = true ↔ ieee r v = .zero := by
  have hne : (0 : Nat) ≠ 2 ^ expBits r - 1 := by cases r <;> decide
  have hz : (0 : BitVec r.width).toNat = 0 := by cases r <;> rfl
  have hn : isNanImpl r v = false := by
    rw [C43_is_nan_impl, Bool.eq_false_iff]
    intro hc
    exact hne (h.symm.trans ((C43_predicates r v).1.1 hc).1)
  unfold isZeroImpl ieee
  rw [hn, if_pos h, Bool.not_false, Bool.true_and, beq_iff_eq, ← BitVec.toNat_inj, sig_eq, hz]
  split
  · simp_all
  · simp_all

example := C43_is_zero_partial .float 0x80000000#32 (by decide +kernel)

/-! ### Changing the fields -/

/-- The bits of a masked value combined with others that lie in the mask. -/
theorem set_fields (r : Real) (d d' : BitVec r.width) :
    (sigOf r d' = sigOf r d ↔ ∀ i, i < sigBits r → d'.getLsbD i = d.getLsbD i) ∧
    (expOf r d' = expOf r d ↔ ∀ i, sigBits r ≤ i → i < sigBits r + expBits r → d'.getLsbD i = d.getLsbD i) ∧
    (signOf r d' = signOf r d ↔ d'.getLsbD (sigBits r + expBits r) = d.getLsbD (sigBits r + expBits r)) := by
  refine ⟨⟨fun h i hi => ?_, fun h => ?_⟩, ⟨fun h i h1 h2 => ?_, fun h => ?_⟩, ⟨fun h => ?_, fun h => ?_⟩⟩
  · have := congrArg (·.testBit i) h
    simp only [sigOf, Nat.testBit_mod_two_pow, decide_eq_true hi, Bool.true_and] at this
    exact this
  · apply Nat.eq_of_testBit_eq
    intro i
    unfold sigOf
    rw [Nat.testBit_mod_two_pow, Nat.testBit_mod_two_pow]
    by_cases hi : i < sigBits r
    · rw [show d'.toNat.testBit i = d.toNat.testBit i from h i hi]
    · rw [decide_eq_false hi]; rfl
  · have := congrArg (·.testBit (i - sigBits r)) h
    simp only [expOf, Nat.testBit_mod_two_pow, Nat.testBit_div_two_pow, decide_eq_true (show i - sigBits r < expBits r by omega),
      Bool.true_and, show i - sigBits r + sigBits r = i by omega] at this
    exact this
  · apply Nat.eq_of_testBit_eq
    intro i
    unfold expOf
    rw [Nat.testBit_mod_two_pow, Nat.testBit_mod_two_pow, Nat.testBit_div_two_pow, Nat.testBit_div_two_pow]
    by_cases hi : i < expBits r
    · rw [show d'.toNat.testBit (i + sigBits r) = d.toNat.testBit (i + sigBits r) from h _ (by omega) (by omega)]
    · rw [decide_eq_false hi]; rfl
  · have := congrArg (·.testBit 0) h
    simp only [signOf, Nat.testBit_div_two_pow, Nat.zero_add] at this
    exact this
  · have h : d'.toNat.testBit (sigBits r + expBits r) = d.toNat.testBit (sigBits r + expBits r) := h
    have e1 : ∀ x : BitVec r.width, signOf r x = if x.toNat.testBit (sigBits r + expBits r) then 1 else 0 := by
      intro x
      have hx := (fields r x).2.2.2
      have : x.toNat.testBit (sigBits r + expBits r) = decide (signOf r x % 2 = 1) := by
        unfold signOf
        rw [← Nat.testBit_zero, Nat.testBit_div_two_pow, Nat.zero_add]
      rw [this]
      by_cases h1 : signOf r x = 1
      · rw [h1]; rfl
      · have : signOf r x = 0 := by omega
        rw [this]; rfl
    rw [e1, e1, h]

theorem width_eq (r : Real) : r.width = sigBits r + expBits r + 1 := by cases r <;> rfl

theorem masks (r : Real) (i : Nat) (hi : i < r.width) :
    (significandMask r).getLsbD i = decide (i < sigBits r) ∧
    (exponentMask r).getLsbD i = decide (sigBits r ≤ i ∧ i < sigBits r + expBits r) ∧
    (signMask r).getLsbD i = decide (i = sigBits r + expBits r) := by
  cases r
  · revert i; decide
  · revert i; decide +kernel

/-- C43: setting the significand to a value that fits changes that field only, and to that value. -/
theorem C43_set_significand (r : Real) (d sig : BitVec r.width) (h : sig.toNat < 2 ^ sigBits r) :
    sigOf r (setSignificand r d sig) = sig.toNat ∧ expOf r (setSignificand r d sig) = expOf r d ∧
    signOf r (setSignificand r d sig) = signOf r d := by
  have hw := width_eq r
  have hhi : ∀ i, sigBits r ≤ i → sig.getLsbD i = false := fun i hi =>
    Nat.testBit_lt_two_pow (Nat.lt_of_lt_of_le h (Nat.pow_le_pow_right (by decide) hi))
  have hb : ∀ i, i < r.width → (setSignificand r d sig).getLsbD i = if i < sigBits r then sig.getLsbD i else d.getLsbD i := by
    intro i hi
    unfold setSignificand
    rw [BitVec.getLsbD_or, BitVec.getLsbD_and, BitVec.getLsbD_not, decide_eq_true hi, (masks r i hi).1]
    split
    · rename_i h1; rw [decide_eq_true h1]; simp
    · rename_i h1; rw [decide_eq_false h1, hhi i (by omega)]; simp
  refine ⟨?_, ?_, ?_⟩
  · have := ((set_fields r sig (setSignificand r d sig)).1).2 (fun i hi => by rw [hb i (by omega), if_pos hi])
    rw [this]
    exact Nat.mod_eq_of_lt h
  · exact ((set_fields r d _).2.1).2 (fun i h1 h2 => by rw [hb i (by omega), if_neg (by omega)])
  · exact ((set_fields r d _).2.2).2 (by rw [hb _ (by omega), if_neg (by omega)])

example : setSignificand .float 0xC0200000#32 0x400000#32 = 0xC0400000#32 := by decide

/-- C43: setting the raw exponent to a value inside its field changes that field only, and to that value. -/
theorem C43_set_raw_exponent (r : Real) (d exp : BitVec r.width) (h : exp &&& exponentMask r = exp) :
    getRawExponent r (setRawExponent r d exp) = exp ∧ sigOf r (setRawExponent r d exp) = sigOf r d ∧
    signOf r (setRawExponent r d exp) = signOf r d := by
  have hmask : ∀ m : BitVec r.width, m &&& exponentMask r = 0#_ → setRawExponent r d exp &&& m = d &&& m := by
    intro m hm
    have he : exp &&& m = 0#_ := by
      rw [← h, BitVec.and_assoc, BitVec.and_comm (exponentMask r), hm, BitVec.and_zero]
    apply BitVec.eq_of_getLsbD_eq
    intro i hi
    have h1 := congrArg (fun b : BitVec r.width => b.getLsbD i) hm
    have h2 := congrArg (fun b : BitVec r.width => b.getLsbD i) he
    simp only [BitVec.getLsbD_and, BitVec.getLsbD_zero] at h1 h2
    unfold setRawExponent
    simp only [BitVec.getLsbD_and, BitVec.getLsbD_or, BitVec.getLsbD_not, decide_eq_true hi, Bool.true_and]
    revert h1 h2
    cases m.getLsbD i <;> cases (exponentMask r).getLsbD i <;> cases exp.getLsbD i <;> cases d.getLsbD i <;> simp
  refine ⟨?_, ?_, ?_⟩
  · unfold getRawExponent
    apply BitVec.eq_of_getLsbD_eq
    intro i hi
    have h1 := congrArg (fun b : BitVec r.width => b.getLsbD i) h
    simp only [BitVec.getLsbD_and] at h1
    unfold setRawExponent
    simp only [BitVec.getLsbD_and, BitVec.getLsbD_or, BitVec.getLsbD_not, decide_eq_true hi, Bool.true_and]
    revert h1
    cases (exponentMask r).getLsbD i <;> cases exp.getLsbD i <;> cases d.getLsbD i <;> simp
  · rw [← sig_eq, ← sig_eq]
    unfold getSignificand
    rw [hmask _ (by cases r <;> decide)]
  · have := hmask (signMask r) (by cases r <;> decide)
    have hs := congrArg BitVec.toNat this
    have e1 := sign_eq r (setRawExponent r d exp)
    have e2 := sign_eq r d
    unfold getSignRaw at e1 e2
    rw [hs, e2] at e1
    exact (Nat.mul_right_inj (Nat.pos_iff_ne_zero.1 (Nat.pow_pos (by decide)))).1 e1.symm

example : setRawExponent .float 0xC0200000#32 0x40800000#32 = 0xC0A00000#32 := by decide

/-- C43, setting the exponent, as far as it holds: to a value other than zero that is in range changes that field only, and to
that value.  Missing: zero, see `C43_set_exponent_violated`. -/
theorem C43_set_exponent_partial (r : Real) (d : BitVec r.width) (exp : Int) (h0 : exp ≠ 0) (hlo : 0 ≤ exp + exponentBias r)
    (hhi : exp + exponentBias r < 2 ^ expBits r) :
    getExponent r (setExponent r d exp) = exp ∧ sigOf r (setExponent r d exp) = sigOf r d ∧
    signOf r (setExponent r d exp) = signOf r d := by
  have hw := width_eq r
  obtain ⟨n, hn⟩ : ∃ n : Nat, exp + exponentBias r = n := ⟨(exp + exponentBias r).toNat, by omega⟩
  have hlt : n < 2 ^ expBits r := by
    rw [hn] at hhi
    exact_mod_cast hhi
  have hlt' : n < 2 ^ r.width := Nat.lt_of_lt_of_le hlt (Nat.pow_le_pow_right (by decide) (by omega))
  have hbits : ∀ i, i < r.width → (BitVec.ofInt r.width (n : Int) <<< exponentStart r).getLsbD i =
      (decide (sigBits r ≤ i ∧ i < sigBits r + expBits r) && n.testBit (i - sigBits r)) := by
    intro i hi
    rw [show exponentStart r = sigBits r by cases r <;> rfl, BitVec.getLsbD_shiftLeft, BitVec.ofInt_natCast, BitVec.getLsbD_ofNat,
      decide_eq_true hi, Bool.true_and]
    by_cases h1 : i < sigBits r
    · rw [decide_eq_true h1, decide_eq_false (show ¬ (sigBits r ≤ i ∧ i < sigBits r + expBits r) by omega)]
      rfl
    · rw [decide_eq_false h1, decide_eq_true (show i - sigBits r < r.width by omega)]
      by_cases h2 : i < sigBits r + expBits r
      · rw [decide_eq_true (show (sigBits r ≤ i ∧ i < sigBits r + expBits r) by omega)]
        rfl
      · rw [decide_eq_false (show ¬ (sigBits r ≤ i ∧ i < sigBits r + expBits r) by omega),
          Nat.testBit_lt_two_pow (Nat.lt_of_lt_of_le hlt (Nat.pow_le_pow_right (by decide) (by omega)))]
        rfl
  have hb : ∀ i, i < r.width → (setExponent r d exp).getLsbD i =
      if sigBits r ≤ i ∧ i < sigBits r + expBits r then n.testBit (i - sigBits r) else d.getLsbD i := by
    intro i hi
    unfold setExponent
    rw [if_neg h0, hn, BitVec.getLsbD_or, BitVec.getLsbD_and, BitVec.getLsbD_not, decide_eq_true hi, (masks r i hi).2.1, hbits i hi]
    split
    · rename_i h1; rw [decide_eq_true h1]; simp
    · rename_i h1; rw [decide_eq_false h1]; simp
  refine ⟨?_, ?_, ?_⟩
  · rw [(C43_get r _).2.2.1]
    have he : expOf r (setExponent r d exp) = n := by
      apply Nat.eq_of_testBit_eq
      intro i
      unfold expOf
      rw [Nat.testBit_mod_two_pow, Nat.testBit_div_two_pow]
      by_cases hi : i < expBits r
      · rw [show (setExponent r d exp).toNat.testBit (i + sigBits r) = n.testBit (i + sigBits r - sigBits r) from by
          have := hb (i + sigBits r) (by omega)
          rw [if_pos (by omega)] at this
          exact this, Nat.add_sub_cancel, decide_eq_true hi, Bool.true_and]
      · rw [decide_eq_false hi, Nat.testBit_lt_two_pow (Nat.lt_of_lt_of_le hlt (Nat.pow_le_pow_right (by decide) (by omega)))]
        rfl
    rw [he]
    have : exponentBias r = ((2 ^ (expBits r - 1) - 1 : Nat) : Int) := by cases r <;> rfl
    rw [← this]
    omega
  · exact ((set_fields r d _).1).2 (fun i hi => by rw [hb i (by omega), if_neg (by omega)])
  · exact ((set_fields r d _).2.2).2 (by rw [hb _ (by omega), if_neg (by omega)])

example : setExponent .float 0xC0200000#32 2 = 0xC0A00000#32 := by decide

/-- C43 does not hold for setting the exponent to zero: the result is one, whatever the sign and significand were. -/
theorem C43_set_exponent_violated (r : Real) (d : BitVec r.width) : setExponent r d 0 = one r := rfl

/-- C43: `copy_sign` takes the sign from the second number and the rest from the first; `abs` clears the sign. -/
theorem C43_copy_sign (r : Real) (x s : BitVec r.width) :
    (signOf r (copySign r x s) = signOf r s ∧ expOf r (copySign r x s) = expOf r x ∧ sigOf r (copySign r x s) = sigOf r x) ∧
    (signOf r (abs r x) = 0 ∧ expOf r (abs r x) = expOf r x ∧ sigOf r (abs r x) = sigOf r x) := by
  have hw := width_eq r
  have hb : ∀ i, i < r.width → (copySign r x s).getLsbD i = if i = sigBits r + expBits r then s.getLsbD i else x.getLsbD i := by
    intro i hi
    unfold copySign setSignRaw getSignRaw
    rw [BitVec.getLsbD_or, BitVec.getLsbD_and, BitVec.getLsbD_and, BitVec.getLsbD_not, decide_eq_true hi, (masks r i hi).2.2]
    split
    · rename_i h1; rw [decide_eq_true h1]; simp
    · rename_i h1; rw [decide_eq_false h1]; simp
  have ha : abs r x = copySign r x 0 := by
    unfold abs setSign copySign getSignRaw
    congr 1
    simp
  have hz : signOf r (0 : BitVec r.width) = 0 := by cases r <;> rfl
  have main : ∀ s, signOf r (copySign r x s) = signOf r s ∧ expOf r (copySign r x s) = expOf r x ∧ sigOf r (copySign r x s) = sigOf r x := by
    intro s
    have hb : ∀ i, i < r.width → (copySign r x s).getLsbD i = if i = sigBits r + expBits r then s.getLsbD i else x.getLsbD i := by
      intro i hi
      unfold copySign setSignRaw getSignRaw
      rw [BitVec.getLsbD_or, BitVec.getLsbD_and, BitVec.getLsbD_and, BitVec.getLsbD_not, decide_eq_true hi, (masks r i hi).2.2]
      split
      · rename_i h1; rw [decide_eq_true h1]; simp
      · rename_i h1; rw [decide_eq_false h1]; simp
    refine ⟨?_, ?_, ?_⟩
    · exact ((set_fields r s _).2.2).2 (by rw [hb _ (by omega), if_pos rfl])
    · exact ((set_fields r x _).2.1).2 (fun i h1 h2 => by rw [hb i (by omega), if_neg (by omega)])
    · exact ((set_fields r x _).1).2 (fun i hi => by rw [hb i (by omega), if_neg (by omega)])
  refine ⟨main s, ?_⟩
  rw [ha]
  have := main 0
  rwa [hz] at this

/-- C43: setting the sign to zero or one changes that field only, and to that value. -/
theorem C43_set_sign (r : Real) (x : BitVec r.width) (neg : Bool) :
    signOf r (setSign r x (if neg then 1 else 0)) = (if neg then 1 else 0) ∧
    expOf r (setSign r x (if neg then 1 else 0)) = expOf r x ∧ sigOf r (setSign r x (if neg then 1 else 0)) = sigOf r x := by
  have hs : setSign r x (if neg then 1 else 0) = copySign r x ((if neg then 1 else 0 : BitVec r.width) <<< signStart r) := by
    unfold setSign copySign getSignRaw
    congr 1
    cases r <;> cases neg <;> decide
  have hz : signOf r ((if neg then 1 else 0 : BitVec r.width) <<< signStart r) = if neg then 1 else 0 := by
    cases r <;> cases neg <;> decide
  rw [hs]
  have h := (C43_copy_sign r x ((if neg then 1 else 0 : BitVec r.width) <<< signStart r)).1
  rwa [hz] at h

example : setSign .float 0x40200000#32 1 = 0xC0200000#32 := by decide

example : copySign .float 0x3F800000#32 0x80000000#32 = 0xBF800000#32 ∧ abs .float 0xBF800000#32 = 0x3F800000#32 := by decide

end Verif.Bits.Float
