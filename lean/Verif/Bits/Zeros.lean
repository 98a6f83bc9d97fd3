import Verif.Base
import Verif.Bits.StaticBitset
import Mathlib.Data.Nat.Log
import Mathlib.Data.Nat.Digits.Defs
import Mathlib.Data.Nat.Digits.Lemmas

/-
Counting zeros and digits, include/daw/daw_cxmath.h.
-/

namespace Verif.Bits.Zeros
open Cxx

/-- `__builtin_clz` and its relatives for `w` bits: undefined for zero. (Used at daw_cxmath.h 476-513.) -/
def builtinClz (w : Nat) (v : BitVec w) : Cxx Nat := if v = 0 then ub else pure (w - 1 - Nat.log2 v.toNat)

/-- `count_leading_zeroes` with the built in function, daw_cxmath.h 477-499. -/
def clz (w : Nat) (v : BitVec w) : Cxx Nat := if v ≠ 0 then builtinClz w v else pure w

/-- `count_leading_zeroes` for 64 bits by halves, daw_cxmath.h 502-516. -/
def clzHalves (v : BitVec 64) : Cxx Nat :=
  if v = 0 then pure 64
  else
    let high := (v >>> 32).truncate 32
    if high ≠ 0 then builtinClz 32 high
    else
      let low := v.truncate 32
      if low ≠ 0 then do
        let c ← builtinClz 32 low
        pure (32 + c)
      else pure 64

/-- The table of the portable version, daw_cxmath.h 528-532. -/
def bitPosition : List Nat :=
  [0,  1,  2,  7,  3,  13, 8,  19, 4,  25, 14, 28, 9,  34, 20, 40,
   5,  17, 26, 38, 15, 46, 29, 48, 10, 31, 35, 54, 21, 50, 41, 57,
   63, 6,  12, 18, 24, 27, 33, 39, 16, 37, 45, 47, 30, 53, 49, 56,
   62, 11, 23, 32, 36, 44, 52, 55, 61, 22, 43, 51, 60, 42, 59, 58]

/-- Rounding down to one less than a power of two, daw_cxmath.h 534-539. -/
def smear (v : BitVec 64) : BitVec 64 :=
  let v := v ||| (v >>> 1)
  let v := v ||| (v >>> 2)
  let v := v ||| (v >>> 4)
  let v := v ||| (v >>> 8)
  let v := v ||| (v >>> 16)
  v ||| (v >>> 32)

/-- The portable `count_leading_zeroes`, daw_cxmath.h 523-544. -/
def clzPortable (v : BitVec 64) : Cxx Nat :=
  if v = 0 then pure 64
  else do
    let v := (smear v >>> 1) + 1
    let p ← rd bitPosition ((v * 0x0218a392cd3d5dbf) >>> 58).toNat
    pure (63 - p)

/-- The portable `count_leading_zeroes` of 32 bits, daw_cxmath.h 561-564: only the version for 64 bits exists. -/
def clzPortable32 (v : BitVec 32) : Cxx Nat := clzPortable (v.zeroExtend 64)

/-- `count_leading_zeros( uint128_t )`, daw_cxmath.h 547-558.  The name differs from that of the functions above, so the calls
are calls of this function. -/
def clz128 (v : BitVec 128) : Cxx Nat :=
  if v = 0 then pure 128
  else do
    let h ← clz128 (((v >>> 64).truncate 64).zeroExtend 128)
    if h = 64 then clz128 ((v.truncate 64).zeroExtend 128) else pure h
partial_fixpoint

/-- One of the steps of `count_trailing_zeros_cx32`: `if( v & mask ) c -= n`. (daw_cxmath.h 578-596.) -/
def dropIf (v mask : BitVec 32) (n c : Nat) : Nat := if v &&& mask ≠ 0 then c - n else c

/-- `count_trailing_zeros_cx32`, daw_cxmath.h 572-598.  Negating the least `int32_t` is undefined. -/
def ctz32 (v : BitVec 32) : Cxx Nat :=
  if v = 0 then pure 32
  else if v.toInt = -2147483648 then ub
  else
    let v := v &&& BitVec.ofInt 32 (-v.toInt)
    let c := 32
    let c := if v ≠ 0 then c - 1 else c
    let c := dropIf v 0x0000FFFF#32 16 c
    let c := dropIf v 0x00FF00FF#32 8 c
    let c := dropIf v 0x0F0F0F0F#32 4 c
    let c := dropIf v 0x33333333#32 2 c
    pure (dropIf v 0x55555555#32 1 c)

/-- `count_trailing_zeros_cx64`, daw_cxmath.h 600-610. -/
def ctz64 (v : BitVec 64) : Cxx Nat :=
  if v = 0 then pure 64
  else if v &&& 0xFFFFFFFF#64 = 0 then do
    let c ← ctz32 ((v >>> 32).truncate 32)
    pure (32 + c)
  else ctz32 (v.truncate 32)

/-- `round_up_pow2`, daw_cxmath.h 1282-1294, for an unsigned type of `w` bits that is not narrower than `int`. -/
def roundUpPow2 (w : Nat) (v : BitVec w) : Cxx (BitVec w) :=
  if v = 0 then pure 0
  else do
    let lz ← clz w v
    let msb := w - 1 - lz
    let res := BitVec.ofNat w 1 <<< msb
    pure (if res < v then res <<< 1 else res)

/-- `powers_of_ten`, daw_cxmath.h 1367-1386. -/
def powersOfTen : List Nat :=
  [10, 100, 1000, 10000, 100000, 1000000, 10000000, 100000000, 1000000000, 10000000000, 100000000000, 1000000000000,
   10000000000000, 100000000000000, 1000000000000000, 10000000000000000, 100000000000000000, 1000000000000000000,
   10000000000000000000]

/-- `count_digits`, daw_cxmath.h 1388-1394.  The mask of line 1389 has all bits or none. -/
def countDigits (v : BitVec 64) : Cxx Nat := do
  let lz ← clz 64 v
  let b := if v ≠ 0 then 63 - lz else 0
  let a := b * 77 / 256
  let p ← rd powersOfTen a
  pure (1 + a + if p ≤ v.toNat then 1 else 0)

/-- The loop of the portable `popcount`, daw_cxmath.h 1344-1348; `fuel` bounds the number of turns. -/
def popLoop {w : Nat} : Nat → BitVec w → Nat → Nat
  | 0, _, count => count
  | fuel + 1, v, count => if v ≠ 0 then popLoop fuel (v >>> 1) (count + (v &&& 1).toNat) else count

/-- The portable `popcount`, daw_cxmath.h 1326-1350, for `w` bits. -/
def popcount {w : Nat} (v : BitVec w) : Nat := popLoop w v 0

/-- `popcount` of a signed integer of `w < 32` bits, daw_cxmath.h 1309-1310 and 1330-1331: the conversion to `unsigned` extends
the sign. -/
def popcountNarrow {w : Nat} (v : BitVec w) : Nat := popcount (v.signExtend 32)

/-- `is_odd`, daw_cxmath.h 1014-1019. -/
def isOdd {w : Nat} (v : BitVec w) : Bool := v &&& 1 == 1

/-- `is_even`, daw_cxmath.h 1021-1026. -/
def isEven {w : Nat} (v : BitVec w) : Bool := v &&& 1 == 1

/-! ### Leading zeros -/

/-- `c` is the number of zeros above the highest one of `v`, or all bits. (Specification, no line of the source.) -/
def LeadingZeros (w v c : Nat) : Prop :=
  (v = 0 ∧ c = w) ∨ (c < w ∧ v.testBit (w - 1 - c) = true ∧ ∀ i, w - 1 - c < i → v.testBit i = false)

theorem leading_log2 {w v : Nat} (h0 : v ≠ 0) (hv : v < 2 ^ w) : LeadingZeros w v (w - 1 - Nat.log2 v) := by
  have hlt : Nat.log2 v < w := (Nat.log2_lt h0).2 hv
  refine .inr ⟨by omega, ?_, fun i hi => ?_⟩
  · rw [show w - 1 - (w - 1 - v.log2) = v.log2 by omega, Nat.testBit_log2 h0]
  · apply Nat.testBit_lt_two_pow
    calc v < 2 ^ (v.log2 + 1) := Nat.lt_log2_self
      _ ≤ 2 ^ i := Nat.pow_le_pow_right (by decide) (by omega)

/-- There is one such number. -/
theorem leading_unique {w v c d : Nat} (hc : LeadingZeros w v c) (hd : LeadingZeros w v d) : c = d := by
  rcases hc with ⟨rfl, rfl⟩ | ⟨h1, h2, h3⟩ <;> rcases hd with ⟨h, rfl⟩ | ⟨g1, g2, g3⟩
  · rfl
  · simp at g2
  · rw [h] at h2; simp at h2
  · by_contra hne
    rcases Nat.lt_or_gt_of_ne hne with h | h
    · have := g3 (w - 1 - c) (by omega); rw [h2] at this; cases this
    · have := h3 (w - 1 - d) (by omega); rw [g2] at this; cases this

theorem toNat_ne {w : Nat} {v : BitVec w} (h : v ≠ 0) : v.toNat ≠ 0 := fun e => h (BitVec.eq_of_toNat_eq (by simpa using e))

theorem clz_ne {w : Nat} {v : BitVec w} (h : v ≠ 0) : clz w v = pure (w - 1 - Nat.log2 v.toNat) := by
  unfold clz builtinClz
  rw [if_pos h, if_neg h]

/-- C44: `count_leading_zeroes` with the built in functions gives the number of leading zeros, the width for zero. -/
theorem C44_clz (w : Nat) (v : BitVec w) : ∃ c, clz w v = pure c ∧ LeadingZeros w v.toNat c := by
  by_cases h : v = 0
  · subst h
    exact ⟨w, by unfold clz; rw [if_neg (by simp)], .inl ⟨by simp, rfl⟩⟩
  · exact ⟨_, clz_ne h, leading_log2 (toNat_ne h) v.isLt⟩

example : clz 32 0x00010000#32 = pure 15 := rfl

theorem log2_high {x s : Nat} (h : 2 ^ s ≤ x) : Nat.log2 x = Nat.log2 (x / 2 ^ s) + s := by
  have hpos : 0 < 2 ^ s := Nat.pow_pos (by decide)
  have h1 : x / 2 ^ s ≠ 0 := by
    have := Nat.div_pos h hpos
    omega
  rw [Nat.log2_eq_iff (by omega)]
  have h2 := Nat.log2_self_le h1
  have h3 := @Nat.lt_log2_self (x / 2 ^ s)
  constructor
  · rw [Nat.pow_add]
    calc 2 ^ (x / 2 ^ s).log2 * 2 ^ s ≤ x / 2 ^ s * 2 ^ s := Nat.mul_le_mul_right _ h2
      _ ≤ x := Nat.div_mul_le_self _ _
  · rw [show (x / 2 ^ s).log2 + s + 1 = ((x / 2 ^ s).log2 + 1) + s by omega, Nat.pow_add]
    exact (Nat.div_lt_iff_lt_mul hpos).1 h3

/-- C44: the version by halves gives the same. -/
theorem C44_halves (v : BitVec 64) : clzHalves v = clz 64 v := by
  unfold clzHalves
  by_cases h : v = 0
  · subst h; rfl
  · rw [if_neg h, clz_ne h]
    have hlt := v.isLt
    have hn := toNat_ne h
    have hh : ((v >>> 32).truncate 32).toNat = v.toNat / 2 ^ 32 := by
      rw [BitVec.truncate_eq_setWidth, BitVec.toNat_setWidth, BitVec.toNat_ushiftRight, Nat.shiftRight_eq_div_pow]
      omega
    by_cases h1 : (v >>> 32).truncate 32 = 0
    · have hlow : v.toNat < 2 ^ 32 := by
        rw [h1] at hh
        simp at hh
        omega
      have hl : (v.truncate 32).toNat = v.toNat := by
        rw [BitVec.truncate_eq_setWidth, BitVec.toNat_setWidth]
        omega
      have h2 : v.truncate 32 ≠ 0 := by
        intro e
        rw [e] at hl
        exact hn (by simpa using hl.symm)
      have hlog : Nat.log2 v.toNat < 32 := (Nat.log2_lt hn).2 hlow
      simp only [if_neg (not_not.2 h1), if_pos h2]
      unfold builtinClz
      rw [if_neg h2, pure_bind, hl]
      congr 1
      omega
    · have hge : 2 ^ 32 ≤ v.toNat := by
        have := toNat_ne h1
        rw [hh] at this
        omega
      simp only [if_pos h1]
      unfold builtinClz
      rw [if_neg h1, hh, log2_high (s := 32) hge]
      congr 1
      omega

/-- After a step all ones have spread over `s` places. -/
theorem smear_step {v w : BitVec 64} {s : Nat} (h : ∀ i, w.getLsbD i = true ↔ ∃ d, d < s ∧ v.getLsbD (i + d) = true) (i : Nat) :
    (w ||| (w >>> s)).getLsbD i = true ↔ ∃ d, d < 2 * s ∧ v.getLsbD (i + d) = true := by
  rw [BitVec.getLsbD_or, Bool.or_eq_true, BitVec.getLsbD_ushiftRight, h, h]
  constructor
  · rintro (⟨d, h1, h2⟩ | ⟨d, h1, h2⟩)
    · exact ⟨d, by omega, h2⟩
    · exact ⟨s + d, by omega, by rw [← h2]; congr 1; omega⟩
  · rintro ⟨d, h1, h2⟩
    by_cases hd : d < s
    · exact .inl ⟨d, hd, h2⟩
    · exact .inr ⟨d - s, by omega, by rw [← h2]; congr 1; omega⟩

theorem smear_toNat {v : BitVec 64} (h : v ≠ 0) : (smear v).toNat = 2 ^ (Nat.log2 v.toNat + 1) - 1 := by
  have hn := toNat_ne h
  have h0 : ∀ i, v.getLsbD i = true ↔ ∃ d, d < 1 ∧ v.getLsbD (i + d) = true := by
    intro i
    constructor
    · intro h; exact ⟨0, by decide, h⟩
    · rintro ⟨d, hd, h⟩
      rwa [show d = 0 by omega] at h
  have hs : ∀ i, (smear v).getLsbD i = true ↔ ∃ d, d < 64 ∧ v.getLsbD (i + d) = true :=
    smear_step (smear_step (smear_step (smear_step (smear_step (smear_step h0)))))
  apply Nat.eq_of_testBit_eq
  intro i
  rw [Nat.testBit_two_pow_sub_one, Bool.eq_iff_iff, decide_eq_true_iff]
  show (smear v).getLsbD i = true ↔ _
  rw [hs]
  constructor
  · rintro ⟨d, hd, hb⟩
    by_contra hlt
    have hf : v.toNat.testBit (i + d) = false := by
      apply Nat.testBit_lt_two_pow
      calc v.toNat < 2 ^ (v.toNat.log2 + 1) := Nat.lt_log2_self
        _ ≤ 2 ^ (i + d) := Nat.pow_le_pow_right (by decide) (by omega)
    have : v.toNat.testBit (i + d) = true := hb
    rw [hf] at this
    cases this
  · intro hi
    have hlog : Nat.log2 v.toNat < 64 := (Nat.log2_lt hn).2 v.isLt
    refine ⟨v.toNat.log2 - i, by omega, ?_⟩
    show v.toNat.testBit _ = true
    rw [show i + (v.toNat.log2 - i) = v.toNat.log2 by omega, Nat.testBit_log2 hn]

/-- The multiplication has no collision, and the table has the right places. -/
theorem table_ok : ∀ k, k < 64 → bitPosition[((BitVec.twoPow 64 k * 0x0218a392cd3d5dbf) >>> 58).toNat]? = some k := by decide +kernel

/-- C44: the portable version gives the same for 64 bits. -/
theorem C44_portable (v : BitVec 64) : clzPortable v = clz 64 v := by
  unfold clzPortable
  by_cases h : v = 0
  · subst h; rfl
  · have hn := toNat_ne h
    have hlog : Nat.log2 v.toNat < 64 := (Nat.log2_lt hn).2 v.isLt
    have hp : (smear v >>> 1) + 1 = BitVec.twoPow 64 (Nat.log2 v.toNat) := by
      apply BitVec.eq_of_toNat_eq
      rw [BitVec.toNat_add, BitVec.toNat_ushiftRight, smear_toNat h, BitVec.toNat_twoPow_of_lt hlog, Nat.shiftRight_eq_div_pow, Nat.pow_succ]
      have hpos : 0 < 2 ^ v.toNat.log2 := Nat.pow_pos (by decide)
      have hle : 2 ^ v.toNat.log2 < 2 ^ 64 := Nat.pow_lt_pow_right (by decide) hlog
      rw [show (2 ^ v.toNat.log2 * 2 - 1) / 2 ^ 1 + (1 : BitVec 64).toNat = 2 ^ v.toNat.log2 by
        show (2 ^ v.toNat.log2 * 2 - 1) / 2 ^ 1 + 1 = _
        omega]
      exact Nat.mod_eq_of_lt hle
    rw [if_neg h, clz_ne h]
    simp only [hp]
    rw [rd_some (table_ok _ hlog), pure_bind]

example : clzPortable 0x00010000#64 = pure 47 := rfl

/-- C44 does not hold for the portable version and 32 bits: only the version for 64 bits exists, so there are 32 too many. -/
theorem C44_portable32_violated (v : BitVec 32) : ∃ c, clz 32 v = pure c ∧ clzPortable32 v = pure (32 + c) := by
  unfold clzPortable32
  rw [C44_portable]
  have hz : (v.zeroExtend 64).toNat = v.toNat := by
    rw [BitVec.zeroExtend_eq_setWidth, BitVec.toNat_setWidth]
    have := v.isLt
    omega
  by_cases h : v = 0
  · subst h
    exact ⟨32, rfl, rfl⟩
  · have h64 : v.zeroExtend 64 ≠ 0 := by
      intro e
      rw [e] at hz
      exact toNat_ne h (by simpa using hz.symm)
    have hlog : Nat.log2 v.toNat < 32 := (Nat.log2_lt (toNat_ne h)).2 v.isLt
    refine ⟨_, clz_ne h, ?_⟩
    rw [clz_ne h64, hz]
    congr 1
    omega

/-- C44 does not hold for the portable version and 128 bits: it gives 128 for every value. -/
theorem C44_portable128_violated (v : BitVec 128) : clz128 v = pure 128 := by
  have h0 : clz128 0 = pure 128 := by rw [clz128, if_pos rfl]
  have hsmall : ∀ u : BitVec 128, (((u >>> 64).truncate 64).zeroExtend 128) = 0 → clz128 u = pure 128 := by
    intro u hu
    rw [clz128]
    split
    · rfl
    · rw [hu, h0, pure_bind, if_neg (by decide)]
  have hz : ((((((v >>> 64).truncate 64).zeroExtend 128) >>> 64).truncate 64).zeroExtend 128 : BitVec 128) = 0 := by
    apply BitVec.eq_of_toNat_eq
    simp only [BitVec.truncate_eq_setWidth, BitVec.toNat_setWidth, BitVec.toNat_ushiftRight,
      Nat.shiftRight_eq_div_pow]
    rw [Nat.mod_eq_of_lt (show v.toNat / 2 ^ 64 % 2 ^ 64 < 2 ^ 128 by omega),
      Nat.div_eq_of_lt (show v.toNat / 2 ^ 64 % 2 ^ 64 < 2 ^ 64 by omega)]
    rfl
  rw [clz128]
  split
  · rfl
  · rw [hsmall _ hz, pure_bind, if_neg (by decide)]

/-! ### Trailing zeros -/

/-- `c` is the number of zeros below the lowest one of `v`, or all bits. (Specification, no line of the source.) -/
def TrailingZeros (w v c : Nat) : Prop :=
  (v = 0 ∧ c = w) ∨ (v.testBit c = true ∧ ∀ i, i < c → v.testBit i = false)

/-- A number other than zero is an odd one times a power of two. -/
theorem odd_part (v : Nat) (h : v ≠ 0) : ∃ k m, v = 2 ^ k * (2 * m + 1) := by
  induction v using Nat.strongRecOn with
  | _ v ih =>
    rcases Nat.mod_two_eq_zero_or_one v with h2 | h2
    · obtain ⟨k, m, e⟩ := ih (v / 2) (by omega) (by omega)
      exact ⟨k + 1, m, by rw [Nat.pow_succ, Nat.mul_comm (2 ^ k), Nat.mul_assoc, ← e]; omega⟩
    · exact ⟨0, v / 2, by omega⟩

theorem trailing_odd_part (w k m : Nat) : TrailingZeros w (2 ^ k * (2 * m + 1)) k := by
  refine .inr ⟨?_, fun i hi => ?_⟩
  · rw [Nat.testBit_two_pow_mul]
    simp
  · rw [Nat.testBit_two_pow_mul]
    simp
    omega

/-- The number and its negative have only the lowest one in common. -/
theorem and_neg {w k m : Nat} (hlt : 2 ^ k * (2 * m + 1) < 2 ^ w) :
    2 ^ k * (2 * m + 1) &&& (2 ^ w - 2 ^ k * (2 * m + 1)) = 2 ^ k := by
  have hkw : k < w := by
    by_contra h
    have : 2 ^ w ≤ 2 ^ k := Nat.pow_le_pow_right (by decide) (by omega)
    have := Nat.le_mul_of_pos_right (2 ^ k) (show 0 < 2 * m + 1 by omega)
    omega
  obtain ⟨q, rfl⟩ : ∃ q, w = k + q + 1 := ⟨w - k - 1, by omega⟩
  have hpow : 2 ^ (k + q + 1) = 2 ^ k * (2 * 2 ^ q) := by rw [Nat.pow_succ, Nat.pow_add]; ring
  have hpos : 0 < 2 ^ k := Nat.pow_pos (by decide)
  have hm : 2 * m + 1 < 2 * 2 ^ q := by
    rw [hpow] at hlt
    exact Nat.lt_of_mul_lt_mul_left hlt
  rw [hpow, ← Nat.mul_sub, show 2 * 2 ^ q - (2 * m + 1) = 2 * (2 ^ q - (m + 1)) + 1 by omega]
  apply Nat.eq_of_testBit_eq
  intro i
  rw [Nat.testBit_and, Nat.testBit_two_pow_mul, Nat.testBit_two_pow_mul, Nat.testBit_two_pow]
  by_cases hi : k ≤ i
  · rw [decide_eq_true hi, Bool.true_and, Bool.true_and]
    obtain ⟨j, rfl⟩ : ∃ j, i = k + j := ⟨i - k, by omega⟩
    rw [Nat.add_sub_cancel_left]
    cases j with
    | zero =>
      simp
    | succ j =>
      rw [Nat.testBit_succ, Nat.testBit_succ, show (2 * m + 1) / 2 = m by omega, show (2 * (2 ^ q - (m + 1)) + 1) / 2 = 2 ^ q - (m + 1) by omega,
        Nat.testBit_two_pow_sub_succ (show m < 2 ^ q by omega), decide_eq_false (show ¬ k = k + (j + 1) by omega)]
      cases m.testBit j <;> simp
  · rw [decide_eq_false hi, decide_eq_false (by omega)]
    rfl

/-- The count for a single one. -/
theorem ctz_single : ∀ k, k < 32 → dropIf (BitVec.twoPow 32 k) 0x55555555#32 1 (dropIf (BitVec.twoPow 32 k) 0x33333333#32 2
    (dropIf (BitVec.twoPow 32 k) 0x0F0F0F0F#32 4 (dropIf (BitVec.twoPow 32 k) 0x00FF00FF#32 8
      (dropIf (BitVec.twoPow 32 k) 0x0000FFFF#32 16 (if BitVec.twoPow 32 k ≠ 0 then 32 - 1 else 32))))) = k := by decide +kernel

/-- C44, the portable `count_trailing_zeros` of 32 bits, as far as it holds: of all values but one it is the number of
trailing zeros, the width for zero.  Missing: the value `0x80000000`, see `C44_ctz_violated`. -/
theorem C44_ctz32_partial (v : BitVec 32) (h : v ≠ 0x80000000#32) : ∃ c, ctz32 v = pure c ∧ TrailingZeros 32 v.toNat c := by
  unfold ctz32
  by_cases h0 : v = 0
  · subst h0
    exact ⟨32, rfl, .inl ⟨rfl, rfl⟩⟩
  · rw [if_neg h0, if_neg (by
      intro e
      apply h
      apply BitVec.eq_of_toInt_eq
      rw [e]
      rfl)]
    have hn := toNat_ne h0
    have hlt := v.isLt
    obtain ⟨k, m, hv⟩ := odd_part v.toNat hn
    have hk : k < 32 := by
      by_contra hk
      have h1 : 2 ^ 32 ≤ 2 ^ k := Nat.pow_le_pow_right (by decide) (by omega)
      have h2 := Nat.le_mul_of_pos_right (2 ^ k) (show 0 < 2 * m + 1 by omega)
      omega
    have hneg : v &&& BitVec.ofInt 32 (-v.toInt) = BitVec.twoPow 32 k := by
      have e : BitVec.ofInt 32 (-v.toInt) = -v := by
        rw [BitVec.ofInt_neg, BitVec.ofInt_toInt]
      rw [e]
      apply BitVec.eq_of_toNat_eq
      rw [BitVec.toNat_and, BitVec.toNat_neg, BitVec.toNat_twoPow_of_lt hk, Nat.mod_eq_of_lt (by omega), hv]
      exact and_neg (by rw [← hv]; exact hlt)
    simp only [hneg]
    refine ⟨k, ?_, by rw [hv]; exact trailing_odd_part 32 k m⟩
    rw [ctz_single k hk]

example : ctz32 0x00010000#32 = pure 16 := rfl

/-- C44 does not hold for the portable `count_trailing_zeros` and a word whose only one is the highest: negating it as a
signed number is undefined. -/
theorem C44_ctz_violated : ctz32 0x80000000#32 = ub ∧ ctz64 0x8000000000000000#64 = ub ∧ ctz64 0x180000000#64 = ub := ⟨rfl, rfl, rfl⟩

/-- C44, the portable `count_trailing_zeros` of 64 bits, as far as it holds: the half with the lowest one is not
`0x80000000`. -/
theorem C44_ctz64_partial (v : BitVec 64) (h : v.toNat % 2 ^ 32 ≠ 2 ^ 31 ∧ (v.toNat % 2 ^ 32 = 0 → v.toNat / 2 ^ 32 ≠ 2 ^ 31)) :
    ∃ c, ctz64 v = pure c ∧ TrailingZeros 64 v.toNat c := by
  have hlt := v.isLt
  unfold ctz64
  by_cases h0 : v = 0
  · subst h0
    exact ⟨64, rfl, .inl ⟨rfl, rfl⟩⟩
  · rw [if_neg h0]
    have hn := toNat_ne h0
    have hmask : (v &&& 0xFFFFFFFF#64).toNat = v.toNat % 2 ^ 32 := by
      rw [BitVec.toNat_and]
      exact Nat.and_two_pow_sub_one_eq_mod v.toNat 32
    by_cases hlow : v &&& 0xFFFFFFFF#64 = 0
    · rw [hlow] at hmask
      have hm : v.toNat % 2 ^ 32 = 0 := hmask.symm
      rw [if_pos hlow]
      have hh : ((v >>> 32).truncate 32).toNat = v.toNat / 2 ^ 32 := by
        rw [BitVec.truncate_eq_setWidth, BitVec.toNat_setWidth, BitVec.toNat_ushiftRight, Nat.shiftRight_eq_div_pow]
        omega
      obtain ⟨c, e, hc⟩ := C44_ctz32_partial ((v >>> 32).truncate 32) (fun e => by
        rw [e] at hh
        exact h.2 hm hh.symm)
      rw [e, pure_bind]
      refine ⟨_, rfl, ?_⟩
      rw [hh] at hc
      rcases hc with ⟨hc, _⟩ | ⟨h1, h2⟩
      · omega
      · have hv : v.toNat = 2 ^ 32 * (v.toNat / 2 ^ 32) := by omega
        refine .inr ⟨?_, fun i hi => ?_⟩
        · rw [hv, Nat.testBit_two_pow_mul, Nat.add_sub_cancel_left, h1]
          simp
        · rw [hv, Nat.testBit_two_pow_mul]
          by_cases hi2 : 32 ≤ i
          · rw [h2 (i - 32) (by omega), Bool.and_false]
          · rw [decide_eq_false hi2]; rfl
    · rw [if_neg hlow]
      have hl : (v.truncate 32).toNat = v.toNat % 2 ^ 32 := by
        rw [BitVec.truncate_eq_setWidth, BitVec.toNat_setWidth]
      have hne : v.toNat % 2 ^ 32 ≠ 0 := by
        rw [← hmask]
        exact toNat_ne hlow
      obtain ⟨c, e, hc⟩ := C44_ctz32_partial (v.truncate 32) (fun e => by
        rw [e] at hl
        exact h.1 hl.symm)
      refine ⟨c, e, ?_⟩
      rw [hl] at hc
      rcases hc with ⟨hc, _⟩ | ⟨h1, h2⟩
      · exact absurd hc hne
      · rw [Nat.testBit_mod_two_pow, Bool.and_eq_true, decide_eq_true_iff] at h1
        refine .inr ⟨h1.2, fun i hi => ?_⟩
        have := h2 i hi
        rwa [Nat.testBit_mod_two_pow, decide_eq_true (by omega), Bool.true_and] at this

example : ctz64 0x0000010000000000#64 = pure 40 := rfl

/-! ### Derived functions -/

theorem log2_bounds {v : Nat} (h : v ≠ 0) : 2 ^ v.log2 ≤ v ∧ v < 2 ^ (v.log2 + 1) := ⟨Nat.log2_self_le h, Nat.lt_log2_self⟩

/-- C90, `round_up_pow2`, as far as it holds: the least power of two that is not less, if the type has it; zero for zero.
Missing: larger values, see `C90_round_up_violated`. -/
theorem C90_round_up_partial (w : Nat) (v : BitVec w) (h0 : v ≠ 0) (hw : v.toNat ≤ 2 ^ (w - 1)) :
    ∃ r k, roundUpPow2 w v = pure r ∧ r.toNat = 2 ^ k ∧ v.toNat ≤ 2 ^ k ∧ ∀ j, v.toNat ≤ 2 ^ j → k ≤ j := by
  have hn := toNat_ne h0
  have hlt := v.isLt
  obtain ⟨hl1, hl2⟩ := log2_bounds hn
  have hlog : Nat.log2 v.toNat < w := (Nat.log2_lt hn).2 hlt
  unfold roundUpPow2
  rw [if_neg h0, clz_ne h0, pure_bind]
  have hmsb : w - 1 - (w - 1 - v.toNat.log2) = v.toNat.log2 := by omega
  have hpow : BitVec.ofNat w 1 <<< v.toNat.log2 = BitVec.twoPow w v.toNat.log2 := (BitVec.twoPow_eq _ _).symm
  have hle : 2 ^ v.toNat.log2 < 2 ^ w := Nat.pow_lt_pow_right (by decide) hlog
  simp only [hmsb, hpow]
  have hres : (BitVec.twoPow w v.toNat.log2).toNat = 2 ^ v.toNat.log2 := BitVec.toNat_twoPow_of_lt hlog
  by_cases hlt' : BitVec.twoPow w v.toNat.log2 < v
  · rw [if_pos hlt']
    have hs : 2 ^ v.toNat.log2 < v.toNat := by rw [← hres]; exact hlt'
    have hlog' : v.toNat.log2 + 1 < w := by
      by_contra hc
      have : v.toNat.log2 = w - 1 := by omega
      rw [this] at hs
      omega
    refine ⟨_, v.toNat.log2 + 1, rfl, ?_, by omega, fun j hj => ?_⟩
    · rw [BitVec.toNat_shiftLeft, hres, Nat.shiftLeft_eq, ← Nat.pow_add]
      apply Nat.mod_eq_of_lt
      exact Nat.pow_lt_pow_right (by decide) hlog'
    · by_contra hc
      have : 2 ^ j ≤ 2 ^ v.toNat.log2 := Nat.pow_le_pow_right (by decide) (by omega)
      omega
  · rw [if_neg hlt']
    have hs : v.toNat ≤ 2 ^ v.toNat.log2 := by
      rw [← hres]
      exact Nat.le_of_not_lt hlt'
    refine ⟨_, v.toNat.log2, rfl, hres, hs, fun j hj => ?_⟩
    by_contra hc
    have : 2 ^ j < 2 ^ v.toNat.log2 := Nat.pow_lt_pow_right (by decide) (by omega)
    omega

example : roundUpPow2 32 5#32 = pure 8#32 := rfl

/-- C90 does not hold for `round_up_pow2` of a value above the highest power of two the type has: the result is zero. -/
theorem C90_round_up_violated (w : Nat) (v : BitVec w) (h : 2 ^ (w - 1) < v.toNat) : roundUpPow2 w v = pure 0 := by
  have hlt := v.isLt
  have h0 : v ≠ 0 := by
    rintro rfl
    simp at h
  have hn := toNat_ne h0
  have hw : 0 < w := by
    rcases Nat.eq_zero_or_pos w with rfl | h
    · simp at hlt; omega
    · exact h
  have hlog : Nat.log2 v.toNat = w - 1 := by
    rw [Nat.log2_eq_iff hn]
    exact ⟨by omega, by rw [show w - 1 + 1 = w by omega]; exact hlt⟩
  unfold roundUpPow2
  rw [if_neg h0, clz_ne h0, pure_bind]
  have hres : (BitVec.ofNat w 1 <<< (w - 1)) = BitVec.twoPow w (w - 1) := (BitVec.twoPow_eq _ _).symm
  have hres' : (BitVec.twoPow w (w - 1)).toNat = 2 ^ (w - 1) := BitVec.toNat_twoPow_of_lt (by omega)
  simp only [hlog, show w - 1 - (w - 1 - (w - 1)) = w - 1 by omega, hres]
  rw [if_pos (show BitVec.twoPow w (w - 1) < v by rw [BitVec.lt_def, hres']; exact h)]
  congr 1
  apply BitVec.eq_of_toNat_eq
  rw [BitVec.toNat_shiftLeft, hres', Nat.shiftLeft_eq, ← Nat.pow_add, show w - 1 + 1 = w by omega, Nat.mod_self]
  simp

example : roundUpPow2 32 0x80000001#32 = pure 0#32 := rfl

/-- The estimate of the number of digits from the number of bits is right or one too low. -/
theorem digits_estimate : ∀ b, b < 64 → powersOfTen[b * 77 / 256]? = some (10 ^ (b * 77 / 256 + 1)) ∧
    10 ^ (b * 77 / 256) ≤ 2 ^ b ∧ 2 ^ (b + 1) ≤ 10 ^ (b * 77 / 256 + 2) := by decide +kernel

/-- C90: `count_digits` is the number of decimal digits, one for zero. -/
theorem C90_count_digits (v : BitVec 64) : countDigits v = pure (max 1 (Nat.digits 10 v.toNat).length) := by
  by_cases h0 : v = 0
  · subst h0; rfl
  · have hn := toNat_ne h0
    have hlog : Nat.log2 v.toNat < 64 := (Nat.log2_lt hn).2 v.isLt
    obtain ⟨hl1, hl2⟩ := log2_bounds hn
    obtain ⟨e1, e2, e3⟩ := digits_estimate _ hlog
    unfold countDigits
    rw [clz_ne h0, pure_bind, if_pos h0]
    simp only [show 63 - (64 - 1 - v.toNat.log2) = v.toNat.log2 by omega]
    rw [rd_some e1, pure_bind]
    have hlen : (Nat.digits 10 v.toNat).length = Nat.log 10 v.toNat + 1 := Nat.length_digits 10 v.toNat (by decide) hn
    rw [hlen]
    congr 1
    split
    · rename_i hp
      have : Nat.log 10 v.toNat = v.toNat.log2 * 77 / 256 + 1 := by
        rw [Nat.log_eq_iff (.inl (by omega))]
        exact ⟨hp, Nat.lt_of_lt_of_le hl2 e3⟩
      omega
    · rename_i hp
      have : Nat.log 10 v.toNat = v.toNat.log2 * 77 / 256 := by
        rw [Nat.log_eq_iff (.inr ⟨by decide, hn⟩)]
        exact ⟨by omega, by omega⟩
      omega

example : countDigits 99999#64 = pure 5 ∧ countDigits 100000#64 = pure 6 := ⟨rfl, rfl⟩

/-- C90: the portable `popcount` is the number of ones. -/
theorem C90_popcount {w : Nat} (v : BitVec w) : popcount v = (List.range w).countP (v.getLsbD ·) := by
  have key : ∀ (n : Nat) (u : BitVec w) (c : Nat), u.toNat < 2 ^ n → popLoop n u c = c + StaticBitset.onesBelow n u.toNat := by
    intro n
    induction n with
    | zero => intro u c _; rfl
    | succ n ih =>
      intro u c hu
      rw [popLoop]
      split
      · rename_i h0
        rw [Nat.pow_succ] at hu
        rw [ih _ _ (by rw [BitVec.toNat_ushiftRight, Nat.shiftRight_eq_div_pow]; omega), StaticBitset.onesBelow_succ,
          BitVec.toNat_ushiftRight, Nat.shiftRight_eq_div_pow, Nat.pow_one]
        have hw : 0 < w := by
          rcases Nat.eq_zero_or_pos w with rfl | h
          · exact absurd (Subsingleton.elim _ _) h0
          · exact h
        have e : (u &&& 1).toNat = u.toNat % 2 := by
          rw [BitVec.toNat_and]
          have : (1 : BitVec w).toNat = 2 ^ 1 - 1 := by
            show 1 % 2 ^ w = 1
            exact Nat.mod_eq_of_lt (Nat.one_lt_two_pow (by omega))
          rw [this, Nat.and_two_pow_sub_one_eq_mod, Nat.pow_one]
        rw [e]
        omega
      · rename_i h0
        rw [not_not.1 h0]
        show c = c + StaticBitset.onesBelow (n + 1) ((0#w).toNat)
        rw [BitVec.toNat_ofNat, Nat.zero_mod, StaticBitset.onesBelow_zero]
        rfl
  unfold popcount
  rw [key w v 0 v.isLt, Nat.zero_add]
  rfl

example : popcount 0xF0F0#16 = 8 := by decide

/-- C90 does not hold for `popcount` of a negative number of a type narrower than `int`: the sign is counted for all bits up to
32.  That of -1 as `signed char` is 32, not 8. -/
theorem C90_popcount_narrow_violated : popcountNarrow 0xFF#8 = 32 := by decide

/-- C90, `popcount` of a type narrower than `int`: the number of bits that are set, and for a negative number one more for every bit
that `int` has more. -/
theorem C90_popcount_narrow_partial {w : Nat} (hw : w ≤ 32) (v : BitVec w) :
    popcountNarrow v = (List.range w).countP (v.getLsbD ·) + if v.msb then 32 - w else 0 := by
  unfold popcountNarrow
  rw [C90_popcount]
  obtain ⟨k, hk⟩ : ∃ k, 32 = w + k := ⟨32 - w, by omega⟩
  rw [show 32 - w = k by omega]
  have e : ∀ i, i < 32 → (v.signExtend 32).getLsbD i = if i < w then v.getLsbD i else v.msb := by
    intro i hi
    rw [BitVec.getLsbD_signExtend]
    simp [hi]
  have h1 : (List.range 32).countP ((v.signExtend 32).getLsbD ·) =
      (List.range 32).countP (fun i => if i < w then v.getLsbD i else v.msb) := by
    apply List.countP_congr
    intro i hi
    rw [e i (List.mem_range.1 hi)]
  rw [h1, hk, List.range_add, List.countP_append]
  congr 1
  · apply List.countP_congr
    intro i hi
    rw [if_pos (List.mem_range.1 hi)]
  · rw [List.countP_map]
    have h2 : (List.range k).countP ((fun i => if i < w then v.getLsbD i else v.msb) ∘ fun x => w + x) =
        (List.range k).countP (fun _ => v.msb) := by
      apply List.countP_congr
      intro i _
      simp
    rw [h2]
    cases v.msb <;> simp

example : popcountNarrow 0x83#8 = 3 + 24 ∧ popcountNarrow 0x73#8 = 5 := by decide

/-- C90, `is_odd` is true for the odd numbers. -/
theorem C90_is_odd {w : Nat} (hw : 0 < w) (v : BitVec w) : isOdd v = true ↔ v.toNat % 2 = 1 := by
  unfold isOdd
  have h1 : (1 : BitVec w).toNat = 1 := by
    show 1 % 2 ^ w = 1
    exact Nat.mod_eq_of_lt (Nat.one_lt_two_pow (by omega))
  have e : (v &&& 1).toNat = v.toNat % 2 := by
    rw [BitVec.toNat_and, h1]
    have := Nat.and_two_pow_sub_one_eq_mod v.toNat 1
    rwa [Nat.pow_one] at this
  rw [beq_iff_eq]
  constructor
  · intro h
    rw [← e, h, h1]
  · intro h
    apply BitVec.eq_of_toNat_eq
    rw [e, h, h1]

/-- C90 does not hold for `is_even`: it is true for the odd numbers, and only those. -/
theorem C90_is_even_violated {w : Nat} (hw : 0 < w) (v : BitVec w) : isEven v = true ↔ v.toNat % 2 = 1 := C90_is_odd hw v

example : isOdd 7#8 = true ∧ isEven 7#8 = true ∧ isEven 6#8 = false := by decide

end Verif.Bits.Zeros
