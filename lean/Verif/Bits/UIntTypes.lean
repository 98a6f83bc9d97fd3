import Verif.Iter.Iota
import Verif.Hash.Bytes
import Verif.Containers.Lists

/-
include/daw/daw_uint_types.h: the enumerations `UInt8`, `UInt16`, `UInt32`, `UInt64` and their operators.

There are several hundred operators; those of one width and operation differ only in the types of their operands, which are converted to one type before the operation.
A definition below stands for all of them, with that type as a parameter.
-/

namespace Verif.Bits
open Cxx Verif.Iter

/-- `+`, `-` and `*`, with their assigning forms. (Rule of C++ or its library, no line of the source.) -/
inductive UOp where
  | add | sub | mul

/-- What the operation is on numbers. (Rule of C++ or its library, no line of the source.) -/
def UOp.on : UOp → Int → Int → Int
  | .add, a, b => a + b
  | .sub, a, b => a - b
  | .mul, a, b => a * b

/-- `uint8_t` to `uint64_t`. (Rule of C++ or its library, no line of the source.) -/
def uintTy (w : Nat) (h : 0 < w) : IntTy := ⟨w, false, h⟩

/-- The operators `+`, `-`, `*` whose result has the type `r` and whose operands are converted to the unsigned type `t`, daw_uint_types.h 1389-1620 (`UInt64`, in
`uint64_t`), 1777-2046 (`UInt32`, in `uint32_t`), 2161-2341 (`UInt16`, in `uint32_t`, and `+`, `-` also in `uint16_t`), 2468-2567 (`UInt8`, in `uint32_t`; 2559-2562
in `uint64_t`). -/
def uArith (t r : IntTy) (op : UOp) (lhs rhs : Int) : Cxx Int := do
  let z ← arith t (op.on (t.conv lhs) (t.conv rhs))
  pure (r.conv z)

/-- The operators `/` whose result has the type `r` and whose operands are converted to the unsigned type `t`, daw_uint_types.h 1622-1735 (`UInt64`, in `uint64_t`),
2048-2120 (`UInt32`, in `uint64_t` or `uint32_t`), 2343-2404 (`UInt16`, in `uint32_t` or `uint16_t`), 2569-2601 (`UInt8`, in `uint64_t`, and 2597-2601, with a divisor of
type `UInt64`, in `uint32_t`). -/
def uDiv (t r : IntTy) (lhs rhs : Int) : Cxx Int := do
  let z ← divide t (t.conv lhs) (t.conv rhs)
  pure (r.conv z)

/-- `operator-( value )`, daw_uint_types.h 1746-1749 (`UInt64`), 2130-2133 (`UInt32`), 2414-2417 (`UInt16`), 2611-2614 (`UInt8`). -/
def uNeg (r : IntTy) (value : Int) : Cxx Int := do
  let z ← arith (signedOf r) (-(signedOf r).conv value)
  pure (r.conv z)

/-- A shift to the left of `v` in an unsigned type of `c` bits. (Rule of C++ or its library, no line of the source.) -/
def ushl (c v n : Nat) : Cxx Nat := if n < c then pure ((v <<< n) % 2 ^ c) else ub

/-- A shift to the right of `v` in an unsigned type of `c` bits. (Rule of C++ or its library, no line of the source.) -/
def ushr (c v n : Nat) : Cxx Nat := if n < c then pure (v >>> n) else ub

/-- `w - bits` in `unsigned`. (Rule of C++ or its library, no line of the source.) -/
def unsignedSub (w bits : Nat) : Nat := (w + 2 ^ 32 - bits % 2 ^ 32) % 2 ^ 32

/-- `rotate_left` of the type of `w` bits, daw_uint_types.h 667-675 (64), 1075-1083 (32), 2445-2455 (16), 2930-2940 (8), both the template and the function. The
shifts are done with `c` bits: 64 for `UInt64`, 32 for all others. -/
def rotateLeft (c w value bits : Nat) : Cxx Nat := do
  let a ← ushl c value bits
  let b ← ushr c value (unsignedSub w bits)
  pure ((a ||| b) % 2 ^ w)

/-- `rotate_right`, daw_uint_types.h 677-685 (64), 1085-1093 (32), 2456-2466 (16), 2942-2952 (8). -/
def rotateRight (c w value bits : Nat) : Cxx Nat := do
  let a ← ushr c value bits
  let b ← ushl c value (unsignedSub w bits)
  pure ((a ||| b) % 2 ^ w)

/-- `set_bit<N>`, daw_uint_types.h 2879-2884 (64), 2892-2897 (32), 2905-2910 (16), 2918-2922 (8): `~( 1U << N )` is an `unsigned`, which is converted to the
unsigned type of `w` bits. -/
def setBit (w n value : Nat) (state : Bool) : Cxx Nat := do
  let one ← ushl 32 1 n
  let mask := (2 ^ 32 - 1 - one) % 2 ^ w
  let bit ← ushl (max w 32) state.toNat n
  pure ((value &&& mask) ||| bit % 2 ^ w)

/-- `get_bit<N>`, daw_uint_types.h 2886-2890 (64), 2899-2903 (32), 2912-2916 (16), 2924-2928 (8). -/
def getBit (w n value : Nat) : Cxx Nat := do
  let v ← ushr (max w 32) value n
  pure (v &&& 1)

/-- `mask_from_lsb64`, `mask_from_lsb32`, `mask_from_lsb16`, `mask_from_lsb8`, daw_uint_types.h 2954-2996. `~` gives a value of `w` bits, whatever it is done in. -/
def maskFromLsb (w n : Nat) : Cxx Nat :=
  if n = 0 then pure 0
  else do
    let one := 2 ^ w - 1 - 1
    let v ← ushl (max w 32) one (n - 1)
    pure (2 ^ w - 1 - v % 2 ^ w)

/-- The steps of `to_uint64_buffer`, `to_uint32_buffer`, `to_uint16_buffer`, daw_uint_types.h 2998-3045, that are left, for the bytes from `n - 1` down. -/
def bufferLoop (ptr : List Hash.Byte) : Nat → Nat → Cxx Nat
  | 0, result => pure result
  | n + 1, result => do
    let b ← rd ptr n
    bufferLoop ptr n (result ||| b.toNat <<< (8 * n))

/-- `to_uint64_buffer`, daw_uint_types.h 2998-3019 (`n = 8`), `to_uint32_buffer` 3021-3034 (`n = 4`), `to_uint16_buffer` 3036-3045 (`n = 2`). -/
def toUIntBuffer (n : Nat) (ptr : List Hash.Byte) : Cxx Nat := bufferLoop ptr n 0

/-- `operator""_u64`, daw_uint_types.h 3316-3318. -/
def litU64 (value : Nat) : Cxx Nat := pure value

/-- `operator""_u32`, daw_uint_types.h 3320-3324. -/
def litU32 (asserts : Bool) (value : Nat) : Cxx Nat :=
  if asserts = true ∧ ¬ value ≤ 2 ^ 32 - 1 then abort else pure (value % 2 ^ 32)

/-- `operator""_u16`, daw_uint_types.h 3326-3330, and `operator""_u8`, 3332-3336, for `w` bits. -/
def litSmall (asserts : Bool) (w value : Nat) : Cxx Nat :=
  if asserts = true ∧ ¬ value < 2 ^ w - 1 then abort else pure (value % 2 ^ w)

/-! ### Arithmetic -/

theorem conv_unsigned {t : IntTy} (h : t.signed = false) (x : Int) : t.conv x = x % 2 ^ t.bits := by
  unfold IntTy.conv; simp [h]

theorem emod_pow {m n : Nat} (h : m ≤ n) (x : Int) : x % 2 ^ n % 2 ^ m = x % 2 ^ m :=
  Int.emod_emod_of_dvd x (by
    obtain ⟨k, rfl⟩ := Nat.exists_eq_add_of_le h
    rw [Int.pow_add]; exact ⟨_, rfl⟩)

theorem uop_emod (op : UOp) (a b m : Int) : op.on (a % m) (b % m) % m = op.on a b % m := by
  cases op with
  | add => exact (Int.add_emod a b m).symm
  | sub => exact (Int.sub_emod a b m).symm
  | mul => exact (Int.mul_emod a b m).symm

theorem uArith_eq (t r : IntTy) (ht : t.signed = false) (hr : r.signed = false) (hw : r.bits ≤ t.bits) (op : UOp)
    (hs : 32 ≤ t.bits ∨ t.bits = 16 ∧ op ≠ .mul) (lhs rhs : Int) : uArith t r op lhs rhs = pure (op.on lhs rhs % 2 ^ r.bits) := by
  have hfin : op.on (lhs % 2 ^ t.bits) (rhs % 2 ^ t.bits) % 2 ^ r.bits = op.on lhs rhs % 2 ^ r.bits := by
    rw [← emod_pow hw, uop_emod, emod_pow hw]
  unfold uArith
  rw [conv_unsigned ht, conv_unsigned ht]
  rcases hs with hs | ⟨hs, hop⟩
  · have hp : t.promote = t := by unfold IntTy.promote; rw [if_neg (by omega)]
    unfold arith
    rw [hp, ht]
    simp only [Bool.false_eq_true, if_false, pure_bind]
    rw [conv_unsigned ht, conv_unsigned hr, emod_pow hw, hfin]
  · have hp : t.promote = IntTy.int := by unfold IntTy.promote; rw [if_pos (by omega)]
    have hrange : IntTy.int.Has (op.on (lhs % 2 ^ t.bits) (rhs % 2 ^ t.bits)) := by
      have h1 := Int.emod_nonneg lhs (show (2 : Int) ^ t.bits ≠ 0 by rw [hs]; decide)
      have h2 := Int.emod_lt_of_pos lhs (show (0 : Int) < 2 ^ t.bits by rw [hs]; decide)
      have h3 := Int.emod_nonneg rhs (show (2 : Int) ^ t.bits ≠ 0 by rw [hs]; decide)
      have h4 := Int.emod_lt_of_pos rhs (show (0 : Int) < 2 ^ t.bits by rw [hs]; decide)
      rw [hs] at h1 h2 h3 h4 ⊢
      have hlo : IntTy.int.lowest = -2147483648 := by decide
      have hhi : IntTy.int.max = 2147483647 := by decide
      unfold IntTy.Has
      rw [hlo, hhi]
      cases op with
      | add => simp only [UOp.on]; omega
      | sub => simp only [UOp.on]; omega
      | mul => exact absurd rfl hop
    unfold arith
    rw [hp, if_pos (show IntTy.int.signed = true from rfl), if_pos hrange, pure_bind, conv_unsigned hr, hfin]

/-- `+`, `-` and `*` of the enumerations are the operations modulo two to the number of bits of their result, whatever the types of the operands are; no product is
computed in `uint16_t`. -/
theorem C173_arith (t r : IntTy) (ht : t.signed = false) (hr : r.signed = false) (hw : r.bits ≤ t.bits) (hs : 32 ≤ t.bits ∨ t.bits = 16) (lhs rhs : Int) :
    uArith t r .add lhs rhs = pure ((lhs + rhs) % 2 ^ r.bits) ∧ uArith t r .sub lhs rhs = pure ((lhs - rhs) % 2 ^ r.bits) ∧
    (32 ≤ t.bits → uArith t r .mul lhs rhs = pure (lhs * rhs % 2 ^ r.bits)) :=
  ⟨uArith_eq t r ht hr hw .add (hs.imp_right fun h => ⟨h, by simp⟩) lhs rhs, uArith_eq t r ht hr hw .sub (hs.imp_right fun h => ⟨h, by simp⟩) lhs rhs,
    fun h => uArith_eq t r ht hr hw .mul (Or.inl h) lhs rhs⟩

example : uArith (uintTy 32 (by decide)) (uintTy 8 (by decide)) .sub 3 5 = pure 254 := by
  rw [(C173_arith (uintTy 32 (by decide)) (uintTy 8 (by decide)) rfl rfl (by decide) (Or.inl (by decide)) 3 5).2.1]; decide

/-- Division is exact for all divisors that the type of the operation can hold; by zero it is undefined. -/
theorem C174_div_partial (t r : IntTy) (ht : t.signed = false) (hr : r.signed = false) (hw : r.bits ≤ t.bits) (hs : 32 ≤ t.bits ∨ t.bits = 16)
    (lhs rhs : Nat) (hl : lhs < 2 ^ r.bits) (hrhs : rhs < 2 ^ t.bits) : uDiv t r lhs rhs = if rhs = 0 then ub else pure ((lhs / rhs : Nat) : Int) := by
  have hp : (2 : Nat) ^ r.bits ≤ 2 ^ t.bits := Nat.pow_le_pow_right (by omega) hw
  have c1 : t.conv lhs = lhs := by
    rw [conv_unsigned ht]
    exact Int.emod_eq_of_lt (by omega) (by exact_mod_cast Nat.lt_of_lt_of_le hl hp)
  have c2 : t.conv rhs = rhs := by
    rw [conv_unsigned ht]
    exact Int.emod_eq_of_lt (by omega) (by exact_mod_cast hrhs)
  unfold uDiv divide
  rw [c1, c2]
  by_cases h0 : rhs = 0
  · subst h0; rfl
  · rw [if_neg (by omega), if_neg h0]
    have hq : lhs / rhs ≤ lhs := Nat.div_le_self _ _
    have hqi : (lhs : Int).tdiv rhs = ((lhs / rhs : Nat) : Int) := by
      rw [Int.tdiv_eq_ediv_of_nonneg (by omega)]; rfl
    rw [hqi]
    have hfin : r.conv ((lhs / rhs : Nat) : Int) = ((lhs / rhs : Nat) : Int) := by
      rw [conv_unsigned hr]
      exact Int.emod_eq_of_lt (Int.natCast_nonneg _) (by exact_mod_cast Nat.lt_of_le_of_lt hq hl)
    rcases hs with hs | hs
    · have hpt : t.promote = t := by unfold IntTy.promote; rw [if_neg (by omega)]
      unfold arith
      rw [hpt, ht]
      simp only [Bool.false_eq_true, if_false, pure_bind]
      have : t.conv ((lhs / rhs : Nat) : Int) = ((lhs / rhs : Nat) : Int) := by
        rw [conv_unsigned ht]
        exact Int.emod_eq_of_lt (Int.natCast_nonneg _) (by exact_mod_cast Nat.lt_of_le_of_lt hq (Nat.lt_of_lt_of_le hl hp))
      rw [this, hfin]
    · have hpt : t.promote = IntTy.int := by unfold IntTy.promote; rw [if_pos (by omega)]
      have hrange : IntTy.int.Has ((lhs / rhs : Nat) : Int) := by
        have hlo : IntTy.int.lowest = -2147483648 := by decide
        have hhi : IntTy.int.max = 2147483647 := by decide
        have : lhs < 65536 := by rw [hs] at hp; exact Nat.lt_of_lt_of_le hl hp
        unfold IntTy.Has
        rw [hlo, hhi]
        generalize lhs / rhs = q at *
        omega
      unfold arith
      rw [hpt, if_pos (show IntTy.int.signed = true from rfl), if_pos hrange, pure_bind, hfin]

example : uDiv (uintTy 64 (by decide)) (uintTy 8 (by decide)) ((200 : Nat) : Int) ((2 ^ 32 : Nat) : Int) = pure 0 := by
  rw [C174_div_partial (uintTy 64 (by decide)) (uintTy 8 (by decide)) rfl rfl (by decide) (Or.inl (by decide)) 200 (2 ^ 32) (by decide) (by decide)]
  rfl

/-- The division of a `uint8_t` by a `UInt64` is done in `uint32_t`: by 2^32 it divides by zero, and by 2^32 + 1 it does not divide at all. -/
theorem C174_div_violated : ∃ t r : IntTy, t.bits = 32 ∧ r.bits = 8 ∧ uDiv t r 200 (2 ^ 32) = ub ∧ uDiv t r 200 (2 ^ 32 + 1) = pure 200 :=
  ⟨uintTy 32 (by decide), uintTy 8 (by decide), rfl, rfl, by decide +kernel, by decide +kernel⟩

/-- The negative of `UInt8` and `UInt16`, and of all values but one of `UInt32` and `UInt64`. -/
theorem C173_neg_partial (r : IntTy) (hr : r.signed = false) (value : Nat) (hv : value < 2 ^ r.bits) (h : r.bits < 32 ∨ value ≠ 2 ^ (r.bits - 1)) :
    uNeg r value = pure (((2 ^ r.bits - value) % 2 ^ r.bits : Nat) : Int) := by
  obtain ⟨b, hb⟩ : ∃ b, r.bits = b + 1 := ⟨r.bits - 1, by have := r.pos; omega⟩
  have hpow : (2 : Nat) ^ r.bits = 2 * 2 ^ b := by rw [hb, Nat.pow_succ]; omega
  have hpowi : (2 : Int) ^ r.bits = 2 * 2 ^ b := by exact_mod_cast hpow
  have hbpos : 0 < 2 ^ b := Nat.pow_pos (by omega)
  have hsb : (signedOf r).bits = r.bits := rfl
  have hss : (signedOf r).signed = true := rfl
  have hc : (signedOf r).conv value = if value < 2 ^ b then (value : Int) else value - 2 ^ r.bits := by
    unfold IntTy.conv
    rw [if_pos hss, hsb]
    have e : ((2 : Nat) ^ r.bits : Nat) = 2 * 2 ^ b := hpow
    rw [Int.bmod_def, hpow]
    have hm : (value : Int) % ((2 * 2 ^ b : Nat) : Int) = value := Int.emod_eq_of_lt (by omega) (by omega)
    rw [hm]
    split
    · rw [if_pos (by omega)]
    · rw [if_neg (by omega), hpowi]; push_cast; rfl
  have hfin : ∀ z : Int, z = -((signedOf r).conv value) → r.conv z = (((2 ^ r.bits - value) % 2 ^ r.bits : Nat) : Int) := by
    intro z hz
    rw [conv_unsigned hr, hz, hc]
    have h2 : (((2 ^ r.bits - value) % 2 ^ r.bits : Nat) : Int) = ((2 : Int) ^ r.bits - value) % 2 ^ r.bits := by
      rw [Int.natCast_emod, Int.natCast_sub (by omega)]
      push_cast
      rfl
    rw [h2]
    split
    · rw [show (2 : Int) ^ r.bits - (value : Int) = -(value : Int) + 2 ^ r.bits by omega, Int.add_emod_right]
    · rw [show -((value : Int) - 2 ^ r.bits) = 2 ^ r.bits - value by omega]
  have hrange : (signedOf r).promote.Has (-(signedOf r).conv value) := by
    have hv' : (value : Int) < 2 * 2 ^ b := by exact_mod_cast (hpow ▸ hv)
    have hci : -(signedOf r).conv value = if value < 2 ^ b then -(value : Int) else 2 * 2 ^ b - value := by
      rw [hc]; split
      · rfl
      · rw [hpowi]; omega
    have hci' : (if value < 2 ^ b then -(value : Int) else 2 * 2 ^ b - value) ≤ 2 ^ b ∧ -(2 ^ b : Int) ≤ (if value < 2 ^ b then -(value : Int) else 2 * 2 ^ b - value) := by
      split
      · rename_i g; have : (value : Int) < 2 ^ b := by exact_mod_cast g
        omega
      · rename_i g; have : (2 : Int) ^ b ≤ value := by exact_mod_cast Nat.le_of_not_lt g
        omega
    rw [hci]
    unfold IntTy.promote
    rw [hsb]
    split
    · rename_i g
      have hb31 : (2 : Int) ^ b ≤ 2 ^ 30 := by
        have : (2 : Nat) ^ b ≤ 2 ^ 30 := Nat.pow_le_pow_right (by omega) (by omega)
        exact_mod_cast this
      have hlo : IntTy.int.lowest = -2147483648 := by decide
      have hhi : IntTy.int.max = 2147483647 := by decide
      unfold IntTy.Has
      rw [hlo, hhi]
      omega
    · rename_i g
      have hne : value ≠ 2 ^ b := by
        rcases h with h | h
        · omega
        · rw [hb] at h; exact h
      unfold IntTy.Has IntTy.lowest IntTy.max
      rw [if_pos hss, if_pos hss, hsb, hb, Nat.add_sub_cancel]
      refine ⟨hci'.2, ?_⟩
      split
      · have : (0 : Int) < 2 ^ b := by exact_mod_cast hbpos
        omega
      · rename_i g'
        have : (2 : Int) ^ b < value := by exact_mod_cast (show 2 ^ b < value by omega)
        omega
  unfold uNeg arith
  have hps : (signedOf r).promote.signed = true := by unfold IntTy.promote; split <;> rfl
  rw [if_pos hps, if_pos hrange, pure_bind, hfin _ rfl]

example : uNeg (uintTy 8 (by decide)) ((128 : Nat) : Int) = pure 128 := by
  rw [C173_neg_partial (uintTy 8 (by decide)) rfl 128 (by decide) (Or.inl (by decide))]; rfl

/-- For the one value of `UInt32` and of `UInt64` that is left, the negative overflows `int32_t` and `int64_t`; it should be the value itself. -/
theorem C173_neg_violated : uNeg (uintTy 64 (by decide)) (2 ^ 63) = ub ∧ uNeg (uintTy 32 (by decide)) (2 ^ 31) = ub :=
  ⟨by decide +kernel, by decide +kernel⟩

/-! ### Rotation -/

theorem unsignedSub_eq {w bits : Nat} (h : bits ≤ w) (hw : w < 2 ^ 32) : unsignedSub w bits = w - bits := by
  unfold unsignedSub
  rw [Nat.mod_eq_of_lt (a := bits) (by omega), show w + 2 ^ 32 - bits = (w - bits) + 2 ^ 32 by omega, Nat.add_mod_right]
  exact Nat.mod_eq_of_lt (by omega)

theorem testBit_ge {v w i : Nat} (hv : v < 2 ^ w) (hi : w ≤ i) : v.testBit i = false :=
  Nat.testBit_lt_two_pow (Nat.lt_of_lt_of_le hv (Nat.pow_le_pow_right (by omega) hi))

/-- The rotations put every bit where it belongs, for `UInt64` and `UInt32` (`c = w`) with counts from one to the number of bits less one, for `UInt16` and `UInt8`
(`c = 32`) with counts up to the number of bits. -/
theorem C175_rotate_partial (c w value bits : Nat) (hw0 : 0 < w) (hc : w ≤ c) (hw : w < 2 ^ 32) (hv : value < 2 ^ w) (h1 : bits ≤ w)
    (h2 : bits < c) (h3 : w - bits < c) :
    ∃ l r, rotateLeft c w value bits = pure l ∧ rotateRight c w value bits = pure r ∧ l < 2 ^ w ∧ r < 2 ^ w ∧
      (∀ i, i < w → l.testBit i = value.testBit ((i + (w - bits)) % w)) ∧ ∀ i, i < w → r.testBit i = value.testBit ((i + bits) % w) := by
  have hmod : ∀ k, k < 2 * w → k % w = if k < w then k else k - w := by
    intro k hk
    split
    · exact Nat.mod_eq_of_lt ‹_›
    · rw [Nat.mod_eq_sub_mod (by omega)]; exact Nat.mod_eq_of_lt (by omega)
  refine ⟨(value <<< bits % 2 ^ c ||| value >>> (w - bits)) % 2 ^ w, (value >>> bits ||| value <<< (w - bits) % 2 ^ c) % 2 ^ w, ?_, ?_,
    Nat.mod_lt _ (Nat.pow_pos (by omega)), Nat.mod_lt _ (Nat.pow_pos (by omega)), ?_, ?_⟩
  · unfold rotateLeft ushl ushr
    rw [unsignedSub_eq h1 hw, if_pos h2, if_pos h3]
    rfl
  · unfold rotateRight ushl ushr
    rw [unsignedSub_eq h1 hw, if_pos h2, if_pos h3]
    rfl
  · intro i hi
    rw [Nat.testBit_mod_two_pow, Nat.testBit_or, Nat.testBit_mod_two_pow, Nat.testBit_shiftLeft, Nat.testBit_shiftRight]
    rw [hmod _ (by omega)]
    rw [decide_eq_true hi, decide_eq_true (show i < c by omega)]
    simp only [Bool.true_and]
    by_cases hb : bits ≤ i
    · rw [decide_eq_true (show i ≥ bits from hb)]
      split
      · have : bits = i + bits - i := by omega
        omega
      · rw [testBit_ge hv (show w ≤ w - bits + i by omega), Bool.or_false, show i + (w - bits) - w = i - bits by omega]
        rfl
    · rw [decide_eq_false (show ¬ i ≥ bits from hb), if_pos (by omega), Nat.add_comm i]
      rfl
  · intro i hi
    rw [Nat.testBit_mod_two_pow, Nat.testBit_or, Nat.testBit_mod_two_pow, Nat.testBit_shiftLeft, Nat.testBit_shiftRight]
    rw [hmod _ (by omega)]
    rw [decide_eq_true hi, decide_eq_true (show i < c by omega)]
    simp only [Bool.true_and]
    by_cases hb : i + bits < w
    · rw [if_pos hb, decide_eq_false (show ¬ i ≥ w - bits by omega), Nat.add_comm bits]
      simp
    · rw [if_neg hb, decide_eq_true (show i ≥ w - bits by omega), testBit_ge hv (show w ≤ bits + i by omega), show i + bits - w = i - (w - bits) by omega]
      rfl

example : rotateLeft 32 8 0x96 3 = pure 0xB4 ∧ rotateRight 64 64 1 1 = pure (2 ^ 63) := ⟨by decide +kernel, by decide +kernel⟩

/-- Rotating a `UInt64` or `UInt32` by nothing, or all around, is undefined, although the template accepts both counts; and so is any count above the number of bits. -/
theorem C175_rotate_violated : (∀ w value, 0 < w → w < 2 ^ 32 → rotateLeft w w value 0 = ub ∧ rotateRight w w value 0 = ub ∧
      rotateLeft w w value w = ub ∧ rotateRight w w value w = ub) ∧
    ∀ c w value bits, w ≤ c → c ≤ 64 → w < bits → bits < 2 ^ 31 → rotateLeft c w value bits = ub ∧ rotateRight c w value bits = ub := by
  constructor
  · intro w value h0 hw
    refine ⟨?_, ?_, ?_, ?_⟩
    · unfold rotateLeft ushl ushr
      rw [unsignedSub_eq (by omega) hw, if_pos h0, if_neg (by omega)]; rfl
    · unfold rotateRight ushl ushr
      rw [unsignedSub_eq (by omega) hw, if_pos h0, if_neg (by omega)]; rfl
    · unfold rotateLeft ushl ushr
      rw [if_neg (by omega)]; rfl
    · unfold rotateRight ushl ushr
      rw [if_neg (by omega)]; rfl
  · intro c w value bits hc hc' hb hb'
    have e : ¬ unsignedSub w bits < c := by
      unfold unsignedSub
      rw [Nat.mod_eq_of_lt (a := bits) (by omega), Nat.mod_eq_of_lt (by omega)]
      omega
    constructor
    · unfold rotateLeft ushl ushr
      rw [if_neg e]
      split <;> rfl
    · unfold rotateRight ushl ushr
      rw [if_neg e]
      split <;> rfl

/-! ### Single bits -/

theorem toNat_shift_testBit (state : Bool) (n i : Nat) : (state.toNat <<< n).testBit i = (decide (i = n) && state) := by
  rw [Nat.testBit_shiftLeft]
  by_cases h : i = n
  · subst h; cases state <;> simp
  · rcases Nat.lt_or_gt_of_ne h with g | g
    · rw [decide_eq_false (by omega), decide_eq_false h]; rfl
    · rw [decide_eq_true (by omega), decide_eq_false h]
      have : state.toNat.testBit (i - n) = false := testBit_ge (w := 1) (by cases state <;> decide) (by omega)
      rw [this]; rfl

/-- `set_bit<N>` of the types of up to 32 bits changes the bit `N` and no other, and `get_bit<N>` of all types tells what it is. -/
theorem C176_set_bit_partial (w n value : Nat) (state : Bool) (hw : w ≤ 32) (hn : n < w) (hv : value < 2 ^ w) :
    ∃ r, setBit w n value state = pure r ∧ r < 2 ^ w ∧ ∀ i, r.testBit i = if i = n then state else value.testBit i := by
  have hmask : (2 ^ 32 - 1 - 1 <<< n % 2 ^ 32) % 2 ^ w = (2 ^ 32 - (1 <<< n + 1)) % 2 ^ w := by
    rw [Nat.mod_eq_of_lt (a := 1 <<< n)]
    · congr 1; omega
    · rw [Nat.shiftLeft_eq, Nat.one_mul]; exact Nat.pow_lt_pow_right (by omega) (by omega)
  refine ⟨value &&& (2 ^ 32 - (1 <<< n + 1)) % 2 ^ w ||| state.toNat <<< n % 2 ^ 32 % 2 ^ w, ?_, ?_, ?_⟩
  · unfold setBit ushl
    rw [if_pos (by omega), pure_bind, Nat.max_eq_right hw, if_pos (by omega), pure_bind, hmask]
  · apply Nat.or_lt_two_pow
    · exact Nat.lt_of_le_of_lt Nat.and_le_left hv
    · exact Nat.mod_lt _ (Nat.pow_pos (by omega))
  · intro i
    have hlt : (1 : Nat) <<< n < 2 ^ 32 := by rw [Nat.shiftLeft_eq, Nat.one_mul]; exact Nat.pow_lt_pow_right (by omega) (by omega)
    rw [Nat.testBit_or, Nat.testBit_and, Nat.testBit_mod_two_pow, Nat.testBit_two_pow_sub_succ hlt, Nat.testBit_mod_two_pow, Nat.testBit_mod_two_pow,
      toNat_shift_testBit, Nat.testBit_shiftLeft]
    by_cases hi : i < w
    · rw [decide_eq_true hi, decide_eq_true (show i < 32 by omega)]
      by_cases h : i = n
      · subst h; simp
      · rw [if_neg h, decide_eq_false h]
        have : (Nat.testBit 1 (i - n) && decide (i ≥ n)) = false := by
          rcases Nat.lt_or_gt_of_ne h with g | g
          · rw [decide_eq_false (show ¬ i ≥ n by omega), Bool.and_false]
          · rw [testBit_ge (w := 1) (by decide) (show 1 ≤ i - n by omega)]; rfl
        rw [Bool.and_comm] at this
        rw [this]; simp
    · rw [decide_eq_false hi, if_neg (by omega), testBit_ge hv (show w ≤ i by omega)]
      simp

example : setBit 16 4 0xFFFF false = pure 0xFFEF := by decide +kernel

theorem C176_get_bit (w n value : Nat) (hn : n < w) : getBit w n value = pure (value.testBit n).toNat := by
  unfold getBit ushr
  rw [if_pos (by omega), pure_bind]
  congr 1
  rw [Nat.and_one_is_mod, Nat.shiftRight_eq_div_pow, Nat.toNat_testBit]

/-- The check of `get_bit` lets the position after the last bit pass: reading it is undefined for 32 and 64 bits and gives zero for less. -/
theorem C176_get_bit_end_violated (w value : Nat) : (32 ≤ w → getBit w w value = ub) ∧ (w < 32 → value < 2 ^ w → getBit w w value = pure 0) := by
  unfold getBit ushr
  constructor
  · intro h; rw [if_neg (by omega)]; rfl
  · intro h hv
    rw [if_pos (by omega), pure_bind, Nat.shiftRight_eq_div_pow, Nat.div_eq_of_lt hv]; rfl

example : getBit 64 40 (2 ^ 40) = pure 1 := C176_get_bit 64 40 (2 ^ 40) (by decide)

/-- `set_bit<N>` of a `UInt64` clears the upper half of the number: the mask has 32 bits. For `N` of 32 and more it is undefined. -/
theorem C176_set_bit_violated (n value : Nat) (state : Bool) :
    (n < 32 → ∃ r, setBit 64 n value state = pure r ∧ r < 2 ^ 32) ∧ (32 ≤ n → setBit 64 n value state = ub) := by
  constructor
  · intro hn
    refine ⟨value &&& (2 ^ 32 - 1 - 1 <<< n % 2 ^ 32) % 2 ^ 64 ||| state.toNat <<< n % 2 ^ 64 % 2 ^ 64, ?_, ?_⟩
    · unfold setBit ushl
      rw [if_pos hn, pure_bind, Nat.max_eq_left (by omega), if_pos (by omega), pure_bind]
    · apply Nat.or_lt_two_pow
      · refine Nat.lt_of_le_of_lt (Nat.le_trans Nat.and_le_right (Nat.mod_le _ _)) ?_
        have : (2 : Nat) ^ 32 = 4294967296 := rfl
        omega
      · refine Nat.lt_of_le_of_lt (Nat.le_trans (Nat.mod_le _ _) (Nat.mod_le _ _)) ?_
        rw [Nat.shiftLeft_eq]
        refine Nat.lt_of_le_of_lt (Nat.mul_le_mul_right _ (show state.toNat ≤ 1 by cases state <;> decide)) ?_
        rw [Nat.one_mul]
        exact Nat.pow_lt_pow_right (by omega) hn
  · intro hn
    unfold setBit ushl
    rw [if_neg (by omega)]; rfl

/-! ### Masks, buffers and literals -/

/-- `mask_from_lsb…<N>` has its `N` lowest bits set. -/
theorem C177_mask (w n : Nat) (hn : n ≤ w) : maskFromLsb w n = pure (2 ^ n - 1) := by
  unfold maskFromLsb
  split
  · rename_i h; subst h; rfl
  · rename_i h
    obtain ⟨m, rfl⟩ : ∃ m, n = m + 1 := ⟨n - 1, by omega⟩
    simp only [Nat.add_sub_cancel]
    unfold ushl
    rw [if_pos (by omega), pure_bind]
    have hdvd : 2 ^ w ∣ 2 ^ (max w 32) := Nat.pow_dvd_pow 2 (by omega)
    rw [Nat.mod_mod_of_dvd _ hdvd, Nat.shiftLeft_eq]
    have hp : 2 ^ (m + 1) ≤ 2 ^ w := Nat.pow_le_pow_right (by omega) hn
    have hm : 0 < 2 ^ m := Nat.pow_pos (by omega)
    have hs : 2 ^ (m + 1) = 2 * 2 ^ m := by rw [Nat.pow_succ]; omega
    have e1 : (2 ^ w - 1 - 1) * 2 ^ m = (2 ^ w - 2 ^ (m + 1)) + (2 ^ m - 1) * 2 ^ w := by
      rw [Nat.sub_sub, Nat.sub_mul, Nat.sub_mul, Nat.one_mul, hs]
      have : 2 ^ w ≤ 2 ^ m * 2 ^ w := Nat.le_mul_of_pos_left _ hm
      rw [Nat.mul_comm (2 ^ w) (2 ^ m)]
      show 2 ^ m * 2 ^ w - (1 + 1) * 2 ^ m = _
      omega
    rw [e1, Nat.add_mul_mod_self_right]
    congr 1
    by_cases hw : 2 ^ (m + 1) = 2 ^ w
    · rw [hw, Nat.sub_self, Nat.zero_mod]; omega
    · rw [Nat.mod_eq_of_lt (by omega)]; omega

example : maskFromLsb 16 16 = pure 0xFFFF := C177_mask 16 16 (by decide)

theorem bufferLoop_spec (ptr : List Hash.Byte) : ∀ (n : Nat) (hi : List Hash.Byte), n ≤ ptr.length →
    bufferLoop ptr n (Hash.leNat hi <<< (8 * n)) = pure (Hash.leNat (ptr.take n ++ hi)) := by
  intro n
  induction n with
  | zero => intro hi _; simp [bufferLoop]
  | succ n ih =>
    intro hi hn
    have hlt : n < ptr.length := by omega
    unfold bufferLoop
    rw [rd_eq hlt, pure_bind]
    have e : Hash.leNat hi <<< (8 * (n + 1)) ||| ptr[n].toNat <<< (8 * n) = Hash.leNat (ptr[n] :: hi) <<< (8 * n) := by
      have h1 := Hash.or_shift ptr[n].toNat (Hash.leNat hi) 1 (by have := ptr[n].isLt; omega)
      rw [show 8 * (n + 1) = 8 * 1 + 8 * n by omega, Nat.shiftLeft_add, ← Nat.shiftLeft_or_distrib, Nat.or_comm, h1]
      simp [Hash.leNat]
    rw [e, ih (ptr[n] :: hi) (by omega), List.take_add_one, List.getElem?_eq_getElem hlt, Option.toList_some, List.append_assoc]
    rfl

/-- `to_uint…_buffer` is the number whose bytes, lowest first, are the ones it is given; with fewer bytes it is undefined. -/
theorem C177_buffer (n : Nat) (ptr : List Hash.Byte) :
    toUIntBuffer n ptr = if n ≤ ptr.length then pure (Hash.leNat (ptr.take n)) else ub := by
  unfold toUIntBuffer
  split
  · rename_i h
    have := bufferLoop_spec ptr n [] h
    simpa [Hash.leNat] using this
  · rename_i h
    obtain ⟨m, rfl⟩ : ∃ m, n = m + 1 := ⟨n - 1, by omega⟩
    unfold bufferLoop
    rw [rd_oob (by omega)]; rfl

example : toUIntBuffer 4 [1#8, 2#8, 3#8, 0x80#8, 9#8] = pure 0x80030201 := by
  rw [C177_buffer]; decide +kernel

/-- The literals give their number if it fits; a build with assertions ends for one that does not. -/
theorem C178_literals_partial (asserts : Bool) (w value : Nat) :
    (value < 2 ^ 64 → litU64 value = pure value) ∧ (value < 2 ^ 32 → litU32 asserts value = pure value) ∧ (2 ^ 32 ≤ value → litU32 true value = abort) ∧
    (value < 2 ^ w - 1 → litSmall asserts w value = pure value) ∧ (2 ^ w ≤ value → litSmall true w value = abort) := by
  refine ⟨fun _ => rfl, ?_, ?_, ?_, ?_⟩
  · intro h
    unfold litU32
    rw [if_neg (by omega), Nat.mod_eq_of_lt h]
  · intro h
    unfold litU32
    rw [if_pos ⟨rfl, by omega⟩]
  · intro h
    unfold litSmall
    rw [if_neg (by intro g; exact g.2 h), Nat.mod_eq_of_lt (by omega)]
  · intro h
    unfold litSmall
    rw [if_pos ⟨rfl, by omega⟩]

example : litSmall true 8 254 = pure 254 := (C178_literals_partial true 8 254).2.2.2.1 (by decide)

/-- `255_u8` and `65535_u16` fit but end a build with assertions. -/
theorem C178_literals_violated : litSmall true 8 255 = abort ∧ litSmall true 16 65535 = abort := ⟨by decide +kernel, by decide +kernel⟩

end Verif.Bits
