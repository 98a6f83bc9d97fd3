import Verif.Base

/-
`numeric_limits` of the integers of 128 bits and of `UInt8` to `UInt64`: include/daw/impl/daw_gcc_clang_int128.h 28-167 and
daw_uint_types.h 3050-3314.
-/

namespace Verif.Bits.Limits
open Verif

/-- The types with limits of their own, by their bits and whether they have a sign: daw_gcc_clang_int128.h 29 and 100, and
daw_uint_types.h 3051, 3117, 3183 and 3249. -/
inductive Ty where
  | int128
  | uint128
  | uint64
  | uint32
  | uint16
  | uint8
  deriving DecidableEq

/-- `bit_count_v`, daw_bit_count.h 16: the bits of the type. -/
def Ty.bits : Ty → Nat
  | .int128 | .uint128 => 128
  | .uint64 => 64
  | .uint32 => 32
  | .uint16 => 16
  | .uint8 => 8

/-- `is_signed`, daw_gcc_clang_int128.h 31 and 102, and daw_uint_types.h 3053. -/
def Ty.signed : Ty → Bool
  | .int128 => true
  | _ => false

/-- The number that the bits of a value mean. (Rule of C++ or its library, no line of the source.) -/
def Ty.num (t : Ty) (v : BitVec t.bits) : Int := if t.signed then v.toInt else v.toNat

/-- `min( )` and `lowest( )`, daw_gcc_clang_int128.h 58-66 and 128-134, and daw_uint_types.h 3079-3085. -/
def Ty.min : (t : Ty) → BitVec t.bits
  | .int128 => (0x8000000000000000#128) <<< 64
  | .uint128 => 0#128
  | .uint64 => 0#64
  | .uint32 => 0#32
  | .uint16 => 0#16
  | .uint8 => 0#8

/-- `max( )`, daw_gcc_clang_int128.h 68-72 and 136-140, and daw_uint_types.h 3087-3089. -/
def Ty.max : (t : Ty) → BitVec t.bits
  | .int128 => ((0x7FFFFFFFFFFFFFFF#128) <<< 64) ||| 0xFFFFFFFFFFFFFFFF#128
  | .uint128 => ((0xFFFFFFFFFFFFFFFF#128) <<< 64) ||| 0xFFFFFFFFFFFFFFFF#128
  | .uint64 => 0xFFFFFFFFFFFFFFFF#64
  | .uint32 => 0xFFFFFFFF#32
  | .uint16 => 0xFFFF#16
  | .uint8 => 0xFF#8

/-- `digits`, daw_gcc_clang_int128.h 45-46 and 115-116, and daw_uint_types.h 3066-3067. -/
def Ty.digits (t : Ty) : Nat := t.bits - (if t.signed then 1 else 0)

/-- `digits10`, daw_gcc_clang_int128.h 47 and 117, and daw_uint_types.h 3068. -/
def Ty.digits10 (t : Ty) : Nat := t.digits * 3 / 10

/-- C360: every value of the type lies between `min( )`, which is `lowest( )`, and `max( )`, and every number between them is a value. -/
theorem C360_limits (t : Ty) :
    (∀ v, t.num t.min ≤ t.num v ∧ t.num v ≤ t.num t.max) ∧
    ∀ x : Int, t.num t.min ≤ x → x ≤ t.num t.max → ∃ v, t.num v = x := by
  have unsigned : ∀ w : Nat, ∀ x : Int, 0 ≤ x → x < 2 ^ w → ((BitVec.ofInt w x).toNat : Int) = x := by
    intro w x h0 h1
    rw [BitVec.toNat_ofInt]
    have hp : ((2 ^ w : Nat) : Int) = 2 ^ w := by push_cast; rfl
    rw [hp, Int.emod_eq_of_lt h0 h1]
    omega
  cases t with
  | int128 =>
    have hmin : Ty.num .int128 (Ty.min .int128) = -2 ^ 127 := by decide +kernel
    have hmax : Ty.num .int128 (Ty.max .int128) = 2 ^ 127 - 1 := by decide +kernel
    rw [hmin, hmax]
    constructor
    · intro v
      show -2 ^ 127 ≤ BitVec.toInt (n := 128) v ∧ BitVec.toInt (n := 128) v ≤ 2 ^ 127 - 1
      have h1 := BitVec.le_toInt (w := 128) v
      have h2 := BitVec.toInt_lt (w := 128) (x := v)
      constructor
      · simpa using h1
      · have : BitVec.toInt (n := 128) v < 2 ^ 127 := by simpa using h2
        omega
    · intro x h1 h2
      refine ⟨BitVec.ofInt 128 x, ?_⟩
      show BitVec.toInt (BitVec.ofInt 128 x) = x
      rw [BitVec.toInt_ofInt]
      apply Int.bmod_eq_of_le <;> omega
  | uint128 =>
    have hmin : Ty.num .uint128 (Ty.min .uint128) = 0 := by decide +kernel
    have hmax : Ty.num .uint128 (Ty.max .uint128) = 2 ^ 128 - 1 := by decide +kernel
    rw [hmin, hmax]
    refine ⟨fun v => ?_, fun x h1 h2 => ⟨BitVec.ofInt 128 x, unsigned 128 x h1 (by omega)⟩⟩
    show (0 : Int) ≤ (BitVec.toNat (w := 128) v : Int) ∧ (BitVec.toNat (w := 128) v : Int) ≤ 2 ^ 128 - 1
    have := BitVec.isLt (w := 128) v
    omega
  | uint64 =>
    have hmin : Ty.num .uint64 (Ty.min .uint64) = 0 := by decide +kernel
    have hmax : Ty.num .uint64 (Ty.max .uint64) = 2 ^ 64 - 1 := by decide +kernel
    rw [hmin, hmax]
    refine ⟨fun v => ?_, fun x h1 h2 => ⟨BitVec.ofInt 64 x, unsigned 64 x h1 (by omega)⟩⟩
    show (0 : Int) ≤ (BitVec.toNat (w := 64) v : Int) ∧ (BitVec.toNat (w := 64) v : Int) ≤ 2 ^ 64 - 1
    have := BitVec.isLt (w := 64) v
    omega
  | uint32 =>
    have hmin : Ty.num .uint32 (Ty.min .uint32) = 0 := by decide +kernel
    have hmax : Ty.num .uint32 (Ty.max .uint32) = 2 ^ 32 - 1 := by decide +kernel
    rw [hmin, hmax]
    refine ⟨fun v => ?_, fun x h1 h2 => ⟨BitVec.ofInt 32 x, unsigned 32 x h1 (by omega)⟩⟩
    show (0 : Int) ≤ (BitVec.toNat (w := 32) v : Int) ∧ (BitVec.toNat (w := 32) v : Int) ≤ 2 ^ 32 - 1
    have := BitVec.isLt (w := 32) v
    omega
  | uint16 =>
    have hmin : Ty.num .uint16 (Ty.min .uint16) = 0 := by decide +kernel
    have hmax : Ty.num .uint16 (Ty.max .uint16) = 2 ^ 16 - 1 := by decide +kernel
    rw [hmin, hmax]
    refine ⟨fun v => ?_, fun x h1 h2 => ⟨BitVec.ofInt 16 x, unsigned 16 x h1 (by omega)⟩⟩
    show (0 : Int) ≤ (BitVec.toNat (w := 16) v : Int) ∧ (BitVec.toNat (w := 16) v : Int) ≤ 2 ^ 16 - 1
    have := BitVec.isLt (w := 16) v
    omega
  | uint8 =>
    have hmin : Ty.num .uint8 (Ty.min .uint8) = 0 := by decide +kernel
    have hmax : Ty.num .uint8 (Ty.max .uint8) = 2 ^ 8 - 1 := by decide +kernel
    rw [hmin, hmax]
    refine ⟨fun v => ?_, fun x h1 h2 => ⟨BitVec.ofInt 8 x, unsigned 8 x h1 (by omega)⟩⟩
    show (0 : Int) ≤ (BitVec.toNat (w := 8) v : Int) ∧ (BitVec.toNat (w := 8) v : Int) ≤ 2 ^ 8 - 1
    have := BitVec.isLt (w := 8) v
    omega

example : Ty.num .int128 (Ty.max .int128) = 170141183460469231731687303715884105727 := by decide +kernel

theorem num_max (t : Ty) : t.num t.max = 2 ^ t.digits - 1 ∧ t.num t.min ≤ 0 := by
  cases t <;> decide +kernel

/-- C360, binary digits: the numbers of `digits` bits that are not negative are the values that are not. -/
theorem C360_digits (t : Ty) (x : Int) (h : 0 ≤ x) : (∃ v, t.num v = x) ↔ x < 2 ^ t.digits := by
  obtain ⟨h1, h2⟩ := num_max t
  constructor
  · rintro ⟨v, rfl⟩
    have := ((C360_limits t).1 v).2
    omega
  · intro hx
    exact (C360_limits t).2 x (by omega) (by omega)

/-- Three tenths of the bits are never too many decimal digits. -/
theorem ten_le_two (b : Nat) : 10 ^ (b * 3 / 10) ≤ 2 ^ b := by
  have e : b = 10 * (b / 10) + b % 10 := (Nat.div_add_mod b 10).symm
  generalize b / 10 = q at e
  have hr : b % 10 < 10 := Nat.mod_lt _ (by decide)
  generalize b % 10 = r at e hr
  subst e
  have : (10 * q + r) * 3 / 10 = 3 * q + r * 3 / 10 := by omega
  rw [this, Nat.pow_add, Nat.pow_add, Nat.pow_mul, Nat.pow_mul]
  apply Nat.mul_le_mul
  · exact Nat.pow_le_pow_left (by decide) q
  · have : ∀ r, r < 10 → 10 ^ (r * 3 / 10) ≤ 2 ^ r := by decide
    exact this r hr

/-- C360, decimal digits: every number of `digits10` decimal digits is a value, and not every one with one more. -/
theorem C360_digits10 (t : Ty) :
    (∀ x : Int, 0 ≤ x → x < 10 ^ t.digits10 → ∃ v, t.num v = x) ∧
    ∃ x : Int, 0 ≤ x ∧ x < 10 ^ (t.digits10 + 1) ∧ ¬ ∃ v, t.num v = x := by
  constructor
  · intro x h0 h1
    rw [C360_digits t x h0]
    have : ((10 ^ t.digits10 : Nat) : Int) ≤ ((2 ^ t.digits : Nat) : Int) := by
      exact Int.ofNat_le.2 (ten_le_two t.digits)
    push_cast at this
    omega
  · refine ⟨2 ^ t.digits, Int.le_of_lt (Int.pow_pos (by decide)), ?_, ?_⟩
    · cases t <;> decide +kernel
    · rw [C360_digits t _ (Int.le_of_lt (Int.pow_pos (by decide)))]
      omega

example : Ty.digits10 .uint64 = 19 ∧ Ty.digits10 .int128 = 38 := by decide

end Verif.Bits.Limits
