import Verif.Base

/-
Little endian words: the numbers the hash functions of include/daw/daw_sip_hash.h and include/daw/daw_metro_hash.h read from byte strings.
-/

namespace Verif.Hash
open Cxx

/-- A byte. (Rule of C++ or its library, no line of the source.) -/
abbrev Byte := BitVec 8

/-- The number a little endian byte string stands for. (Specification, no line of the source.) -/
def leNat : List Byte → Nat
  | [] => 0
  | b :: bs => b.toNat + 256 * leNat bs

/-- The word of 64 bits a little endian byte string stands for. (Specification, no line of the source.) -/
def leWord (bs : List Byte) : BitVec 64 := BitVec.ofNat 64 (leNat bs)

theorem leNat_lt (bs : List Byte) : leNat bs < 256 ^ bs.length := by
  induction bs with
  | nil => simp [leNat]
  | cons b bs ih =>
    simp only [leNat, List.length_cons, Nat.pow_succ]
    have := b.isLt
    omega

theorem leNat_append (as bs : List Byte) : leNat (as ++ bs) = leNat as + 256 ^ as.length * leNat bs := by
  induction as with
  | nil => simp [leNat]
  | cons a as ih =>
    simp only [List.cons_append, leNat, List.length_cons, ih, Nat.pow_succ, Nat.mul_add]
    rw [Nat.mul_comm (256 ^ as.length) 256, Nat.mul_assoc]
    omega

theorem or_shift (a b n : Nat) (ha : a < 256 ^ n) : a ||| b <<< (8 * n) = a + 256 ^ n * b := by
  have h : (256 : Nat) ^ n = 2 ^ (8 * n) := by rw [Nat.pow_mul]
  rw [h] at ha ⊢
  rw [Nat.or_comm, ← Nat.shiftLeft_add_eq_or_of_lt ha, Nat.shiftLeft_eq]
  rw [Nat.mul_comm, Nat.add_comm]

/-- Joining one more byte by shift and or. -/
theorem or_byte (w : Nat) (bs : List Byte) (b : Byte) (hw : 8 * (bs.length + 1) ≤ w) :
    BitVec.ofNat w (leNat bs) ||| b.setWidth w <<< (8 * bs.length) = BitVec.ofNat w (leNat (bs ++ [b])) := by
  apply BitVec.eq_of_toNat_eq
  have h1 := leNat_lt bs
  have h2 := leNat_lt (bs ++ [b])
  have hb := b.isLt
  have hp : (256 : Nat) ^ (bs.length + 1) ≤ 2 ^ w := by
    rw [show (256 : Nat) = 2 ^ 8 from rfl, ← Nat.pow_mul]
    exact Nat.pow_le_pow_right (by omega) hw
  have hp0 : (256 : Nat) ^ bs.length ≤ 256 ^ (bs.length + 1) := Nat.pow_le_pow_right (by omega) (by omega)
  have hp1 : (256 : Nat) ≤ 2 ^ w := by
    refine Nat.le_trans ?_ hp
    have := Nat.pow_le_pow_right (n := 256) (by omega) (show 1 ≤ bs.length + 1 by omega)
    simpa using this
  simp only [List.length_append, List.length_singleton] at h2
  rw [BitVec.toNat_or, BitVec.toNat_shiftLeft, BitVec.toNat_ofNat, BitVec.toNat_ofNat, BitVec.toNat_setWidth, Nat.mod_eq_of_lt (by omega : leNat bs < 2 ^ w),
    Nat.mod_eq_of_lt (by omega : b.toNat < 2 ^ w), Nat.mod_eq_of_lt (by omega : leNat (bs ++ [b]) < 2 ^ w)]
  have e : leNat (bs ++ [b]) = leNat bs + 256 ^ bs.length * b.toNat := by simp [leNat_append, leNat]
  have hs : b.toNat <<< (8 * bs.length) = 256 ^ bs.length * b.toNat := by
    rw [Nat.shiftLeft_eq, Nat.mul_comm, show (256 : Nat) = 2 ^ 8 from rfl, ← Nat.pow_mul]
  rw [Nat.mod_eq_of_lt (by omega), or_shift _ _ _ h1, e]

/-- A byte read as a signed `char` and converted to 64 bits. -/
theorem signExtend_small (b : Byte) (h : b.toNat < 128) : b.signExtend 64 = b.setWidth 64 := by
  apply BitVec.signExtend_eq_setWidth_of_msb_false
  rw [BitVec.msb_eq_decide]
  simpa using h

end Verif.Hash
