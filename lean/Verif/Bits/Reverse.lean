import Verif.Base

/-
Reversing bits, include/daw/daw_integer_reverse.h, and bytes, include/daw/daw_endian.h.
-/

namespace Verif.Bits
open Cxx

/-- `reverse_bits( std::uint8_t )` without the builtin, daw_integer_reverse.h 25-29. -/
def reverse8 (value : BitVec 8) : BitVec 8 :=
  let x : BitVec 32 := value.setWidth 32
  let x := ((x &&& 0x1#32) <<< 7) ||| ((x &&& 0x2#32) <<< 5) ||| ((x &&& 0x4#32) <<< 3) ||| ((x &&& 0x8#32) <<< 1) |||
    ((x &&& 0x10#32) >>> 1) ||| ((x &&& 0x20#32) >>> 3) ||| ((x &&& 0x40#32) >>> 5) ||| ((x &&& 0x80#32) >>> 7)
  x.setWidth 8

/-- `reverse_bits( std::uint16_t )` without the builtin, daw_integer_reverse.h 39-44. -/
def reverse16 (value : BitVec 16) : BitVec 16 :=
  let a : BitVec 32 := value.setWidth 32
  let a := ((a &&& 0xFF00#32) >>> 8) ||| ((a &&& 0x00FF#32) <<< 8)
  let a := ((a &&& 0xF0F0#32) >>> 4) ||| ((a &&& 0x0F0F#32) <<< 4)
  let a := ((a &&& 0xCCCC#32) >>> 2) ||| ((a &&& 0x3333#32) <<< 2)
  let a := ((a &&& 0xAAAA#32) >>> 1) ||| ((a &&& 0x5555#32) <<< 1)
  a.setWidth 16

/-- `reverse_bits( std::uint32_t )` without the builtin, daw_integer_reverse.h 54-59. -/
def reverse32 (value : BitVec 32) : BitVec 32 :=
  let v := ((value &&& 0x55555555#32) <<< 1) ||| ((value >>> 1) &&& 0x55555555#32)
  let v := ((v &&& 0x33333333#32) <<< 2) ||| ((v >>> 2) &&& 0x33333333#32)
  let v := ((v &&& 0x0F0F0F0F#32) <<< 4) ||| ((v >>> 4) &&& 0x0F0F0F0F#32)
  (v <<< 24) ||| ((v &&& 0xFF00#32) <<< 8) ||| ((v >>> 8) &&& 0xFF00#32) ||| (v >>> 24)

/-- `reverse_bits( std::uint64_t )` without the builtin, daw_integer_reverse.h 69-80. -/
def reverse64 (value : BitVec 64) : BitVec 64 :=
  let v := ((value >>> 1) &&& 0x5555555555555555#64) ||| ((value &&& 0x5555555555555555#64) <<< 1)
  let v := ((v >>> 2) &&& 0x3333333333333333#64) ||| ((v &&& 0x3333333333333333#64) <<< 2)
  let v := ((v >>> 4) &&& 0x0f0f0f0f0f0f0f0f#64) ||| ((v &&& 0x0f0f0f0f0f0f0f0f#64) <<< 4)
  let v := ((v >>> 8) &&& 0x00ff00ff00ff00ff#64) ||| ((v &&& 0x00ff00ff00ff00ff#64) <<< 8)
  let v := ((v >>> 16) &&& 0x0000ffff0000ffff#64) ||| ((v &&& 0x0000ffff0000ffff#64) <<< 16)
  (v >>> 32) ||| (v <<< 32)

/-- The bits of `y` are those of `x` in the opposite order. (Specification, no line of the source.) -/
def BitsReversed {w : Nat} (x y : BitVec w) : Prop := ∀ i, i < w → y.getLsbD i = x.getLsbD (w - 1 - i)

/-- Every number below `n` is a numeral. -/
theorem forall_lt_succ {n : Nat} {P : Nat → Prop} (h : ∀ i, i < n → P i) (hn : P n) : ∀ i, i < n + 1 → P i := by
  intro i hi
  rcases Nat.lt_succ_iff_lt_or_eq.1 hi with h' | rfl
  · exact h i h'
  · exact hn

theorem reverse8_bits (x : BitVec 8) : BitsReversed x (reverse8 x) := by
  unfold BitsReversed reverse8
  repeat' (apply forall_lt_succ; rotate_left; simp)
  intro i hi
  exact absurd hi (Nat.not_lt_zero _)

theorem reverse16_bits (x : BitVec 16) : BitsReversed x (reverse16 x) := by
  unfold BitsReversed reverse16
  repeat' (apply forall_lt_succ; rotate_left; simp)
  intro i hi
  exact absurd hi (Nat.not_lt_zero _)

theorem reverse32_bits (x : BitVec 32) : BitsReversed x (reverse32 x) := by
  unfold BitsReversed reverse32
  repeat' (apply forall_lt_succ; rotate_left; simp)
  intro i hi
  exact absurd hi (Nat.not_lt_zero _)

theorem reverse64_bits (x : BitVec 64) : BitsReversed x (reverse64 x) := by
  unfold BitsReversed reverse64
  repeat' (apply forall_lt_succ; rotate_left; simp)
  intro i hi
  exact absurd hi (Nat.not_lt_zero _)

/-- Two values with the reversed bits of the same value are equal. -/
theorem BitsReversed.unique {w : Nat} {x y z : BitVec w} (h : BitsReversed x y) (h' : BitsReversed x z) : y = z := by
  refine BitVec.eq_of_getLsbD_eq fun i hi => ?_
  rw [h i hi, h' i hi]

theorem BitsReversed.symm {w : Nat} {x y : BitVec w} (h : BitsReversed x y) : BitsReversed y x := by
  intro i hi
  rw [h _ (by omega), show w - 1 - (w - 1 - i) = i by omega]

/-- C34: `reverse_bits` reverses the bits, for 8, 16, 32 and 64 bits. -/
theorem C34_reverse : (∀ x, BitsReversed x (reverse8 x)) ∧ (∀ x, BitsReversed x (reverse16 x)) ∧
    (∀ x, BitsReversed x (reverse32 x)) ∧ (∀ x, BitsReversed x (reverse64 x)) :=
  ⟨reverse8_bits, reverse16_bits, reverse32_bits, reverse64_bits⟩

example : reverse16 0x0003#16 = 0xC000#16 ∧ reverse64 0x12#64 = 0x4800000000000000#64 := by decide

/-- C34: reversing twice is the identity. -/
theorem C34_involution : (∀ x, reverse8 (reverse8 x) = x) ∧ (∀ x, reverse16 (reverse16 x) = x) ∧
    (∀ x, reverse32 (reverse32 x) = x) ∧ (∀ x, reverse64 (reverse64 x) = x) :=
  ⟨fun x => (reverse8_bits _).unique (reverse8_bits x).symm, fun x => (reverse16_bits _).unique (reverse16_bits x).symm,
    fun x => (reverse32_bits _).unique (reverse32_bits x).symm, fun x => (reverse64_bits _).unique (reverse64_bits x).symm⟩

/-! ### Byte order -/

/-- `swap_bytes` of a 16 bit integer, daw_endian.h 40-50.  The conversions between `T` and the unsigned type keep the bits. -/
def swap16 (v : BitVec 16) : BitVec 16 := ((v >>> 8) &&& 0x00FF#16) ||| ((v <<< 8) &&& 0xFF00#16)

/-- `swap_bytes` of a 32 bit integer, daw_endian.h 52-71. -/
def swap32 (v : BitVec 32) : BitVec 32 :=
  ((v >>> 24) &&& 0x000000FF#32) ||| ((v >>> 8) &&& 0x0000FF00#32) ||| ((v <<< 8) &&& 0x00FF0000#32) |||
    ((v <<< 24) &&& 0xFF000000#32)

/-- `swap_bytes` of a 64 bit integer, daw_endian.h 73-109. -/
def swap64 (v : BitVec 64) : BitVec 64 :=
  ((v >>> 56) &&& 0x00000000000000FF#64) ||| ((v >>> 40) &&& 0x000000000000FF00#64) |||
    ((v >>> 24) &&& 0x0000000000FF0000#64) ||| ((v >>> 8) &&& 0x00000000FF000000#64) |||
    ((v <<< 8) &&& 0x000000FF00000000#64) ||| ((v <<< 24) &&& 0x0000FF0000000000#64) |||
    ((v <<< 40) &&& 0x00FF000000000000#64) ||| ((v <<< 56) &&& 0xFF00000000000000#64)

/-- The sizes the conversions exist for, by the tag `daw::constant<sizeof( T )>`.
(Rule of C++ or its library, no line of the source.) -/
inductive Size where
  | b1 | b2 | b4 | b8
  deriving DecidableEq

/-- `sizeof( T )`. (Rule of C++ or its library, no line of the source.) -/
def Size.bytes : Size → Nat
  | .b1 => 1
  | .b2 => 2
  | .b4 => 4
  | .b8 => 8

/-- `swap_bytes`, daw_endian.h 34-109. -/
def swapBytes : (s : Size) → BitVec (8 * s.bytes) → BitVec (8 * s.bytes)
  | .b1 => fun v => v
  | .b2 => swap16
  | .b4 => swap32
  | .b8 => swap64

/-- `daw::endian`, daw_endian.h 21-31, `native` being a parameter of what follows. -/
inductive Endian where
  | little | big
  deriving DecidableEq

/-- `to_little_endian`, daw_endian.h 112-120. -/
def toLittleEndian (native : Endian) (s : Size) (v : BitVec (8 * s.bytes)) : BitVec (8 * s.bytes) :=
  if native = .little then v else swapBytes s v

/-- `to_big_endian`, daw_endian.h 122-130. -/
def toBigEndian (native : Endian) (s : Size) (v : BitVec (8 * s.bytes)) : BitVec (8 * s.bytes) :=
  if native = .big then v else swapBytes s v

/-- `network_to_host_endian`, daw_endian.h 132-140. -/
def networkToHost (native : Endian) (s : Size) (v : BitVec (8 * s.bytes)) : BitVec (8 * s.bytes) :=
  if native = .big then v else toLittleEndian native s v

/-- `to_native_endian<SourceEndian>`, daw_endian.h 142-152. -/
def toNativeEndian (native source : Endian) (s : Size) (v : BitVec (8 * s.bytes)) : BitVec (8 * s.bytes) :=
  if source = native then v else if native = .little then toLittleEndian native s v else toBigEndian native s v

/-- Byte `k` of a value, counted from the least significant. (Rule of C++ or its library, no line of the source.) -/
def byteAt {w : Nat} (v : BitVec w) (k : Nat) : Nat := v.toNat / 256 ^ k % 256

/-- The bytes of a value as they lie in the memory of a machine. (Rule of C++ or its library, no line of the source.) -/
def memory (native : Endian) (n : Nat) (v : BitVec (8 * n)) : List Nat :=
  match native with
  | .little => (List.range n).map (byteAt v)
  | .big => ((List.range n).map (byteAt v)).reverse

theorem swap16_bits (x : BitVec 16) : ∀ i, i < 16 → (swap16 x).getLsbD i = x.getLsbD (8 * (2 - 1 - i / 8) + i % 8) := by
  unfold swap16
  repeat' (apply forall_lt_succ; rotate_left; simp)
  intro i hi
  exact absurd hi (Nat.not_lt_zero _)

theorem swap32_bits (x : BitVec 32) : ∀ i, i < 32 → (swap32 x).getLsbD i = x.getLsbD (8 * (4 - 1 - i / 8) + i % 8) := by
  unfold swap32
  repeat' (apply forall_lt_succ; rotate_left; simp)
  intro i hi
  exact absurd hi (Nat.not_lt_zero _)

theorem swap64_bits (x : BitVec 64) : ∀ i, i < 64 → (swap64 x).getLsbD i = x.getLsbD (8 * (8 - 1 - i / 8) + i % 8) := by
  unfold swap64
  repeat' (apply forall_lt_succ; rotate_left; simp)
  intro i hi
  exact absurd hi (Nat.not_lt_zero _)

theorem swapBytes_bits (s : Size) (v : BitVec (8 * s.bytes)) (i : Nat) (hi : i < 8 * s.bytes) :
    (swapBytes s v).getLsbD i = v.getLsbD (8 * (s.bytes - 1 - i / 8) + i % 8) := by
  cases s with
  | b1 =>
    have : i < 8 := hi
    rw [show i / 8 = 0 by omega, show i % 8 = i by omega]
    exact congrArg v.getLsbD (show i = 8 * (1 - 1 - 0) + i by omega)
  | b2 => exact swap16_bits v i hi
  | b4 => exact swap32_bits v i hi
  | b8 => exact swap64_bits v i hi

theorem byteAt_bits {w : Nat} (v : BitVec w) (k i : Nat) :
    (byteAt v k).testBit i = (decide (i < 8) && v.getLsbD (8 * k + i)) := by
  unfold byteAt
  rw [show 256 ^ k = 2 ^ (8 * k) by rw [Nat.pow_mul], show 256 = 2 ^ 8 by rfl, Nat.testBit_mod_two_pow, Nat.testBit_div_two_pow]
  rw [Nat.add_comm, BitVec.getLsbD]

theorem byteAt_swap (s : Size) (v : BitVec (8 * s.bytes)) (k : Nat) (hk : k < s.bytes) :
    byteAt (swapBytes s v) k = byteAt v (s.bytes - 1 - k) := by
  refine Nat.eq_of_testBit_eq fun i => ?_
  rw [byteAt_bits, byteAt_bits]
  by_cases hi : i < 8
  · rw [swapBytes_bits _ _ _ (by omega), show (8 * k + i) / 8 = k by omega, show (8 * k + i) % 8 = i by omega]
  · simp [hi]

theorem bytes_swap (s : Size) (v : BitVec (8 * s.bytes)) :
    (List.range s.bytes).map (byteAt (swapBytes s v)) = ((List.range s.bytes).map (byteAt v)).reverse := by
  refine List.ext_getElem (by simp) fun k h1 h2 => ?_
  simp only [List.length_map, List.length_range] at h1
  simp only [List.getElem_map, List.getElem_range, List.getElem_reverse, List.length_map, List.length_range]
  exact byteAt_swap s v k h1

/-- C39, `swap_bytes` reverses the bytes, and twice is the identity. -/
theorem C39_swap (s : Size) (v : BitVec (8 * s.bytes)) :
    (∀ k, k < s.bytes → byteAt (swapBytes s v) k = byteAt v (s.bytes - 1 - k)) ∧ swapBytes s (swapBytes s v) = v := by
  refine ⟨byteAt_swap s v, BitVec.eq_of_getLsbD_eq fun i hi => ?_⟩
  rw [swapBytes_bits _ _ _ hi, swapBytes_bits _ _ _ (by omega)]
  congr 1
  omega

example : (swapBytes .b4 0x01020304#32).toNat = 0x04030201 := by decide

/-- C39: `to_big_endian` lets the most significant byte come first in memory, `to_little_endian` the least significant,
whatever the machine. -/
theorem C39_stored (native : Endian) (s : Size) (v : BitVec (8 * s.bytes)) :
    memory native s.bytes (toBigEndian native s v) = ((List.range s.bytes).map (byteAt v)).reverse ∧
    memory native s.bytes (toLittleEndian native s v) = (List.range s.bytes).map (byteAt v) := by
  cases native with
  | little =>
    refine ⟨?_, rfl⟩
    unfold memory toBigEndian
    exact bytes_swap s v
  | big =>
    refine ⟨rfl, ?_⟩
    unfold memory toLittleEndian
    rw [if_neg (by decide), bytes_swap, List.reverse_reverse]

example : memory .little 4 (toBigEndian .little .b4 0x01020304#32) = [1, 2, 3, 4] := by decide

/-- C39: converting twice gives the value back, so that a value stored in either order can be read with the same function. -/
theorem C39_inverse (native : Endian) (s : Size) (v : BitVec (8 * s.bytes)) :
    toBigEndian native s (toBigEndian native s v) = v ∧ toLittleEndian native s (toLittleEndian native s v) = v := by
  unfold toBigEndian toLittleEndian
  constructor <;> split <;> first | rfl | exact (C39_swap s v).2

/-- C39 does not hold for `network_to_host_endian` on a little endian machine: it changes nothing, so that a value in
network order is not read back. -/
theorem C39_network_violated (s : Size) (v : BitVec (8 * s.bytes)) : networkToHost .little s v = v ∧
    (networkToHost .little .b2 (toBigEndian .little .b2 0x0102#16)).toNat = 0x0201 := ⟨rfl, by decide⟩

/-- C39, `network_to_host_endian`, as far as it holds: big endian machines and single bytes.  Missing: all others, see
`C39_network_violated`. -/
theorem C39_network_partial (native : Endian) (s : Size) (v : BitVec (8 * s.bytes)) (h : native = .big ∨ s = .b1) :
    networkToHost native s (toBigEndian native s v) = v := by
  rcases h with rfl | rfl
  · rfl
  · cases native <;> rfl

example : networkToHost .big .b2 (toBigEndian .big .b2 0x0102#16) = 0x0102#16 := C39_network_partial _ _ _ (.inl rfl)

/-- C39 does not hold for `to_native_endian` of the other byte order, on either machine: it changes nothing. -/
theorem C39_to_native_violated (native source : Endian) (s : Size) (v : BitVec (8 * s.bytes)) :
    toNativeEndian native source s v = v ∧ byteAt (toNativeEndian .little .big .b2 0x0102#16) 0 = 2 ∧
    byteAt (toNativeEndian .big .little .b2 0x0102#16) 0 = 2 := by
  refine ⟨?_, by decide, by decide⟩
  cases native <;> cases source <;> rfl

/-- C39, `to_native_endian`, as far as it holds: a source with the byte order of the machine.  Missing: the other one, see
`C39_to_native_violated`. -/
theorem C39_to_native_partial (native : Endian) (s : Size) (v : BitVec (8 * s.bytes)) :
    memory native s.bytes (toNativeEndian native native s v) = memory native s.bytes v := by
  cases native <;> rfl

end Verif.Bits
