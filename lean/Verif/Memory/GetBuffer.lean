import Verif.Base

/-
Raw buffers for a number of objects, include/daw/daw_utility.h 935-945.
-/

namespace Verif.Memory.GetBuffer
open Verif Verif.Cxx

/-- `aligned_alloc( alignment, bytes )`: a block of so many bytes at a multiple of the alignment, or null; undefined or null where the
size is not a multiple of the alignment, here null. `free` is what the system can give, `addr` where.
(Rule of C++ or its library, no line of the source.) -/
def alignedAlloc (free addr alignment bytes : Nat) : Option (Nat × Nat) :=
  if bytes ≤ free ∧ alignment ∣ bytes ∧ alignment ∣ addr then some (addr, bytes) else none

/-- `get_buffer<T, Alignment>( count )`, daw_utility.h 936-945: `size` is `sizeof( T )`, the product is one of `size_t`; the address and
the length of the block in bytes. -/
def getBuffer (free addr alignment size count : Nat) : Option (Nat × Nat) :=
  alignedAlloc free addr alignment (size * count % 2 ^ 64)

/-- Construction of object `i` in the buffer: undefined unless its bytes lie in the block.
(Rule of C++ or its library, no line of the source.) -/
def construct (block : Nat × Nat) (size i : Nat) : Cxx Nat :=
  if size * i + size ≤ block.2 then pure (block.1 + size * i) else ub

/-- C354, as far as it holds: where the bytes asked for are a number that `size_t` has, a buffer that is not null has room for all the
objects, each at a multiple of the alignment of its type, and no two overlap.  Missing: greater numbers, see `C354_wrap_violated`. -/
theorem C354_room_partial (free addr alignment align size count : Nat) (block : Nat × Nat) (hs : size * count < 2 ^ 64)
    (ha : align ∣ alignment) (hsz : align ∣ size) (h : getBuffer free addr alignment size count = some block) :
    ∀ i, i < count → ∃ p, construct block size i = pure p ∧ align ∣ p ∧ block.1 ≤ p ∧ p + size ≤ block.1 + block.2 ∧
      ∀ j q, j < count → j ≠ i → construct block size j = pure q → p + size ≤ q ∨ q + size ≤ p := by
  intro i hi
  unfold getBuffer alignedAlloc at h
  rw [Nat.mod_eq_of_lt hs] at h
  split at h
  · rename_i hc
    obtain rfl := Option.some.inj h
    have hle : size * i + size ≤ size * count := by
      rw [← Nat.mul_succ]
      exact Nat.mul_le_mul_left _ hi
    refine ⟨addr + size * i, by simp [construct, hle], ?_, by simp, by simp only; omega, ?_⟩
    · exact Nat.dvd_add (Nat.dvd_trans ha hc.2.2) (Nat.dvd_mul_right_of_dvd hsz i)
    · intro j q hj hne hq
      have hlj : size * j + size ≤ size * count := by
        rw [← Nat.mul_succ]
        exact Nat.mul_le_mul_left _ hj
      simp only [construct, hlj, if_true] at hq
      obtain rfl := pure_inj.1 hq
      rcases Nat.lt_or_gt_of_ne hne with h' | h'
      · right
        have : size * j + size ≤ size * i := by rw [← Nat.mul_succ]; exact Nat.mul_le_mul_left _ h'
        omega
      · left
        have : size * i + size ≤ size * j := by rw [← Nat.mul_succ]; exact Nat.mul_le_mul_left _ h'
        omega
  · simp at h

example : getBuffer 4096 64 8 8 100 = some (64, 800) := by decide

/-- C354 does not hold where the product is too great: the block is always too small for the last object. -/
theorem C354_wrap_violated (free addr alignment size count : Nat) (block : Nat × Nat) (hs : 2 ^ 64 ≤ size * count)
    (h : getBuffer free addr alignment size count = some block) : 0 < count ∧ construct block size (count - 1) = ub := by
  have hc : 0 < count := by
    rcases Nat.eq_zero_or_pos count with rfl | h
    · simp at hs
    · exact h
  refine ⟨hc, ?_⟩
  unfold getBuffer alignedAlloc at h
  split at h
  · obtain rfl := Option.some.inj h
    have hm : size * count % 2 ^ 64 < 2 ^ 64 := Nat.mod_lt _ (by decide)
    have : size * (count - 1) + size = size * count := by
      rw [← Nat.mul_succ, Nat.succ_eq_add_one, Nat.sub_add_cancel hc]
    unfold construct
    rw [this, if_neg (by simp only; omega)]
  · simp at h

/-- C354, such a case: for 2^61 + 1 objects of 8 bytes the buffer has room for one. -/
theorem C354_wrap_witness : getBuffer 4096 64 8 8 (2 ^ 61 + 1) = some (64, 8) ∧ construct (64, 8) 8 1 = ub := by
  constructor
  · decide
  · rfl

/-- C354, an alignment greater than that of the type: if the bytes are no multiple of it, there is no buffer, however much is free. -/
theorem C354_alignment_finding (free addr alignment size count : Nat) (h : ¬ alignment ∣ size * count % 2 ^ 64) :
    getBuffer free addr alignment size count = none := by
  simp [getBuffer, alignedAlloc, h]

example : ¬ 64 ∣ 8 * 3 % 2 ^ 64 := by decide

end Verif.Memory.GetBuffer
