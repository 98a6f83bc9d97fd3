import Verif.Base

/-
`daw::bitset`, include/daw/daw_bitset.h.
-/

namespace Verif.Bits
open Cxx

/-- A bitset of `n` bits, daw_bitset.h 21-26: `num_limbs` limbs of 32 bits. -/
structure Bitset (n : Nat) where
  /-- `m_bits` -/
  limbs : List (BitVec 32)
  deriving DecidableEq

namespace Bitset
variable {n : Nat}

/-- `num_limbs`, daw_bitset.h 25. -/
def numLimbs (n : Nat) : Nat := (n - 1) / 32 + 1

/-- The default constructor, daw_bitset.h 26 and 39. -/
def empty (n : Nat) : Bitset n := ⟨List.replicate (numLimbs n) 0⟩

/-- `get_limb`, daw_bitset.h 28-32; a failing assertion ends the program. -/
def getLimb (n index : Nat) : Cxx Nat := if index < n then pure (index / 32) else abort

/-- `get_mask`, daw_bitset.h 34-36. -/
def getMask (index : Nat) : BitVec 32 := 1#32 <<< (index % 32)

/-- `set( index )`, daw_bitset.h 53-58. -/
def set (b : Bitset n) (index : Nat) : Cxx (Bitset n) := do
  let limb ← getLimb n index
  let x ← rd b.limbs limb
  let l ← wr b.limbs limb (x ||| getMask index)
  pure ⟨l⟩

/-- `unset`, daw_bitset.h 45-51, including the additional statement of line 47. -/
def unset (b : Bitset n) (index : Nat) : Cxx (Bitset n) := do
  let limb ← getLimb n index
  let x ← rd b.limbs limb
  let l ← wr b.limbs limb (x &&& ~~~(1#32 <<< (index % 4)))
  let x ← rd l limb
  let l ← wr l limb (x &&& ~~~(getMask index))
  pure ⟨l⟩

/-- `set( index, value )`, daw_bitset.h 60-67. -/
def setTo (b : Bitset n) (index : Nat) (value : Bool) : Cxx (Bitset n) :=
  if value then b.set index else b.unset index

/-- `test`, daw_bitset.h 69-74. -/
def test (b : Bitset n) (index : Nat) : Cxx Bool := do
  let limb ← getLimb n index
  let x ← rd b.limbs limb
  pure (x &&& getMask index != 0)

/-- The object has its limbs. (Specification, no line of the source.) -/
def Ok (b : Bitset n) : Prop := b.limbs.length = numLimbs n

/-- The bit `index` of the array. (Specification, no line of the source.) -/
def bit (b : Bitset n) (index : Nat) : Bool := ((b.limbs[index / 32]?).getD 0).getLsbD (index % 32)

theorem limb_lt {index : Nat} (h : index < n) : index / 32 < numLimbs n := by
  unfold numLimbs
  omega

theorem getMask_getLsbD (i k : Nat) : (getMask i).getLsbD k = decide (k < 32 ∧ k = i % 32) := by
  unfold getMask
  rw [BitVec.getLsbD_shiftLeft, BitVec.getLsbD_one]
  have : i % 32 < 32 := Nat.mod_lt _ (by decide)
  by_cases hk : k = i % 32
  · subst hk; simp [this]
  · simp [hk]
    omega

theorem getMask_self (i : Nat) (h : i % 32 < 32) : (getMask i)[i % 32] = true := by
  rw [← BitVec.getLsbD_eq_getElem, getMask_getLsbD]; simp [h]

theorem and_mask_ne_zero (x : BitVec 32) (i : Nat) :
    (x &&& getMask i != 0) = x.getLsbD (i % 32) := by
  have hi : i % 32 < 32 := Nat.mod_lt _ (by decide)
  cases h : x.getLsbD (i % 32)
  · have : x &&& getMask i = 0 := by
      apply BitVec.eq_of_getLsbD_eq
      intro k hk
      rw [BitVec.getLsbD_and, getMask_getLsbD]
      by_cases hk' : k = i % 32
      · subst hk'; simp [h]
      · simp [hk']
    simp [this]
  · rw [bne_iff_ne]
    intro h0
    have := congrArg (fun y => BitVec.getLsbD y (i % 32)) h0
    simp only [BitVec.getLsbD_and, getMask_getLsbD, h] at this
    simp [hi] at this

/-- `test` reads the bit. -/
theorem test_eq {b : Bitset n} (hb : b.Ok) {i : Nat} (h : i < n) : b.test i = pure (b.bit i) := by
  unfold test getLimb bit
  rw [if_pos h, pure_bind, rd_eq (by rw [hb]; exact limb_lt h), pure_bind, and_mask_ne_zero,
    List.getElem?_eq_getElem (by rw [hb]; exact limb_lt h)]
  rfl

theorem bit_empty (i : Nat) : (empty n).bit i = false := by
  unfold bit empty
  simp only [List.getElem?_replicate]
  split <;> simp

theorem empty_ok : (empty n).Ok := by simp [Ok, empty]

/-- **C37 (outside).**  An index that is not below the number of bits ends the program in every function that takes one. -/
theorem C37_outside (b : Bitset n) {i : Nat} (hi : n ≤ i) (v : Bool) : b.set i = abort ∧ b.unset i = abort ∧ b.setTo i v = abort ∧ b.test i = abort := by
  have e : getLimb n i = abort := by unfold getLimb; rw [if_neg (by omega)]
  have h1 : b.set i = abort := by unfold set; rw [e]; rfl
  have h2 : b.unset i = abort := by unfold unset; rw [e]; rfl
  refine ⟨h1, h2, ?_, by unfold test; rw [e]; rfl⟩
  unfold setTo
  cases v
  · exact h2
  · exact h1

example : (empty 33).test 33 = abort := (C37_outside (empty 33) (Nat.le_refl 33) true).2.2.2

/-- **C37**: `set( i )` makes bit `i` one and changes no other bit. -/
theorem C37_set {b : Bitset n} (hb : b.Ok) {i : Nat} (hi : i < n) :
    ∃ b', b.set i = pure b' ∧ b'.Ok ∧ b'.test i = pure true ∧
      ∀ j, j < n → j ≠ i → b'.test j = b.test j := by
  have hl := limb_lt hi
  unfold set getLimb
  rw [if_pos hi, pure_bind, rd_eq (by rw [hb]; exact hl), pure_bind, wr_eq (by rw [hb]; exact hl), pure_bind]
  refine ⟨_, rfl, by simpa [Ok] using hb, ?_, fun j hj hne => ?_⟩
  · rw [test_eq (by simpa [Ok] using hb) hi]
    have hi32 : i % 32 < 32 := Nat.mod_lt _ (by decide)
    simp [bit, hb ▸ hl, getMask_self, hi32]
  · rw [test_eq (by simpa [Ok] using hb) hj, test_eq hb hj]
    congr 1
    unfold bit
    by_cases hq : j / 32 = i / 32
    · simp only [hq]
      rw [List.getElem?_set_self (by rw [hb]; exact hl), List.getElem?_eq_getElem (by rw [hb]; exact hl)]
      simp only [Option.getD_some, BitVec.getLsbD_or, getMask_getLsbD]
      have : j % 32 ≠ i % 32 := by omega
      simp [this]
    · rw [List.getElem?_set_ne (by omega)]

/-- **C37**: what `set` does, on any sequence of indices: exactly the given bits become one. -/
theorem C37_set_many (is : List Nat) (h : ∀ i ∈ is, i < n) {b : Bitset n} (hb : b.Ok) :
    ∃ b', is.foldlM (fun b i => b.set i) b = pure b' ∧ b'.Ok ∧
      ∀ j, j < n → ∃ v, b.test j = pure v ∧ b'.test j = pure (decide (j ∈ is) || v) := by
  induction is generalizing b with
  | nil => exact ⟨b, rfl, hb, fun j hj => ⟨_, test_eq hb hj, by rw [test_eq hb hj]; simp⟩⟩
  | cons i is ih =>
    obtain ⟨b1, h1, h2, h3, h4⟩ := C37_set hb (h i (by simp))
    obtain ⟨b2, g1, g2, g3⟩ := ih (fun k hk => h k (by simp [hk])) h2
    refine ⟨b2, by rw [List.foldlM_cons, h1, pure_bind, g1], g2, fun j hj => ?_⟩
    obtain ⟨v, hv1, hv2⟩ := g3 j hj
    by_cases hji : j = i
    · subst hji
      refine ⟨_, test_eq hb hj, ?_⟩
      rw [h3] at hv1
      have := pure_inj.1 hv1
      subst this
      rw [hv2]; simp
    · rw [h4 j hj hji] at hv1
      exact ⟨v, hv1, by rw [hv2]; simp [hji]⟩

example := C37_set_many (n := 40) [3, 39, 3] (by decide) empty_ok

/-- C37 does not hold for `unset`: clearing bit 4 also clears bit 0. -/
theorem C37_unset_violated :
    ((do let b ← (empty 32).set 0
         let b ← b.set 4
         let b ← b.unset 4
         b.test 0) : Cxx Bool) = pure false := by rfl

/-- C37, as far as it holds for `unset`: bit `i` becomes zero, and no bit changes but `i` and the one with number
`i % 4` in the same group of 32.  Missing: that the latter is unchanged; it is if `i % 32 < 4`. -/
theorem C37_unset_partial {b : Bitset n} (hb : b.Ok) {i : Nat} (hi : i < n) :
    ∃ b', b.unset i = pure b' ∧ b'.Ok ∧ b'.test i = pure false ∧
      ∀ j, j < n → j ≠ i → (j / 32 = i / 32 ∧ j % 32 = i % 4 → i % 32 < 4) → b'.test j = b.test j := by
  have hl := limb_lt hi
  have hlb : i / 32 < b.limbs.length := by rw [hb]; exact hl
  have hi32 : i % 32 < 32 := Nat.mod_lt _ (by decide)
  unfold unset getLimb
  rw [if_pos hi, pure_bind, rd_eq hlb, pure_bind, wr_eq hlb, pure_bind, rd_eq (by simpa using hlb), pure_bind,
    wr_eq (by simpa using hlb), pure_bind]
  refine ⟨_, rfl, by simpa [Ok] using hb, ?_, fun j hj hne hex => ?_⟩
  · rw [test_eq (by simpa [Ok] using hb) hi]
    simp [bit, hlb, getMask_self, hi32]
  · rw [test_eq (by simpa [Ok] using hb) hj, test_eq hb hj]
    congr 1
    unfold bit
    have hj32 : j % 32 < 32 := Nat.mod_lt _ (by decide)
    by_cases hq : j / 32 = i / 32
    · simp only [hq]
      rw [List.getElem?_set_self (by simpa using hlb), List.getElem?_eq_getElem hlb]
      have h1 : j % 32 ≠ i % 32 := by omega
      have h2 : j % 32 ≠ i % 4 := by
        intro h
        have := hex ⟨hq, h⟩
        omega
      simp only [Option.getD_some, List.getElem_set_self, BitVec.getLsbD_and, BitVec.getLsbD_not, getMask_getLsbD,
        BitVec.getLsbD_shiftLeft, BitVec.getLsbD_one]
      simp [h1, hj32]
      have : ¬ (j % 32 - i % 4 = 0 ∧ ¬ j % 32 < i % 4) := by omega
      rcases Nat.lt_or_ge (j % 32) (i % 4) with h | h
      · simp [h]
      · have : j % 32 - i % 4 ≠ 0 := by omega
        simp [this]
    · rw [List.getElem?_set_ne (by omega), List.getElem?_set_ne (by omega)]

example : ((do let b ← (empty 100).set 70
               let b ← b.set 66
               let b ← b.unset 66
               b.test 70) : Cxx Bool) = pure true := by rfl

/-- C37, `set( index, value )`, as far as it holds: the bit gets the value, and no other bit changes unless a bit is cleared
and the additional statement of `unset` hits it. -/
theorem C37_set_to_partial {b : Bitset n} (hb : b.Ok) {i : Nat} (hi : i < n) (value : Bool) :
    ∃ b', b.setTo i value = pure b' ∧ b'.Ok ∧ b'.test i = pure value ∧
      ∀ j, j < n → j ≠ i → (value = false → j / 32 = i / 32 ∧ j % 32 = i % 4 → i % 32 < 4) → b'.test j = b.test j := by
  cases value with
  | true =>
    obtain ⟨b', h1, h2, h3, h4⟩ := C37_set hb hi
    exact ⟨b', h1, h2, h3, fun j hj hne _ => h4 j hj hne⟩
  | false =>
    obtain ⟨b', h1, h2, h3, h4⟩ := C37_unset_partial hb hi
    exact ⟨b', h1, h2, h3, fun j hj hne hk => h4 j hj hne (hk rfl)⟩

example : ((do let b ← (empty 40).setTo 33 true
               let b ← b.setTo 2 true
               let b ← b.setTo 2 false
               let x ← b.test 33
               let y ← b.test 2
               pure (x, y)) : Cxx (Bool × Bool)) = pure (true, false) := by rfl

end Bitset
end Verif.Bits
