import Verif.Bits.Natural

/-!
`copy_sign` and `signbit` of integers, include/daw/daw_cxmath.h, as they are without a bit cast in constant expressions (with one the template of lines 1139-1147
has a parameter of type `void` and cannot be called).
-/

namespace Verif.Bits.CopySign
open Verif Verif.Cxx

/-- `-x` converted to the type of `x`, daw_cxmath.h 1153 and 1156: types narrower than `int` are widened before. -/
def neg (t : IntTy) (x : Int) : Cxx Int := if t.bits < 32 then pure (t.conv (-x)) else Natural.arith t (-x)

/-- `copy_sign( Number, Number2 )`, daw_cxmath.h 1139-1159, for a `Number` of type `t`. -/
def copySign (t : IntTy) (x s : Int) : Cxx Int :=
  if s < 0 then (if x < 0 then pure x else neg t x)
  else if x < 0 then neg t x
  else pure x

/-- `signbit`, daw_cxmath.h 1176-1186. -/
def signbit (t : IntTy) (n : Int) : Bool := if t.signed then decide (n < 0) else false

theorem conv_has (t : IntTy) (x : Int) (h : t.Has x) : t.conv x = x := by
  obtain ⟨h1, h2⟩ := h
  have hp : (2 : Int) ^ t.bits = 2 * 2 ^ (t.bits - 1) := by
    have := t.pos
    obtain ⟨k, hk⟩ : ∃ k, t.bits = k + 1 := ⟨t.bits - 1, by omega⟩
    rw [hk, Nat.add_sub_cancel, Int.pow_succ]; omega
  have hpos : (0 : Int) < 2 ^ (t.bits - 1) := Int.pow_pos (by omega)
  unfold IntTy.conv IntTy.lowest IntTy.max at *
  cases hs : t.signed with
  | true =>
    rw [hs] at h1 h2
    simp only [if_true] at h1 h2 ⊢
    have e : ((2 ^ t.bits : Nat) : Int) = 2 * 2 ^ (t.bits - 1) := by rw [← hp]; simp
    apply Int.bmod_eq_of_le_mul_two
    · rw [e]; omega
    · rw [e]; omega
  | false =>
    rw [hs] at h1 h2
    simp at h1 h2 ⊢
    exact Int.emod_eq_of_lt h1 (by omega)

theorem neg_ok (t : IntTy) (x : Int) (h : t.Has (-x)) : neg t x = pure (-x) := by
  unfold neg Natural.arith
  rw [conv_has t _ h, if_pos h]
  split
  · rfl
  · split <;> rfl

/-- **C371 (part).**  For every number of a signed type but the lowest one the result has the magnitude of the number and is negative just if the second number is,
unless it is zero; it is a number of the type.  Missing: the lowest number, `C371_lowest_violated`, and unsigned types, `C371_unsigned_violated`. -/
theorem C371_copy_sign_partial (t : IntTy) (ht : t.signed = true) (x s : Int) (hx : t.Has x) (hl : x ≠ t.lowest) :
    copySign t x s = pure (if s < 0 then -(x.natAbs : Int) else (x.natAbs : Int)) ∧ t.Has (-(x.natAbs : Int)) ∧ t.Has (x.natAbs : Int) := by
  obtain ⟨h1, h2⟩ := hx
  unfold IntTy.lowest at h1 hl
  unfold IntTy.max at h2
  rw [ht] at h1 h2 hl
  simp only [if_true] at h1 h2 hl
  have ha : t.Has (-(x.natAbs : Int)) ∧ t.Has (x.natAbs : Int) := by
    unfold IntTy.Has IntTy.lowest IntTy.max
    rw [ht]; simp only [if_true]
    omega
  refine ⟨?_, ha⟩
  unfold copySign
  by_cases hs : s < 0
  · rw [if_pos hs, if_pos hs]
    by_cases h0 : x < 0
    · rw [if_pos h0, show -(x.natAbs : Int) = x by omega]
    · have e : -(x.natAbs : Int) = -x := by omega
      rw [if_neg h0, neg_ok t x (by rw [← e]; exact ha.1), e]
  · rw [if_neg hs, if_neg hs]
    by_cases h0 : x < 0
    · have e : (x.natAbs : Int) = -x := by omega
      rw [if_pos h0, neg_ok t x (by rw [← e]; exact ha.2), e]
    · rw [if_neg h0, show (x.natAbs : Int) = x by omega]

example : copySign ⟨8, true, by decide⟩ 5 (-3) = pure (-5) ∧ copySign ⟨64, true, by decide⟩ (-5) 0 = pure 5 := ⟨rfl, rfl⟩

/-- **C371 (violated: the lowest number).**  It keeps its sign in types narrower than `int` whatever the second number is, and in others the call is undefined for a
second number that is not negative. -/
theorem C371_lowest_violated (t : IntTy) (ht : t.signed = true) (s : Int) (hs : 0 ≤ s) :
    (t.bits < 32 → copySign t t.lowest s = pure t.lowest) ∧ (32 ≤ t.bits → copySign t t.lowest s = ub) := by
  have hp : (2 : Int) ^ t.bits = 2 * 2 ^ (t.bits - 1) := by
    have := t.pos
    obtain ⟨k, hk⟩ : ∃ k, t.bits = k + 1 := ⟨t.bits - 1, by omega⟩
    rw [hk, Nat.add_sub_cancel, Int.pow_succ]; omega
  have hpos : (0 : Int) < 2 ^ (t.bits - 1) := Int.pow_pos (by omega)
  have hl : t.lowest = -2 ^ (t.bits - 1) := by unfold IntTy.lowest; rw [ht]; rfl
  have hneg : t.lowest < 0 := by rw [hl]; omega
  unfold copySign neg Natural.arith
  rw [if_neg (by omega), if_pos hneg]
  constructor
  · intro hb
    rw [if_pos hb, hl, Int.neg_neg]
    have e : t.conv (2 ^ (t.bits - 1)) = t.conv (-2 ^ (t.bits - 1)) := by
      unfold IntTy.conv
      rw [ht]; simp only [if_true]
      have e' : (2 : Int) ^ (t.bits - 1) = -2 ^ (t.bits - 1) + ((2 ^ t.bits : Nat) : Int) := by
        have : ((2 ^ t.bits : Nat) : Int) = 2 ^ t.bits := by simp
        rw [this]; omega
      calc (2 ^ (t.bits - 1) : Int).bmod (2 ^ t.bits) = (-2 ^ (t.bits - 1) + ((2 ^ t.bits : Nat) : Int)).bmod (2 ^ t.bits) := congrArg (Int.bmod · _) e'
        _ = _ := by rw [Int.add_bmod_right]
    rw [e, conv_has]
    rw [← hl]
    refine ⟨Int.le_refl _, ?_⟩
    unfold IntTy.max; rw [ht, hl]; simp only [if_true]; omega
  · intro hb
    rw [if_neg (by omega), ht, if_pos rfl, if_neg]
    rw [hl, Int.neg_neg]
    intro h
    have := h.2
    unfold IntTy.max at this
    rw [ht] at this; simp only [if_true] at this; omega

/-- **C371 (violated: unsigned types).**  A negative second number gives the complement of the number, another magnitude unless it is half of the range. -/
theorem C371_unsigned_violated (t : IntTy) (ht : t.signed = false) (x s : Int) (hx : t.Has x) (hs : s < 0) (h0 : 0 < x) :
    copySign t x s = pure (2 ^ t.bits - x) := by
  obtain ⟨h1, h2⟩ := hx
  have hm : x ≤ 2 ^ t.bits - 1 := by unfold IntTy.max at h2; rw [ht] at h2; simpa using h2
  have e : t.conv (-x) = 2 ^ t.bits - x := by
    unfold IntTy.conv
    rw [ht]; simp only [Bool.false_eq_true, if_false]
    rw [← Int.add_emod_right, show -x + 2 ^ t.bits = 2 ^ t.bits - x by omega]
    exact Int.emod_eq_of_lt (by omega) (by omega)
  unfold copySign neg Natural.arith
  rw [if_pos hs, if_neg (by omega), ht, e]
  simp

/-- **C371 (signbit).**  The sign of every number of every type is known. -/
theorem C371_signbit (t : IntTy) (x : Int) (hx : t.Has x) : signbit t x = decide (x < 0) := by
  unfold signbit
  cases ht : t.signed with
  | true => rfl
  | false =>
    have := hx.1
    unfold IntTy.lowest at this
    rw [ht] at this
    simp at this ⊢
    exact this

example : signbit ⟨16, true, by decide⟩ (-7) = true ∧ (⟨16, true, by decide⟩ : IntTy).Has (-7) := by decide

end Verif.Bits.CopySign
