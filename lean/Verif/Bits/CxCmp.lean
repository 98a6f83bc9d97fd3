import Verif.Bits.IntCmp

/-
The comparisons of integers of different types in include/daw/daw_cxmath.h, which are written anew there.
-/

namespace Verif.Bits.CxCmp
open Verif Verif.Bits

/-- `cmp_equal_t::operator( )` for integers, daw_cxmath.h 1400-1414.  The zeros have the type of the other operand. -/
def equal (t u : IntTy) (x y : Int) : Bool :=
  if t.signed = u.signed then cppEq t u x y
  else if t.signed then !cppLt t t x 0 && cppEq t.unsigned u (t.unsigned.conv x) y
  else !cppLt u u y 0 && cppEq t u.unsigned x (u.unsigned.conv y)

/-- `cmp_not_equal_t::operator( )`, daw_cxmath.h 1426-1430. -/
def notEqual (t u : IntTy) (x y : Int) : Bool := !equal t u x y

/-- `cmp_less_t::operator( )` for integers, daw_cxmath.h 1437-1451.  The zeros are `int`s. -/
def less (t u : IntTy) (x y : Int) : Bool :=
  if t.signed = u.signed then cppLt t u x y
  else if t.signed then cppLt t .int x 0 || cppLt t.unsigned u (t.unsigned.conv x) y
  else !cppLt u .int y 0 && cppLt t u.unsigned x (u.unsigned.conv y)

/-- `cmp_greater_t::operator( )`, daw_cxmath.h 1462-1466. -/
def greater (t u : IntTy) (x y : Int) : Bool := less u t y x

/-- `cmp_less_equal_t::operator( )`, daw_cxmath.h 1473-1477. -/
def lessEqual (t u : IntTy) (x y : Int) : Bool := !less u t y x

/-- `cmp_greater_equal_t::operator( )`, daw_cxmath.h 1484-1488. -/
def greaterEqual (t u : IntTy) (x y : Int) : Bool := !less t u x y

theorem has_zero (t : IntTy) : t.Has 0 := by
  have h1 := two_pow_pos (t.bits - 1)
  have h2 := two_pow_pos t.bits
  unfold IntTy.Has IntTy.lowest IntTy.max
  split <;> omega

theorem lt_zero {t : IntTy} {x : Int} (hx : t.Has x) : cppLt t t x 0 = decide (x < 0) := cppLt_of_same hx (has_zero t) rfl

/-- C291, `cmp_equal` of cxmath is equality of the numbers. -/
theorem C291_equal (t u : IntTy) (x y : Int) (hx : t.Has x) (hy : u.Has y) : equal t u x y = decide (x = y) := by
  unfold equal
  by_cases hs : t.signed = u.signed
  · rw [if_pos hs, cppEq_of_same hx hy hs]
  · rw [if_neg hs]
    cases ht : t.signed
    · have hu : u.signed = true := by
        cases h : u.signed
        · exact absurd (by rw [ht, h]) hs
        · rfl
      have := hx.nonneg ht
      rw [if_neg (by simp), lt_zero hy]
      by_cases h0 : y < 0
      · have : x ≠ y := by omega
        simp [h0, this]
      · have hy' := hy.unsigned (by omega)
        rw [IntTy.conv_of_has hy', cppEq_of_same hx hy' (by rw [ht]; rfl)]
        simp [h0]
    · have hu : u.signed = false := by
        cases h : u.signed
        · rfl
        · exact absurd (by rw [ht, h]) hs
      have := hy.nonneg hu
      rw [if_pos rfl, lt_zero hx]
      by_cases h0 : x < 0
      · have : x ≠ y := by omega
        simp [h0, this]
      · have hx' := hx.unsigned (by omega)
        rw [IntTy.conv_of_has hx', cppEq_of_same hx' hy (by rw [hu]; rfl)]
        simp [h0]

/-- C291, `cmp_less` of cxmath is the order of the numbers. -/
theorem C291_less (t u : IntTy) (x y : Int) (hx : t.Has x) (hy : u.Has y) : less t u x y = decide (x < y) := by
  unfold less
  by_cases hs : t.signed = u.signed
  · rw [if_pos hs, cppLt_of_same hx hy hs]
  · rw [if_neg hs]
    cases ht : t.signed
    · have hu : u.signed = true := by
        cases h : u.signed
        · exact absurd (by rw [ht, h]) hs
        · rfl
      have := hx.nonneg ht
      rw [if_neg (by simp), cppLt_zero hy hu]
      by_cases h0 : y < 0
      · have : ¬ x < y := by omega
        simp [h0, this]
      · have hy' := hy.unsigned (by omega)
        rw [IntTy.conv_of_has hy', cppLt_of_same hx hy' (by rw [ht]; rfl)]
        simp [h0]
    · have hu : u.signed = false := by
        cases h : u.signed
        · rfl
        · exact absurd (by rw [ht, h]) hs
      have := hy.nonneg hu
      rw [if_pos rfl, cppLt_zero hx ht]
      by_cases h0 : x < 0
      · have : x < y := by omega
        simp [h0, this]
      · have hx' := hx.unsigned (by omega)
        rw [IntTy.conv_of_has hx', cppLt_of_same hx' hy (by rw [hu]; rfl)]
        simp [h0]

/-- C291, the other comparisons of cxmath. -/
theorem C291_others (t u : IntTy) (x y : Int) (hx : t.Has x) (hy : u.Has y) :
    notEqual t u x y = decide (x ≠ y) ∧ greater t u x y = decide (y < x) ∧ lessEqual t u x y = decide (x ≤ y) ∧
    greaterEqual t u x y = decide (y ≤ x) := by
  unfold notEqual greater lessEqual greaterEqual
  rw [C291_equal t u x y hx hy, C291_less u t y x hy hx, C291_less t u x y hx hy]
  refine ⟨by simp, rfl, ?_, ?_⟩ <;> (rw [← decide_not]; congr 1; simp)

example : less .int .uint (-1) 1 = true ∧ equal .int .uint (-1) 4294967295 = false :=
  ⟨(C291_less .int .uint (-1) 1 (by decide) (by decide)).trans rfl, (C291_equal .int .uint (-1) 4294967295 (by decide) (by decide)).trans rfl⟩

example : greaterEqual .uint ⟨64, true, by decide⟩ 0 (-5) = true :=
  (C291_others .uint ⟨64, true, by decide⟩ 0 (-5) (by decide) (by decide)).2.2.2.trans rfl

end Verif.Bits.CxCmp
