import Verif.Base
import Verif.Containers.Lists
import Mathlib.Analysis.SpecialFunctions.Trigonometric.Bounds
import Mathlib.Analysis.Real.Pi.Bounds
import Mathlib.Data.Rat.Floor

/-
The sine and cosine of include/daw/daw_math.h, in rational arithmetic, against those of the real numbers.
-/

namespace Verif.Bits.Sine
open Cxx

/-- `constants::tol`, daw_math.h 189-191. -/
def tol : Rat := 1 / 1000

/-- `PI< double >` and, if `isFloat`, `PI< float >`, daw_math.h 42-44: the constant in the type. -/
def pi (isFloat : Bool) : Rat := if isFloat then 13176795 / 4194304 else 884279719003555 / 281474976710656

/-- `cube`, daw_math.h 193-196. -/
def cube (x : Rat) : Rat := x * x * x

theorem third_lt (x : Rat) (h : ¬ x < tol) : ⌊x / 3 * 1000⌋.toNat < ⌊x * 1000⌋.toNat := by
  have h1 : (1 : Rat) ≤ x * 1000 := by
    unfold tol at h
    linarith
  have h2 : 1 ≤ ⌊x * 1000⌋ := Int.le_floor.mpr (by exact_mod_cast h1)
  have h3 : ⌊x / 3 * 1000⌋ < ⌊x * 1000⌋ := by
    apply Int.floor_lt.mpr
    have h4 : x * 1000 < ⌊x * 1000⌋ + 1 := Int.lt_floor_add_one _
    have h5 : (1 : Rat) ≤ (⌊x * 1000⌋ : Rat) := by exact_mod_cast h2
    linarith
  omega

/-- `sin_helper` for a number, daw_math.h 198-207: numbers as they are without rounding. -/
def sinHelper (x : Rat) : Rat :=
  if h : x < tol then x
  else 3 * sinHelper (x / 3) - 4 * cube (sinHelper (x / 3))
termination_by ⌊x * 1000⌋.toNat
decreasing_by all_goals exact third_lt x h

/-- `sin`, daw_math.h 210-213. -/
def sin (isFloat : Bool) (x : Rat) : Rat := sinHelper (if x < 0 then pi isFloat - x else x)

/-- `cos`, daw_math.h 215-221: the division by 2.0 is in `double`, and so is the sine. -/
def cos (isFloat : Bool) (x : Rat) : Rat := if 0 = x then 1 else sin false (pi isFloat / 2 - x)

/-- A floating point number that may be infinite or not a number. (Rule of C++ or its library, no line of the source.) -/
inductive Ext where
  | num (q : Rat)
  | inf
  | nan
  deriving DecidableEq

/-- Comparison of a floating point number with a finite one. (Rule of C++ or its library, no line of the source.) -/
def Ext.below : Ext → Rat → Bool
  | .num q, t => decide (q < t)
  | .inf, _ => false
  | .nan, _ => false

/-- Division of a floating point number by three. (Rule of C++ or its library, no line of the source.) -/
def Ext.third : Ext → Ext
  | .num q => .num (q / 3)
  | .inf => .inf
  | .nan => .nan

/-- The arithmetic of daw_math.h 203-206 on what the calls give; only needed for numbers. -/
def Ext.triple : Ext → Ext → Ext
  | .num a, .num b => .num (3 * a - 4 * cube b)
  | _, _ => .nan

/-- `sin_helper`, daw_math.h 198-207, for any floating point number. -/
def sinHelperExt (x : Ext) : Cxx Ext :=
  if x.below tol then pure x
  else do
    let a ← sinHelperExt x.third
    let b ← sinHelperExt x.third
    pure (a.triple b)
partial_fixpoint

/-- From zero to two the function is at least zero and at most its argument. -/
theorem sinHelper_small (x : Rat) (h0 : 0 ≤ x) (h2 : x ≤ 2) : 0 ≤ sinHelper x ∧ sinHelper x ≤ x := by
  induction x using sinHelper.induct with
  | case1 x h => rw [sinHelper, dif_pos h]; exact ⟨h0, le_rfl⟩
  | case2 x h ih =>
    obtain ⟨i0, i1⟩ := ih (by linarith) (by linarith)
    rw [sinHelper, dif_neg h]
    unfold cube
    generalize sinHelper (x / 3) = s at i0 i1
    have hs : s ≤ 2 / 3 := by linarith
    have hss : s * s ≤ 4 / 9 := by nlinarith
    constructor
    · nlinarith
    · nlinarith [mul_nonneg i0 (mul_nonneg i0 i0)]

/-- The function stays between minus one and one. -/
theorem sinHelper_bound (x : Rat) (h0 : 0 ≤ x) : -1 ≤ sinHelper x ∧ sinHelper x ≤ 1 := by
  induction x using sinHelper.induct with
  | case1 x h =>
    rw [sinHelper, dif_pos h]
    unfold tol at h
    constructor <;> linarith
  | case2 x h ih =>
    obtain ⟨i0, i1⟩ := ih (by linarith)
    rw [sinHelper, dif_neg h]
    unfold cube
    generalize sinHelper (x / 3) = s at i0 i1
    constructor
    · nlinarith [mul_nonneg (by linarith : (0 : Rat) ≤ 1 - s) (sq_nonneg (2 * s + 1))]
    · nlinarith [mul_nonneg (by linarith : (0 : Rat) ≤ s + 1) (sq_nonneg (2 * s - 1))]

/-- The step of both functions, and how far their values are apart after it. -/
theorem triple_diff (s t : ℝ) : (3 * s - 4 * (s * s * s)) - (3 * t - 4 * t ^ 3) = (3 - 4 * (s ^ 2 + s * t + t ^ 2)) * (s - t) := by ring

/-- `sin_helper` is near the sine: up to two within a part in six million of the argument, and the square of it beyond. -/
theorem sinHelper_close (x : Rat) (h0 : 0 ≤ x) :
    |(sinHelper x : ℝ) - Real.sin x| ≤ (x : ℝ) / 6000000 * max 1 (3 / 2 * (x : ℝ)) := by
  induction x using sinHelper.induct with
  | case1 x h =>
    rw [sinHelper, dif_pos h]
    unfold tol at h
    have hx0 : (0 : ℝ) ≤ x := by exact_mod_cast h0
    have hx1 : (x : ℝ) < 1 / 1000 := by
      have : ((x : Rat) : ℝ) < ((1 / 1000 : Rat) : ℝ) := by exact_mod_cast h
      push_cast at this
      linarith
    have hm : (1 : ℝ) ≤ max 1 (3 / 2 * (x : ℝ)) := le_max_left _ _
    have hb : (x : ℝ) / 6000000 ≤ (x : ℝ) / 6000000 * max 1 (3 / 2 * (x : ℝ)) := by
      have : (0 : ℝ) ≤ (x : ℝ) / 6000000 := by positivity
      nlinarith
    refine le_trans ?_ hb
    rcases eq_or_lt_of_le hx0 with hz | hp
    · rw [← hz]; simp
    · have h1 := Real.sin_lt hp
      have h2 := Real.sin_gt_sub_cube hp
      rw [abs_le]
      have h3 : (x : ℝ) ^ 3 / 6 ≤ x / 6000000 := by
        have : (x : ℝ) ^ 2 ≤ 1 / 1000000 := by nlinarith
        nlinarith
      constructor <;> linarith
  | case2 x h ih =>
    have hx3 : 0 ≤ x / 3 := by linarith
    have i := ih hx3
    have hx0 : (0 : ℝ) ≤ x := by exact_mod_cast h0
    rw [sinHelper, dif_neg h]
    have hsin : Real.sin (x : ℝ) = 3 * Real.sin ((x / 3 : Rat) : ℝ) - 4 * Real.sin ((x / 3 : Rat) : ℝ) ^ 3 := by
      rw [← Real.sin_three_mul]
      congr 1
      push_cast
      ring
    have hcast : (((3 * sinHelper (x / 3) - 4 * cube (sinHelper (x / 3)) : Rat)) : ℝ) =
        3 * (sinHelper (x / 3) : ℝ) - 4 * ((sinHelper (x / 3) : ℝ) * (sinHelper (x / 3) : ℝ) * (sinHelper (x / 3) : ℝ)) := by
      unfold cube
      push_cast
      ring
    rw [hsin, hcast, triple_diff, abs_mul]
    have hthird : ((x / 3 : Rat) : ℝ) = (x : ℝ) / 3 := by push_cast; ring
    by_cases h2 : x ≤ 2
    · have h2' : (x : ℝ) ≤ 2 := by exact_mod_cast h2
      obtain ⟨a0, a1⟩ := sinHelper_small (x / 3) hx3 (by linarith)
      have a0' : (0 : ℝ) ≤ (sinHelper (x / 3) : ℝ) := by exact_mod_cast a0
      have a1' : (sinHelper (x / 3) : ℝ) ≤ 2 / 3 := by
        have : (sinHelper (x / 3) : ℝ) ≤ ((x / 3 : Rat) : ℝ) := by exact_mod_cast a1
        rw [hthird] at this
        linarith
      have b0 : 0 ≤ Real.sin ((x / 3 : Rat) : ℝ) := by
        rw [hthird]
        apply Real.sin_nonneg_of_nonneg_of_le_pi (by positivity)
        have := Real.pi_gt_three
        linarith
      have b1 : Real.sin ((x / 3 : Rat) : ℝ) ≤ 2 / 3 := by
        have : Real.sin ((x / 3 : Rat) : ℝ) ≤ ((x / 3 : Rat) : ℝ) := Real.sin_le (by exact_mod_cast hx3)
        rw [hthird] at this
        rw [hthird]
        linarith
      have hm3 : max 1 (3 / 2 * ((x / 3 : Rat) : ℝ)) = 1 := by
        rw [hthird]
        apply max_eq_left
        linarith
      rw [hm3, mul_one, hthird] at i
      rw [hthird] at b0 b1 ⊢
      generalize (sinHelper (x / 3) : ℝ) = s at *
      generalize Real.sin ((x : ℝ) / 3) = t at *
      have hf : |3 - 4 * (s ^ 2 + s * t + t ^ 2)| ≤ 3 := by
        rw [abs_le]
        have e1 : s ^ 2 ≤ 4 / 9 := by nlinarith
        have e2 : t ^ 2 ≤ 4 / 9 := by nlinarith
        have e3 : s * t ≤ 4 / 9 := by nlinarith
        have e4 : 0 ≤ s * t := mul_nonneg a0' b0
        constructor <;> nlinarith
      have hm : (1 : ℝ) ≤ max 1 (3 / 2 * (x : ℝ)) := le_max_left _ _
      calc |3 - 4 * (s ^ 2 + s * t + t ^ 2)| * |s - t| ≤ 3 * ((x : ℝ) / 3 / 6000000) :=
            mul_le_mul hf i (abs_nonneg _) (by norm_num)
        _ = (x : ℝ) / 6000000 * 1 := by ring
        _ ≤ _ := mul_le_mul_of_nonneg_left hm (by positivity)
    · have h2' : (2 : ℝ) < x := by
        have : (2 : Rat) < x := by linarith
        exact_mod_cast this
      obtain ⟨a0, a1⟩ := sinHelper_bound (x / 3) hx3
      have a0' : (-1 : ℝ) ≤ (sinHelper (x / 3) : ℝ) := by exact_mod_cast a0
      have a1' : (sinHelper (x / 3) : ℝ) ≤ 1 := by exact_mod_cast a1
      have b0 := Real.neg_one_le_sin ((x / 3 : Rat) : ℝ)
      have b1 := Real.sin_le_one ((x / 3 : Rat) : ℝ)
      rw [hthird] at i b0 b1 ⊢
      generalize (sinHelper (x / 3) : ℝ) = s at *
      generalize Real.sin ((x : ℝ) / 3) = t at *
      have hf : |3 - 4 * (s ^ 2 + s * t + t ^ 2)| ≤ 9 := by
        rw [abs_le]
        have e1 : s ^ 2 ≤ 1 := by nlinarith
        have e2 : t ^ 2 ≤ 1 := by nlinarith
        constructor
        · nlinarith [sq_nonneg (s - t)]
        · nlinarith [sq_nonneg (s + t), sq_nonneg s, sq_nonneg t]
      have hm : max 1 (3 / 2 * (x : ℝ)) = 3 / 2 * x := max_eq_right (by linarith)
      have hmm : max 1 (3 / 2 * ((x : ℝ) / 3)) ≤ x / 2 := max_le (by linarith) (by linarith)
      rw [hm]
      calc |3 - 4 * (s ^ 2 + s * t + t ^ 2)| * |s - t| ≤ 9 * ((x : ℝ) / 3 / 6000000 * max 1 (3 / 2 * ((x : ℝ) / 3))) :=
            mul_le_mul hf i (abs_nonneg _) (by norm_num)
        _ ≤ 9 * ((x : ℝ) / 3 / 6000000 * (x / 2)) := by
            apply mul_le_mul_of_nonneg_left _ (by norm_num)
            exact mul_le_mul_of_nonneg_left hmm (by positivity)
        _ = _ := by ring

/-- How far the constants are from π. -/
theorem pi_close (isFloat : Bool) : |((pi isFloat : Rat) : ℝ) - Real.pi| ≤ 1 / 10 ^ 7 := by
  have h1 := Real.pi_gt_d20
  have h2 := Real.pi_lt_d20
  cases isFloat
  · have : ((pi false : Rat) : ℝ) = 884279719003555 / 281474976710656 := by unfold pi; norm_num
    rw [this, abs_le]
    constructor <;> linarith
  · have : ((pi true : Rat) : ℝ) = 13176795 / 4194304 := by unfold pi; norm_num
    rw [this, abs_le]
    constructor <;> linarith

/-- The sine, without rounding, is near the sine of the number: the bound grows with the square of the argument, and is below a part in fifty
thousand for arguments from minus π to two π. -/
theorem C267_sin_partial (isFloat : Bool) (x : Rat) :
    (0 ≤ x → |(sin isFloat x : ℝ) - Real.sin x| ≤ (x : ℝ) / 6000000 * max 1 (3 / 2 * (x : ℝ))) ∧
    (x < 0 → |(sin isFloat x : ℝ) - Real.sin x| ≤ ((pi isFloat : ℝ) - x) / 6000000 * max 1 (3 / 2 * ((pi isFloat : ℝ) - x)) + 1 / 10 ^ 7) ∧
    (-157 / 50 ≤ x → x ≤ 314 / 50 → |(sin isFloat x : ℝ) - Real.sin x| ≤ 1 / 50000) := by
  have hpos : 0 ≤ x → |(sin isFloat x : ℝ) - Real.sin x| ≤ (x : ℝ) / 6000000 * max 1 (3 / 2 * (x : ℝ)) := by
    intro h
    unfold sin
    rw [if_neg (by linarith)]
    exact sinHelper_close x h
  have hpp : (0 : Rat) < pi isFloat := by cases isFloat <;> norm_num [pi]
  have hneg : x < 0 →
      |(sin isFloat x : ℝ) - Real.sin x| ≤ ((pi isFloat : ℝ) - x) / 6000000 * max 1 (3 / 2 * ((pi isFloat : ℝ) - x)) + 1 / 10 ^ 7 := by
    intro h
    unfold sin
    rw [if_pos h]
    have h1 := sinHelper_close (pi isFloat - x) (by linarith)
    rw [Rat.cast_sub] at h1
    have h2 : |Real.sin ((pi isFloat : ℝ) - x) - Real.sin x| ≤ 1 / 10 ^ 7 := by
      rw [← Real.sin_pi_sub (x : ℝ)]
      refine le_trans ?_ (pi_close isFloat)
      have := Real.abs_sin_sub_sin_le ((pi isFloat : ℝ) - x) (Real.pi - x)
      rwa [show (pi isFloat : ℝ) - x - (Real.pi - x) = (pi isFloat : ℝ) - Real.pi by ring] at this
    calc |(sinHelper (pi isFloat - x) : ℝ) - Real.sin x|
        = |((sinHelper (pi isFloat - x) : ℝ) - Real.sin ((pi isFloat : ℝ) - x)) + (Real.sin ((pi isFloat : ℝ) - x) - Real.sin x)| := by ring_nf
      _ ≤ _ := abs_add_le _ _
      _ ≤ _ := add_le_add h1 h2
  refine ⟨hpos, hneg, fun hlo hhi => ?_⟩
  have hlo' : (-157 / 50 : ℝ) ≤ x := by
    have : ((-157 / 50 : Rat) : ℝ) ≤ ((x : Rat) : ℝ) := by exact_mod_cast hlo
    push_cast at this; linarith
  have hhi' : (x : ℝ) ≤ 314 / 50 := by
    have : ((x : Rat) : ℝ) ≤ ((314 / 50 : Rat) : ℝ) := by exact_mod_cast hhi
    push_cast at this; linarith
  by_cases h : x < 0
  · refine (hneg h).trans ?_
    have hx' : (x : ℝ) < 0 := by exact_mod_cast h
    have hp := abs_le.mp (pi_close isFloat)
    have h1 := Real.pi_gt_d20
    have h2 := Real.pi_lt_d20
    generalize (pi isFloat : ℝ) = p at *
    have hy0 : 3 ≤ p - x := by linarith
    have hy : p - x ≤ 6.29 := by linarith
    rw [max_eq_right (by linarith)]
    nlinarith
  · refine (hpos (by linarith)).trans ?_
    have hx0 : (0 : ℝ) ≤ x := by
      have : (0 : Rat) ≤ x := by linarith
      exact_mod_cast this
    have hm : max 1 (3 / 2 * (x : ℝ)) ≤ 10 := max_le (by norm_num) (by linarith)
    calc (x : ℝ) / 6000000 * max 1 (3 / 2 * (x : ℝ)) ≤ (x : ℝ) / 6000000 * 10 := mul_le_mul_of_nonneg_left hm (by positivity)
      _ ≤ _ := by linarith

example : |(sin true (-1) : ℝ) - Real.sin ((-1 : Rat) : ℝ)| ≤ 1 / 50000 := (C267_sin_partial true (-1)).2.2 (by norm_num) (by norm_num)

/-- The cosine likewise. -/
theorem C267_cos_partial (isFloat : Bool) (x : Rat) (hlo : -4 ≤ x) (hhi : x ≤ 4) : |(cos isFloat x : ℝ) - Real.cos x| ≤ 1 / 49000 := by
  unfold cos
  by_cases h : 0 = x
  · rw [if_pos h, ← h]
    simp
  · rw [if_neg h]
    have hp2 : (2 : Rat) < pi isFloat ∧ pi isFloat < 4 := by cases isFloat <;> norm_num [pi]
    have hp3 : (31415 / 10000 : Rat) < pi isFloat ∧ pi isFloat < 31416 / 10000 := by cases isFloat <;> norm_num [pi]
    have h1 := (C267_sin_partial false (pi isFloat / 2 - x)).2.2 (by linarith) (by linarith)
    have h2 : |Real.sin (((pi isFloat / 2 - x : Rat)) : ℝ) - Real.cos x| ≤ 1 / 10 ^ 7 := by
      rw [← Real.sin_pi_div_two_sub (x : ℝ)]
      have h3 := Real.abs_sin_sub_sin_le (((pi isFloat / 2 - x : Rat)) : ℝ) (Real.pi / 2 - x)
      refine h3.trans ?_
      have h4 := abs_le.mp (pi_close isFloat)
      push_cast
      rw [abs_le]
      constructor <;> linarith
    calc |(sin false (pi isFloat / 2 - x) : ℝ) - Real.cos x|
        = |((sin false (pi isFloat / 2 - x) : ℝ) - Real.sin (((pi isFloat / 2 - x : Rat)) : ℝ)) +
            (Real.sin (((pi isFloat / 2 - x : Rat)) : ℝ) - Real.cos x)| := by ring_nf
      _ ≤ _ := abs_add_le _ _
      _ ≤ 1 / 50000 + 1 / 10 ^ 7 := add_le_add h1 h2
      _ ≤ _ := by norm_num

example : |(cos false 4 : ℝ) - Real.cos ((4 : Rat) : ℝ)| ≤ 1 / 49000 := C267_cos_partial false 4 (by norm_num) (by norm_num)

/-- The recursion ends for every number, with the value above; it does not end for infinity and for NaN. -/
theorem C267_sin_violated :
    (∀ q : Rat, sinHelperExt (.num q) = pure (.num (sinHelper q))) ∧ sinHelperExt .inf = diverge ∧ sinHelperExt .nan = diverge := by
  have hd : ∀ x : Ext, x = .inf ∨ x = .nan → sinHelperExt x = diverge := by
    intro x hx
    have key : ∀ y : Ext, (y = .inf ∨ y = .nan) → sinHelperExt y = diverge := by
      apply sinHelperExt.fixpoint_induct (motive := fun f => ∀ y : Ext, (y = .inf ∨ y = .nan) → f y = diverge)
      · exact Cxx.admissible1 (fun (y : Ext) r => (y = Ext.inf ∨ y = Ext.nan) → r = diverge) fun _ _ => rfl
      · intro f ih y hy
        have hb : y.below tol = false := by rcases hy with rfl | rfl <;> rfl
        have ht : y.third = y := by rcases hy with rfl | rfl <;> rfl
        dsimp only
        rw [hb, ht, ih y hy]
        rfl
    exact key x hx
  refine ⟨fun q => ?_, hd _ (Or.inl rfl), hd _ (Or.inr rfl)⟩
  induction q using sinHelper.induct with
  | case1 q h =>
    rw [sinHelperExt, sinHelper, dif_pos h, if_pos (by simp [Ext.below, h])]
  | case2 q h ih =>
    rw [sinHelperExt, sinHelper, dif_neg h, if_neg (by simp [Ext.below, h])]
    show (do let a ← sinHelperExt (.num (q / 3)); let b ← sinHelperExt (.num (q / 3)); pure (a.triple b)) = _
    rw [ih]
    rfl

end Verif.Bits.Sine
