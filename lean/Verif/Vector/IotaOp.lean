import Verif.Base
import Verif.Containers.Lists
import Verif.Bits.IntCmp

/-
Filling new storage with numbers, include/daw/vector_algorithm.h.
-/

namespace Verif.Vector.IotaOp
open Verif Verif.Cxx Verif.Bits

/-- A sum or product in the type `t`: the overflow of a signed type is undefined. (Rule of C++ or its library, no line of the source.) -/
def arith (t : IntTy) (x : Int) : Cxx Int := if t.signed = true ∧ ¬ t.Has x then ub else pure (t.conv x)

/-- The comparison `Comp` of `iota_op`, vector_algorithm.h 25: `std::less<>` or `std::greater<>`. -/
def before (greater : Bool) (x y : Int) : Bool := if greater then decide (y < x) else decide (x < y)

/-- The loop, vector_algorithm.h 47-51: the values written so far, the next value and the end.  Writing after the `sz` elements there is room for is
undefined. -/
def loop (t : IntTy) (greater : Bool) (step last : Int) (sz : Nat) (value : Int) (out : List Int) : Cxx (List Int) :=
  if before greater value last then
    if out.length < sz then do
      let v ← arith t.promote (value + step)
      loop t greater step last sz (t.conv v) (out ++ [value])
    else ub
  else pure out
termination_by sz - out.length
decreasing_by simp; omega

/-- `iota_op::operator( )`, vector_algorithm.h 41-54: the values written, and the number of elements it says there are. -/
def iotaOp (t : IntTy) (greater : Bool) (first step : Int) (sz : Nat) : Cxx (List Int × Nat) := do
  let product ← arith t.promote (t.conv sz * step)
  let last ← arith t.promote (first + product)
  let out ← loop t greater step last sz first []
  pure (out, sz)

/-! ## Proofs -/

theorem arith_has {t : IntTy} {x : Int} (h : t.Has x) : arith t x = pure x := by
  unfold arith
  rw [if_neg (by simp [h]), IntTy.conv_of_has h]

/-- The numbers. (Specification, no line of the source.) -/
def numbers (first step : Int) (n : Nat) : List Int := (List.range n).map fun i : Nat => first + i * step

theorem numbers_succ (first step : Int) (n : Nat) : numbers first step (n + 1) = numbers first step n ++ [first + n * step] := by
  simp [numbers, List.range_succ]

theorem has_mid {t : IntTy} {a b x : Int} (ha : t.Has a) (hb : t.Has b) (h : (a ≤ x ∧ x ≤ b) ∨ (b ≤ x ∧ x ≤ a)) : t.Has x := by
  have h1 := ha.1; have h2 := ha.2; have h3 := hb.1; have h4 := hb.2
  exact ⟨by omega, by omega⟩

theorem mul_between {step : Int} {i n : Nat} (h : i ≤ n) : (0 ≤ (i : Int) * step ∧ (i : Int) * step ≤ n * step) ∨ (n * step ≤ (i : Int) * step ∧ (i : Int) * step ≤ 0) := by
  rcases Int.le_total 0 step with hs | hs
  · left
    exact ⟨Int.mul_nonneg (by omega) hs, Int.mul_le_mul_of_nonneg_right (by omega) hs⟩
  · right
    refine ⟨Int.mul_le_mul_of_nonpos_right (by omega) hs, ?_⟩
    exact Int.mul_nonpos_of_nonneg_of_nonpos (by omega) hs

theorem loop_fill (t : IntTy) (greater : Bool) (first step : Int) (n room : Nat) (hr : n ≤ room) (hf : t.Has first)
    (hs : if greater then step < 0 else 0 < step) (hl : t.Has (first + n * step)) :
    loop t greater step (first + n * step) room first [] = pure (numbers first step n) := by
  have key : ∀ k i : Nat, i + k = n → loop t greater step (first + n * step) room (first + i * step) (numbers first step i) = pure (numbers first step n) := by
    intro k
    induction k with
    | zero =>
      intro i hi
      obtain rfl : i = n := by omega
      rw [loop, if_neg]
      unfold before
      cases greater <;> simp
    | succ k ih =>
      intro i hi
      have hlt : (greater = false → first + (i : Int) * step < first + n * step) ∧ (greater = true → first + n * step < first + (i : Int) * step) := by
        constructor
        · rintro rfl
          have : (i : Int) * step < n * step := Int.mul_lt_mul_of_pos_right (by omega) (by simpa using hs)
          omega
        · rintro rfl
          have : (n : Int) * step < i * step := Int.mul_lt_mul_of_neg_right (by omega) (by simpa using hs)
          omega
      rw [loop, if_pos (by
        unfold before
        cases greater
        · simpa using hlt.1 rfl
        · simpa using hlt.2 rfl), if_pos (by simp [numbers]; omega)]
      have e : first + (i : Int) * step + step = first + ((i + 1 : Nat) : Int) * step := by
        push_cast; rw [Int.add_mul]; omega
      have hnext : t.Has (first + (i : Int) * step + step) := by
        rw [e]
        apply has_mid hf hl
        have := mul_between (step := step) (show i + 1 ≤ n by omega)
        omega
      rw [arith_has hnext.promote, pure_bind, IntTy.conv_of_has hnext, ← numbers_succ, e]
      exact ih (i + 1) (by omega)
  have := key n 0 (by omega)
  simp only [Int.natCast_zero, Int.zero_mul, Int.add_zero] at this
  rwa [show numbers first step 0 = [] from rfl] at this

/-- **C308.**  With a step in the direction of the comparison, and if the numbers and the end are values of the type, the elements are `first`,
`first` + `step`, ..., `sz` of them.  Missing: the other cases, for which it is false. -/
theorem C308_numbers_partial (t : IntTy) (greater : Bool) (first step : Int) (sz : Nat) (hf : t.Has first)
    (hs : if greater then step < 0 else 0 < step) (hsz : t.Has sz) (hl : t.Has (first + sz * step)) (hp : t.promote.Has (sz * step)) :
    iotaOp t greater first step sz = pure (numbers first step sz, sz) := by
  unfold iotaOp
  rw [IntTy.conv_of_has hsz, arith_has hp, pure_bind, arith_has hl.promote, pure_bind, loop_fill t greater first step sz sz (Nat.le_refl _) hf hs hl]
  rfl

example : iotaOp .int false 3 2 4 = pure ([3, 5, 7, 9], 4) := by
  rw [C308_numbers_partial .int false 3 2 4 (by decide) (by decide) (by decide) (by decide) (by decide)]
  rfl

example : iotaOp .int true 3 (-2) 3 = pure ([3, 1, -1], 3) := by
  rw [C308_numbers_partial .int true 3 (-2) 3 (by decide) (by decide) (by decide) (by decide) (by decide)]
  rfl

/-- **C308** (finding).  With a step of 0 or against the direction of the comparison nothing is written, and the function says that there are `sz` elements. -/
theorem C308_step_violated (t : IntTy) (greater : Bool) (first step : Int) (sz : Nat) (hs : if greater then 0 ≤ step else step ≤ 0)
    (hsz : t.Has sz) (hl : t.promote.Has (first + sz * step)) (hp : t.promote.Has (sz * step)) :
    iotaOp t greater first step sz = pure ([], sz) := by
  unfold iotaOp
  rw [IntTy.conv_of_has hsz, arith_has hp, pure_bind, arith_has hl, pure_bind, loop, if_neg]
  · rfl
  · unfold before
    cases greater
    · have : (sz : Int) * step ≤ 0 := Int.mul_nonpos_of_nonneg_of_nonpos (by omega) (by simpa using hs)
      simp
      omega
    · have : 0 ≤ (sz : Int) * step := Int.mul_nonneg (by omega) (by simpa using hs)
      simp
      omega

example : iotaOp .int false 3 (-1) 4 = pure ([], 4) := C308_step_violated .int false 3 (-1) 4 (by decide) (by decide) (by decide) (by decide)

/-- `unsigned char`. (Rule of C++ or its library, no line of the source.) -/
def byte : IntTy := ⟨8, false, by decide⟩

theorem loop_byte (last : Int) (hl : 255 < last) (room : Nat) (value : Int) (hv : byte.Has value) (out : List Int) :
    loop byte false 1 last room value out = ub := by
  have hmax : byte.max = 255 := by decide
  have hlow : byte.lowest = 0 := by decide
  have hi : IntTy.int.max = 2147483647 := by decide
  have hi2 : IntTy.int.lowest = -2147483648 := by decide
  have hp : byte.promote = .int := by decide
  induction hk : room - out.length generalizing value out with
  | zero =>
    rw [loop, if_pos (by have := hv.2; simp [before]; omega), if_neg (by omega)]
  | succ k ih =>
    have h1 := hv.1
    have h2 := hv.2
    rw [loop, if_pos (by simp [before]; omega), if_pos (by omega), hp, arith_has ⟨by omega, by omega⟩, pure_bind]
    apply ih
    · unfold IntTy.conv byte
      simp only [Bool.false_eq_true, if_false]
      have h3 := Int.emod_nonneg (value + 1) (show (2 : Int) ^ 8 ≠ 0 by decide)
      have h4 := Int.emod_lt_of_pos (value + 1) (show (0 : Int) < 2 ^ 8 by decide)
      refine ⟨?_, ?_⟩
      · have : IntTy.lowest ⟨8, false, by decide⟩ = 0 := by decide
        omega
      · have : IntTy.max ⟨8, false, by decide⟩ = 255 := by decide
        omega
    · simp; omega

/-- **C308** (finding).  With a type that cannot count the elements, fewer are written than the function says: of 256 and more bytes only the remainder
modulo 256. -/
theorem C308_count_violated (m k : Nat) (hm : m < 256) : iotaOp byte false 0 1 (256 * k + m) = pure (numbers 0 1 m, 256 * k + m) := by
  have hmax : byte.max = 255 := by decide
  have hlow : byte.lowest = 0 := by decide
  have hh : byte.Has m := ⟨by omega, by omega⟩
  have hc : byte.conv ((256 * k + m : Nat) : Int) = m := by
    unfold IntTy.conv byte
    simp only [Bool.false_eq_true, if_false]
    omega
  unfold iotaOp
  rw [hc, Int.mul_one, arith_has hh.promote, pure_bind, Int.zero_add, arith_has hh.promote, pure_bind]
  have := loop_fill byte false 0 1 m (256 * k + m) (by omega) (by decide) (by decide) (by simpa using hh)
  simp only [Int.mul_one, Int.zero_add] at this
  rw [this]
  rfl

example : iotaOp byte false 0 1 259 = pure ([0, 1, 2], 259) := C308_count_violated 3 1 (by decide)

/-- **C308** (finding).  If the end is too large for a narrow type, the values wrap and writing does not stop at the last element, which is undefined. -/
theorem C308_end_violated (first sz : Nat) (hf : first < 256) (hs : sz < 256) (h : 256 ≤ first + sz) : iotaOp byte false first 1 sz = ub := by
  have hmax : byte.max = 255 := by decide
  have hlow : byte.lowest = 0 := by decide
  have hi : IntTy.int.max = 2147483647 := by decide
  have hi2 : IntTy.int.lowest = -2147483648 := by decide
  have hp : byte.promote = .int := by decide
  have hh : byte.Has sz := ⟨by omega, by omega⟩
  unfold iotaOp
  rw [IntTy.conv_of_has hh, Int.mul_one, arith_has hh.promote, pure_bind, hp, arith_has ⟨by omega, by omega⟩, pure_bind,
    loop_byte _ (by omega) sz first ⟨by omega, by omega⟩ []]
  rfl

example : iotaOp byte false 250 1 10 = ub := C308_end_violated 250 10 (by decide) (by decide) (by decide)

end Verif.Vector.IotaOp
