import Verif.Base
import Verif.Containers.Lists
import Verif.Vector.IotaOp
import Verif.Strings.FromString

/-
Text of integers, include/daw/impl/daw_int_to_iterator.h.
-/

namespace Verif.Strings.IntText
open Verif Verif.Cxx Verif.Bits Verif.Strings.FromString Verif.Vector.IotaOp

theorem tdiv_lt (v : Int) (h : v ≠ 0) : (v.tdiv 10).natAbs < v.natAbs := by
  have h1 : (v.tdiv 10).natAbs = v.natAbs / 10 := by
    rw [Int.natAbs_tdiv]
    rfl
  rw [h1]
  omega

/-- The loop of `num_digits`, impl/daw_int_to_iterator.h 29-32. -/
def digitsLoop (value : Int) (result : Nat) : Nat :=
  if h : value ≠ 0 then digitsLoop (value.tdiv 10) (result + 1) else result
termination_by value.natAbs
decreasing_by exact tdiv_lt value h

/-- `num_digits`, impl/daw_int_to_iterator.h 21-34.  The result is at most 20 and so fits in every type. -/
def numDigits (value : Int) : Nat := if value = 0 then 1 else digitsLoop value 0

/-- The table of `pow10`, impl/daw_int_to_iterator.h 40-49. -/
def vals : List Nat :=
  [1, 100, 10000, 1000000, 100000000, 10000000000, 1000000000000, 100000000000000, 10000000000000000, 1000000000000000000]

/-- `pow10`, impl/daw_int_to_iterator.h 36-54, for `n` without sign: the product is of `uint64_t`. -/
def pow10 (t : IntTy) (n : Nat) : Cxx Int :=
  if n % 2 = 0 then do
    let v ← rd vals (n / 2)
    pure (t.conv (v : Int))
  else do
    let v ← rd vals (n / 2)
    pure (t.conv ((v * 10 % 2 ^ 64 : Nat) : Int))

/-- `whole_log10`, impl/daw_int_to_iterator.h 166-176, of an integer: the loop and its counter.  The counter is less than 20 and so fits. -/
def wholeLog10 (value : Int) (result : Nat) : Nat :=
  if h : 10 ≤ value then wholeLog10 (value.tdiv 10) (result + 1) else result
termination_by value.natAbs
decreasing_by exact tdiv_lt value (by omega)

/-- `get_char_digit`, impl/daw_int_to_iterator.h 141-146. -/
def getCharDigit (value : Int) : Cxx Char := if 0 ≤ value ∧ value ≤ 9 then pure (Char.ofNat (48 + value.toNat)) else Cxx.abort

/-- The loop of `to_os_string`, impl/daw_int_to_iterator.h 200-213: the power of ten, the value left and the text so far. -/
def printLoop (t : IntTy) (p10 value : Int) (out : List Char) : Cxx (List Char) :=
  if _h : 1 ≤ p10 then
    let tmp := value.tdiv p10
    if 0 ≤ tmp ∧ tmp < 10 then do
      let c ← getCharDigit tmp
      let product ← arith t.promote (tmp * p10)
      let rest ← arith t.promote (value - product)
      printLoop t (p10.tdiv 10) (t.conv rest) (out ++ [c])
    else Cxx.abort
  else pure out
termination_by p10.natAbs
decreasing_by exact tdiv_lt p10 (by omega)

/-- `min_strings::get`, impl/daw_int_to_iterator.h 83-123; other sizes do not compile, here `abort`. -/
def minString (t : IntTy) : Cxx (List Char) :=
  match t.bits with
  | 8 => pure "-128".toList
  | 16 => pure "-32768".toList
  | 32 => pure "-2147483648".toList
  | 64 => pure "-9223372036854775808".toList
  | _ => Cxx.abort

/-- `to_os_string`, impl/daw_int_to_iterator.h 177-215: what is written. -/
def toOsString (t : IntTy) (value : Int) : Cxx (List Char) :=
  if value < 0 then
    if value = t.lowest then minString t
    else do
      let negated ← arith t.promote (-value)
      let p10 ← pow10 t (wholeLog10 (t.conv negated) 0)
      printLoop t p10 (t.conv negated) ['-']
  else do
    let p10 ← pow10 t (wholeLog10 value 0)
    printLoop t p10 value []

/-- What the templates ask about a type. (Rule of C++ or its library, no line of the source.) -/
structure Traits where
  integral : Bool
  bool : Bool
  floating : Bool
  character : Bool
  deriving DecidableEq

/-- Whether `to_os_string` takes part in overload resolution, impl/daw_int_to_iterator.h 180-186. -/
def implEnabled (t : Traits) : Bool := !t.integral && !t.bool && !t.floating && !t.character

/-- Whether `to_os_string_int` does, impl/daw_int_to_iterator.h 217-228. -/
def intEnabled (t : Traits) : Bool := t.integral && !t.bool && !t.floating && !t.character

/-- Whether a call of `to_os_string_int` compiles, impl/daw_int_to_iterator.h 224-232. -/
def compiles (t : Traits) : Bool := intEnabled t && implEnabled t

/-! ## Proofs -/

theorem tdiv_ten (n : Nat) : Int.tdiv (n : Int) 10 = ((n / 10 : Nat) : Int) := by
  rw [Int.tdiv_eq_ediv_of_nonneg (by omega)]
  rfl

theorem digitsLoop_eq (v : Int) (hv : v ≠ 0) (r : Nat) :
    ∃ d, digitsLoop v r = r + d ∧ 0 < d ∧ 10 ^ (d - 1) ≤ v.natAbs ∧ v.natAbs < 10 ^ d := by
  induction hn : v.natAbs using Nat.strongRecOn generalizing v r with
  | ind n ih =>
    subst hn
    rw [digitsLoop, dif_pos hv]
    have h1 : (v.tdiv 10).natAbs = v.natAbs / 10 := by
      rw [Int.natAbs_tdiv]
      rfl
    by_cases h0 : v.tdiv 10 = 0
    · refine ⟨1, ?_, by omega, ?_, ?_⟩
      · rw [h0, digitsLoop, dif_neg (by simp)]
      · simp; omega
      · rw [h0] at h1
        simp at h1
        omega
    · obtain ⟨d, hd, hp, hlo, hhi⟩ := ih _ (tdiv_lt v hv) (v.tdiv 10) h0 (r + 1) rfl
      refine ⟨d + 1, by rw [hd]; omega, by omega, ?_, ?_⟩
      · rw [h1] at hlo
        obtain ⟨e, rfl⟩ : ∃ e, d = e + 1 := ⟨d - 1, by omega⟩
        simp only [Nat.add_sub_cancel] at hlo ⊢
        rw [Nat.pow_succ]
        omega
      · rw [h1] at hhi
        rw [Nat.pow_succ]
        omega

/-- **C322.**  `num_digits` is the number of decimal digits of any integer, without its sign; zero has one. -/
theorem C322_digits (v : Int) : 0 < numDigits v ∧ v.natAbs < 10 ^ numDigits v ∧ (v ≠ 0 → 10 ^ (numDigits v - 1) ≤ v.natAbs) ∧
    (v = 0 → numDigits v = 1) := by
  unfold numDigits
  by_cases hv : v = 0
  · subst hv
    simp
  · obtain ⟨d, hd, hp, hlo, hhi⟩ := digitsLoop_eq v hv 0
    rw [if_neg hv, hd, Nat.zero_add]
    exact ⟨hp, hhi, fun _ => hlo, fun h => absurd h hv⟩

example := (C322_digits (-4096)).2.2.1 (by decide)

/-- **C322.**  `pow10` is the power of ten for all numbers whose power a `uint64_t` can hold, if the type can hold it.  Missing: larger numbers, for which it is undefined. -/
theorem C322_pow10_partial (t : IntTy) (n : Nat) (hn : n < 20) (ht : t.Has (10 ^ n)) : pow10 t n = pure (10 ^ n) := by
  have : n = 0 ∨ n = 1 ∨ n = 2 ∨ n = 3 ∨ n = 4 ∨ n = 5 ∨ n = 6 ∨ n = 7 ∨ n = 8 ∨ n = 9 ∨ n = 10 ∨ n = 11 ∨ n = 12 ∨ n = 13 ∨ n = 14 ∨ n = 15 ∨ n = 16 ∨ n = 17 ∨
      n = 18 ∨ n = 19 := by omega
  rcases this with rfl | rfl | rfl | rfl | rfl | rfl | rfl | rfl | rfl | rfl | rfl | rfl | rfl | rfl | rfl | rfl | rfl | rfl | rfl | rfl <;>
    · have hc := IntTy.conv_of_has ht
      simp only [pow10, vals, rd] at hc ⊢
      simp at hc ⊢
      simp [hc]

example : pow10 ⟨64, false, by decide⟩ 19 = pure (10 ^ 19) := C322_pow10_partial _ 19 (by decide) (by decide)

/-- **C322** (finding).  From the twentieth power on `pow10` reads after its table, as with a type of 128 bits. -/
theorem C322_pow10_violated (t : IntTy) (n : Nat) (h : 20 ≤ n) : pow10 t n = ub := by
  unfold pow10
  have : rd vals (n / 2) = (ub : Cxx Nat) := rd_oob (by simp [vals]; omega)
  split <;> rw [this] <;> rfl

example : pow10 .int 25 = ub := C322_pow10_violated .int 25 (by decide)

theorem wholeLog10_eq (n : Nat) (r : Nat) (hn : 0 < n) : ∃ k, wholeLog10 n r = r + k ∧ 10 ^ k ≤ n ∧ n < 10 ^ (k + 1) := by
  induction n using Nat.strongRecOn generalizing r with
  | ind n ih =>
    rw [wholeLog10]
    by_cases h : 10 ≤ n
    · rw [dif_pos (by omega), tdiv_ten]
      obtain ⟨k, hk, hlo, hhi⟩ := ih (n / 10) (by omega) (r + 1) (by omega)
      refine ⟨k + 1, by rw [hk]; omega, ?_, ?_⟩
      · rw [Nat.pow_succ]
        omega
      · rw [Nat.pow_succ]
        omega
    · exact ⟨0, by rw [dif_neg (by omega)]; rfl, by omega, by omega⟩

/-- **C322.**  `whole_log10` is the power of ten of the first digit of every positive integer. -/
theorem C322_log10 (n : Nat) (hn : 0 < n) : 10 ^ wholeLog10 n 0 ≤ n ∧ n < 10 ^ (wholeLog10 n 0 + 1) := by
  obtain ⟨k, hk, h⟩ := wholeLog10_eq n 0 hn
  rw [hk, Nat.zero_add]
  exact h

/-- The last `k + 1` decimal digits of a number, the first digit may be larger. (Specification, no line of the source.) -/
def lastDigits : Nat → Nat → List Nat
  | 0, v => [v]
  | k + 1, v => v / 10 ^ (k + 1) :: lastDigits k (v % 10 ^ (k + 1))

theorem lastDigits_succ (k v : Nat) : lastDigits (k + 1) v = lastDigits k (v / 10) ++ [v % 10] := by
  induction k generalizing v with
  | zero => simp [lastDigits]
  | succ k ih =>
    rw [lastDigits, ih, lastDigits]
    have h1 : v / 10 / 10 ^ (k + 1) = v / 10 ^ (k + 1 + 1) := by rw [Nat.div_div_eq_div_mul, Nat.pow_succ 10 (k + 1), Nat.mul_comm]
    have h2 : v % 10 ^ (k + 1 + 1) / 10 = v / 10 % 10 ^ (k + 1) := by rw [Nat.pow_succ, Nat.mul_comm, Nat.mod_mul_right_div_self]
    have h3 : v % 10 ^ (k + 1 + 1) % 10 = v % 10 := Nat.mod_mod_of_dvd v ⟨10 ^ (k + 1), by rw [Nat.pow_succ, Nat.mul_comm]⟩
    rw [h1, h2, h3]
    rfl

theorem decimal_lastDigits (n k : Nat) (hlo : 10 ^ k ≤ n ∨ k = 0) (hhi : n < 10 ^ (k + 1)) : decimal n = lastDigits k n := by
  induction k generalizing n with
  | zero => rw [decimal, if_pos (by simpa using hhi)]; rfl
  | succ k ih =>
    have h1 : 10 ^ (k + 1) ≤ n := by
      rcases hlo with h | h
      · exact h
      · omega
    have h2 : 10 ≤ n := by
      have : 0 < 10 ^ k := Nat.pow_pos (by decide)
      rw [Nat.pow_succ] at h1
      omega
    rw [decimal, if_neg (by omega), lastDigits_succ, ih (n / 10)]
    · rw [Nat.pow_succ] at h1
      exact .inl (by omega)
    · rw [Nat.pow_succ] at hhi
      omega

theorem promote_has {t : IntTy} {x : Int} (h : t.Has x) : t.promote.Has x := IntTy.Has.promote h

theorem arith_has {t : IntTy} {x : Int} (h : t.Has x) : arith t x = pure x := by
  unfold arith
  rw [if_neg (by simp [h]), IntTy.conv_of_has h]

theorem has_between {t : IntTy} {x y : Int} (h : t.Has x) (h0 : 0 ≤ y) (h1 : y ≤ x) : t.Has y := by
  refine ⟨?_, Int.le_trans h1 h.2⟩
  unfold IntTy.lowest
  split
  · have := two_pow_pos (t.bits - 1)
    omega
  · exact h0

theorem printLoop_eq (t : IntTy) (k v : Nat) (out : List Char) (hv : v < 10 ^ (k + 1)) (ht : t.Has v) :
    printLoop t ((10 ^ k : Nat) : Int) v out = pure (out ++ text (lastDigits k v)) := by
  induction k generalizing v out with
  | zero =>
    have hv' : v < 10 := by simpa using hv
    rw [printLoop]
    have hd : Int.tdiv (v : Int) ((10 ^ 0 : Nat) : Int) = v := by simp
    rw [dif_pos (by simp)]
    simp only [hd]
    rw [if_pos (by omega), getCharDigit, if_pos (by omega), pure_bind]
    rw [show (v : Int) * ((10 ^ 0 : Nat) : Int) = v by simp, arith_has (promote_has ht), pure_bind, Int.sub_self,
      arith_has (promote_has (has_between ht (by omega) (by omega))), pure_bind, IntTy.conv_of_has (has_between ht (by omega) (by omega)), printLoop,
      dif_neg (by decide)]
    simp [lastDigits, text, Nat.add_comm]
  | succ k ih =>
    have hpos : 0 < 10 ^ (k + 1) := Nat.pow_pos (by decide)
    rw [printLoop, dif_pos (by omega)]
    have hd : Int.tdiv (v : Int) ((10 ^ (k + 1) : Nat) : Int) = ((v / 10 ^ (k + 1) : Nat) : Int) := by
      rw [Int.tdiv_eq_ediv_of_nonneg (by omega)]
      rfl
    have hlt : v / 10 ^ (k + 1) < 10 := by
      rw [Nat.div_lt_iff_lt_mul hpos]
      rw [Nat.pow_succ, Nat.mul_comm] at hv
      exact hv
    simp only [hd]
    have hmod : v / 10 ^ (k + 1) * 10 ^ (k + 1) + v % 10 ^ (k + 1) = v := Nat.div_add_mod' v (10 ^ (k + 1))
    have hprod : ((v / 10 ^ (k + 1) : Nat) : Int) * ((10 ^ (k + 1) : Nat) : Int) = ((v / 10 ^ (k + 1) * 10 ^ (k + 1) : Nat) : Int) := by
      rw [Int.natCast_mul]
    have hrest : (v : Int) - ((v / 10 ^ (k + 1) * 10 ^ (k + 1) : Nat) : Int) = ((v % 10 ^ (k + 1) : Nat) : Int) := by omega
    have hi : (0 : Int) ≤ ((v / 10 ^ (k + 1) : Nat) : Int) ∧ ((v / 10 ^ (k + 1) : Nat) : Int) < 10 :=
      ⟨Int.natCast_nonneg _, by exact_mod_cast hlt⟩
    have hj : (0 : Int) ≤ ((v / 10 ^ (k + 1) : Nat) : Int) ∧ ((v / 10 ^ (k + 1) : Nat) : Int) ≤ 9 := ⟨hi.1, Int.lt_add_one_iff.1 hi.2⟩
    rw [if_pos hi, getCharDigit, if_pos hj, pure_bind, Int.toNat_natCast, hprod,
      arith_has (promote_has (has_between ht (by omega) (by omega))), pure_bind, hrest,
      arith_has (promote_has (has_between ht (by omega) (by omega))), pure_bind, IntTy.conv_of_has (has_between ht (by omega) (by omega)), tdiv_ten,
      show 10 ^ (k + 1) / 10 = 10 ^ k by rw [Nat.pow_succ, Nat.mul_div_cancel _ (by decide)]]
    rw [ih (v % 10 ^ (k + 1)) _ (Nat.mod_lt _ hpos) (has_between ht (by omega) (by omega))]
    simp [lastDigits, text, Nat.add_comm]

theorem print_eq (t : IntTy) (hb : t.bits ≤ 64) (h8 : 8 ≤ t.bits) (n : Nat) (out : List Char) (ht : t.Has n) :
    (pow10 t (wholeLog10 n 0) >>= fun p10 => printLoop t p10 n out) = pure (out ++ text (decimal n)) := by
  have hmax : n < 2 ^ 64 := by
    have h1 := ht.2
    have h2 : t.max ≤ 2 ^ t.bits - 1 := by
      unfold IntTy.max
      split
      · have := two_pow_le (Nat.sub_le t.bits 1)
        omega
      · omega
    have h3 := two_pow_le hb
    have : (n : Int) < 2 ^ 64 := by omega
    exact_mod_cast this
  by_cases h0 : n = 0
  · subst h0
    have hw : wholeLog10 ((0 : Nat) : Int) 0 = 0 := by rw [wholeLog10, dif_neg (by decide)]
    rw [hw]
    have h1 : t.Has 1 := by
      have h2 : (1 : Int) ≤ t.max := by
        unfold IntTy.max
        have h3 := two_pow_le (show 7 ≤ t.bits - 1 by omega)
        have h4 := two_pow_le (show 7 ≤ t.bits by omega)
        split <;> omega
      exact has_between t.has_max (by omega) h2
    rw [C322_pow10_partial t 0 (by decide) h1, pure_bind]
    rw [decimal_lastDigits 0 0 (.inr rfl) (by decide)]
    exact printLoop_eq t 0 0 out (by decide) ht
  · obtain ⟨hlo, hhi⟩ := C322_log10 n (by omega)
    have hk : wholeLog10 n 0 < 20 := by
      rcases Nat.lt_or_ge (wholeLog10 n 0) 20 with h | h
      · exact h
      · have := Nat.pow_le_pow_right (show 0 < 10 by decide) h
        omega
    have hhas : t.Has ((10 : Int) ^ wholeLog10 n 0) := by
      have : (10 : Int) ^ wholeLog10 n 0 = ((10 ^ wholeLog10 n 0 : Nat) : Int) := by push_cast; rfl
      rw [this]
      exact has_between ht (by omega) (by omega)
    rw [C322_pow10_partial t _ hk hhas, pure_bind]
    have := printLoop_eq t (wholeLog10 n 0) n out hhi ht
    rw [decimal_lastDigits n _ (.inl hlo) hhi, ← this]
    congr 1

theorem neg_max (t : IntTy) (x : Int) (hx : t.Has x) (h0 : x < 0) (h1 : x ≠ t.lowest) : t.Has (-x) := by
  obtain ⟨h2, h3⟩ := hx
  have h4 := two_pow_pos (t.bits - 1)
  by_cases hs : t.signed = true
  · simp only [IntTy.Has, IntTy.lowest, IntTy.max, hs, if_true] at *
    omega
  · simp only [IntTy.lowest, hs] at h2
    simp at h2
    omega

/-- **C322.**  For every value of the integer types of 8 to 64 bits, the lowest values included, the body of `to_os_string` writes exactly the sign and the decimal digits of the
value; no step overflows, is out of range or fails a check.  Missing: that it can be called, which it never can. -/
theorem C322_text_partial (t : IntTy) (ht : t.bits = 8 ∨ t.bits = 16 ∨ t.bits = 32 ∨ t.bits = 64) (x : Int) (hx : t.Has x) : toOsString t x = pure (render x) := by
  have hb : t.bits ≤ 64 := by omega
  have h8 : 8 ≤ t.bits := by omega
  unfold toOsString
  by_cases h0 : x < 0
  · rw [if_pos h0]
    by_cases hl : x = t.lowest
    · rw [if_pos hl]
      have hs : t.signed = true := by
        unfold IntTy.lowest at hl
        split at hl
        · assumption
        · omega
      unfold IntTy.lowest at hl
      rw [if_pos hs] at hl
      unfold minString
      rcases ht with h | h | h | h <;> rw [h] at hl ⊢ <;> simp only [Nat.add_one_sub_one] at hl <;> subst hl <;> simp [render, decimal, text]
    · rw [if_neg hl]
      have hn := neg_max t x hx h0 hl
      rw [arith_has (promote_has hn), pure_bind, IntTy.conv_of_has hn]
      obtain ⟨n, hxn⟩ : ∃ n : Nat, -x = n := ⟨(-x).toNat, by omega⟩
      rw [hxn] at hn ⊢
      rw [print_eq t hb h8 n _ hn]
      unfold render
      rw [if_pos h0, show x.natAbs = n by omega]
      rfl
  · rw [if_neg h0]
    obtain ⟨n, rfl⟩ : ∃ n : Nat, x = n := ⟨x.toNat, by omega⟩
    rw [print_eq t hb h8 n _ hx]
    unfold render
    rw [if_neg h0, Int.natAbs_natCast]
    rfl

example : toOsString ⟨16, true, by decide⟩ (-32768) = pure "-32768".toList := by
  rw [C322_text_partial _ (by decide) _ (by decide)]
  simp [render, decimal, text]

/-- **C322** (finding).  `to_os_string_int` compiles for no type: it asks for an integral type and the function it calls for one that is not. -/
theorem C322_disabled_violated (t : Traits) : compiles t = false := by
  cases h : t.integral <;> simp [compiles, intEnabled, implEnabled, h]

end Verif.Strings.IntText
