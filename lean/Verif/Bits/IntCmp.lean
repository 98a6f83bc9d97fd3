import Verif.Base

/-
Comparing integers of different types, include/daw/daw_int_cmp.h.

A value of a C++ integer type is represented by the integer it denotes; `IntTy.Has` says which ones a type has.
-/

namespace Verif.Bits
open Cxx

/-- An integer type: its number of bits and whether it is signed.  `bool`, for which `make_unsigned_t` does not exist, is
left out. (Rule of C++ or its library, no line of the source.) -/
structure IntTy where
  bits : Nat
  signed : Bool
  pos : 0 < bits
  deriving DecidableEq

namespace IntTy

/-- `lowest_value<T>`, daw_arith_traits.h 233-234. -/
def lowest (t : IntTy) : Int := if t.signed then -2 ^ (t.bits - 1) else 0

/-- `max_value<T>`, daw_arith_traits.h 227-228. -/
def max (t : IntTy) : Int := if t.signed then 2 ^ (t.bits - 1) - 1 else 2 ^ t.bits - 1

/-- `x` is a value of type `t`. (Rule of C++ or its library, no line of the source.) -/
def Has (t : IntTy) (x : Int) : Prop := t.lowest ≤ x ∧ x ≤ t.max

instance (t : IntTy) (x : Int) : Decidable (t.Has x) := inferInstanceAs (Decidable (_ ∧ _))

/-- Conversion to an integer type: the value modulo `2^bits` (two's complement).
(Rule of C++ or its library, no line of the source.) -/
def conv (t : IntTy) (x : Int) : Int := if t.signed then x.bmod (2 ^ t.bits) else x % 2 ^ t.bits

/-- `int`. (Rule of C++ or its library, no line of the source.) -/
def int : IntTy := ⟨32, true, by decide⟩

/-- `unsigned`. (Rule of C++ or its library, no line of the source.) -/
def uint : IntTy := ⟨32, false, by decide⟩

/-- The integer promotions of C++: types narrower than `int` become `int`, all others stay.
(Rule of C++ or its library, no line of the source.) -/
def promote (t : IntTy) : IntTy := if t.bits < 32 then int else t

/-- The usual arithmetic conversions of C++ for two promoted types.  The rank of a type is its number of bits.
(Rule of C++ or its library, no line of the source.) -/
def common (t u : IntTy) : IntTy :=
  let t := t.promote
  let u := u.promote
  if t.signed = u.signed then (if u.bits ≤ t.bits then t else u)
  else if t.signed then (if t.bits ≤ u.bits then u else t)
  else (if u.bits ≤ t.bits then t else u)

/-- `make_unsigned_t<T>`. (Rule of C++ or its library, no line of the source.) -/
def unsigned (t : IntTy) : IntTy := { t with signed := false }

end IntTy

/-- The C++ expression `x == y` for operands of types `t` and `u`. (Rule of C++ or its library, no line of the source.) -/
def cppEq (t u : IntTy) (x y : Int) : Bool := decide ((t.common u).conv x = (t.common u).conv y)

/-- The C++ expression `x < y` for operands of types `t` and `u`. (Rule of C++ or its library, no line of the source.) -/
def cppLt (t u : IntTy) (x y : Int) : Bool := decide ((t.common u).conv x < (t.common u).conv y)

/-- `cmp_equal`, daw_int_cmp.h 22-35.  The comparisons `t < 0` are with the `int` zero. -/
def cmpEqual (t u : IntTy) (x y : Int) : Bool :=
  if t.signed = u.signed then cppEq t u x y
  else if t.signed then (if cppLt t .int x 0 then false else cppEq t.unsigned u (t.unsigned.conv x) y)
  else (if cppLt u .int y 0 then false else cppEq t u.unsigned x (u.unsigned.conv y))

/-- `cmp_not_equal`, daw_int_cmp.h 37-50. -/
def cmpNotEqual (t u : IntTy) (x y : Int) : Bool :=
  if t.signed = u.signed then !cppEq t u x y
  else if t.signed then (if cppLt t .int x 0 then true else !cppEq t.unsigned u (t.unsigned.conv x) y)
  else (if cppLt u .int y 0 then true else !cppEq t u.unsigned x (u.unsigned.conv y))

/-- `cmp_less`, daw_int_cmp.h 52-65. -/
def cmpLess (t u : IntTy) (x y : Int) : Bool :=
  if t.signed = u.signed then cppLt t u x y
  else if t.signed then (if cppLt t .int x 0 then true else cppLt t.unsigned u (t.unsigned.conv x) y)
  else (if cppLt u .int y 0 then false else cppLt t u.unsigned x (u.unsigned.conv y))

/-- `cmp_greater`, daw_int_cmp.h 67-72. -/
def cmpGreater (t u : IntTy) (x y : Int) : Bool := cmpLess u t y x

/-- `cmp_less_equal`, daw_int_cmp.h 74-79. -/
def cmpLessEqual (t u : IntTy) (x y : Int) : Bool := !cmpLess u t y x

/-- `cmp_greater_equal`, daw_int_cmp.h 81-86. -/
def cmpGreaterEqual (t u : IntTy) (x y : Int) : Bool := !cmpLess t u x y

/-- `in_range<R>`, daw_int_cmp.h 88-98.  The test for equal types compares their representation here. -/
def inRange (r t : IntTy) (x : Int) : Bool :=
  if r = t then true else cmpGreaterEqual t r x r.lowest && cmpLessEqual t r x r.max

/-- `signbit`, daw_int_cmp.h 100-108. -/
def signbit (t : IntTy) (x : Int) : Bool := if t.signed then cppLt t .int x 0 else false

/-! ### Conversions that keep the value -/

theorem two_pow_pred {n : Nat} (h : 0 < n) : (2 : Int) ^ n = 2 * 2 ^ (n - 1) := by
  obtain ⟨k, rfl⟩ : ∃ k, n = k + 1 := ⟨n - 1, by omega⟩
  rw [Int.pow_succ, Nat.add_sub_cancel, Int.mul_comm]

theorem two_pow_le {m n : Nat} (h : m ≤ n) : (2 : Int) ^ m ≤ 2 ^ n := by
  have := Nat.pow_le_pow_right (show 0 < 2 by decide) h
  exact_mod_cast this

theorem two_pow_pos (n : Nat) : (0 : Int) < 2 ^ n := Int.pow_pos (by decide)

theorem IntTy.conv_of_has {t : IntTy} {x : Int} (h : t.Has x) : t.conv x = x := by
  obtain ⟨h1, h2⟩ := h
  have hp := two_pow_pred t.pos
  have hq := two_pow_pos (t.bits - 1)
  unfold conv
  unfold lowest at h1
  unfold max at h2
  split
  · rename_i hs
    rw [if_pos hs] at h1 h2
    apply Int.bmod_eq_of_le
    · rw [show ((2 ^ t.bits : Nat) : Int) = 2 ^ t.bits by norm_cast]; omega
    · rw [show ((2 ^ t.bits : Nat) : Int) = 2 ^ t.bits by norm_cast]; omega
  · rename_i hs
    rw [if_neg hs] at h1 h2
    exact Int.emod_eq_of_lt h1 (by omega)

/-- A wider type of the same signedness has all values of a narrower one. -/
theorem IntTy.Has.widen {t u : IntTy} {x : Int} (h : t.Has x) (hs : t.signed = u.signed) (hb : t.bits ≤ u.bits) : u.Has x := by
  have hp : (2 : Int) ^ t.bits ≤ 2 ^ u.bits := two_pow_le hb
  have hq : (2 : Int) ^ (t.bits - 1) ≤ 2 ^ (u.bits - 1) := two_pow_le (by omega)
  obtain ⟨h1, h2⟩ := h
  unfold lowest at h1
  unfold max at h2
  unfold Has lowest max
  rw [← hs]
  split
  · rename_i hs; rw [if_pos hs] at h1 h2; omega
  · rename_i hs; rw [if_neg hs] at h1 h2; omega

/-- A strictly wider signed type has all values of an unsigned one. -/
theorem IntTy.Has.toSigned {t u : IntTy} {x : Int} (h : t.Has x) (ht : t.signed = false) (hu : u.signed = true)
    (hb : t.bits < u.bits) : u.Has x := by
  have hp : (2 : Int) ^ t.bits ≤ 2 ^ (u.bits - 1) := two_pow_le (by omega)
  have hq := two_pow_pos (u.bits - 1)
  obtain ⟨h1, h2⟩ := h
  unfold lowest at h1
  unfold max at h2
  unfold Has lowest max
  rw [if_neg (by simp [ht])] at h1 h2
  rw [if_pos hu, if_pos hu]
  omega

theorem IntTy.Has.promote {t : IntTy} {x : Int} (h : t.Has x) : t.promote.Has x := by
  unfold IntTy.promote
  split
  · rename_i hb
    cases hs : t.signed
    · exact h.toSigned hs rfl hb
    · exact h.widen hs (show t.bits ≤ 32 by omega)
  · exact h

theorem IntTy.promote_signed {t : IntTy} (h : t.signed = true) : t.promote.signed = true := by
  unfold IntTy.promote
  split
  · rfl
  · exact h

/-- Types of the same signedness, or a left one that is unsigned and stays narrower than the signed one: the common type
has all values of both. -/
theorem IntTy.common_has {t u : IntTy} {x y : Int} (hx : t.Has x) (hy : u.Has y) (hs : t.signed = u.signed) :
    (t.common u).Has x ∧ (t.common u).Has y := by
  have hx' := hx.promote
  have hy' := hy.promote
  unfold common
  by_cases h : t.promote.signed = u.promote.signed
  · rw [if_pos h]
    split
    · exact ⟨hx', hy'.widen h.symm (by assumption)⟩
    · exact ⟨hx'.widen h (by omega), hy'⟩
  · -- one of two unsigned types was promoted to `int`, the other one has at least 32 bits
    rw [if_neg h]
    cases hts : t.signed
    · have hus : u.signed = false := by rw [← hs, hts]
      by_cases htb : t.bits < 32
      · have : t.promote = int := by unfold promote; rw [if_pos htb]
        by_cases hub : u.bits < 32
        · exact absurd (by unfold promote; rw [if_pos htb, if_pos hub]) h
        · have hu : u.promote = u := by unfold promote; rw [if_neg hub]
          rw [this, hu, if_pos (show int.signed = true from rfl), if_pos (show int.bits ≤ u.bits from Nat.le_of_not_lt hub)]
          exact ⟨hx.widen (by rw [hts, hus]) (by omega), hy⟩
      · have ht : t.promote = t := by unfold promote; rw [if_neg htb]
        by_cases hub : u.bits < 32
        · have hu : u.promote = int := by unfold promote; rw [if_pos hub]
          rw [ht, hu, if_neg (by simp [hts]), if_pos (show int.bits ≤ t.bits from Nat.le_of_not_lt htb)]
          exact ⟨hx, hy.widen (by rw [hts, hus]) (by omega)⟩
        · have hu : u.promote = u := by unfold promote; rw [if_neg hub]
          exact absurd (by rw [ht, hu, hts, hus]) h
    · have hus : u.signed = true := by rw [← hs, hts]
      exact absurd (by rw [promote_signed hts, promote_signed hus]) h

theorem cppEq_of_same {t u : IntTy} {x y : Int} (hx : t.Has x) (hy : u.Has y) (hs : t.signed = u.signed) :
    cppEq t u x y = decide (x = y) := by
  obtain ⟨h1, h2⟩ := IntTy.common_has hx hy hs
  rw [cppEq, IntTy.conv_of_has h1, IntTy.conv_of_has h2]

theorem cppLt_of_same {t u : IntTy} {x y : Int} (hx : t.Has x) (hy : u.Has y) (hs : t.signed = u.signed) :
    cppLt t u x y = decide (x < y) := by
  obtain ⟨h1, h2⟩ := IntTy.common_has hx hy hs
  rw [cppLt, IntTy.conv_of_has h1, IntTy.conv_of_has h2]

theorem cppLt_zero {t : IntTy} {x : Int} (hx : t.Has x) (hs : t.signed = true) :
    cppLt t .int x 0 = decide (x < 0) := cppLt_of_same hx (by decide) hs

/-- A value that is not negative is kept by the conversion to the unsigned type. -/
theorem IntTy.Has.unsigned {t : IntTy} {x : Int} (h : t.Has x) (h0 : 0 ≤ x) : t.unsigned.Has x := by
  have hp := two_pow_pred t.pos
  have hq := two_pow_pos (t.bits - 1)
  obtain ⟨h1, h2⟩ := h
  unfold max at h2
  unfold Has lowest max IntTy.unsigned
  rw [if_neg (by simp), if_neg (by simp)]
  refine ⟨h0, ?_⟩
  show x ≤ 2 ^ t.bits - 1
  split at h2 <;> omega

theorem IntTy.Has.nonneg {t : IntTy} {x : Int} (h : t.Has x) (hs : t.signed = false) : 0 ≤ x := by
  have := h.1
  unfold lowest at this
  rwa [if_neg (by simp [hs])] at this

theorem IntTy.has_lowest (t : IntTy) : t.Has t.lowest := by
  have hq := two_pow_pos (t.bits - 1)
  have hq' := two_pow_pos t.bits
  unfold Has lowest max
  split <;> omega

theorem IntTy.has_max (t : IntTy) : t.Has t.max := by
  have hq := two_pow_pos (t.bits - 1)
  have hq' := two_pow_pos t.bits
  unfold Has lowest max
  split <;> omega

/-! ### The comparisons -/

/-- C40, `cmp_equal` is equality of the numbers. -/
theorem C40_equal (t u : IntTy) (x y : Int) (hx : t.Has x) (hy : u.Has y) : cmpEqual t u x y = decide (x = y) := by
  unfold cmpEqual
  cases ht : t.signed <;> cases hu : u.signed
  · rw [if_pos rfl, cppEq_of_same hx hy (by rw [ht, hu])]
  · rw [if_neg (by simp), if_neg (by simp), cppLt_zero hy hu]
    have := hx.nonneg ht
    by_cases h0 : y < 0
    · rw [if_pos (by simpa using h0)]
      symm; simp; omega
    · have hy' := hy.unsigned (by omega)
      rw [if_neg (by simpa using h0), IntTy.conv_of_has hy', cppEq_of_same hx hy' (by rw [ht]; rfl)]
  · rw [if_neg (by simp), if_pos rfl, cppLt_zero hx ht]
    have := hy.nonneg hu
    by_cases h0 : x < 0
    · rw [if_pos (by simpa using h0)]
      symm; simp; omega
    · have hx' := hx.unsigned (by omega)
      rw [if_neg (by simpa using h0), IntTy.conv_of_has hx', cppEq_of_same hx' hy (by rw [hu]; rfl)]
  · rw [if_pos rfl, cppEq_of_same hx hy (by rw [ht, hu])]

/-- C40, `cmp_not_equal` is the negation of `cmp_equal`. -/
theorem C40_not_equal (t u : IntTy) (x y : Int) (hx : t.Has x) (hy : u.Has y) :
    cmpNotEqual t u x y = decide (x ≠ y) := by
  have h := C40_equal t u x y hx hy
  have : cmpNotEqual t u x y = !cmpEqual t u x y := by
    unfold cmpNotEqual cmpEqual
    split
    · rfl
    · split <;> split <;> rfl
  rw [this, h]
  simp

example := C40_not_equal .int .uint (-1) 4294967295 (by decide) (by decide)

/-- C40, `cmp_less` is the order of the numbers. -/
theorem C40_less (t u : IntTy) (x y : Int) (hx : t.Has x) (hy : u.Has y) : cmpLess t u x y = decide (x < y) := by
  unfold cmpLess
  cases ht : t.signed <;> cases hu : u.signed
  · rw [if_pos rfl, cppLt_of_same hx hy (by rw [ht, hu])]
  · rw [if_neg (by simp), if_neg (by simp), cppLt_zero hy hu]
    have := hx.nonneg ht
    by_cases h0 : y < 0
    · rw [if_pos (by simpa using h0)]
      symm; simp; omega
    · have hy' := hy.unsigned (by omega)
      rw [if_neg (by simpa using h0), IntTy.conv_of_has hy', cppLt_of_same hx hy' (by rw [ht]; rfl)]
  · rw [if_neg (by simp), if_pos rfl, cppLt_zero hx ht]
    have := hy.nonneg hu
    by_cases h0 : x < 0
    · rw [if_pos (by simpa using h0)]
      symm; simp; omega
    · have hx' := hx.unsigned (by omega)
      rw [if_neg (by simpa using h0), IntTy.conv_of_has hx', cppLt_of_same hx' hy (by rw [hu]; rfl)]
  · rw [if_pos rfl, cppLt_of_same hx hy (by rw [ht, hu])]

/-- C40, the other orders. -/
theorem C40_orders (t u : IntTy) (x y : Int) (hx : t.Has x) (hy : u.Has y) :
    cmpGreater t u x y = decide (y < x) ∧ cmpLessEqual t u x y = decide (x ≤ y) ∧
    cmpGreaterEqual t u x y = decide (y ≤ x) := by
  unfold cmpGreater cmpLessEqual cmpGreaterEqual
  rw [C40_less u t y x hy hx, C40_less t u x y hx hy]
  refine ⟨rfl, ?_, ?_⟩ <;> (rw [← decide_not]; congr 1; simp)

/-- C40, `in_range<R>( x )` tells whether `R` has the value `x`. -/
theorem C40_in_range (r t : IntTy) (x : Int) (hx : t.Has x) : inRange r t x = decide (r.Has x) := by
  unfold inRange
  split
  · rename_i h
    subst h
    exact (decide_eq_true hx).symm
  · rw [(C40_orders t r x r.lowest hx r.has_lowest).2.2, (C40_orders t r x r.max hx r.has_max).2.1]
    exact (Bool.decide_and _ _).symm

example := C40_in_range .uint .int (-1) (by decide)

/-- C40, `signbit`. -/
theorem C40_signbit (t : IntTy) (x : Int) (hx : t.Has x) : signbit t x = decide (x < 0) := by
  unfold signbit
  cases hs : t.signed
  · have := hx.nonneg hs
    rw [if_neg (by simp)]
    symm; simp; omega
  · rw [if_pos rfl, cppLt_zero hx hs]

/-- The case that needs the functions: -1 as `int` is not less than 1 as `unsigned` by the built in operator. -/
example : cppLt .int .uint (-1) 1 = false ∧ cmpLess .int .uint (-1) 1 = true ∧
    inRange ⟨8, true, by decide⟩ .uint 200 = false := by decide

example : IntTy.int.Has (-1) ∧ IntTy.uint.Has 4294967295 := by decide

end Verif.Bits
