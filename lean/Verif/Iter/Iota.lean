import Verif.Bits.IntCmp
import Verif.Containers.Lists

/-
`iota_iterator` and `iota_range`, include/daw/iterator/daw_iota_iterator.h, for every integer type.

A value of an integer type is represented by the integer it denotes (Bits/IntCmp).  The iterator over floating point
numbers, which the class also allows, is left out.
-/

namespace Verif.Iter
open Cxx Verif.Bits

/-- `make_signed_t<T>`. (Rule of C++ or its library, no line of the source.) -/
def signedOf (t : IntTy) : IntTy := { t with signed := true }

/-- The result of `+`, `-` or `*` on two operands of type `t` whose exact result is `z`: computed in the promoted type, where
it wraps around for unsigned types and overflow is undefined behaviour for signed ones.
(Rule of C++ or its library, no line of the source.) -/
def arith (t : IntTy) (z : Int) : Cxx Int :=
  if t.promote.signed then (if t.promote.Has z then pure z else ub) else pure (t.promote.conv z)

/-- `x / y` for two operands of type `t`: division by zero and an unrepresentable quotient are undefined behaviour.
(Rule of C++ or its library, no line of the source.) -/
def divide (t : IntTy) (x y : Int) : Cxx Int := if y = 0 then ub else arith t (x.tdiv y)

/-- `iota_iterator<T>`: `m_value` and `m_step`, daw_iota_iterator.h 24-41. -/
structure Iota where
  value : Int
  step : Int
  deriving DecidableEq, Repr

/-- Both members are values of their types, `T` and `make_signed_t<T>`. (Specification, no line of the source.) -/
def Iota.Ok (t : IntTy) (a : Iota) : Prop := t.Has a.value ∧ (signedOf t).Has a.step

/-- `operator+=`, daw_iota_iterator.h 52-56. -/
def addAssign (t : IntTy) (a : Iota) (n : Int) : Cxx Iota := do
  let z ← arith (signedOf t) ((signedOf t).conv a.value + n)
  pure { a with value := t.conv z }

/-- `operator-=`, daw_iota_iterator.h 58-62. -/
def subAssign (t : IntTy) (a : Iota) (n : Int) : Cxx Iota := do
  let z ← arith (signedOf t) ((signedOf t).conv a.value - n)
  pure { a with value := t.conv z }

/-- `operator*`, daw_iota_iterator.h 64-66. -/
def deref (a : Iota) : Int := a.value

/-- `operator++`, daw_iota_iterator.h 72-76. -/
def incr (t : IntTy) (a : Iota) : Cxx Iota := do
  let z ← arith t.unsigned (t.unsigned.conv a.value + t.unsigned.conv a.step)
  pure { a with value := t.conv z }

/-- `operator--`, daw_iota_iterator.h 84-88. -/
def decr (t : IntTy) (a : Iota) : Cxx Iota := do
  let z ← arith t.unsigned (t.unsigned.conv a.value - t.unsigned.conv a.step)
  pure { a with value := t.conv z }

/-- `operator+( difference_type )`, daw_iota_iterator.h 96-103. -/
def plus (t : IntTy) (a : Iota) (n : Int) : Cxx Iota := do
  let d ← arith (signedOf t) (a.step * n)
  let z ← arith t.unsigned (t.unsigned.conv a.value + t.unsigned.conv d)
  pure { a with value := t.conv z }

/-- `operator-( difference_type )`, daw_iota_iterator.h 105-112. -/
def minus (t : IntTy) (a : Iota) (n : Int) : Cxx Iota := do
  let d ← arith (signedOf t) (a.step * n)
  let z ← arith t.unsigned (t.unsigned.conv a.value - t.unsigned.conv d)
  pure { a with value := t.conv z }

/-- `operator-( iota_iterator const & )`, daw_iota_iterator.h 114-117. -/
def distance (t : IntTy) (a b : Iota) : Cxx Int := do
  let z ← arith t (a.value - b.value)
  let q ← divide (signedOf t) ((signedOf t).conv z) a.step
  pure ((signedOf t).conv q)

/-- `operator[]`, daw_iota_iterator.h 119-121. -/
def index (t : IntTy) (a : Iota) (n : Int) : Cxx Int := do
  let b ← plus t a n
  pure (deref b)

/-- `compare`, daw_iota_iterator.h 123-134.  The second test compares zero with zero. -/
def compare (t : IntTy) (a b : Iota) : Cxx Int := do
  let diff ← arith t (a.value - b.value)
  if t.conv diff < 0 then pure (-1)
  else if (0 : Int) < 0 then pure 1
  else pure 0

/-- `operator==`, daw_iota_iterator.h 136-139. -/
def eq (t : IntTy) (a b : Iota) : Cxx Bool := do let c ← compare t a b; pure (decide (c = 0))

/-- `operator!=`, daw_iota_iterator.h 141-144. -/
def ne (t : IntTy) (a b : Iota) : Cxx Bool := do let c ← compare t a b; pure (decide (c ≠ 0))

/-- `operator>`, daw_iota_iterator.h 146-149. -/
def gt (t : IntTy) (a b : Iota) : Cxx Bool := do let c ← compare t a b; pure (decide (c > 0))

/-- `operator>=`, daw_iota_iterator.h 151-154. -/
def ge (t : IntTy) (a b : Iota) : Cxx Bool := do let c ← compare t a b; pure (decide (c ≥ 0))

/-- `operator<`, daw_iota_iterator.h 156-159. -/
def lt (t : IntTy) (a b : Iota) : Cxx Bool := do let c ← compare t a b; pure (decide (c < 0))

/-- `operator<=`, daw_iota_iterator.h 161-164, tests `compare( rhs ) < 0`. -/
def le (t : IntTy) (a b : Iota) : Cxx Bool := do let c ← compare t a b; pure (decide (c < 0))

/-- `iota_range`: `m_first` and `m_last`, daw_iota_iterator.h 172-183. -/
structure IotaRange where
  first : Iota
  last : Iota

/-- `iota_range( start_value, last_value, step )`, daw_iota_iterator.h 195-199: the step of the last iterator stays one. -/
def range3 (start last step : Int) : IotaRange := ⟨⟨start, step⟩, ⟨last, 1⟩⟩

/-- `iota_range( start_value, last_value )`, daw_iota_iterator.h 190-193. -/
def range2 (start last : Int) : IotaRange := ⟨⟨start, 1⟩, ⟨last, 1⟩⟩

/-- `for( auto x : range )` over `begin( )` and `end( )`, daw_iota_iterator.h 201-207, with the comparison and the increment
above: the values the body sees. (The loop itself is a rule of C++.) -/
def visit (t : IntTy) (a last : Iota) : Cxx (List Int) := do
  let more ← ne t a last
  if more then
    let b ← incr t a
    let rest ← visit t b last
    pure (deref a :: rest)
  else pure []
partial_fixpoint

/-! ### Arithmetic modulo a power of two -/

theorem conv_congr {t : IntTy} {x y : Int} (h : x % 2 ^ t.bits = y % 2 ^ t.bits) : t.conv x = t.conv y := by
  unfold IntTy.conv
  split
  · rw [← Int.emod_bmod (x := x), ← Int.emod_bmod (x := y)]
    rw [show ((2 ^ t.bits : Nat) : Int) = 2 ^ t.bits by norm_cast, h]
  · exact h

theorem conv_emod (t : IntTy) (x : Int) : t.conv x % 2 ^ t.bits = x % 2 ^ t.bits := by
  unfold IntTy.conv
  split
  · have := Int.bmod_emod (x := x) (m := 2 ^ t.bits)
    rwa [show ((2 ^ t.bits : Nat) : Int) = 2 ^ t.bits by norm_cast] at this
  · exact Int.emod_emod_of_dvd x (Int.dvd_refl _)

theorem conv_of_has' {t u : IntTy} {x : Int} (hb : t.bits = u.bits) (h : t.Has x) : t.conv (u.conv x) = x := by
  rw [conv_congr (y := x), IntTy.conv_of_has h]
  rw [hb]; exact conv_emod u x

theorem pow_dvd {m n : Nat} (h : m ≤ n) : (2 : Int) ^ m ∣ 2 ^ n := ⟨2 ^ (n - m), by rw [← Int.pow_add]; congr 1; omega⟩

theorem promote_bits (t : IntTy) : t.bits ≤ t.promote.bits := by
  unfold IntTy.promote
  split
  · show t.bits ≤ 32; omega
  · exact Nat.le_refl _

/-- An unsigned operation never is undefined, and its result is right modulo the size of the type. -/
theorem arith_unsigned (t : IntTy) (w : Int) (hr : t.bits < 32 → IntTy.int.Has w) :
    ∃ z, arith t.unsigned w = pure z ∧ z % 2 ^ t.bits = w % 2 ^ t.bits := by
  unfold arith
  by_cases hb : t.bits < 32
  · have hp : t.unsigned.promote = IntTy.int := by unfold IntTy.promote; exact if_pos hb
    rw [hp]
    rw [if_pos (show IntTy.int.signed = true from rfl), if_pos (hr hb)]
    exact ⟨_, rfl, rfl⟩
  · have hp : t.unsigned.promote = t.unsigned := by unfold IntTy.promote; exact if_neg hb
    rw [hp]
    simp only [show t.unsigned.signed = false from rfl]
    exact ⟨_, rfl, conv_emod t.unsigned _⟩

theorem unsigned_conv_has (t : IntTy) (x : Int) : t.unsigned.Has (t.unsigned.conv x) := by
  have hp := two_pow_pos t.bits
  have h1 := Int.emod_nonneg x (show (2 : Int) ^ t.bits ≠ 0 by omega)
  have h2 := Int.emod_lt_of_pos x hp
  unfold IntTy.Has IntTy.lowest IntTy.max IntTy.conv
  simp only [show t.unsigned.signed = false from rfl, show t.unsigned.bits = t.bits from rfl]
  constructor
  · simpa using h1
  · simp only [Bool.false_eq_true, if_false]; omega

theorem unsigned_small {t : IntTy} {x : Int} (hb : t.bits < 32) (h : t.unsigned.Has x) : 0 ≤ x ∧ x < 2147483648 := by
  have hp : (2 : Int) ^ t.bits ≤ 2 ^ 31 := two_pow_le (by omega)
  obtain ⟨h1, h2⟩ := h
  unfold IntTy.lowest at h1
  unfold IntTy.max at h2
  simp only [show t.unsigned.signed = false from rfl, show t.unsigned.bits = t.bits from rfl, Bool.false_eq_true, if_false] at h1 h2
  omega

theorem int_has {x : Int} : IntTy.int.Has x ↔ -2147483648 ≤ x ∧ x ≤ 2147483647 := by
  have h1 : IntTy.int.lowest = -2147483648 := by decide
  have h2 : IntTy.int.max = 2147483647 := by decide
  rw [IntTy.Has, h1, h2]

/-- Types below `int` have fewer than 31 value bits, so their sums stay below the limit of `int`. -/
theorem unsigned_small16 {t : IntTy} {x : Int} (hb : t.bits < 31) (h : t.unsigned.Has x) : 0 ≤ x ∧ x < 1073741824 := by
  have hp : (2 : Int) ^ t.bits ≤ 2 ^ 30 := two_pow_le (by omega)
  obtain ⟨h1, h2⟩ := h
  unfold IntTy.lowest at h1
  unfold IntTy.max at h2
  simp only [show t.unsigned.signed = false from rfl, show t.unsigned.bits = t.bits from rfl, Bool.false_eq_true, if_false] at h1 h2
  omega

theorem incr_eq (t : IntTy) (h31 : t.bits ≠ 31) (a : Iota) :
    incr t a = pure { a with value := t.conv (a.value + a.step) } := by
  have hx := unsigned_conv_has t a.value
  have hy := unsigned_conv_has t a.step
  obtain ⟨z, hz, hm⟩ := arith_unsigned t (t.unsigned.conv a.value + t.unsigned.conv a.step) (by
    intro hb
    have h1 := unsigned_small16 (by omega) hx
    have h2 := unsigned_small16 (by omega) hy
    rw [int_has]; omega)
  unfold incr
  rw [hz, pure_bind]
  congr 2
  apply conv_congr
  rw [hm]
  rw [Int.add_emod]
  have e1 := conv_emod t.unsigned a.value
  have e2 := conv_emod t.unsigned a.step
  rw [show t.unsigned.bits = t.bits from rfl] at e1 e2
  rw [e1, e2, ← Int.add_emod]

theorem decr_eq (t : IntTy) (h31 : t.bits ≠ 31) (a : Iota) :
    decr t a = pure { a with value := t.conv (a.value - a.step) } := by
  have hx := unsigned_conv_has t a.value
  have hy := unsigned_conv_has t a.step
  obtain ⟨z, hz, hm⟩ := arith_unsigned t (t.unsigned.conv a.value - t.unsigned.conv a.step) (by
    intro hb
    have h1 := unsigned_small16 (by omega) hx
    have h2 := unsigned_small16 (by omega) hy
    rw [int_has]; omega)
  unfold decr
  rw [hz, pure_bind]
  congr 2
  apply conv_congr
  rw [hm]
  rw [Int.sub_emod]
  have e1 := conv_emod t.unsigned a.value
  have e2 := conv_emod t.unsigned a.step
  rw [show t.unsigned.bits = t.bits from rfl] at e1 e2
  rw [e1, e2, ← Int.sub_emod]


/-! ### C122: comparisons -/

theorem arith_signed {t : IntTy} {z : Int} (hs : t.signed = true) (h : t.promote.Has z) : arith t z = pure z := by
  unfold arith
  rw [if_pos (IntTy.promote_signed hs), if_pos h]

theorem compare_signed {t : IntTy} (hs : t.signed = true) (a b : Iota) (h : t.Has (a.value - b.value)) :
    compare t a b = pure (if a.value < b.value then -1 else 0) := by
  unfold compare
  rw [arith_signed hs h.promote, pure_bind, IntTy.conv_of_has h]
  by_cases hlt : a.value < b.value
  · rw [if_pos hlt, if_pos (by omega)]
  · rw [if_neg hlt, if_neg (by omega)]
    rfl

theorem conv_unsigned_nonneg {t : IntTy} (hs : t.signed = false) (x : Int) : ¬ t.conv x < 0 := by
  have hp := two_pow_pos t.bits
  have h1 := Int.emod_nonneg x (show (2 : Int) ^ t.bits ≠ 0 by omega)
  unfold IntTy.conv
  rw [if_neg (by rw [hs]; decide)]
  omega

/-- The difference of two values of a type that is not signed never is undefined. -/
theorem arith_sub_unsigned {t : IntTy} (hs : t.signed = false) {x y : Int} (hx : t.Has x) (hy : t.Has y) :
    ∃ z, arith t (x - y) = pure z ∧ z % 2 ^ t.bits = (x - y) % 2 ^ t.bits := by
  have e : t.unsigned = t := by cases t; simp only [IntTy.unsigned] at *; congr; exact hs.symm
  have := arith_unsigned t (x - y) (by
    intro hb
    rw [← e] at hx hy
    have h1 := unsigned_small hb hx
    have h2 := unsigned_small hb hy
    rw [int_has]; omega)
  rwa [e] at this

theorem compare_unsigned {t : IntTy} (hs : t.signed = false) (a b : Iota) (ha : t.Has a.value) (hb : t.Has b.value) :
    compare t a b = pure 0 := by
  obtain ⟨z, hz, -⟩ := arith_sub_unsigned hs ha hb
  unfold compare
  rw [hz, pure_bind, if_neg (conv_unsigned_nonneg hs z)]
  rfl

/-- C122, the part that holds: for signed types, when the difference of the two values is a value of the type, `<` and `>=`
agree with the values, and `!=` answers what `<` answers. Missing: `==`, `!=`, `<=`, `>` as the values compare, all unsigned
types, and differences that overflow. -/
theorem C122_signed_partial (t : IntTy) (hs : t.signed = true) (a b : Iota) (h : t.Has (a.value - b.value)) :
    lt t a b = pure (decide (a.value < b.value)) ∧ ge t a b = pure (decide (a.value ≥ b.value)) ∧
    ne t a b = pure (decide (a.value < b.value)) ∧ eq t a b = pure (decide (a.value ≥ b.value)) ∧
    le t a b = pure (decide (a.value < b.value)) ∧ gt t a b = pure false := by
  unfold lt ge ne eq le gt
  rw [compare_signed hs a b h]
  simp only [pure_bind]
  by_cases hlt : a.value < b.value
  · have : ¬ b.value ≤ a.value := by omega
    simp [hlt, this]
  · have : a.value ≥ b.value := by omega
    simp [hlt, this]

example : lt .int ⟨-3, 1⟩ ⟨5, 1⟩ = pure true ∧ IntTy.int.Has (-3 - 5) := by decide +kernel

/-- C122 fails for every unsigned type: any two iterators are equal, whatever their values. -/
theorem C122_unsigned_violated (t : IntTy) (hs : t.signed = false) (a b : Iota) (ha : t.Has a.value) (hb : t.Has b.value) :
    eq t a b = pure true ∧ ne t a b = pure false ∧ lt t a b = pure false ∧ le t a b = pure false ∧
    gt t a b = pure false ∧ ge t a b = pure true := by
  unfold eq ne lt le gt ge
  rw [compare_unsigned hs a b ha hb]
  exact ⟨rfl, rfl, rfl, rfl, rfl, rfl⟩

example : eq .uint ⟨0, 1⟩ ⟨10, 1⟩ = pure true ∧ IntTy.uint.Has 10 := by decide +kernel

/-- C122 fails for `>`: it never holds, for no type and no values. -/
theorem C122_greater_violated (t : IntTy) (a b : Iota) : gt t a b ≠ pure true := by
  unfold gt compare
  intro h
  obtain ⟨c, hc, h⟩ := bind_eq_pure.1 h
  obtain ⟨d, -, hc⟩ := bind_eq_pure.1 hc
  rw [pure_inj, decide_eq_true_iff] at h
  split at hc
  · rw [pure_inj] at hc; omega
  · rw [if_neg (by omega), pure_inj] at hc; omega

/-- C122 fails for `==` and `<=` on signed types: five equals three, and three is not at most three. -/
theorem C122_equal_violated : eq .int ⟨5, 1⟩ ⟨3, 1⟩ = pure true ∧ ne .int ⟨5, 1⟩ ⟨3, 1⟩ = pure false ∧
    le .int ⟨3, 1⟩ ⟨3, 1⟩ = pure false := by decide +kernel

/-- C122 fails when the difference is not a value of the type: it wraps around for the types below `int`, and is undefined
behaviour for the others. -/
theorem C122_overflow_violated : lt ⟨8, true, by decide⟩ ⟨100, 1⟩ ⟨-100, 1⟩ = pure true ∧
    lt ⟨32, true, by decide⟩ ⟨2147483647, 1⟩ ⟨-1, 1⟩ = ub := by decide +kernel

/-! ### C123: steps and distances -/

/-- `n` increments. (Specification, no line of the source.) -/
def incrN (t : IntTy) : Nat → Iota → Cxx Iota
  | 0, a => pure a
  | n + 1, a => do let b ← incr t a; incrN t n b

/-- `n` decrements. (Specification, no line of the source.) -/
def decrN (t : IntTy) : Nat → Iota → Cxx Iota
  | 0, a => pure a
  | n + 1, a => do let b ← decr t a; decrN t n b

theorem incrN_eq (t : IntTy) (h31 : t.bits ≠ 31) (n : Nat) (a : Iota) (ha : t.Has a.value) :
    incrN t n a = pure { a with value := t.conv (a.value + a.step * n) } := by
  have key : ∀ (n : Nat) (a : Iota) (v : Int), a.value = t.conv v →
      incrN t n a = pure { a with value := t.conv (v + a.step * n) } := by
    intro n
    induction n with
    | zero =>
      intro a v hv
      simp only [incrN]
      cases a
      simp_all
    | succ n ih =>
      intro a v hv
      simp only [incrN]
      rw [incr_eq t h31, pure_bind]
      rw [ih _ (v + a.step) (by
        dsimp only
        apply conv_congr
        rw [hv, Int.add_emod, conv_emod, ← Int.add_emod])]
      dsimp only
      congr 3
      push_cast
      rw [Int.mul_add]
      omega
  exact key n a a.value (IntTy.conv_of_has ha).symm

theorem decrN_eq (t : IntTy) (h31 : t.bits ≠ 31) (n : Nat) (a : Iota) (ha : t.Has a.value) :
    decrN t n a = pure { a with value := t.conv (a.value - a.step * n) } := by
  have key : ∀ (n : Nat) (a : Iota) (v : Int), a.value = t.conv v →
      decrN t n a = pure { a with value := t.conv (v - a.step * n) } := by
    intro n
    induction n with
    | zero =>
      intro a v hv
      simp only [decrN]
      cases a
      simp_all
    | succ n ih =>
      intro a v hv
      simp only [decrN]
      rw [decr_eq t h31, pure_bind]
      rw [ih _ (v - a.step) (by
        dsimp only
        apply conv_congr
        rw [hv, Int.sub_emod, conv_emod, ← Int.sub_emod])]
      dsimp only
      congr 3
      push_cast
      rw [Int.mul_add]
      omega
  exact key n a a.value (IntTy.conv_of_has ha).symm

theorem plus_eq (t : IntTy) (h31 : t.bits ≠ 31) (a : Iota) (n : Int) (h : (signedOf t).promote.Has (a.step * n)) :
    plus t a n = pure { a with value := t.conv (a.value + a.step * n) } := by
  unfold plus
  rw [arith_signed (t := signedOf t) rfl h, pure_bind]
  have := incr_eq t h31 ⟨a.value, a.step * n⟩
  unfold incr at this
  obtain ⟨z, hz, hv⟩ := bind_eq_pure.1 this
  dsimp only at hz
  rw [hz, pure_bind]
  rw [pure_inj] at hv
  injection hv with hv
  rw [hv]

theorem minus_eq (t : IntTy) (h31 : t.bits ≠ 31) (a : Iota) (n : Int) (h : (signedOf t).promote.Has (a.step * n)) :
    minus t a n = pure { a with value := t.conv (a.value - a.step * n) } := by
  unfold minus
  rw [arith_signed (t := signedOf t) rfl h, pure_bind]
  have := decr_eq t h31 ⟨a.value, a.step * n⟩
  unfold decr at this
  obtain ⟨z, hz, hv⟩ := bind_eq_pure.1 this
  dsimp only at hz
  rw [hz, pure_bind]
  rw [pure_inj] at hv
  injection hv with hv
  rw [hv]

/-- C123, steps: `it + n`, `it - n` and `it[n]` are what `n` increments or decrements give, for every integer type and every
step, as long as the product of step and count does not overflow.  (No C++ type has 31 bits.) -/
theorem C123_steps_partial (t : IntTy) (h31 : t.bits ≠ 31) (n : Nat) (a : Iota) (ha : t.Has a.value)
    (h : (signedOf t).promote.Has (a.step * n)) :
    plus t a n = incrN t n a ∧ minus t a n = decrN t n a ∧
    index t a n = (do let b ← incrN t n a; pure (deref b)) := by
  rw [index, plus_eq t h31 a n h, minus_eq t h31 a n h, incrN_eq t h31 n a ha, decrN_eq t h31 n a ha]
  exact ⟨rfl, rfl, rfl⟩

example : plus .uint ⟨4294967294, 3⟩ 2 = pure ⟨4, 3⟩ ∧ incrN .uint 2 ⟨4294967294, 3⟩ = pure ⟨4, 3⟩ := by decide +kernel

/-- C123, the values: without wrapping around, the n-th iterator has the value `value + step * n`. -/
theorem C123_value_partial (t : IntTy) (h31 : t.bits ≠ 31) (a : Iota) (n : Int)
    (h : (signedOf t).promote.Has (a.step * n)) (hv : t.Has (a.value + a.step * n)) :
    index t a n = pure (a.value + a.step * n) := by
  rw [index, plus_eq t h31 a n h, pure_bind, deref, IntTy.conv_of_has hv]

example : index .int ⟨10, -3⟩ 5 = pure (-5) ∧ (signedOf .int).promote.Has (-3 * 5) ∧ IntTy.int.Has (10 + -3 * 5) := by
  decide +kernel

/-- C123, distances: `( it + n ) - it` is `n` when neither the product nor the sum overflows and the step is not zero. -/
theorem C123_distance_partial (t : IntTy) (h31 : t.bits ≠ 31) (a : Iota) (ha : t.Has a.value) (n : Int) (hn : (signedOf t).Has n)
    (h0 : a.step ≠ 0) (h : (signedOf t).Has (a.step * n)) (hv : t.Has (a.value + a.step * n)) :
    (do let b ← plus t a n; distance t b a) = pure n := by
  rw [plus_eq t h31 a n h.promote, pure_bind, IntTy.conv_of_has hv]
  unfold distance
  dsimp only
  have hd : a.value + a.step * n - a.value = a.step * n := by omega
  have hz : ∃ z, arith t (a.value + a.step * n - a.value) = pure z ∧ z % 2 ^ t.bits = (a.step * n) % 2 ^ t.bits := by
    cases hs : t.signed
    · have := arith_sub_unsigned hs hv ha
      rwa [hd] at this ⊢
    · have e : signedOf t = t := by cases t; simp only [signedOf] at *; congr; exact hs.symm
      rw [e] at h
      rw [hd, arith_signed hs h.promote]
      exact ⟨_, rfl, rfl⟩
  obtain ⟨z, hz, hm⟩ := hz
  rw [hz, pure_bind]
  have hc : (signedOf t).conv z = a.step * n := by
    rw [conv_congr (t := signedOf t) hm, IntTy.conv_of_has h]
  rw [hc]
  unfold divide
  rw [if_neg h0, Int.mul_tdiv_cancel_left _ h0, arith_signed (t := signedOf t) rfl hn.promote, pure_bind,
    IntTy.conv_of_has hn]

example : (do let b ← plus .uint ⟨10, -3⟩ 3; distance .uint b ⟨10, -3⟩) = pure 3 := by decide +kernel

/-- C123 fails for the iterators of `iota_range( start, last, step )`: the end has a step of one, so that `end() - begin()`
is the difference of the values, whatever the step, and not the number of increments from one to the other. -/
theorem C123_range_distance_violated (t : IntTy) (start last step : Int) (h1 : t.Has start) (h2 : t.Has last)
    (hd : (signedOf t).Has (last - start)) :
    distance t (range3 start last step).last (range3 start last step).first = pure (last - start) := by
  unfold distance range3
  dsimp only
  have hz : ∃ z, arith t (last - start) = pure z ∧ z % 2 ^ t.bits = (last - start) % 2 ^ t.bits := by
    cases hs : t.signed
    · exact arith_sub_unsigned hs h2 h1
    · have e : signedOf t = t := by cases t; simp only [signedOf] at *; congr; exact hs.symm
      rw [e] at hd
      rw [arith_signed hs hd.promote]
      exact ⟨_, rfl, rfl⟩
  obtain ⟨z, hz, hm⟩ := hz
  rw [hz, pure_bind, conv_congr (t := signedOf t) hm, IntTy.conv_of_has hd]
  unfold divide
  rw [if_neg (by decide), Int.tdiv_one, arith_signed (t := signedOf t) rfl hd.promote, pure_bind, IntTy.conv_of_has hd]

example : distance .int (range3 0 10 5).last (range3 0 10 5).first = pure 10 ∧
    incrN .int 2 (range3 0 10 5).first = pure ⟨10, 5⟩ := by decide +kernel

/-- C123, `+=` with a step of one is `+` as long as nothing overflows. -/
theorem C123_add_assign_partial (t : IntTy) (h31 : t.bits ≠ 31) (a : Iota) (n : Int) (h1 : a.step = 1)
    (hn : (signedOf t).Has n) (h : (signedOf t).promote.Has ((signedOf t).conv a.value + n)) :
    addAssign t a n = plus t a n := by
  rw [plus_eq t h31 a n (by rw [h1, Int.one_mul]; exact hn.promote)]
  unfold addAssign
  rw [arith_signed (t := signedOf t) rfl h, pure_bind]
  congr 2
  apply conv_congr
  have := conv_emod (signedOf t) a.value
  rw [show (signedOf t).bits = t.bits from rfl] at this
  rw [h1, Int.one_mul, Int.add_emod, this, ← Int.add_emod]

example : addAssign .uint ⟨7, 1⟩ (-2) = pure ⟨5, 1⟩ ∧ (signedOf .uint).promote.Has ((signedOf .uint).conv 7 + -2) := by
  decide +kernel

/-- C123 fails for `+=` and `-=`, which ignore the step: `it + 2` of `0, 5, 10, ..` is ten, `it += 2` is two. -/
theorem C123_add_assign_violated : plus .int ⟨0, 5⟩ 2 = pure ⟨10, 5⟩ ∧ addAssign .int ⟨0, 5⟩ 2 = pure ⟨2, 5⟩ ∧
    minus .int ⟨0, 5⟩ 2 = pure ⟨-10, 5⟩ ∧ subAssign .int ⟨0, 5⟩ 2 = pure ⟨-2, 5⟩ := by decide +kernel

/-- C123 fails for every step other than one: `+= n` then never is `+ n` while nothing overflows. -/
theorem C123_add_assign_always_violated (t : IntTy) (h31 : t.bits ≠ 31) (a : Iota) (n : Int) (h1 : a.step ≠ 1) (h0 : n ≠ 0)
    (hv : t.Has (a.value + a.step * n)) (hp : (signedOf t).promote.Has (a.step * n)) (hw : t.Has (a.value + n))
    (h : (signedOf t).promote.Has ((signedOf t).conv a.value + n)) : addAssign t a n ≠ plus t a n := by
  rw [plus_eq t h31 a n hp, IntTy.conv_of_has hv]
  unfold addAssign
  rw [arith_signed (t := signedOf t) rfl h, pure_bind]
  have e : t.conv ((signedOf t).conv a.value + n) = a.value + n := by
    rw [conv_congr (y := a.value + n), IntTy.conv_of_has hw]
    have := conv_emod (signedOf t) a.value
    rw [show (signedOf t).bits = t.bits from rfl] at this
    rw [Int.add_emod, this, ← Int.add_emod]
  rw [e, Ne, pure_inj]
  intro hh
  injection hh with hh
  have : a.step * n = 1 * n := by omega
  exact h1 (Int.eq_of_mul_eq_mul_right h0 this)

example := C123_add_assign_always_violated .int (by decide) ⟨10, 3⟩ 4 (by decide) (by decide) (by decide) (by decide) (by decide) (by decide)

/-! ### C124: ranges -/

/-- The numbers `v, v + s, v + 2 s, ..` below `l`, at most `fuel` of them. (Specification, no line of the source.) -/
def upTo (s l : Int) : Nat → Int → List Int
  | 0, _ => []
  | n + 1, v => if v < l then v :: upTo s l n (v + s) else []

theorem mem_upTo {s l : Int} (hs : 0 < s) {n : Nat} {v x : Int} (hn : l - v ≤ n) :
    x ∈ upTo s l n v ↔ ∃ k : Nat, x = v + s * k ∧ x < l := by
  induction n generalizing v with
  | zero =>
    simp only [upTo, List.not_mem_nil, false_iff]
    rintro ⟨k, rfl, hx⟩
    have : 0 ≤ s * (k : Int) := Int.mul_nonneg (by omega) (by omega)
    omega
  | succ n ih =>
    simp only [upTo]
    by_cases hv : v < l
    · rw [if_pos hv, List.mem_cons, ih (by push_cast at hn; omega)]
      constructor
      · rintro (rfl | ⟨k, rfl, hx⟩)
        · exact ⟨0, by simp, hv⟩
        · exact ⟨k + 1, by push_cast; rw [Int.mul_add]; omega, hx⟩
      · rintro ⟨k, rfl, hx⟩
        cases k with
        | zero => left; simp
        | succ k => right; exact ⟨k, by push_cast; rw [Int.mul_add]; omega, hx⟩
    · rw [if_neg hv]
      simp only [List.not_mem_nil, false_iff]
      rintro ⟨k, rfl, hx⟩
      have : 0 ≤ s * (k : Int) := Int.mul_nonneg (by omega) (by omega)
      omega

theorem visit_signed {t : IntTy} (h31 : t.bits ≠ 31) (hs : t.signed = true) (last : Iota) (n : Nat) (a : Iota)
    (hpos : 0 < a.step) (hn : last.value - a.value ≤ n)
    (hlo : t.Has (a.value - last.value)) (hhi : t.Has (a.step - 1)) (htop : t.Has (last.value + a.step - 1))
    (ha : t.Has a.value) :
    visit t a last = pure (upTo a.step last.value n a.value) := by
  induction n generalizing a with
  | zero =>
    rw [visit, (C122_signed_partial t hs a last hlo).2.2.1, pure_bind]
    rw [decide_eq_false (by omega)]
    rfl
  | succ n ih =>
    rw [visit, (C122_signed_partial t hs a last hlo).2.2.1, pure_bind]
    simp only [upTo]
    by_cases hlt : a.value < last.value
    · have hnext : t.Has (a.value + a.step) := ⟨by have := ha.1; omega, by have := htop.2; omega⟩
      have hd : t.Has (a.value + a.step - last.value) := ⟨by have := hlo.1; omega, by have := hhi.2; omega⟩
      simp only [decide_eq_true hlt, if_true, if_pos hlt]
      rw [incr_eq t h31, pure_bind, IntTy.conv_of_has hnext,
        ih ⟨a.value + a.step, a.step⟩ hpos (by dsimp only; push_cast at hn; omega) hd hhi htop hnext, pure_bind]
      rfl
    · simp only [decide_eq_false hlt, if_neg hlt]
      rfl

/-- C124, the part that holds: for signed types and steps above zero, when nothing overflows, the loop over
`iota_range( start, last, step )` ends and its body sees exactly the numbers `start + step * k` below `last`, also when the
last step jumps over `last`. Missing: unsigned types and steps below zero. -/
theorem C124_visits_partial (t : IntTy) (h31 : t.bits ≠ 31) (hs : t.signed = true) (start last step : Int)
    (ha : t.Has start) (hpos : 0 < step) (hlo : t.Has (start - last)) (hstep : t.Has step) (htop : t.Has (last + step - 1)) :
    ∃ l, visit t (range3 start last step).first (range3 start last step).last = pure l ∧
      (∀ x, x ∈ l ↔ ∃ k : Nat, x = start + step * k ∧ x < last) ∧ l.Pairwise (· < ·) := by
  have hl0 : t.lowest ≤ 0 := by have := t.has_lowest; have h2 := two_pow_pos (t.bits - 1); unfold IntTy.lowest; split <;> omega
  have := visit_signed h31 hs ⟨last, 1⟩ (last - start).toNat ⟨start, step⟩ hpos (by dsimp only; omega) hlo
    ⟨by dsimp only; omega, by have := hstep.2; dsimp only; omega⟩ htop ha
  refine ⟨_, this, ?_, ?_⟩
  · intro x
    exact mem_upTo hpos (by dsimp only; omega)
  · dsimp only
    generalize (last - start).toNat = n
    clear this ha hlo
    induction n generalizing start with
    | zero => exact List.Pairwise.nil
    | succ n ih =>
      simp only [upTo]
      split
      · refine List.Pairwise.cons ?_ (ih _)
        intro x hx
        have : ∀ (n : Nat) (v x : Int), x ∈ upTo step last n v → v ≤ x := by
          intro n
          induction n with
          | zero => intro v x h; simp [upTo] at h
          | succ n ih =>
            intro v x h
            simp only [upTo] at h
            split at h
            · rcases List.mem_cons.1 h with rfl | h
              · omega
              · have := ih _ _ h; omega
            · simp at h
        have := this n _ x hx
        omega
      · exact List.Pairwise.nil

example : visit .int (range3 1 10 4).first (range3 1 10 4).last = pure [1, 5, 9] := by
  have := visit_signed (t := .int) (by decide) rfl ⟨10, 1⟩ 9 ⟨1, 4⟩ (by decide) (by decide) (by decide) (by decide) (by decide) (by decide)
  rw [show range3 1 10 4 = ⟨⟨1, 4⟩, ⟨10, 1⟩⟩ from rfl, this]
  rfl

/-- C124, a range without a step is one with the step one. -/
theorem C124_plain_partial (t : IntTy) (h31 : t.bits ≠ 31) (hs : t.signed = true) (start last : Int) (ha : t.Has start)
    (hl : t.Has last) (hlo : t.Has (start - last)) (h1 : t.Has 1) :
    ∃ l, visit t (range2 start last).first (range2 start last).last = pure l ∧
      (∀ x, x ∈ l ↔ start ≤ x ∧ x < last) ∧ l.Pairwise (· < ·) := by
  obtain ⟨l, hv, hm, hp⟩ := C124_visits_partial t h31 hs start last 1 ha (by decide) hlo h1 (by rw [show last + 1 - 1 = last by omega]; exact hl)
  refine ⟨l, hv, fun x => (hm x).trans ⟨?_, ?_⟩, hp⟩
  · rintro ⟨k, e, hk⟩
    omega
  · rintro ⟨h1, h2⟩
    exact ⟨(x - start).toNat, by omega, h2⟩

example := C124_plain_partial .int (by decide) rfl (-2) 5 (by decide) (by decide) (by decide) (by decide)

/-- C124 fails for every unsigned type: the loop over `iota_range( start, last, step )` never runs its body. -/
theorem C124_unsigned_violated (t : IntTy) (hs : t.signed = false) (start last step : Int) (ha : t.Has start) (hl : t.Has last) :
    visit t (range3 start last step).first (range3 start last step).last = pure [] := by
  rw [visit, (C122_unsigned_violated t hs _ _ ha hl).2.1, pure_bind]
  rfl

example := C124_unsigned_violated .uint rfl 2 9 3 (by decide) (by decide)

/-- C124 fails for steps below zero: a range that counts down is empty. -/
theorem C124_down_violated (t : IntTy) (hs : t.signed = true) (start last step : Int) (h : last ≤ start) (hd : t.Has (start - last)) :
    visit t (range3 start last step).first (range3 start last step).last = pure [] := by
  rw [visit, (C122_signed_partial t hs _ _ hd).2.2.1, pure_bind]
  rw [show decide ((range3 start last step).first.value < (range3 start last step).last.value) = false from
    decide_eq_false (show ¬ start < last by omega)]
  rfl

example : visit .int (range3 10 0 (-1)).first (range3 10 0 (-1)).last = pure [] :=
  C124_down_violated .int rfl 10 0 (-1) (by decide) (by decide)

end Verif.Iter
