import Verif.Bits.Natural
import Mathlib.Data.Nat.Factorial.Basic
import Mathlib.Data.Nat.Log
import Mathlib.Tactic.Ring
import Mathlib.Tactic.Linarith

/-
Powers, include/daw/daw_cxmath.h and include/daw/daw_math.h, for integer types.  Floating point types are not modelled.
-/

namespace Verif.Bits.Power
open Cxx
open Natural (arith arith_has)

/-- The C++ expression `x = x * y` for `x` and `y` of type `t`: the product is computed in the promoted type and converted.
(Rule of C++ or its library, no line of the source.) -/
def mul (t : IntTy) (x y : Int) : Cxx Int := do
  let r ← arith t.promote (x * y)
  pure (t.conv r)

/-- The loop of `pow_n`, daw_cxmath.h 453-463.  `count` is no part of the code: it counts multiplications. -/
def powLoop (t : IntTy) (p result : Int) (count n : Nat) : Cxx (Int × Nat) := do
  let (result, count) ← (if n % 2 = 1 then do let r ← mul t p result; pure (r, count + 1) else pure (result, count) : Cxx _)
  if n / 2 = 0 then pure (result, count)
  else do
    let p ← mul t p p
    powLoop t p result (count + 1) (n / 2)
termination_by n

/-- `pow_n`, daw_cxmath.h 447-464, with the number of multiplications. -/
def powN (t : IntTy) (x : Int) (n : Nat) : Cxx (Int × Nat) := powLoop t x 1 0 n

/-- `uintmax_t`. (Rule of C++ or its library, no line of the source.) -/
def u64 : IntTy := ⟨64, false, by decide⟩

/-- `intmax_t`. (Rule of C++ or its library, no line of the source.) -/
def i64 : IntTy := ⟨64, true, by decide⟩

/-- The loop of `pow10_impl2`, daw_cxmath.h 353-360. -/
def pow10Loop (t : IntTy) : Nat → Int → Cxx Int
  | 0, result => pure result
  | e + 1, result => do
    let result ← mul t result 10
    pow10Loop t e result

/-- `calc_pow10s<uintmax_t>`, daw_cxmath.h 386-394; `digits10` is 19 for 64 bits. -/
def table : Cxx (List Int) := (List.range 19).mapM fun n => pow10Loop u64 n 1

/-- `pow10`, daw_cxmath.h 1010-1012, with `pow10_t::get`, 421-429. -/
def pow10 (e : Nat) : Cxx Int := do
  let t ← table
  rd t e

/-- The first loop of `pow`, daw_cxmath.h 715-718: `fuel` bounds the number of turns. -/
def powDown (t : IntTy) (b : Int) : Nat → Int → Int → Cxx (Int × Int)
  | 0, result, exp => pure (result, exp)
  | fuel + 1, result, exp =>
    if cppLt .int t exp 0 then do
      let q ← (if b = 0 then ub else arith t.promote (result.tdiv b) : Cxx Int)
      let exp ← arith .int (exp + 1)
      powDown t b fuel (t.conv q) exp
    else pure (result, exp)

/-- The second loop of `pow`, daw_cxmath.h 719-722. -/
def powUp (t : IntTy) (b : Int) (result exp : Int) : Cxx Int :=
  if cppLt t .int 0 exp then do
    let result ← mul t result b
    let exp ← arith .int (exp - 1)
    powUp t b result exp
  else pure result
partial_fixpoint

/-- `cxmath::pow`, daw_cxmath.h 711-724. -/
def pow (t : IntTy) (b exp : Int) : Cxx Int := do
  let (result, exp) ← powDown t b (-exp).toNat 1 exp
  powUp t b result exp

/-- `math::impl::pow_impl`, daw_math.h 173-179. -/
def powImpl (t : IntTy) : Nat → Int → Cxx Int
  | 0, base => pure base
  | e + 1, base => do
    let base ← mul t base base
    powImpl t e base

/-- `math::pow`, daw_math.h 183-186. -/
def mathPow (t : IntTy) (base : Int) (e : Nat) : Cxx Int :=
  if base = 0 then pure 0 else if 0 < e then powImpl t e base else pure 1

/-! ### Products that fit -/

theorem promote_has {t : IntTy} {x : Int} (h : t.Has x) : t.promote.Has x := by
  unfold IntTy.promote
  split
  · rename_i hb
    have h31 : (2 : Int) ^ (t.bits - 1) ≤ 2 ^ 31 := two_pow_le (by omega)
    have h31' : (2 : Int) ^ t.bits ≤ 2 ^ 31 := two_pow_le (by omega)
    obtain ⟨h1, h2⟩ := h
    unfold IntTy.lowest at h1
    unfold IntTy.max at h2
    unfold IntTy.Has IntTy.lowest IntTy.max IntTy.int
    simp only [if_true]
    cases hs : t.signed
    · rw [hs] at h1 h2; simp at h1 h2; constructor <;> omega
    · rw [hs] at h1 h2; simp only [if_true] at h1 h2; constructor <;> omega
  · exact h

theorem mul_has {t : IntTy} {x y : Int} (h : t.Has (x * y)) : mul t x y = pure (x * y) := by
  unfold mul
  rw [arith_has (promote_has h), pure_bind, IntTy.conv_of_has h]

/-- The values between the least and the greatest value of a type of at least 8 bits contain one. -/
theorem has_one {t : IntTy} (hb : 8 ≤ t.bits) : t.Has 1 := by
  have h1 : (2 : Int) ^ 7 ≤ 2 ^ (t.bits - 1) := two_pow_le (by omega)
  have h2 : (2 : Int) ^ 8 ≤ 2 ^ t.bits := two_pow_le hb
  unfold IntTy.Has IntTy.lowest IntTy.max
  cases t.signed <;> simp <;> omega

theorem has_neg_one {t : IntTy} (hs : t.signed = true) : t.Has (-1) := by
  have h1 := two_pow_pos (t.bits - 1)
  unfold IntTy.Has IntTy.lowest IntTy.max
  rw [if_pos hs, if_pos hs]
  constructor <;> omega

/-- If a power fits, so do the lower ones. -/
theorem has_pow {t : IntTy} (hb : 8 ≤ t.bits) {x : Int} (hx : t.Has x) {e n : Nat} (hen : e ≤ n) (hn : t.Has (x ^ n)) :
    t.Has (x ^ e) := by
  rcases Nat.eq_or_lt_of_le hen with h | hlt
  · rw [h]; exact hn
  have h1 := has_one hb
  cases hs : t.signed
  · -- unsigned
    unfold IntTy.Has IntTy.lowest IntTy.max at hx hn h1 ⊢
    rw [hs] at hx hn h1 ⊢
    simp only [Bool.false_eq_true, if_false] at hx hn h1 ⊢
    have hp : 0 ≤ x ^ e := Int.pow_nonneg hx.1
    refine ⟨hp, ?_⟩
    rcases Int.lt_or_le 0 x with hpos | hle
    · have : x ^ e ≤ x ^ n := pow_le_pow_right₀ (by omega) hen
      omega
    · have hx0 : x = 0 := by omega
      subst hx0
      cases e with
      | zero => simpa using h1.2
      | succ e => rw [zero_pow (by omega)]; omega
  · have hm1 := has_neg_one hs
    have hcases : x = 0 ∨ x = 1 ∨ x = -1 ∨ 2 ≤ x.natAbs := by omega
    rcases hcases with rfl | rfl | rfl | h2
    · cases e with
      | zero => simpa using h1
      | succ e => rw [zero_pow (by omega)]; exact hx
    · simpa using h1
    · rcases neg_one_pow_eq_or Int e with h | h
      · rw [h]; exact h1
      · rw [h]; exact hm1
    · have hlt2 : (x ^ e).natAbs * 2 ≤ (x ^ n).natAbs := by
        rw [Int.natAbs_pow, Int.natAbs_pow]
        calc x.natAbs ^ e * 2 ≤ x.natAbs ^ e * x.natAbs := Nat.mul_le_mul_left _ h2
          _ = x.natAbs ^ (e + 1) := (Nat.pow_succ _ _).symm
          _ ≤ x.natAbs ^ n := Nat.pow_le_pow_right (by omega) hlt
      unfold IntTy.Has IntTy.lowest IntTy.max at *
      rw [if_pos hs, if_pos hs] at *
      have := two_pow_pos (t.bits - 1)
      omega

/-! ### `pow_n` -/

theorem powLoop_spec {t : IntTy} (hb : 8 ≤ t.bits) {x : Int} (hx : t.Has x) {total : Nat} (ht : t.Has (x ^ total)) (m j n count : Nat)
    (hm : n ≠ 0 → j + m * n = total) (hm0 : n = 0 → j = total) :
    ∃ k, powLoop t (x ^ m) (x ^ j) count n = pure (x ^ total, k) ∧ k ≤ count + 2 * Nat.log 2 n + 1 := by
  induction n using Nat.strongRecOn generalizing m j count with
  | _ n ih =>
    rw [powLoop]
    -- after the first multiplication
    have key : ∃ j' c', (if n % 2 = 1 then do let r ← mul t (x ^ m) (x ^ j); pure (r, count + 1) else pure (x ^ j, count) : Cxx (Int × Nat)) =
        pure (x ^ j', c') ∧ c' ≤ count + 1 ∧ j' + m * 2 * (n / 2) = total := by
      have hd := Nat.div_add_mod n 2
      by_cases hodd : n % 2 = 1
      · rw [if_pos hodd]
        have e := hm (by omega)
        have e2 : m * n = m * 2 * (n / 2) + m := by
          calc m * n = m * (2 * (n / 2) + 1) := by rw [show 2 * (n / 2) + 1 = n by omega]
            _ = _ := by ring
        rw [mul_has (by rw [← pow_add]; exact has_pow hb hx (by omega) ht), pure_bind, ← pow_add]
        exact ⟨_, _, rfl, le_refl _, by omega⟩
      · rw [if_neg hodd]
        refine ⟨j, count, rfl, by omega, ?_⟩
        by_cases h0 : n = 0
        · subst h0; simpa using hm0 rfl
        · have e := hm h0
          have e2 : m * n = m * 2 * (n / 2) := by
            calc m * n = m * (2 * (n / 2)) := by rw [show 2 * (n / 2) = n by omega]
              _ = _ := by ring
          omega
    obtain ⟨j', c', e, hc, hj⟩ := key
    rw [e, pure_bind]
    show ∃ k, (if n / 2 = 0 then pure (x ^ j', c') else (mul t (x ^ m) (x ^ m) >>= fun p => powLoop t p (x ^ j') (c' + 1) (n / 2)) : Cxx _) = _ ∧ _
    by_cases h2 : n / 2 = 0
    · rw [if_pos h2]
      rw [h2, Nat.mul_zero, Nat.add_zero] at hj
      exact ⟨c', by rw [hj], by omega⟩
    · rw [if_neg h2]
      have hle : m * 2 ≤ total := by
        calc m * 2 = m * 2 * 1 := (Nat.mul_one _).symm
          _ ≤ m * 2 * (n / 2) := Nat.mul_le_mul_left _ (by omega)
          _ ≤ total := by omega
      rw [mul_has (by rw [← pow_add]; exact has_pow hb hx (by omega) ht), pure_bind, ← pow_add]
      obtain ⟨k, ek, hk⟩ := ih (n / 2) (by omega) (m + m) j' (c' + 1) (fun _ => by rw [← hj]; ring) (fun h => absurd h h2)
      refine ⟨k, ek, ?_⟩
      have hl : Nat.log 2 n = Nat.log 2 (n / 2) + 1 := Nat.log_of_one_lt_of_le (by decide) (by omega)
      omega

/-- C42: if the power fits into the type, `pow_n` gives it without any overflow on the way, with at most `2 log2 n + 1`
multiplications. -/
theorem C42_pow_n (t : IntTy) (hb : 8 ≤ t.bits) (x : Int) (n : Nat) (hx : t.Has x) (hn : t.Has (x ^ n)) :
    ∃ k, powN t x n = pure (x ^ n, k) ∧ k ≤ 2 * Nat.log 2 n + 1 := by
  obtain ⟨k, e, hk⟩ := powLoop_spec hb hx hn 1 0 n 0 (fun _ => by omega) (fun h => h.symm)
  rw [pow_one, pow_zero] at e
  exact ⟨k, e, by omega⟩

/-- The least value of `int` is a power that fits, as `pow_n` finds. -/
example : ∃ k, powN .int (-2) 31 = pure (-2147483648, k) ∧ k ≤ 9 := by
  obtain ⟨k, e, h⟩ := C42_pow_n .int (by decide) (-2) 31 (by decide) (by decide)
  exact ⟨k, e, h⟩

theorem conv_mul (t : IntTy) (hs : t.signed = false) (x y : Int) : t.conv (t.conv x * t.conv y) = t.conv (x * y) := by
  unfold IntTy.conv
  rw [hs]
  simp only [Bool.false_eq_true, if_false]
  exact (Int.mul_emod x y _).symm

theorem mul_wrap {t : IntTy} (hs : t.signed = false) (hb : 32 ≤ t.bits) (x y : Int) :
    mul t (t.conv x) (t.conv y) = pure (t.conv (x * y)) := by
  have hp : t.promote = t := by unfold IntTy.promote; rw [if_neg (by omega)]
  have hc : t.conv (t.conv (x * y)) = t.conv (x * y) := by
    unfold IntTy.conv
    rw [hs]
    simp only [Bool.false_eq_true, if_false]
    exact Int.emod_emod_of_dvd _ (dvd_refl _)
  unfold mul arith
  rw [hp, hs]
  simp only [Bool.false_eq_true, if_false, pure_bind]
  rw [conv_mul t hs, hc]

theorem powLoop_wrap {t : IntTy} (hs : t.signed = false) (hb : 32 ≤ t.bits) (x : Int) (m j n count : Nat) :
    ∃ k, powLoop t (t.conv (x ^ m)) (t.conv (x ^ j)) count n = pure (t.conv (x ^ (j + m * n)), k) := by
  induction n using Nat.strongRecOn generalizing m j count with
  | _ n ih =>
    rw [powLoop]
    have hd := Nat.div_add_mod n 2
    have key : ∃ j' c', (if n % 2 = 1 then do let r ← mul t (t.conv (x ^ m)) (t.conv (x ^ j)); pure (r, count + 1)
        else pure (t.conv (x ^ j), count) : Cxx (Int × Nat)) = pure (t.conv (x ^ j'), c') ∧ j' + m * 2 * (n / 2) = j + m * n := by
      by_cases hodd : n % 2 = 1
      · rw [if_pos hodd, mul_wrap hs hb, pure_bind, ← pow_add]
        refine ⟨_, _, rfl, ?_⟩
        calc m + j + m * 2 * (n / 2) = j + m * (2 * (n / 2) + 1) := by ring
          _ = _ := by rw [show 2 * (n / 2) + 1 = n by omega]
      · rw [if_neg hodd]
        refine ⟨j, count, rfl, ?_⟩
        calc j + m * 2 * (n / 2) = j + m * (2 * (n / 2)) := by ring
          _ = _ := by rw [show 2 * (n / 2) = n by omega]
    obtain ⟨j', c', e, hj⟩ := key
    rw [e, pure_bind]
    show ∃ k, (if n / 2 = 0 then pure (t.conv (x ^ j'), c') else
      (mul t (t.conv (x ^ m)) (t.conv (x ^ m)) >>= fun p => powLoop t p (t.conv (x ^ j')) (c' + 1) (n / 2)) : Cxx _) = _
    by_cases h2 : n / 2 = 0
    · rw [if_pos h2]
      rw [h2, Nat.mul_zero, Nat.add_zero] at hj
      exact ⟨c', by rw [hj]⟩
    · rw [if_neg h2, mul_wrap hs hb, pure_bind, ← pow_add]
      obtain ⟨k, ek⟩ := ih (n / 2) (by omega) (m + m) j' (c' + 1)
      refine ⟨k, ?_⟩
      rw [ek, ← hj, show (m + m) * (n / 2) = m * 2 * (n / 2) by ring]

/-- C42: for unsigned types of 32 bits or more `pow_n` gives the power modulo the word size. -/
theorem C42_pow_n_wrap (t : IntTy) (hs : t.signed = false) (hb : 32 ≤ t.bits) (x : Int) (n : Nat) (hx : t.Has x) :
    ∃ k, powN t x n = pure (x ^ n % 2 ^ t.bits, k) := by
  obtain ⟨k, e⟩ := powLoop_wrap hs hb x 1 0 n 0
  refine ⟨k, ?_⟩
  have h1 : t.conv 1 = 1 := IntTy.conv_of_has (has_one (by omega))
  rw [pow_one, pow_zero, h1, IntTy.conv_of_has hx] at e
  unfold powN
  rw [e]
  unfold IntTy.conv
  rw [hs]
  simp

example : ∃ k, powN .uint 65537 2 = pure (131073, k) := C42_pow_n_wrap .uint rfl (by decide) 65537 2 (by decide)

/-- C42 does not hold for unsigned types of 16 bits: the product is computed in `int`, where it may overflow. -/
theorem C42_narrow_violated : powN ⟨16, false, by decide⟩ 65535 2 = ub := by
  unfold powN
  rw [powLoop]
  rfl

/-! ### Powers of ten -/

theorem pow10Loop_spec (e : Nat) (j : Nat) (h : e + j < 20) : pow10Loop u64 e (10 ^ j) = pure (10 ^ (e + j)) := by
  induction e generalizing j with
  | zero => rw [Nat.zero_add]; rfl
  | succ e ih =>
    have hle : (10 : Int) ^ (j + 1) ≤ 10 ^ 19 := by
      have := Nat.pow_le_pow_right (n := 10) (by decide) (show j + 1 ≤ 19 by omega)
      exact_mod_cast this
    have h0 : (0 : Int) ≤ 10 ^ (j + 1) := Int.pow_nonneg (by decide)
    have hm : mul u64 (10 ^ j) 10 = pure (10 ^ (j + 1)) := by
      rw [mul_has, pow_succ]
      rw [← pow_succ]
      refine ⟨h0, le_trans hle (by decide)⟩
    rw [pow10Loop, hm, pure_bind, ih (j + 1) (by omega)]
    congr 2
    omega

theorem table_eq : table = pure ((List.range 19).map fun n => (10 : Int) ^ n) := by
  have : ∀ l : List Nat, (∀ n ∈ l, n < 19) → l.mapM (fun n => pow10Loop u64 n 1) = (pure (l.map fun n => (10 : Int) ^ n) : Cxx _) := by
    intro l
    induction l with
    | nil => intro _; rfl
    | cons n l ih =>
      intro h
      rw [List.mapM_cons, ih (fun m hm => h m (by simp [hm]))]
      have := pow10Loop_spec n 0 (by have := h n (by simp); omega)
      rw [pow_zero, Nat.add_zero] at this
      rw [this]
      rfl
  exact this _ (by simp)

/-- C42: `pow10` gives the powers of ten up to the 18th. -/
theorem C42_pow10_partial (e : Nat) (h : e < 19) : pow10 e = pure (10 ^ e) := by
  unfold pow10
  rw [table_eq, pure_bind, rd_some (by rw [List.getElem?_map, List.getElem?_range h]; rfl)]

example : pow10 18 = pure 1000000000000000000 := C42_pow10_partial 18 (by decide)

/-- C42 does not hold for the 19th power of ten: `uintmax_t` has it, but the table is read beyond its end. -/
theorem C42_pow10_violated : u64.Has (10 ^ 19) ∧ pow10 19 = ub := by
  refine ⟨by decide, ?_⟩
  unfold pow10
  rw [table_eq, pure_bind, rd_oob (by simp)]

/-! ### `cxmath::pow` -/

/-- Comparing with zero. -/
theorem exp_pos_iff (t : IntTy) (exp : Int) (hi : IntTy.int.Has exp) (h0 : 0 ≤ exp) : cppLt t .int 0 exp = decide (0 < exp) := by
  obtain ⟨h1, h2⟩ := hi
  have h2' : exp ≤ 2147483647 := h2
  have : (t.common .int).Has exp := by
    unfold IntTy.common
    have hpos := t.pos
    unfold IntTy.promote
    have hp : (2 : Int) ^ 31 ≤ 2 ^ (t.bits - 1) ∨ t.bits < 32 := by
      by_cases h : t.bits < 32
      · exact .inr h
      · exact .inl (two_pow_le (by omega))
    have hp' : (2 : Int) ^ 32 ≤ 2 ^ t.bits ∨ t.bits < 32 := by
      by_cases h : t.bits < 32
      · exact .inr h
      · exact .inl (two_pow_le (by omega))
    have hq := two_pow_pos (t.bits - 1)
    unfold IntTy.Has IntTy.lowest IntTy.max IntTy.int
    by_cases hb : t.bits < 32
    · simp [hb]; omega
    · have hp := hp.resolve_right hb
      have hp' := hp'.resolve_right hb
      cases hs : t.signed <;> simp [hb, hs] <;> (try split) <;> simp_all <;> omega
  unfold cppLt
  rw [IntTy.conv_of_has this]
  have hz : (t.common .int).conv 0 = 0 := by
    unfold IntTy.conv
    split
    · simp
    · simp
  rw [hz]

theorem powUp_spec {t : IntTy} (hb : 8 ≤ t.bits) {b : Int} (hx : t.Has b) {total : Nat} (ht : t.Has (b ^ total)) (j e : Nat)
    (hje : j + e = total) (he : (e : Int) ≤ 2147483647) : powUp t b (b ^ j) e = pure (b ^ total) := by
  induction e generalizing j with
  | zero =>
    rw [powUp, exp_pos_iff t _ (by decide) (by decide)]
    rw [if_neg (by simp), show j = total by omega]
  | succ e ih =>
    have hh : IntTy.int.Has ((e + 1 : Nat) : Int) := by
      constructor
      · show (-2147483648 : Int) ≤ _; omega
      · exact he
    rw [powUp, exp_pos_iff t _ hh (by omega), if_pos (by simp),
      mul_has (by rw [← pow_succ]; exact has_pow hb hx (by omega) ht), pure_bind, ← pow_succ]
    have hh' : IntTy.int.Has (((e + 1 : Nat) : Int) - 1) := by
      constructor
      · show (-2147483648 : Int) ≤ _; omega
      · show _ ≤ (2147483647 : Int); omega
    rw [arith_has hh', pure_bind, show ((e + 1 : Nat) : Int) - 1 = (e : Int) by omega]
    exact ih (j + 1) (by omega) (by omega)

/-- C42: `cxmath::pow` gives the power for exponents that are not negative, if it fits. -/
theorem C42_pow (t : IntTy) (hb : 8 ≤ t.bits) (b : Int) (e : Nat) (he : (e : Int) ≤ 2147483647) (hx : t.Has b) (hn : t.Has (b ^ e)) :
    pow t b e = pure (b ^ e) := by
  unfold pow
  rw [show (-(e : Int)).toNat = 0 by omega, powDown, pure_bind]
  have := powUp_spec hb hx hn 0 e (by omega) he
  rwa [pow_zero] at this

example : pow .int (-3) 5 = pure (-243) := C42_pow .int (by decide) (-3) 5 (by decide) (by decide) (by decide)

theorem powUp_ub {t : IntTy} (hs : t.signed = false) (hb : 32 ≤ t.bits) (b result : Int) (hx : t.Has b) (hr : t.Has result) (n : Nat) (exp : Int)
    (h0 : exp = -2147483648 + n) (hneg : exp < 0) : powUp t b result exp = ub := by
  have hlt : cppLt t .int 0 exp = true := by
    unfold cppLt
    have hc : t.common .int = t := by
      unfold IntTy.common IntTy.promote IntTy.int
      rw [if_neg (show ¬ t.bits < 32 by omega)]
      simp [hs, hb]
    rw [hc]
    unfold IntTy.conv
    rw [hs]
    simp only [Bool.false_eq_true, if_false, decide_eq_true_eq]
    have hp : (2 : Int) ^ 32 ≤ 2 ^ t.bits := two_pow_le hb
    rw [Int.zero_emod, show exp % 2 ^ t.bits = exp + 2 ^ t.bits by
      rw [← Int.add_emod_right]
      exact Int.emod_eq_of_lt (by omega) (by omega)]
    omega
  have hmul : ∃ r, mul t result b = pure r ∧ t.Has r := by
    have := mul_wrap hs hb result b
    rw [IntTy.conv_of_has hx, IntTy.conv_of_has hr] at this
    refine ⟨_, this, ?_⟩
    unfold IntTy.conv IntTy.Has IntTy.lowest IntTy.max
    rw [hs]
    simp only [Bool.false_eq_true, if_false]
    have hp := two_pow_pos t.bits
    have h1 := Int.emod_nonneg (result * b) (show (2 : Int) ^ t.bits ≠ 0 by omega)
    have h2 := Int.emod_lt_of_pos (result * b) hp
    omega
  obtain ⟨r, er, hr'⟩ := hmul
  induction n generalizing exp result r with
  | zero =>
    rw [powUp, if_pos hlt, er, pure_bind]
    have : arith IntTy.int (exp - 1) = ub := by
      unfold arith
      rw [show IntTy.int.signed = true from rfl, if_pos rfl, if_neg]
      intro h
      have := h.1
      have : (-2147483648 : Int) ≤ exp - 1 := this
      omega
    rw [this, ub_bind]
  | succ n ih =>
    rw [powUp, if_pos hlt, er, pure_bind, arith_has, pure_bind]
    · have hlt' : cppLt t .int 0 (exp - 1) = true := by
        unfold cppLt
        have hc : t.common .int = t := by
          unfold IntTy.common IntTy.promote IntTy.int
          rw [if_neg (show ¬ t.bits < 32 by omega)]
          simp [hs, hb]
        rw [hc]
        unfold IntTy.conv
        rw [hs]
        simp only [Bool.false_eq_true, if_false, decide_eq_true_eq]
        have hp : (2 : Int) ^ 32 ≤ 2 ^ t.bits := two_pow_le hb
        rw [Int.zero_emod, show (exp - 1) % 2 ^ t.bits = exp - 1 + 2 ^ t.bits by
          rw [← Int.add_emod_right]
          exact Int.emod_eq_of_lt (by omega) (by omega)]
        omega
      have := mul_wrap hs hb r b
      rw [IntTy.conv_of_has hx, IntTy.conv_of_has hr'] at this
      refine ih r hr' (exp - 1) (by omega) (by omega) hlt' _ this ?_
      unfold IntTy.conv IntTy.Has IntTy.lowest IntTy.max
      rw [hs]
      simp only [Bool.false_eq_true, if_false]
      have hp := two_pow_pos t.bits
      have h1 := Int.emod_nonneg (r * b) (show (2 : Int) ^ t.bits ≠ 0 by omega)
      have h2 := Int.emod_lt_of_pos (r * b) hp
      omega
    · constructor
      · show (-2147483648 : Int) ≤ _; omega
      · show _ ≤ (2147483647 : Int); omega

/-- C42 does not hold for negative exponents and unsigned types: the exponent is compared as an unsigned number, so it counts
down to the least `int` and overflows.  For signed types a base of zero divides by zero. -/
theorem C42_pow_negative_violated (t : IntTy) (b exp : Int) (hb : 32 ≤ t.bits) (he : IntTy.int.Has exp) (hneg : exp < 0) :
    (t.signed = false → t.Has b → pow t b exp = ub) ∧ (t.signed = true → pow t 0 exp = ub) := by
  have h1 : (-2147483648 : Int) ≤ exp := he.1
  obtain ⟨k, hk⟩ : ∃ k, (-exp).toNat = k + 1 := ⟨(-exp).toNat - 1, by omega⟩
  constructor
  · intro hs hx
    have hf : cppLt .int t exp 0 = false := by
      unfold cppLt IntTy.conv
      have hc : IntTy.int.common t = t := by
        unfold IntTy.common IntTy.promote IntTy.int
        rw [if_neg (show ¬ t.bits < 32 by omega)]
        simp [hs, hb]
      rw [hc, hs]
      simp only [Bool.false_eq_true, if_false, decide_eq_false_iff_not, Int.zero_emod]
      have := Int.emod_nonneg exp (show (2 : Int) ^ t.bits ≠ 0 by have := two_pow_pos t.bits; omega)
      omega
    unfold pow
    rw [hk, powDown, hf, if_neg (by simp), pure_bind]
    exact powUp_ub hs hb b 1 hx (has_one (by omega)) (exp + 2147483648).toNat exp (by omega) hneg
  · intro hs
    have ht : cppLt .int t exp 0 = true := by
      unfold cppLt
      have hc : (IntTy.int.common t).Has exp := by
        unfold IntTy.common IntTy.promote
        rw [if_neg (show ¬ t.bits < 32 by omega)]
        simp only [show IntTy.int.bits = 32 from rfl, hs]
        simp only [show ¬ (32 : Nat) < 32 by decide, if_false, if_true, show IntTy.int.signed = true from rfl,
          show IntTy.int.bits = 32 from rfl]
        split
        · exact he
        · exact IntTy.Has.widen he (by rw [hs]; rfl) (by show 32 ≤ _; omega)
      rw [IntTy.conv_of_has hc]
      have hz : (IntTy.int.common t).conv 0 = 0 := by
        unfold IntTy.conv
        split <;> simp
      rw [hz]
      exact decide_eq_true hneg
    unfold pow
    rw [hk, powDown, ht, if_pos rfl, if_pos rfl]
    rfl

example := (C42_pow_negative_violated .int 3 (-2) (by decide) (by decide) (by decide)).2 rfl

/-! ### `math::pow` -/

/-- C42 does not hold for `math::pow`: it squares the base as often as the exponent says, so for every exponent but zero the
result is, where it fits, the base to the power of `2^e`. -/
theorem C42_math_pow_violated (t : IntTy) (hb : 8 ≤ t.bits) (base : Int) (e : Nat) (h0 : base ≠ 0) (he : 0 < e) (hx : t.Has base)
    (hn : t.Has (base ^ 2 ^ e)) : mathPow t base e = pure (base ^ 2 ^ e) := by
  have : ∀ (e j : Nat), t.Has (base ^ (j * 2 ^ e)) → powImpl t e (base ^ j) = pure (base ^ (j * 2 ^ e)) := by
    intro e
    induction e with
    | zero => intro j _; rw [powImpl]; congr 2; omega
    | succ e ih =>
      intro j hj
      have e2 : (j + j) * 2 ^ e = j * 2 ^ (e + 1) := by rw [Nat.pow_succ]; ring
      rw [powImpl, mul_has (by
        rw [← pow_add]
        refine has_pow hb hx ?_ hj
        rw [← e2]
        exact Nat.le_mul_of_pos_right _ (Nat.pow_pos (by decide))), pure_bind, ← pow_add, ih (j + j) (by rw [e2]; exact hj), e2]
  unfold mathPow
  rw [if_neg h0, if_pos he]
  have := this e 1 (by rwa [Nat.one_mul])
  rwa [pow_one, Nat.one_mul] at this

example : mathPow .int 3 1 = pure 9 ∧ mathPow .int 3 2 = pure 81 :=
  ⟨C42_math_pow_violated .int (by decide) 3 1 (by decide) (by decide) (by decide) (by decide),
   C42_math_pow_violated .int (by decide) 3 2 (by decide) (by decide) (by decide) (by decide)⟩

/-- C42, `math::pow`, as far as it holds: the exponent is zero and the base is not, the base is zero and the exponent is not,
or the base is one.  Missing: all others, see `C42_math_pow_violated`. -/
theorem C42_math_pow_partial (t : IntTy) (hb : 8 ≤ t.bits) (base : Int) (e : Nat) (h : (e = 0 ∧ base ≠ 0) ∨ (base = 0 ∧ 0 < e) ∨ base = 1) :
    mathPow t base e = pure (base ^ e) := by
  rcases h with ⟨rfl, h⟩ | ⟨rfl, h⟩ | rfl
  · unfold mathPow; rw [if_neg h, if_neg (by omega), pow_zero]
  · unfold mathPow; rw [if_pos rfl, zero_pow (by omega)]
  · by_cases h : 0 < e
    · have := C42_math_pow_violated t hb 1 e (by decide) h (has_one hb) (by simpa using has_one hb)
      rw [this]
      simp
    · unfold mathPow
      rw [if_neg (by decide), if_neg h]
      simp

example : mathPow .int 0 3 = pure 0 := C42_math_pow_partial .int (by decide) 0 3 (.inr (.inl ⟨rfl, by decide⟩))

/-! ### Other functions of daw_math.h -/

/-- The loop of `math::pow2`, daw_math.h 133-135, for a result of type `t`: the product with `2ULL` is computed in 64 bits. -/
def pow2Loop (t : IntTy) : Nat → Int → Int
  | 0, result => result
  | n + 1, result => pow2Loop t n (t.conv (u64.conv (u64.conv result * 2)))

/-- `math::pow2`, daw_math.h 130-137, for an argument that is not negative. -/
def pow2 (t : IntTy) (n : Nat) : Int := pow2Loop t n 1

/-- `math::abs` of a signed integer, daw_math.h 139-152, with the result type `uintmax_t`. -/
def abs (t : IntTy) (v : Int) : Cxx Int :=
  if v = i64.lowest then pure (pow2 u64 63)
  else do
    let v ← (if v < 0 then do let r ← arith t.promote (-v); pure (t.conv r) else pure v : Cxx Int)
    pure (u64.conv v)

/-- The loop of `math::factorial`, daw_math.h 166-168: unsigned numbers of 64 bits. -/
def factLoop : Nat → Int → Int
  | 0, result => result
  | count + 1, result => factLoop count (u64.conv (result * (count + 1)))

/-- `math::factorial`, daw_math.h 162-170, for a signed argument; for an unsigned one the call of `abs` does not compile. -/
def factorial (t : IntTy) (v : Int) : Cxx Int := do
  let count ← abs t v
  pure (factLoop count.toNat 1)

theorem pow2_u64 (n j : Nat) : pow2Loop u64 n (u64.conv (2 ^ j)) = u64.conv (2 ^ (j + n)) := by
  have hidem : ∀ x, u64.conv (u64.conv x) = u64.conv x := by
    intro x
    show x % 2 ^ 64 % 2 ^ 64 = x % 2 ^ 64
    exact Int.emod_emod_of_dvd _ (dvd_refl _)
  induction n generalizing j with
  | zero => rfl
  | succ n ih =>
    rw [pow2Loop, hidem, hidem]
    have : u64.conv (u64.conv (2 ^ j) * 2) = u64.conv (2 ^ (j + 1)) := by
      show (2 ^ j % 2 ^ 64 * 2) % 2 ^ 64 = (2 ^ (j + 1)) % 2 ^ 64
      rw [pow_succ 2 j, Int.mul_emod, Int.emod_emod_of_dvd _ (dvd_refl _), ← Int.mul_emod]
    rw [this, ih]
    congr 2
    omega

/-- C91: `math::pow2` gives the power of two, modulo the word size. -/
theorem C91_pow2 (n : Nat) : pow2 u64 n = 2 ^ n % 2 ^ 64 := by
  have := pow2_u64 n 0
  rw [Nat.zero_add] at this
  exact this

example : pow2 u64 10 = 1024 := by decide

/-- C91, `math::abs`, as far as it holds: the absolute value of every number but the least one of a type narrower than 64
bits.  Missing: those, see `C91_abs_violated`. -/
theorem C91_abs_partial (t : IntTy) (hs : t.signed = true) (hb : t.bits ≤ 64) (v : Int) (hv : t.Has v) (hl : v ≠ t.lowest ∨ t.bits = 64) :
    abs t v = pure (v.natAbs : Int) := by
  have hp : (2 : Int) ^ (t.bits - 1) ≤ 2 ^ 63 := two_pow_le (by omega)
  have h63 : i64.lowest = -2 ^ 63 := rfl
  have hv' := hv
  obtain ⟨h1, h2⟩ := hv
  unfold IntTy.lowest at h1 hl
  unfold IntTy.max at h2
  rw [if_pos hs] at h1 h2 hl
  unfold abs
  by_cases hlow : v = i64.lowest
  · rw [if_pos hlow, C91_pow2, hlow]
    rfl
  · rw [if_neg hlow]
    rw [h63] at hlow
    have hu : ∀ x : Int, 0 ≤ x → x ≤ 2 ^ 63 → u64.conv x = x := by
      intro x h0 h
      exact IntTy.conv_of_has ⟨h0, le_trans h (by decide)⟩
    by_cases hneg : v < 0
    · have hne : t.Has (-v) := by
        unfold IntTy.Has IntTy.lowest IntTy.max
        rw [if_pos hs, if_pos hs]
        have : v ≠ -2 ^ (t.bits - 1) := by
          rcases hl with h | h
          · exact h
          · rw [h]; exact hlow
        omega
      rw [if_pos hneg, arith_has (promote_has hne), pure_bind, IntTy.conv_of_has hne, pure_bind, hu _ (by omega) (by omega)]
      congr 1
      omega
    · rw [if_neg hneg, pure_bind, hu _ (by omega) (by omega)]
      congr 1
      omega

example : abs .int (-5) = pure 5 := C91_abs_partial .int rfl (by decide) (-5) (by decide) (.inl (by decide))

/-- C91 does not hold for the least value of narrower types: of `int` negating it is undefined, of `signed char` the result is
not cut down, so that it is close to `2^64`. -/
theorem C91_abs_violated : abs .int (-2147483648) = ub ∧ abs ⟨8, true, by decide⟩ (-128) = pure (2 ^ 64 - 128) := by
  constructor
  · unfold abs
    rw [if_neg (by decide), if_pos (by decide)]
    rfl
  · unfold abs
    rw [if_neg (by decide), if_pos (by decide)]
    rfl

theorem factLoop_spec (n : Nat) (r : Int) : factLoop n (u64.conv r) = u64.conv (r * n.factorial) := by
  induction n generalizing r with
  | zero => simp [factLoop]
  | succ n ih =>
    have : u64.conv (u64.conv r * ((n : Int) + 1)) = u64.conv (r * ((n : Int) + 1)) := by
      show (r % 2 ^ 64 * ((n : Int) + 1)) % 2 ^ 64 = (r * ((n : Int) + 1)) % 2 ^ 64
      rw [Int.mul_emod, Int.emod_emod_of_dvd _ (dvd_refl _), ← Int.mul_emod]
    rw [factLoop, this, ih, Nat.factorial_succ]
    congr 1
    push_cast
    ring

/-- C91: `math::factorial` gives the factorial, modulo the word size, of the absolute value. -/
theorem C91_factorial_partial (t : IntTy) (hs : t.signed = true) (hb : t.bits ≤ 64) (v : Int) (hv : t.Has v)
    (hl : v ≠ t.lowest ∨ t.bits = 64) : factorial t v = pure ((v.natAbs.factorial : Int) % 2 ^ 64) := by
  unfold factorial
  rw [C91_abs_partial t hs hb v hv hl, pure_bind]
  have := factLoop_spec v.natAbs 1
  rw [Int.one_mul] at this
  rw [Int.toNat_natCast]
  exact congrArg pure this

example : factorial .int 5 = pure 120 := C91_factorial_partial .int rfl (by decide) 5 (by decide) (.inl (by decide))

end Verif.Bits.Power
