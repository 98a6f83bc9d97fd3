import Verif.Base
import Mathlib.Data.Nat.ModEq
import Mathlib.Data.Fintype.EquivFin

/-
The linear congruential generator of `static_random`, include/daw/daw_random.h 128-166.
-/

namespace Verif.Random.Lcg

/-- `rand_lcg<N>`, daw_random.h 128-136: one step modulo the size of `size_t`, `w` bits. -/
def step (w a c x : Nat) : Nat := (x * a + c) % 2 ^ w

/-- The multiplier and increment for `sizeof( size_t ) == 8`, 134-136. -/
def a64 : Nat := 2862933555777941757
/-- 134-136 -/
def c64 : Nat := 3037000493
/-- The multiplier and increment for `sizeof( size_t ) == 4`, 128-131. -/
def a32 : Nat := 1664525
/-- 128-131 -/
def c32 : Nat := 1013904223

/-- The state of a `static_random` after `k` calls: the constructor makes one step, 156-157, and every call one, 159-162. -/
def state (w a c seed : Nat) : Nat → Nat
  | 0 => step w a c seed
  | k + 1 => step w a c (state w a c seed k)

/-- `1 + a + ... + a ^ (k - 1)`. (Specification, no line of the source.) -/
def geo (a : Nat) : Nat → Nat
  | 0 => 0
  | k + 1 => geo a k * a + 1

theorem geo_add (a m n : Nat) : geo a (m + n) = geo a m * a ^ n + geo a n := by
  induction n with
  | zero => simp [geo]
  | succ n ih =>
    rw [Nat.add_succ, geo, ih, geo, Nat.pow_succ, Nat.add_mul, Nat.mul_assoc, Nat.add_assoc]

theorem pow_mod4 {a : Nat} (h : a % 4 = 1) (k : Nat) : a ^ k % 4 = 1 := by
  rw [Nat.pow_mod, h, Nat.one_pow]

theorem geo_odd {a : Nat} (h : a % 4 = 1) (m : Nat) : geo a (2 * m + 1) % 2 = 1 := by
  induction m with
  | zero => simp [geo]
  | succ m ih =>
    have e : 2 * (m + 1) + 1 = (2 * m + 1) + 2 := by omega
    rw [e, geo_add]
    have h1 : geo a 2 = a + 1 := by simp [geo]
    have h2 := pow_mod4 h 2
    rw [h1, Nat.add_mod, Nat.mul_mod, ih]
    have : a ^ 2 % 2 = 1 := by omega
    rw [this]
    omega

theorem geo_double {a : Nat} (m : Nat) : geo a (2 * m) = geo a m * (a ^ m + 1) := by
  rw [Nat.two_mul, geo_add, Nat.mul_add, Nat.mul_one]

/-- For `a ≡ 1 (mod 4)` the sum is divisible by exactly the powers of two that divide `k`. -/
theorem pow_dvd_geo {a : Nat} (h : a % 4 = 1) (e : Nat) : ∀ k, 2 ^ e ∣ geo a k ↔ 2 ^ e ∣ k := by
  induction e with
  | zero => intro k; simp
  | succ e ih =>
    intro k
    rcases Nat.mod_two_eq_zero_or_one k with hk | hk
    · obtain ⟨m, rfl⟩ : ∃ m, k = 2 * m := ⟨k / 2, by omega⟩
      have h4 := pow_mod4 h m
      obtain ⟨q, hq⟩ : ∃ q, a ^ m + 1 = 2 * (2 * q + 1) := ⟨a ^ m / 4, by omega⟩
      rw [geo_double, hq, Nat.pow_succ, Nat.mul_comm (2 ^ e) 2,
        show geo a m * (2 * (2 * q + 1)) = 2 * ((2 * q + 1) * geo a m) by
          rw [Nat.mul_left_comm, Nat.mul_comm (geo a m)],
        Nat.mul_dvd_mul_iff_left (by omega), Nat.mul_dvd_mul_iff_left (by omega)]
      have hc : Nat.Coprime (2 ^ e) (2 * q + 1) := by
        apply Nat.Coprime.pow_left
        rw [Nat.coprime_iff_gcd_eq_one]
        have := Nat.gcd_rec 2 (2 * q + 1)
        rw [this, show (2 * q + 1) % 2 = 1 by omega]
        rfl
      rw [← ih m]
      exact ⟨fun hd => hc.dvd_of_dvd_mul_left hd, fun hd => Nat.dvd_trans hd (Nat.dvd_mul_left _ _)⟩
    · obtain ⟨m, rfl⟩ : ∃ m, k = 2 * m + 1 := ⟨k / 2, by omega⟩
      have h1 := geo_odd h m
      constructor
      · intro hd
        have : 2 ∣ geo a (2 * m + 1) := Nat.dvd_trans ⟨2 ^ e, by rw [Nat.pow_succ, Nat.mul_comm]⟩ hd
        omega
      · intro hd
        have : 2 ∣ 2 * m + 1 := Nat.dvd_trans ⟨2 ^ e, by rw [Nat.pow_succ, Nat.mul_comm]⟩ hd
        omega

theorem pow_eq_geo {a : Nat} (h : 0 < a) (k : Nat) : a ^ k = geo a k * (a - 1) + 1 := by
  induction k with
  | zero => simp [geo]
  | succ k ih =>
    obtain ⟨b, rfl⟩ : ∃ b, a = b + 1 := ⟨a - 1, by omega⟩
    rw [geo, Nat.pow_succ, ih]
    simp only [Nat.add_sub_cancel]
    rw [Nat.add_mul, Nat.add_mul, Nat.one_mul, Nat.one_mul, Nat.mul_assoc, Nat.mul_comm b (b + 1), ← Nat.mul_assoc, Nat.add_assoc]

theorem state_lt (w a c seed k : Nat) : state w a c seed k < 2 ^ w := by
  cases k <;> exact Nat.mod_lt _ (Nat.two_pow_pos w)

/-- `d` steps at once. -/
theorem state_add (w a c seed k d : Nat) : state w a c seed (k + d) = (state w a c seed k * a ^ d + c * geo a d) % 2 ^ w := by
  induction d with
  | zero =>
    rw [Nat.add_zero, Nat.pow_zero, geo, Nat.mul_one, Nat.mul_zero, Nat.add_zero, Nat.mod_eq_of_lt (state_lt w a c seed k)]
  | succ d ih =>
    rw [Nat.add_succ, state, ih, step, Nat.add_mod, Nat.mod_mul_mod, ← Nat.add_mod, geo, Nat.pow_succ]
    congr 1
    rw [Nat.add_mul, Nat.mul_add, Nat.mul_one, Nat.mul_assoc, Nat.mul_assoc, Nat.add_assoc]

theorem state_eq_iff {w a c : Nat} (ha : a % 4 = 1) (hc : c % 2 = 1) (seed k d : Nat) :
    state w a c seed (k + d) = state w a c seed k ↔ 2 ^ w ∣ d := by
  have hl := state_lt w a c seed k
  rw [state_add]
  generalize state w a c seed k = y at *
  have e : y * a ^ d + c * geo a d = y + geo a d * (y * (a - 1) + c) := by
    rw [pow_eq_geo (by omega) d, Nat.mul_add, Nat.mul_one, Nat.mul_add, ← Nat.mul_assoc, ← Nat.mul_assoc, Nat.mul_comm (geo a d) c,
      Nat.mul_comm (geo a d) y]
    omega
  have hodd : (y * (a - 1) + c) % 2 = 1 := by
    have : y * (a - 1) % 2 = 0 := by rw [Nat.mul_mod, show (a - 1) % 2 = 0 by omega, Nat.mul_zero]
    omega
  have hcop : Nat.Coprime (2 ^ w) (y * (a - 1) + c) := by
    apply Nat.Coprime.pow_left
    rw [Nat.coprime_iff_gcd_eq_one, Nat.gcd_rec, hodd]
    rfl
  rw [e, ← pow_dvd_geo ha w d]
  constructor
  · intro h
    have h2 : (y + geo a d * (y * (a - 1) + c)) % 2 ^ w = (y + 0) % 2 ^ w := by rw [h, Nat.add_zero, Nat.mod_eq_of_lt hl]
    have h3 := (Nat.ModEq.add_left_cancel' (n := 2 ^ w) y h2)
    exact hcop.dvd_of_dvd_mul_right (Nat.dvd_of_mod_eq_zero (by rw [h3, Nat.zero_mod]))
  · intro h
    rw [Nat.add_mod, Nat.mod_eq_zero_of_dvd (Nat.dvd_trans h (Nat.dvd_mul_right _ _)), Nat.add_zero, Nat.mod_mod,
      Nat.mod_eq_of_lt hl]

theorem full_period {w a c : Nat} (ha : a % 4 = 1) (hc : c % 2 = 1) (seed i j : Nat) :
    state w a c seed i = state w a c seed j ↔ i % 2 ^ w = j % 2 ^ w := by
  rcases Nat.le_total i j with h | h
  · obtain ⟨d, rfl⟩ := Nat.exists_eq_add_of_le h
    rw [eq_comm, state_eq_iff ha hc, eq_comm]
    exact ⟨fun hd => by rw [Nat.add_mod, Nat.mod_eq_zero_of_dvd hd, Nat.add_zero, Nat.mod_mod],
      fun hm => by have := (Nat.modEq_iff_dvd' (Nat.le_add_right i d)).1 hm.symm; rwa [Nat.add_sub_cancel_left] at this⟩
  · obtain ⟨d, rfl⟩ := Nat.exists_eq_add_of_le h
    rw [state_eq_iff ha hc]
    exact ⟨fun hd => by rw [Nat.add_mod, Nat.mod_eq_zero_of_dvd hd, Nat.add_zero, Nat.mod_mod],
      fun hm => by have := (Nat.modEq_iff_dvd' (Nat.le_add_right j d)).1 hm.symm; rwa [Nat.add_sub_cancel_left] at this⟩

theorem visits {w a c : Nat} (ha : a % 4 = 1) (hc : c % 2 = 1) (seed v : Nat) (hv : v < 2 ^ w) :
    ∃ k, k < 2 ^ w ∧ state w a c seed k = v := by
  have hinj : Function.Injective (fun k : Fin (2 ^ w) => (⟨state w a c seed k, state_lt w a c seed k⟩ : Fin (2 ^ w))) := by
    intro i j h
    have h := Fin.mk.inj h
    have := (full_period ha hc seed i j).1 h
    rw [Nat.mod_eq_of_lt i.2, Nat.mod_eq_of_lt j.2] at this
    exact Fin.ext this
  obtain ⟨k, hk⟩ := (Finite.injective_iff_surjective.1 hinj) ⟨v, hv⟩
  exact ⟨k, k.2, Fin.mk.inj hk⟩

/-- C120: on a 64 bit system the states of `static_random` repeat after exactly 2^64 calls, not earlier, from every seed. -/
theorem C120_period64 (seed i j : Nat) :
    state 64 a64 c64 seed i = state 64 a64 c64 seed j ↔ i % 2 ^ 64 = j % 2 ^ 64 := full_period (by decide) (by decide) seed i j

/-- C120: and every state is reached from every seed. -/
theorem C120_visits64 (seed v : Nat) (hv : v < 2 ^ 64) : ∃ k, k < 2 ^ 64 ∧ state 64 a64 c64 seed k = v :=
  visits (by decide) (by decide) seed v hv

example := C120_visits64 42 7 (by decide)

/-- C120: on a 32 bit system likewise with 2^32. -/
theorem C120_period32 (seed i j : Nat) :
    state 32 a32 c32 seed i = state 32 a32 c32 seed j ↔ i % 2 ^ 32 = j % 2 ^ 32 := full_period (by decide) (by decide) seed i j

/-- C120: and every state is reached from every seed. -/
theorem C120_visits32 (seed v : Nat) (hv : v < 2 ^ 32) : ∃ k, k < 2 ^ 32 ∧ state 32 a32 c32 seed k = v :=
  visits (by decide) (by decide) seed v hv

example : state 64 a64 c64 1 0 = 2862933558814942250 ∧ state 64 a64 c64 1 1 = 11788423209769308335 := by decide +kernel

end Verif.Random.Lcg
