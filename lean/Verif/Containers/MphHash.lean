import Verif.Containers.Lists
import Mathlib.Data.Nat.ModEq
import Mathlib.Data.Nat.Bitwise

/-
The hash of `daw::perfect_hash_table`, include/daw/daw_min_perfect_hash.h 89-113, and which places it reaches.
-/

namespace Verif.Containers.Mph
open Cxx

/-- The loop of `next_pow2`, daw_min_perfect_hash.h 93-95. -/
def pow2Loop (ret sz : Nat) : Nat := if sz = 0 then ret else pow2Loop (ret * 2 % 2 ^ 64) (sz / 2)
  decreasing_by omega

/-- `next_pow2`, daw_min_perfect_hash.h 89-97. -/
def nextPow2 (n : Nat) : Nat := pow2Loop 1 n

/-- `get_bucket_count`, daw_min_perfect_hash.h 99-103. -/
def bucketCount (n : Nat) : Nat := nextPow2 n / 2

/-- `hash_combine`, daw_min_perfect_hash.h 105-113, for hashes of 64 bits. -/
def hashCombine (seed hash : Nat) : Nat :=
  let s := (seed + 1) % 2 ^ 64
  (s ^^^ ((hash + 0x9e3779b9 + s <<< 6 + s >>> 2) % 2 ^ 64)) % 2 ^ 64

theorem pow2Loop_eq (sz : Nat) : ∀ j, sz < 2 ^ (62 - j) → j ≤ 62 →
    pow2Loop (2 ^ j) sz = if sz = 0 then 2 ^ j else 2 ^ (j + Nat.log2 sz + 1) := by
  induction sz using Nat.strongRecOn with
  | _ sz ih =>
    intro j hj hj'
    rw [pow2Loop]
    by_cases h0 : sz = 0
    · rw [if_pos h0, if_pos h0]
    · have hlt : j < 62 := by
        rcases Nat.lt_or_ge j 62 with h | h
        · exact h
        · rw [show 62 - j = 0 by omega] at hj; omega
      have hp : 2 ^ j * 2 % 2 ^ 64 = 2 ^ (j + 1) := by
        rw [← Nat.pow_succ, Nat.mod_eq_of_lt (Nat.pow_lt_pow_right (by omega) (by omega))]
      have hs : sz / 2 < 2 ^ (62 - (j + 1)) := by
        have : 2 ^ (62 - j) = 2 ^ (62 - (j + 1)) * 2 := by rw [← Nat.pow_succ]; congr 1; omega
        omega
      rw [if_neg h0, if_neg h0, hp, ih (sz / 2) (by omega) (j + 1) hs (by omega)]
      by_cases h1 : sz / 2 = 0
      · rw [if_pos h1, show sz = 1 by omega]
        rfl
      · rw [if_neg h1, Nat.log2_def sz, if_pos (by omega)]
        congr 1
        omega

/-- `next_pow2` of a positive number is the next power of two above it. -/
theorem nextPow2_eq {n : Nat} (h0 : 0 < n) (h : n < 2 ^ 62) : nextPow2 n = 2 ^ (Nat.log2 n + 1) := by
  have := pow2Loop_eq n 0 (by simpa using h) (by omega)
  rw [if_neg (by omega)] at this
  unfold nextPow2
  rw [show (1 : Nat) = 2 ^ 0 from rfl, this]
  congr 1
  omega

theorem bucketCount_eq {n : Nat} (h0 : 0 < n) (h : n < 2 ^ 62) : bucketCount n = 2 ^ Nat.log2 n := by
  unfold bucketCount
  rw [nextPow2_eq h0 h, Nat.pow_succ]
  omega

/-- `hash_combine` without the remainders. (Specification, no line of the source.) -/
def mix (s h : Nat) : Nat := s ^^^ (h + 0x9e3779b9 + s <<< 6 + s >>> 2)

theorem hashCombine_mod (seed h k : Nat) (hs : seed + 1 < 2 ^ 64) (hk : k ≤ 64) : hashCombine seed h % 2 ^ k = mix (seed + 1) h % 2 ^ k := by
  unfold hashCombine mix
  rw [Nat.mod_eq_of_lt hs]
  have hd : 2 ^ k ∣ 2 ^ 64 := Nat.pow_dvd_pow 2 hk
  simp only []
  rw [Nat.mod_mod_of_dvd _ hd, Nat.xor_mod_two_pow, Nat.xor_mod_two_pow (b := _ + _), Nat.mod_mod_of_dvd _ hd]

/-- Adding the highest bit flips it. -/
theorem add_top (a k : Nat) : (a + 2 ^ k) % 2 ^ (k + 1) = (a % 2 ^ (k + 1)) ^^^ 2 ^ k := by
  apply Nat.eq_of_testBit_eq
  intro i
  rw [Nat.testBit_xor, Nat.testBit_two_pow, Nat.testBit_mod_two_pow, Nat.testBit_mod_two_pow]
  by_cases h1 : i < k
  · have e : (a + 2 ^ k).testBit i = a.testBit i := by
      have h2 : (a + 2 ^ k) % 2 ^ k = a % 2 ^ k := Nat.add_mod_right a (2 ^ k)
      have h3 := congrArg (fun x => x.testBit i) h2
      simp only [Nat.testBit_mod_two_pow, h1, decide_true, Bool.true_and] at h3
      exact h3
    rw [e, show decide (k = i) = false by simp; omega]
    simp
  · by_cases h2 : i = k
    · subst h2
      simp only [Nat.lt_succ_self, decide_true, Bool.true_and]
      rw [Nat.add_comm, Nat.testBit_two_pow_add_eq]
      simp
    · rw [show decide (i < k + 1) = false by simp; omega, show decide (k = i) = false by simp; omega]
      rfl

/-- Numbers that agree below the highest bit are equal or differ by it. -/
theorem eq_or_top {a b k : Nat} (h : a % 2 ^ k = b % 2 ^ k) :
    a % 2 ^ (k + 1) = b % 2 ^ (k + 1) ∨ a % 2 ^ (k + 1) = (b % 2 ^ (k + 1)) ^^^ 2 ^ k := by
  have hlow : ∀ i, i < k → a.testBit i = b.testBit i := by
    intro i hi
    have h3 := congrArg (fun x => x.testBit i) h
    simpa only [Nat.testBit_mod_two_pow, hi, decide_true, Bool.true_and] using h3
  by_cases hk : a.testBit k = b.testBit k
  · left
    apply Nat.eq_of_testBit_eq
    intro i
    rw [Nat.testBit_mod_two_pow, Nat.testBit_mod_two_pow]
    by_cases hi : i < k + 1
    · by_cases hik : i = k
      · rw [hik, hk]
      · rw [hlow i (by omega)]
    · simp [hi]
  · right
    apply Nat.eq_of_testBit_eq
    intro i
    rw [Nat.testBit_xor, Nat.testBit_two_pow, Nat.testBit_mod_two_pow, Nat.testBit_mod_two_pow]
    by_cases hi : i < k
    · rw [hlow i hi, show decide (k = i) = false by simp; omega]
      simp
    · by_cases hik : i = k
      · subst hik
        cases ha : a.testBit i <;> cases hb : b.testBit i <;> simp_all
      · rw [show decide (i < k + 1) = false by simp; omega, show decide (k = i) = false by simp; omega]
        rfl

/-- The place of a key whose hash differs in the highest bit only. -/
theorem mix_top (s h h' k : Nat) (hh : h' % 2 ^ (k + 1) = (h + 2 ^ k) % 2 ^ (k + 1)) :
    mix s h' % 2 ^ (k + 1) = (mix s h % 2 ^ (k + 1)) ^^^ 2 ^ k := by
  unfold mix
  rw [Nat.xor_mod_two_pow, Nat.xor_mod_two_pow (a := s), Nat.xor_assoc, ← add_top]
  congr 1
  rw [show h' + 0x9e3779b9 + s <<< 6 + s >>> 2 = h' + (0x9e3779b9 + s <<< 6 + s >>> 2) by omega,
    show h + 0x9e3779b9 + s <<< 6 + s >>> 2 + 2 ^ k = (h + 2 ^ k) + (0x9e3779b9 + s <<< 6 + s >>> 2) by omega,
    Nat.add_mod, hh, ← Nat.add_mod]

/-- Different hashes have different places, for any salt. -/
theorem mix_inj {s h h' k : Nat} (hm : mix s h % 2 ^ k = mix s h' % 2 ^ k) : h % 2 ^ k = h' % 2 ^ k := by
  unfold mix at hm
  rw [Nat.xor_mod_two_pow, Nat.xor_mod_two_pow (a := s)] at hm
  have hm := Nat.xor_right_injective hm
  have hm' : (h + (0x9e3779b9 + s <<< 6 + s >>> 2)) ≡ (h' + (0x9e3779b9 + s <<< 6 + s >>> 2)) [MOD 2 ^ k] := by
    unfold Nat.ModEq
    rw [← Nat.add_assoc, ← Nat.add_assoc, ← Nat.add_assoc, ← Nat.add_assoc]
    exact hm
  exact Nat.ModEq.add_right_cancel' _ hm'

/-- Equal hashes have equal places. -/
theorem mix_congr {h h' k : Nat} (s : Nat) (hm : h % 2 ^ k = h' % 2 ^ k) : mix s h % 2 ^ k = mix s h' % 2 ^ k := by
  unfold mix
  rw [Nat.xor_mod_two_pow, Nat.xor_mod_two_pow (a := s)]
  congr 1
  rw [Nat.add_assoc, Nat.add_assoc, Nat.add_mod, hm, ← Nat.add_mod, ← Nat.add_assoc, ← Nat.add_assoc]

/-- Every place is reached by some salt. -/
theorem mix_onto (h : Nat) (p : Nat) (k : Nat) : ∃ s, 2 ≤ s ∧ s < 2 ^ (k + 2) ∧ mix s h % 2 ^ k = p % 2 ^ k := by
  induction k with
  | zero => exact ⟨2, by omega, by omega, by rw [Nat.pow_zero, Nat.mod_one, Nat.mod_one]⟩
  | succ k ih =>
    obtain ⟨s, h2, hlt, hs⟩ := ih
    have hpow : 2 ^ (k + 1 + 2) = 2 ^ (k + 2) * 2 := by rw [← Nat.pow_succ]
    rcases eq_or_top hs with he | he
    · exact ⟨s, h2, by omega, he⟩
    · refine ⟨s + 2 ^ (k + 2), by omega, by omega, ?_⟩
      rw [show p % 2 ^ (k + 1) = (mix s h % 2 ^ (k + 1)) ^^^ 2 ^ k by
        rw [he, Nat.xor_assoc, Nat.xor_self, Nat.xor_zero]]
      unfold mix
      have e1 : (s + 2 ^ (k + 2)) % 2 ^ (k + 1) = s % 2 ^ (k + 1) := by
        rw [show 2 ^ (k + 2) = 2 ^ (k + 1) * 2 by rw [← Nat.pow_succ], Nat.add_mul_mod_self_left]
      have e2 : (s + 2 ^ (k + 2)) <<< 6 = s <<< 6 + 2 ^ (k + 1) * 128 := by
        rw [Nat.shiftLeft_eq, Nat.shiftLeft_eq, show 2 ^ (k + 2) = 2 ^ (k + 1) * 2 by rw [← Nat.pow_succ]]; omega
      have e3 : (s + 2 ^ (k + 2)) >>> 2 = s >>> 2 + 2 ^ k := by
        rw [Nat.shiftRight_eq_div_pow, Nat.shiftRight_eq_div_pow, show 2 ^ (k + 2) = 2 ^ k * 4 by rw [Nat.pow_add]]; omega
      rw [Nat.xor_mod_two_pow, Nat.xor_mod_two_pow (a := s), Nat.xor_assoc, ← add_top, e1, e2, e3]
      congr 1
      rw [show h + 0x9e3779b9 + (s <<< 6 + 2 ^ (k + 1) * 128) + (s >>> 2 + 2 ^ k) =
        (h + 0x9e3779b9 + s <<< 6 + s >>> 2 + 2 ^ k) + 2 ^ (k + 1) * 128 by omega, Nat.add_mul_mod_self_left]

end Verif.Containers.Mph
