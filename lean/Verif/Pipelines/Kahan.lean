import Verif.Base
import Verif.Containers.Lists

/-
Compensated summation, include/daw/pipelines/numeric.h 72-118.

Every finite floating point number is a multiple of the smallest positive one, so finite numbers, and the exact sums and differences of them, are integers in this unit.
-/

namespace Verif.Pipe.Kahan
open Verif Verif.Cxx

/-- The numbers with `p` bits of precision, in units of the smallest positive number: those below the normal ones are included, there is no largest one, so overflow to infinity is
left out. (Rule of C++ or its library, no line of the source.) -/
def Float (p : Nat) (x : Int) : Prop := ∃ (m : Int) (e : Nat), x = m * 2 ^ e ∧ m.natAbs ≤ 2 ^ p

/-- Rounding to nearest, with any treatment of ties: what IEEE 754 asks of each operation. (Rule of C++ or its library, no line of the source.) -/
structure Nearest (p : Nat) (fl : Int → Int) : Prop where
  float : ∀ x, Float p (fl x)
  nearest : ∀ x y, Float p y → (fl x - x).natAbs ≤ (y - x).natAbs

/-- The state of the loop of `SumKahanBabushkaNeumaier_t`, pipelines/numeric.h 91-92. -/
structure State where
  sum : Int
  c : Int
  deriving DecidableEq

/-- What a round of the loop adds to `c`, pipelines/numeric.h 101-106. -/
def correction (fl : Int → Int) (sum input : Int) : Int :=
  let t := fl (sum + input)
  if input.natAbs ≤ sum.natAbs then fl (fl (sum - t) + input) else fl (fl (input - t) + sum)

/-- A round of the loop, pipelines/numeric.h 94-108. -/
def step (fl : Int → Int) (s : State) (input : Int) : State :=
  ⟨fl (s.sum + input), fl (s.c + correction fl s.sum input)⟩

/-- `SumKahanBabushkaNeumaier_t::operator()`, pipelines/numeric.h 84-110, without projection. -/
def kahan (fl : Int → Int) (xs : List Int) : Int :=
  let s := xs.foldl (step fl) ⟨0, 0⟩
  fl (s.sum + s.c)

/-- `sum_t::operator()`, pipelines/numeric.h 22-30, on floating point numbers. -/
def plain (fl : Int → Int) (xs : List Int) : Int := xs.foldl (fun sum v => fl (sum + v)) 0

/-- Whether something can be called with a value. (Rule of C++ or its library, no line of the source.) -/
inductive Kind where
  | number
  | callable
  deriving DecidableEq

/-- Whether the input of a round compiles, pipelines/numeric.h 94-100: with a projection the element is called with the projection as its argument; the elements must be numbers, 88-90. -/
def inputCompiles (projected : Bool) (element : Kind) : Bool := if projected then decide (element = .callable) && decide (element = .number) else decide (element = .number)

/-! ## Proofs -/

theorem natAbs_mul_pow (m : Int) (e : Nat) : (m * 2 ^ e).natAbs = m.natAbs * 2 ^ e := by
  rw [Int.natAbs_mul, Int.natAbs_pow]
  rfl

theorem pow_dvd_pow2 {k e : Nat} (h : k ≤ e) : (2 : Int) ^ k ∣ 2 ^ e := ⟨2 ^ (e - k), by rw [← Int.pow_add]; congr 1; omega⟩

theorem Float.neg {p : Nat} {x : Int} (h : Float p x) : Float p (-x) := by
  obtain ⟨m, e, rfl, hm⟩ := h
  exact ⟨-m, e, by rw [Int.neg_mul], by rwa [Int.natAbs_neg]⟩

theorem float_zero (p : Nat) : Float p 0 := ⟨0, 0, by simp, by simp⟩

theorem Nearest.exact {p : Nat} {fl : Int → Int} (h : Nearest p fl) {x : Int} (hx : Float p x) : fl x = x := by
  have := h.nearest x x hx
  simp at this
  omega

theorem dvd_natAbs {k : Nat} {x : Int} (h : (2 : Int) ^ k ∣ x) : 2 ^ k ∣ x.natAbs := by
  have := Int.natAbs_dvd_natAbs.2 h
  rwa [Int.natAbs_pow] at this

/-- A multiple of a power of two that is not too large is a floating point number. -/
theorem float_of_dvd {p k : Nat} {x : Int} (h : (2 : Int) ^ k ∣ x) (hx : x.natAbs ≤ 2 ^ p * 2 ^ k) : Float p x := by
  obtain ⟨m, rfl⟩ := h
  refine ⟨m, k, Int.mul_comm _ _, ?_⟩
  rw [Int.mul_comm, natAbs_mul_pow] at hx
  exact Nat.le_of_mul_le_mul_right hx (Nat.pow_pos (by decide))

/-- A floating point number that is large is a multiple of a power of two. -/
theorem Float.dvd {p k : Nat} {x : Int} (h : Float p x) (hx : 2 ^ p * 2 ^ k ≤ x.natAbs) : (2 : Int) ^ k ∣ x := by
  obtain ⟨m, e, rfl, hm⟩ := h
  rw [natAbs_mul_pow] at hx
  have h1 : 2 ^ p * 2 ^ k ≤ 2 ^ p * 2 ^ e := Nat.le_trans hx (Nat.mul_le_mul_right _ hm)
  have h2 : 2 ^ k ≤ 2 ^ e := Nat.le_of_mul_le_mul_left h1 (Nat.pow_pos (by decide))
  have h3 : k ≤ e := (Nat.pow_le_pow_iff_right (by decide)).1 h2
  exact Int.dvd_trans (pow_dvd_pow2 h3) (Int.dvd_mul_left m (2 ^ e))

/-- A number with the smallest exponent it can have. -/
theorem Float.canonical {p : Nat} {x : Int} (h : Float p x) :
    ∃ e : Nat, (2 : Int) ^ e ∣ x ∧ x.natAbs ≤ 2 ^ p * 2 ^ e ∧ (e = 0 ∨ 2 ^ p * 2 ^ (e - 1) < x.natAbs) := by
  obtain ⟨m, e, rfl, hm⟩ := h
  induction e generalizing m with
  | zero => exact ⟨0, by simp, by simpa using hm, .inl rfl⟩
  | succ e ih =>
    by_cases hs : (m * 2).natAbs ≤ 2 ^ p
    · have := ih (m * 2) hs
      rwa [show m * 2 * 2 ^ e = m * 2 ^ (e + 1) by rw [Int.pow_succ]; ac_rfl] at this
    · refine ⟨e + 1, Int.dvd_mul_left .., ?_, .inr ?_⟩
      · rw [natAbs_mul_pow]
        exact Nat.mul_le_mul_right _ hm
      · rw [Nat.add_sub_cancel, natAbs_mul_pow, Nat.pow_succ]
        rw [Int.natAbs_mul] at hs
        have h1 : 2 ^ p < m.natAbs * 2 := by simpa using hs
        calc 2 ^ p * 2 ^ e < m.natAbs * 2 * 2 ^ e := (Nat.mul_lt_mul_right (Nat.pow_pos (by decide))).2 h1
          _ = m.natAbs * (2 ^ e * 2) := by ac_rfl

/-- The exponent at which a number that is not a floating point number is rounded. -/
theorem exists_exponent {p : Nat} {x : Int} (h : 2 ^ p < x.natAbs) : ∃ k : Nat, 2 ^ p * 2 ^ k ≤ x.natAbs ∧ x.natAbs < 2 ^ p * 2 ^ (k + 1) := by
  have hex : ∃ n : Nat, x.natAbs < 2 ^ p * 2 ^ n := ⟨x.natAbs, by
    calc x.natAbs < 2 ^ x.natAbs := Nat.lt_two_pow_self
      _ ≤ 2 ^ p * 2 ^ x.natAbs := Nat.le_mul_of_pos_left _ (Nat.pow_pos (by decide))⟩
  have key : ∀ n : Nat, x.natAbs < 2 ^ p * 2 ^ n → ∃ k : Nat, 2 ^ p * 2 ^ k ≤ x.natAbs ∧ x.natAbs < 2 ^ p * 2 ^ (k + 1) := by
    intro n
    induction n with
    | zero => intro h'; simp at h'; omega
    | succ n ih =>
      intro h'
      rcases Nat.lt_or_ge x.natAbs (2 ^ p * 2 ^ n) with h2 | h2
      · exact ih h2
      · exact ⟨n, h2, h'⟩
  obtain ⟨n, hn⟩ := hex
  exact key n hn

theorem float_pow (p k : Nat) : Float p (2 ^ p * 2 ^ k) ∧ Float p (-(2 ^ p * 2 ^ k)) := by
  have : Float p (2 ^ p * 2 ^ k) := ⟨2 ^ p, k, rfl, by rw [Int.natAbs_pow]; exact Nat.le_refl _⟩
  exact ⟨this, this.neg⟩

/-- What is rounded does not get below a power of two it is not below. -/
theorem Nearest.large {p : Nat} {fl : Int → Int} (h : Nearest p fl) {x : Int} {k : Nat} (hx : 2 ^ p * 2 ^ k ≤ x.natAbs) : 2 ^ p * 2 ^ k ≤ (fl x).natAbs := by
  have hpow : ((2 ^ p * 2 ^ k : Nat) : Int) = 2 ^ p * 2 ^ k := by push_cast; rfl
  rcases Int.le_total 0 x with h0 | h0
  · have h1 := h.nearest x _ (float_pow p k).1
    rw [← hpow] at h1
    omega
  · have h1 := h.nearest x _ (float_pow p k).2
    rw [← hpow] at h1
    omega

/-- Rounding keeps the divisibility by a power of two. -/
theorem Nearest.dvd {p : Nat} {fl : Int → Int} (h : Nearest p fl) {x : Int} {k : Nat} (hx : (2 : Int) ^ k ∣ x) : (2 : Int) ^ k ∣ fl x := by
  rcases Nat.lt_or_ge x.natAbs (2 ^ p * 2 ^ k) with h1 | h1
  · rw [h.exact (float_of_dvd hx (Nat.le_of_lt h1))]
    exact hx
  · exact (h.float x).dvd (h.large h1)

/-- Half a unit in the last place. -/
theorem Nearest.half {p : Nat} {fl : Int → Int} (h : Nearest p fl) {x : Int} {k : Nat} (hx : x.natAbs < 2 ^ p * 2 ^ (k + 1)) : (fl x - x).natAbs ≤ 2 ^ k := by
  have hq : (0 : Int) < 2 ^ (k + 1) := Int.pow_pos (by decide)
  have hqn : ((2 ^ (k + 1) : Nat) : Int) = 2 ^ (k + 1) := by push_cast; rfl
  have hkn : 2 ^ (k + 1) = 2 ^ k * 2 := Nat.pow_succ ..
  have hdm := Int.mul_ediv_add_emod x (2 ^ (k + 1))
  have hm0 := Int.emod_nonneg x (Int.ne_of_gt hq)
  have hm1 := Int.emod_lt_of_pos x hq
  have hd1 : (2 : Int) ^ (k + 1) ∣ x - x % 2 ^ (k + 1) := ⟨x / 2 ^ (k + 1), by omega⟩
  have hd2 : (2 : Int) ^ (k + 1) ∣ x - x % 2 ^ (k + 1) + 2 ^ (k + 1) := Int.dvd_add hd1 (Int.dvd_refl _)
  have hbig : ((2 ^ p * 2 ^ (k + 1) : Nat) : Int) = 2 ^ p * 2 ^ (k + 1) := by push_cast; rfl
  have hdb : (2 : Int) ^ (k + 1) ∣ ((2 ^ p * 2 ^ (k + 1) : Nat) : Int) := by rw [hbig]; exact Int.dvd_mul_left ..
  -- the multiple below and the one above are not beyond the largest one
  have hlow : (x - x % 2 ^ (k + 1)).natAbs ≤ 2 ^ p * 2 ^ (k + 1) := by
    have h1 : -((2 ^ p * 2 ^ (k + 1) : Nat) : Int) ≤ x - x % 2 ^ (k + 1) := by
      obtain ⟨a, ha⟩ := hd1
      obtain ⟨b, hb⟩ := hdb
      have h2 : -((2 : Int) ^ (k + 1) * b) < 2 ^ (k + 1) * (a + 1) := by
        rw [← hb, Int.mul_add, ← ha]
        omega
      rw [← Int.mul_neg] at h2
      have h3 := Int.lt_of_mul_lt_mul_left h2 (Int.le_of_lt hq)
      have h4 : -b ≤ a := by omega
      rw [ha, hb, ← Int.mul_neg]
      exact Int.mul_le_mul_of_nonneg_left h4 (Int.le_of_lt hq)
    omega
  have hhigh : (x - x % 2 ^ (k + 1) + 2 ^ (k + 1)).natAbs ≤ 2 ^ p * 2 ^ (k + 1) := by
    have h1 : x - x % 2 ^ (k + 1) + 2 ^ (k + 1) ≤ ((2 ^ p * 2 ^ (k + 1) : Nat) : Int) := by
      obtain ⟨a, ha⟩ := hd1
      obtain ⟨b, hb⟩ := hdb
      have h2 : (2 : Int) ^ (k + 1) * a < 2 ^ (k + 1) * b := by
        rw [← hb, ← ha]
        omega
      have h3 := Int.lt_of_mul_lt_mul_left h2 (Int.le_of_lt hq)
      have h4 : a + 1 ≤ b := by omega
      have h5 := Int.mul_le_mul_of_nonneg_left h4 (Int.le_of_lt hq)
      rw [Int.mul_add, ← ha, ← hb] at h5
      omega
    omega
  have n1 := h.nearest x _ (float_of_dvd hd1 hlow)
  have n2 := h.nearest x _ (float_of_dvd hd2 hhigh)
  rw [← hqn] at n1 n2 hm0 hm1
  generalize x % ((2 ^ (k + 1) : Nat) : Int) = r at n1 n2 hm0 hm1
  rw [hkn] at n2 hm1
  omega

/-- The error of an addition is a floating point number. -/
theorem error_float {p : Nat} {fl : Int → Int} (h : Nearest p fl) {a b : Int} (ha : Float p a) (hb : Float p b) : Float p (a + b - fl (a + b)) := by
  obtain ⟨ma, ea, hma, ha'⟩ := id ha
  obtain ⟨mb, eb, hmb, hb'⟩ := id hb
  have n1 := h.nearest (a + b) a ha
  have n2 := h.nearest (a + b) b hb
  have da : (2 : Int) ^ ea ∣ a := hma ▸ Int.dvd_mul_left ..
  have db : (2 : Int) ^ eb ∣ b := hmb ▸ Int.dvd_mul_left ..
  rcases Nat.le_total ea eb with he | he
  · have db' := Int.dvd_trans (pow_dvd_pow2 he) db
    have hd := Int.dvd_add da db'
    refine float_of_dvd (Int.dvd_sub hd (h.dvd hd)) ?_
    have : a.natAbs ≤ 2 ^ p * 2 ^ ea := by
      rw [hma, natAbs_mul_pow]
      exact Nat.mul_le_mul_right _ ha'
    omega
  · have da' := Int.dvd_trans (pow_dvd_pow2 he) da
    have hd := Int.dvd_add da' db
    refine float_of_dvd (Int.dvd_sub hd (h.dvd hd)) ?_
    have : b.natAbs ≤ 2 ^ p * 2 ^ eb := by
      rw [hmb, natAbs_mul_pow]
      exact Nat.mul_le_mul_right _ hb'
    omega

/-- The larger one minus the sum is a floating point number. -/
theorem diff_float {p : Nat} (hp : 0 < p) {fl : Int → Int} (h : Nearest p fl) {a b : Int} (ha : Float p a) (hb : Float p b) (hab : b.natAbs ≤ a.natAbs) : Float p (a - fl (a + b)) := by
  by_cases hx : Float p (a + b)
  · rw [h.exact hx, show a - (a + b) = -b by omega]
    exact hb.neg
  · obtain ⟨ea, dea, hea, hca⟩ := ha.canonical
    obtain ⟨eb, deb, heb, hcb⟩ := hb.canonical
    have hbig : 2 ^ p < (a + b).natAbs := by
      rcases Nat.lt_or_ge (2 ^ p) (a + b).natAbs with h1 | h1
      · exact h1
      · exact absurd ⟨a + b, 0, by simp, h1⟩ hx
    obtain ⟨k, hk1, hk2⟩ := exists_exponent hbig
    have hhalf := h.half hk2
    -- the sum is a multiple of `2 ^ (k + 1)`
    have hs : (2 : Int) ^ (k + 1) ∣ fl (a + b) := by
      have h1 := h.large hk1
      obtain ⟨m, e, hm, hme⟩ := h.float (a + b)
      rw [hm, natAbs_mul_pow] at h1
      rw [hm]
      rcases Nat.lt_or_ge k e with hke | hke
      · exact Int.dvd_trans (pow_dvd_pow2 hke) (Int.dvd_mul_left ..)
      · have h2 : 2 ^ e ≤ 2 ^ k := Nat.pow_le_pow_right (by decide) hke
        have h3 : m.natAbs * 2 ^ e ≤ 2 ^ p * 2 ^ e := Nat.mul_le_mul_right _ hme
        have h4 : 2 ^ p * 2 ^ e ≤ 2 ^ p * 2 ^ k := Nat.mul_le_mul_left _ h2
        have h5 : m.natAbs * 2 ^ e = 2 ^ p * 2 ^ k := by omega
        have h6 : (m * 2 ^ e).natAbs = 2 ^ (p - 1) * 2 ^ (k + 1) := by
          rw [natAbs_mul_pow, h5, ← Nat.pow_add, ← Nat.pow_add]
          congr 1
          omega
        rw [← Int.dvd_natAbs, h6]
        push_cast
        exact Int.dvd_mul_left ..
    rcases Nat.lt_or_ge k ea with hke | hke
    · -- both are multiples of `2 ^ (k + 1)`
      have da' := Int.dvd_trans (pow_dvd_pow2 hke) dea
      refine float_of_dvd (k := k + 1) (Int.dvd_sub da' hs) ?_
      have hkb : eb ≤ k := by
        rcases Nat.lt_or_ge k eb with h1 | h1
        · have db' := Int.dvd_trans (pow_dvd_pow2 h1) deb
          exact absurd (float_of_dvd (Int.dvd_add da' db') (Nat.le_of_lt hk2)) hx
        · exact h1
      have h1 : 2 ^ p * 2 ^ eb ≤ 2 ^ p * 2 ^ k := Nat.mul_le_mul_left _ (Nat.pow_le_pow_right (by decide) hkb)
      have h2 : 2 ^ k ≤ 2 ^ p * 2 ^ k := Nat.le_mul_of_pos_left _ (Nat.pow_pos (by decide))
      have h3 : 2 ^ p * 2 ^ (k + 1) = 2 ^ p * 2 ^ k + 2 ^ p * 2 ^ k := by rw [Nat.pow_succ, ← Nat.mul_assoc]; omega
      omega
    · -- only `2 ^ ea` divides the larger one
      have hlarge : (a + b).natAbs ≤ 2 * (2 ^ p * 2 ^ ea) := by omega
      have hke' : k = ea := by
        rcases Nat.lt_or_ge ea k with h1 | h1
        · have h2 : 2 ^ p * 2 ^ (ea + 1) ≤ 2 ^ p * 2 ^ k := Nat.mul_le_mul_left _ (Nat.pow_le_pow_right (by decide) h1)
          have h3 : 2 ^ p * 2 ^ (ea + 1) = 2 * (2 ^ p * 2 ^ ea) := by rw [Nat.pow_succ]; ac_rfl
          have h4 : (a + b).natAbs = 2 ^ p * 2 ^ (ea + 1) := by omega
          exfalso
          apply hx
          refine ⟨if 0 ≤ a + b then 2 ^ p else -2 ^ p, ea + 1, ?_, ?_⟩
          · have h5 : ((2 ^ p * 2 ^ (ea + 1) : Nat) : Int) = 2 ^ p * 2 ^ (ea + 1) := by push_cast; rfl
            split
            · rw [← h5]; omega
            · rw [Int.neg_mul, ← h5]; omega
          · split <;> simp [Int.natAbs_pow]
        · omega
      subst hke'
      have hds : (2 : Int) ^ k ∣ fl (a + b) := Int.dvd_trans (pow_dvd_pow2 (Nat.le_succ k)) hs
      have hdiff : (2 : Int) ^ k ∣ a - fl (a + b) := Int.dvd_sub dea hds
      rcases Nat.lt_or_ge a.natAbs (2 ^ p * 2 ^ k) with hlt | hge
      · refine float_of_dvd hdiff ?_
        obtain ⟨c, hc⟩ := dvd_natAbs dea
        have h1 : c < 2 ^ p := by
          rw [hc, Nat.mul_comm] at hlt
          exact Nat.lt_of_mul_lt_mul_right hlt
        have h2 : 2 ^ k * (c + 1) ≤ 2 ^ k * 2 ^ p := Nat.mul_le_mul_left _ h1
        rw [Nat.mul_add, ← hc, Nat.mul_comm _ (2 ^ p)] at h2
        omega
      · have h1 : a.natAbs = 2 ^ (p - 1) * 2 ^ (k + 1) := by
          have h2 : 2 ^ p * 2 ^ k = 2 ^ (p - 1) * 2 ^ (k + 1) := by
            rw [← Nat.pow_add, ← Nat.pow_add]
            congr 1
            omega
          omega
        have h2 : (2 : Int) ^ (k + 1) ∣ a := by
          rw [← Int.dvd_natAbs, h1]
          push_cast
          exact Int.dvd_mul_left ..
        refine float_of_dvd (Int.dvd_sub h2 hs) ?_
        have h3 : 2 ^ k ≤ 2 ^ p * 2 ^ k := Nat.le_mul_of_pos_left _ (Nat.pow_pos (by decide))
        have h4 : 2 ^ p * 2 ^ (k + 1) = 2 ^ p * 2 ^ k + 2 ^ p * 2 ^ k := by rw [Nat.pow_succ, ← Nat.mul_assoc]; omega
        omega

theorem correction_eq {p : Nat} (hp : 0 < p) {fl : Int → Int} (h : Nearest p fl) {a b : Int} (ha : Float p a) (hb : Float p b) :
    correction fl a b = a + b - fl (a + b) := by
  unfold correction
  by_cases hab : b.natAbs ≤ a.natAbs
  · dsimp only
    rw [if_pos hab, h.exact (diff_float hp h ha hb hab), show a - fl (a + b) + b = a + b - fl (a + b) by omega, h.exact (error_float h ha hb)]
  · dsimp only
    have h1 := diff_float hp h hb ha (by omega)
    have h2 := error_float h ha hb
    rw [Int.add_comm b a] at h1
    rw [if_neg hab, h.exact h1, show b - fl (a + b) + a = a + b - fl (a + b) by omega, h.exact h2]

/-- The error of each addition. (Specification, no line of the source.) -/
def errors (fl : Int → Int) : Int → List Int → List Int
  | _, [] => []
  | sum, x :: xs => (sum + x - fl (sum + x)) :: errors fl (fl (sum + x)) xs

theorem fold_eq {p : Nat} (hp : 0 < p) {fl : Int → Int} (h : Nearest p fl) (xs : List Int) (hx : ∀ x ∈ xs, Float p x) (s : State) (hs : Float p s.sum) :
    xs.foldl (step fl) s = ⟨xs.foldl (fun sum v => fl (sum + v)) s.sum, (errors fl s.sum xs).foldl (fun c e => fl (c + e)) s.c⟩ := by
  induction xs generalizing s with
  | nil => rfl
  | cons x xs ih =>
    simp only [List.foldl_cons, errors]
    rw [ih (fun y hy => hx y (by simp [hy])) _ (h.float _)]
    simp only [step, correction_eq hp h hs (hx x (by simp))]

theorem errors_sum (fl : Int → Int) (xs : List Int) (sum : Int) : xs.foldl (fun sum v => fl (sum + v)) sum + (errors fl sum xs).sum = sum + xs.sum := by
  induction xs generalizing sum with
  | nil => simp [errors]
  | cons x xs ih =>
    simp only [List.foldl_cons, errors, List.sum_cons]
    have := ih (fl (sum + x))
    omega

/-- **C323.**  Each round adds the exact error of its addition to `c`, however large or small the numbers are and however ties are rounded: the result is the plain sum and the sum of all the
errors, rounded, and the exact plain sum and the exact errors together are the exact sum. -/
theorem C323_errors {p : Nat} (hp : 0 < p) {fl : Int → Int} (h : Nearest p fl) (xs : List Int) (hx : ∀ x ∈ xs, Float p x) :
    kahan fl xs = fl (plain fl xs + (errors fl 0 xs).foldl (fun c e => fl (c + e)) 0) ∧ plain fl xs + (errors fl 0 xs).sum = xs.sum := by
  constructor
  · unfold kahan plain
    rw [fold_eq hp h xs hx _ (float_zero p)]
  · have := errors_sum fl xs 0
    unfold plain
    omega

theorem fold_exact {p : Nat} {fl : Int → Int} (h : Nearest p fl) (es : List Int) (c : Int) (hc : ∀ n, Float p (c + (es.take n).sum)) :
    es.foldl (fun c e => fl (c + e)) c = c + es.sum := by
  induction es generalizing c with
  | nil => simp
  | cons e es ih =>
    have h1 := hc 1
    simp at h1
    rw [List.foldl_cons, h.exact h1, ih]
    · simp; omega
    · intro n
      have := hc (n + 1)
      rwa [List.take_succ_cons, List.sum_cons, ← Int.add_assoc] at this

/-- **C323.**  If the errors can be added exactly, the result is the floating point number nearest to the exact sum: no other is nearer, whatever cancels in between.
Missing: projections, see `C323_projection_violated`. -/
theorem C323_nearest_partial {p : Nat} (hp : 0 < p) {fl : Int → Int} (h : Nearest p fl) (xs : List Int) (hx : ∀ x ∈ xs, Float p x)
    (he : ∀ n, Float p ((errors fl 0 xs).take n).sum) : kahan fl xs = fl xs.sum ∧ ∀ y, Float p y → (kahan fl xs - xs.sum).natAbs ≤ (y - xs.sum).natAbs := by
  have hk : kahan fl xs = fl xs.sum := by
    rw [(C323_errors hp h xs hx).1, fold_exact h _ 0 (by simpa using he), Int.zero_add, (C323_errors hp h xs hx).2]
  rw [hk]
  exact ⟨rfl, h.nearest _⟩

/-- **C323.**  Where no addition rounds, both sums are exact. -/
theorem C323_exact {p : Nat} (hp : 0 < p) {fl : Int → Int} (h : Nearest p fl) (xs : List Int) (hx : ∀ n, Float p (xs.take n).sum) (hf : ∀ x ∈ xs, Float p x) :
    plain fl xs = xs.sum ∧ kahan fl xs = xs.sum := by
  have h1 : plain fl xs = xs.sum := by
    have := fold_exact h xs 0 (by simpa using hx)
    rw [Int.zero_add] at this
    exact this
  have h2 : ∀ (xs : List Int) (c : Int), (∀ n, Float p (c + (xs.take n).sum)) → errors fl c xs = List.replicate xs.length 0 := by
    intro xs
    induction xs with
    | nil => intro c _; rfl
    | cons x xs ih =>
      intro c hc
      have h1 := hc 1
      simp at h1
      rw [errors, h.exact h1, ih]
      · simp [List.replicate_succ]
      · intro n
        have := hc (n + 1)
        rwa [List.take_succ_cons, List.sum_cons, ← Int.add_assoc] at this
  refine ⟨h1, ?_⟩
  have h3 := C323_nearest_partial hp h xs hf (by
    intro n
    rw [h2 xs 0 (by simpa using hx), List.take_replicate]
    simpa using float_zero p)
  rw [h3.1]
  have := hx xs.length
  rw [List.take_length] at this
  exact h.exact this

/-- There is such a rounding for every precision. -/
theorem exists_nearest (p : Nat) : ∃ fl, Nearest p fl := by
  have key : ∀ (x : Int) (n : Nat) (y : Int), (y - x).natAbs = n → Float p y → ∃ z, Float p z ∧ ∀ w, Float p w → (z - x).natAbs ≤ (w - x).natAbs := by
    intro x n
    induction n using Nat.strongRecOn with
    | ind n ih =>
      intro y hy hf
      by_cases hb : ∃ w, Float p w ∧ (w - x).natAbs < n
      · obtain ⟨w, hw, hl⟩ := hb
        exact ih _ hl w rfl hw
      · refine ⟨y, hf, fun w hw => ?_⟩
        rcases Nat.lt_or_ge (w - x).natAbs (y - x).natAbs with h | h
        · exact absurd ⟨w, hw, by omega⟩ hb
        · exact h
  have hex : ∀ x : Int, ∃ z, Float p z ∧ ∀ w, Float p w → (z - x).natAbs ≤ (w - x).natAbs := fun x => key x _ 0 rfl (float_zero p)
  exact ⟨fun x => Classical.choose (hex x), fun x => (Classical.choose_spec (hex x)).1, fun x => (Classical.choose_spec (hex x)).2⟩

theorem float2 (x : Int) (h : Float 2 x) : x ≤ 8 ∨ 4 ∣ x := by
  obtain ⟨m, e, rfl, hm⟩ := h
  match e with
  | 0 => left; simp at hm ⊢; omega
  | 1 => left; simp at hm ⊢; omega
  | e + 2 => right; exact ⟨m * 2 ^ e, by rw [Int.pow_succ, Int.pow_succ, show (4 : Int) = 2 * 2 from rfl]; ac_rfl⟩

/-- The sum of 1, 8, 1 and -8 with two bits of precision, with every rounding: the plain sum loses both ones, the compensated one is exact. -/
example (fl : Int → Int) (h : Nearest 2 fl) : plain fl [1, 8, 1, -8] = 0 ∧ kahan fl [1, 8, 1, -8] = 2 := by
  have f1 : Float 2 1 := ⟨1, 0, by decide, by decide⟩
  have f2 : Float 2 2 := ⟨2, 0, by decide, by decide⟩
  have f8 : Float 2 8 := ⟨4, 1, by decide, by decide⟩
  have h9 : fl 9 = 8 := by
    have n := h.nearest 9 8 f8
    have := float2 _ (h.float 9)
    omega
  have e1 := h.exact f1
  have e2 := h.exact f2
  have e0 := h.exact (float_zero 2)
  have hx : ∀ x ∈ [(1 : Int), 8, 1, -8], Float 2 x := by
    intro x hx
    simp at hx
    rcases hx with rfl | rfl | rfl | rfl
    · exact f1
    · exact f8
    · exact f1
    · exact f8.neg
  have hp : plain fl [1, 8, 1, -8] = 0 := by simp [plain, e1, h9, e0]
  refine ⟨hp, ?_⟩
  rw [(C323_errors (by decide) h _ hx).1, hp]
  simp [errors, e1, h9, e0, e2]

/-- **C323** (finding).  With a projection nothing compiles: it is the element, a number, that is called with the projection. -/
theorem C323_projection_violated (k : Kind) : inputCompiles true k = false := by
  cases k <;> rfl


end Verif.Pipe.Kahan
