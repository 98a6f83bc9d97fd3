import Verif.Containers.Lists

/-
`daw::circular_iterator`, include/daw/iterator/daw_circular_iterator.h.
-/

namespace Verif.Containers.Circular
open Cxx

/-- `x` is a value of `std::ptrdiff_t`. (Rule of C++ or its library, no line of the source.) -/
def Fits (x : Int) : Prop := -2 ^ 63 ≤ x ∧ x < 2 ^ 63

instance (x : Int) : Decidable (Fits x) := inferInstanceAs (Decidable (_ ∧ _))

/-- A result of arithmetic on `std::ptrdiff_t`; overflow is undefined. (Rule of C++ or its library, no line of the source.) -/
def arith (x : Int) : Cxx Int := if Fits x then pure x else ub

/-- `get_offset`, daw_circular_iterator.h 60-72; `sz` is the size of the container and `pos` is `m_position`.  The remainder of
C++ has the sign of the dividend; by zero it is undefined. -/
def getOffset (sz pos n : Int) : Cxx Int := do
  let n ← arith (n + pos)
  if n < 0 then do
    let n ← arith (n * -1)
    if sz = 0 then ub else arith (sz - n.tmod sz)
  else if sz ≤ n then (if sz = 0 then ub else pure (n.tmod sz))
  else pure n

/-- `operator+=` and `operator+`, daw_circular_iterator.h 127-130 and 167-171. -/
def add (sz pos n : Int) : Cxx Int := getOffset sz pos n

/-- `operator-=` and `operator-`, daw_circular_iterator.h 132-135 and 173-177. -/
def sub (sz pos n : Int) : Cxx Int := do
  let m ← arith (-n)
  getOffset sz pos m

/-- `operator++`, daw_circular_iterator.h 145-154. -/
def inc (sz pos : Int) : Cxx Int := getOffset sz pos 1

/-- `operator--`, daw_circular_iterator.h 156-165. -/
def dec (sz pos : Int) : Cxx Int := getOffset sz pos (-1)

/-- `operator*`, daw_circular_iterator.h 137-139 and 74-77, on the container. -/
def deref {α : Type} (c : List α) (pos : Int) : Cxx α := if pos < 0 then ub else rd c pos.toNat

/-- C48, moving, as far as it holds: if the sum of position and offset is not a negative multiple of the size, the new position
is the one inside the container that is congruent to that sum.  Missing: negative multiples, see `C48_multiple_violated`. -/
theorem C48_move_partial (sz pos n : Int) (hs : 0 < sz) (hsz : sz < 2 ^ 63) (h1 : Fits (n + pos)) (h2 : Fits (-(n + pos)))
    (hm : 0 ≤ n + pos ∨ (n + pos) % sz ≠ 0) :
    ∃ p, getOffset sz pos n = pure p ∧ 0 ≤ p ∧ p < sz ∧ p % sz = (pos + n) % sz := by
  have h63 : (2 : Int) ^ 63 = 9223372036854775808 := by decide
  unfold getOffset arith
  rw [if_pos h1]
  simp only [pure_bind]
  by_cases hneg : n + pos < 0
  · have hm' : (n + pos) % sz ≠ 0 := by
      rcases hm with hm | hm
      · omega
      · exact hm
    rw [if_pos hneg, show (n + pos) * -1 = -(n + pos) by omega, if_pos h2]
    simp only [pure_bind]
    have ht : (-(n + pos)).tmod sz = (-(n + pos)) % sz := Int.tmod_eq_emod_of_nonneg (by omega)
    have hb := Int.emod_nonneg (-(n + pos)) (show sz ≠ 0 by omega)
    have hlt := Int.emod_lt_of_pos (-(n + pos)) hs
    have hne : (-(n + pos)) % sz ≠ 0 := by
      intro hc
      apply hm'
      have := Int.dvd_of_emod_eq_zero hc
      exact Int.emod_eq_zero_of_dvd ((Int.dvd_neg).1 this)
    rw [if_neg (show ¬ sz = 0 by omega), ht, if_pos ⟨by omega, by omega⟩]
    refine ⟨_, rfl, by omega, by omega, ?_⟩
    have hd := Int.emod_add_mul_ediv (-(n + pos)) sz
    have hq : sz - (-(n + pos)) % sz = (pos + n) + sz * (1 + (-(n + pos)) / sz) := by
      rw [Int.mul_add, Int.mul_one]
      omega
    rw [hq, Int.add_mul_emod_self_left]
  · rw [if_neg hneg]
    by_cases hge : sz ≤ n + pos
    · rw [if_pos hge, if_neg (show ¬ sz = 0 by omega), Int.tmod_eq_emod_of_nonneg (by omega)]
      refine ⟨_, rfl, Int.emod_nonneg _ (by omega), Int.emod_lt_of_pos _ hs, ?_⟩
      rw [Int.emod_emod, Int.add_comm]
    · rw [if_neg hge]
      exact ⟨_, rfl, by omega, by omega, by rw [Int.add_comm]⟩

/-- From the fourth of five elements on by seven, and back by eight. -/
example : getOffset 5 3 7 = pure 0 ∧ getOffset 5 3 (-7) = pure 1 := by decide +kernel

/-- C48: forward steps always stay in the container, and so do the elements read. -/
theorem C48_forward {α : Type} (c : List α) (pos n : Int) (hc : 0 < c.length) (hl : (c.length : Int) < 2 ^ 63) (hp : 0 ≤ pos)
    (hp' : pos ≤ c.length) (hn : 0 ≤ n) (hf : n + pos < 2 ^ 63) :
    ∃ p, add c.length pos n = pure p ∧ 0 ≤ p ∧ p < c.length ∧
      ∃ h : ((pos + n) % c.length).toNat < c.length, deref c p = pure c[((pos + n) % c.length).toNat] := by
  have h63 : (2 : Int) ^ 63 = 9223372036854775808 := by decide
  obtain ⟨p, e, h0, h1, h2⟩ := C48_move_partial c.length pos n (by omega) hl ⟨by omega, by omega⟩ ⟨by omega, by omega⟩ (Or.inl (by omega))
  rw [Int.emod_eq_of_lt h0 h1] at h2
  have hlt : ((pos + n) % c.length).toNat < c.length := by omega
  refine ⟨p, e, h0, h1, hlt, ?_⟩
  unfold deref
  rw [if_neg (by omega), h2, rd_eq hlt]

example := C48_forward ['a', 'b', 'c'] 2 5 (by decide) (by decide) (by decide) (by decide) (by decide) (by decide)

/-- C48 does not hold for sums that are negative multiples of the size: the position is then the size itself, and the element
read is outside the container. -/
theorem C48_multiple_violated {α : Type} (c : List α) (pos n : Int) (hc : 0 < c.length) (hl : (c.length : Int) < 2 ^ 63)
    (h1 : Fits (n + pos)) (h2 : Fits (-(n + pos))) (hneg : n + pos < 0) (hm : (n + pos) % c.length = 0) :
    add c.length pos n = pure (c.length : Int) ∧ deref c c.length = ub := by
  have h63 : (2 : Int) ^ 63 = 9223372036854775808 := by decide
  constructor
  · unfold add getOffset arith
    rw [if_pos h1]
    simp only [pure_bind]
    rw [if_pos hneg, show (n + pos) * -1 = -(n + pos) by omega, if_pos h2]
    simp only [pure_bind]
    have ht : (-(n + pos)).tmod (c.length : Int) = (-(n + pos)) % c.length := Int.tmod_eq_emod_of_nonneg (by omega)
    have hz : (-(n + pos)) % (c.length : Int) = 0 :=
      Int.emod_eq_zero_of_dvd ((Int.dvd_neg).2 (Int.dvd_of_emod_eq_zero hm))
    rw [if_neg (show ¬ (c.length : Int) = 0 by omega), ht, hz, if_pos ⟨by omega, by omega⟩, Int.sub_zero]
  · unfold deref
    rw [if_neg (by omega), rd_oob (by omega)]

/-- Going back one step in a container of one element leaves it. -/
example : dec 1 0 = pure 1 ∧ deref ['x'] 1 = ub := by decide +kernel

/-- C48: one step in either direction inside a container of at least two elements. -/
theorem C48_step (sz pos : Int) (hs : 1 < sz) (hsz : sz < 2 ^ 63) (hp : 0 ≤ pos) (hp' : pos < sz) :
    inc sz pos = pure (if pos = sz - 1 then 0 else pos + 1) ∧ dec sz pos = pure (if pos = 0 then sz - 1 else pos - 1) := by
  have h63 : (2 : Int) ^ 63 = 9223372036854775808 := by decide
  constructor
  · obtain ⟨p, e, h0, h1, h2⟩ := C48_move_partial sz pos 1 (by omega) hsz ⟨by omega, by omega⟩ ⟨by omega, by omega⟩ (Or.inl (by omega))
    unfold inc
    rw [e]
    congr 1
    rw [Int.emod_eq_of_lt h0 h1] at h2
    rw [h2]
    split
    · rename_i hh
      rw [hh, show sz - 1 + 1 = sz by omega, Int.emod_self]
    · exact Int.emod_eq_of_lt (by omega) (by omega)
  · have hm : 0 ≤ -1 + pos ∨ (-1 + pos) % sz ≠ 0 := by
      by_cases hz : pos = 0
      · right
        rw [hz, show (-1 : Int) + 0 = (sz - 1) + sz * (-1) by omega, Int.add_mul_emod_self_left, Int.emod_eq_of_lt (by omega) (by omega)]
        omega
      · left; omega
    obtain ⟨p, e, h0, h1, h2⟩ := C48_move_partial sz pos (-1) (by omega) hsz ⟨by omega, by omega⟩ ⟨by omega, by omega⟩ hm
    unfold dec
    rw [e]
    congr 1
    rw [Int.emod_eq_of_lt h0 h1] at h2
    rw [h2]
    split
    · rename_i hh
      rw [hh, show (0 : Int) + -1 = (sz - 1) + sz * (-1) by omega, Int.add_mul_emod_self_left,
        Int.emod_eq_of_lt (by omega) (by omega)]
    · exact Int.emod_eq_of_lt (by omega) (by omega)

example := C48_step 3 2 (by decide) (by decide) (by decide) (by decide)

/-- `n` increments, daw_circular_iterator.h 145-154. -/
def incs (sz : Int) : Nat → Int → Cxx Int
  | 0, pos => pure pos
  | n + 1, pos => do
    let pos ← inc sz pos
    incs sz n pos

/-- C48: any number of increments leads to the element at the sum modulo the size; a full turn returns to the start. -/
theorem C48_turn (sz : Nat) (hs : 0 < sz) (hsz : (sz : Int) < 2 ^ 63) (n : Nat) : ∀ pos : Nat, pos < sz →
    incs sz n pos = pure (((pos + n) % sz : Nat) : Int) := by
  have h63 : (2 : Int) ^ 63 = 9223372036854775808 := by decide
  induction n with
  | zero => intro pos hp; rw [incs, Nat.add_zero, Nat.mod_eq_of_lt hp]
  | succ n ih =>
    intro pos hp
    obtain ⟨p, e, h0, h1, h2⟩ := C48_move_partial sz pos 1 (by omega) hsz ⟨by omega, by omega⟩ ⟨by omega, by omega⟩ (Or.inl (by omega))
    rw [Int.emod_eq_of_lt h0 h1] at h2
    have hq : p = ((pos + 1) % sz : Nat) := by rw [h2]; push_cast; rfl
    rw [incs]
    unfold inc
    rw [e, hq]
    simp only [pure_bind]
    rw [ih _ (Nat.mod_lt _ hs), Nat.mod_add_mod, show pos + 1 + n = pos + (n + 1) by omega]

example : incs 3 4 1 = pure 2 := by decide +kernel

/-- C48, going back: unless the difference is a negative multiple of the size, subtracting `n` leads to the position inside the
container that is congruent to the difference, and adding `n` there leads back to the start. -/
theorem C48_back_partial (sz pos n : Int) (hs : 0 < sz) (hsz : sz < 2 ^ 62) (hp : 0 ≤ pos) (hp' : pos < sz) (hn : 0 ≤ n)
    (hn' : n < 2 ^ 62) (hm : n ≤ pos ∨ (pos - n) % sz ≠ 0) :
    ∃ p, sub sz pos n = pure p ∧ 0 ≤ p ∧ p < sz ∧ p % sz = (pos - n) % sz ∧ add sz p n = pure pos := by
  have h63 : (2 : Int) ^ 63 = 9223372036854775808 := by decide
  have h62 : (2 : Int) ^ 62 = 4611686018427387904 := by decide
  have e1 : -n + pos = pos - n := by omega
  obtain ⟨p, e, h0, h1, h2⟩ := C48_move_partial sz pos (-n) hs (by omega) ⟨by omega, by omega⟩ ⟨by omega, by omega⟩
    (by rw [e1]; rcases hm with h | h
        · left; omega
        · right; exact h)
  rw [show pos + -n = pos - n by omega] at h2
  refine ⟨p, ?_, h0, h1, h2, ?_⟩
  · unfold sub arith
    rw [if_pos ⟨by omega, by omega⟩]
    simp only [pure_bind]
    exact e
  · obtain ⟨q, e', k0, k1, k2⟩ := C48_move_partial sz p n hs (by omega) ⟨by omega, by omega⟩ ⟨by omega, by omega⟩
      (Or.inl (by omega))
    unfold add
    rw [e']
    congr 1
    rw [Int.emod_eq_of_lt k0 k1] at k2
    rw [k2, Int.add_emod, h2, ← Int.add_emod, show pos - n + n = pos by omega, Int.emod_eq_of_lt hp hp']

/-- From the fourth of five elements back by seven, and on again. -/
example : sub 5 3 7 = pure 1 ∧ add 5 1 7 = pure 3 := by decide +kernel

end Verif.Containers.Circular
