import Verif.Base

/-
Copying and moving ranges in constant expressions, include/daw/daw_utility.h.  Both ranges are in one block, so that they may overlap.
-/

namespace Verif.CxprCopy
open Verif Verif.Cxx

variable {α : Type}

/-- `cxpr_copy`, daw_utility.h 444-454, with `n` the elements between the two input iterators: the block left and the iterator returned. -/
def cxprCopy : Nat → List α → Nat → Nat → Cxx (List α × Nat)
  | 0, m, _, out => pure (m, out)
  | n + 1, m, first, out => do
    let x ← rd m first
    let m ← wr m out x
    cxprCopy n m (first + 1) (out + 1)

/-- `cxpr_move`, daw_utility.h 456-466, with `n` the elements between the two input iterators and `gone x` what moving leaves of `x`.  Simplified: an element that
is moved to itself keeps its value. -/
def cxprMove (gone : α → α) : Nat → List α → Nat → Nat → Cxx (List α × Nat)
  | 0, m, _, out => pure (m, out)
  | n + 1, m, first, out => do
    let x ← rd m first
    let m ← wr m first (gone x)
    let m ← wr m out x
    cxprMove gone n m (first + 1) (out + 1)

theorem succ_mod (a d : Nat) (hd : 0 < d) : (a + 1) % d = if a % d + 1 = d then 0 else a % d + 1 := by
  have h1 : a % d < d := Nat.mod_lt _ hd
  have h2 : a + 1 = d * (a / d) + (a % d + 1) := by
    have := Nat.div_add_mod a d
    omega
  rw [h2, Nat.mul_add_mod]
  split
  next h => rw [h, Nat.mod_self]
  next h => exact Nat.mod_eq_of_lt (by omega)

theorem copy_eq (n : Nat) : ∀ (m : List α) (first out : Nat), first + n ≤ m.length → out + n ≤ m.length →
    ∃ m', cxprCopy n m first out = pure (m', out + n) ∧ m'.length = m.length ∧
      ∀ i, m'[i]? = if out ≤ i ∧ i < out + n then
        (if first < out then m[first + (i - out) % (out - first)]? else m[first + (i - out)]?) else m[i]? := by
  induction n with
  | zero =>
    intro m first out _ _
    exact ⟨m, rfl, rfl, fun i => by rw [if_neg (by omega)]⟩
  | succ n ih =>
    intro m first out h1 h2
    obtain ⟨m', e, hl, hv⟩ := ih (m.set out (m[first]'(by omega))) (first + 1) (out + 1) (by rw [List.length_set]; omega) (by rw [List.length_set]; omega)
    refine ⟨m', ?_, by rw [hl, List.length_set], ?_⟩
    · unfold cxprCopy
      rw [rd_eq (by omega), pure_bind, wr_eq (by omega), pure_bind, e]
      congr 2
      omega
    · intro i
      rw [hv i]
      have hset : ∀ j, (m.set out (m[first]'(by omega)))[j]? = if j = out then m[first]? else m[j]? := by
        intro j
        rw [List.getElem?_set]
        by_cases hj : j = out
        · subst hj
          rw [if_pos rfl, if_pos (by omega), if_pos rfl, List.getElem?_eq_getElem (by omega)]
        · rw [if_neg (by omega), if_neg hj]
      simp only [hset]
      by_cases hi : out + 1 ≤ i ∧ i < out + 1 + n
      · rw [if_pos hi, if_pos (show out ≤ i ∧ i < out + (n + 1) by omega)]
        by_cases hf : first < out
        · rw [if_pos (show first + 1 < out + 1 by omega), if_pos hf]
          have hd : out + 1 - (first + 1) = out - first := by omega
          have hs := succ_mod (i - (out + 1)) (out - first) (by omega)
          rw [show i - (out + 1) + 1 = i - out by omega] at hs
          rw [hd, hs]
          by_cases hw : (i - (out + 1)) % (out - first) + 1 = out - first
          · rw [if_pos hw, if_pos (by omega)]
            rfl
          · rw [if_neg hw, if_neg (by omega)]
            congr 1
            omega
        · rw [if_neg (show ¬ first + 1 < out + 1 by omega), if_neg hf, if_neg (by omega)]
          congr 1
          omega
      · rw [if_neg hi]
        by_cases hio : i = out
        · subst hio
          rw [if_pos rfl, if_pos (by omega), Nat.sub_self, Nat.zero_mod]
          split <;> rfl
        · rw [if_neg hio, if_neg (by omega)]

/-- C366.  If both ranges are within the block and the output does not begin inside of the input, the output has the elements the input had, in their order; every
element outside of the output keeps its value, and the iterator returned is the end of the output. -/
theorem C366_copy (m : List α) (first out n : Nat) (h1 : first + n ≤ m.length) (h2 : out + n ≤ m.length) (h : out ≤ first ∨ first + n ≤ out) :
    ∃ m', cxprCopy n m first out = pure (m', out + n) ∧ m'.length = m.length ∧ (∀ k, k < n → m'[out + k]? = m[first + k]?) ∧
      (∀ i, i < out ∨ out + n ≤ i → m'[i]? = m[i]?) := by
  obtain ⟨m', e, hl, hv⟩ := copy_eq n m first out h1 h2
  refine ⟨m', e, hl, ?_, ?_⟩
  · intro k hk
    rw [hv, if_pos (by omega), show out + k - out = k by omega]
    split
    · rw [Nat.mod_eq_of_lt (by omega)]
    · rfl
  · intro i hi
    rw [hv, if_neg (by omega)]

example : cxprCopy 3 [1, 2, 3, 4, 5] 1 0 = pure ([2, 3, 4, 4, 5], 3) := rfl
example : cxprCopy 2 [1, 2, 3, 4, 5] 0 3 = pure ([1, 2, 3, 1, 2], 5) := rfl

/-- C366.  If the output begins inside of the input, `d` elements after its begin, the first `d` elements are repeated over the output. -/
theorem C366_inside (m : List α) (first d n : Nat) (h1 : first + d + n ≤ m.length) (hd : 0 < d) :
    ∃ m', cxprCopy n m first (first + d) = pure (m', first + d + n) ∧ ∀ k, k < n → m'[first + d + k]? = m[first + k % d]? := by
  obtain ⟨m', e, _, hv⟩ := copy_eq n m first (first + d) (by omega) h1
  refine ⟨m', e, fun k hk => ?_⟩
  rw [hv, if_pos (by omega), if_pos (by omega), show first + d + k - (first + d) = k by omega, show first + d - first = d by omega]

example : cxprCopy 5 [1, 2, 3, 4, 5, 6, 7] 0 2 = pure ([1, 2, 1, 2, 1, 2, 1], 7) := rfl

/-- C366.  A range that is not within the block is never copied with a defined result. -/
theorem C366_outside (n : Nat) : ∀ (m : List α) (first out : Nat), 0 < n → m.length < first + n ∨ m.length < out + n → cxprCopy n m first out = ub := by
  induction n with
  | zero => intro _ _ _ h; omega
  | succ n ih =>
    intro m first out _ h
    unfold cxprCopy
    by_cases hf : first < m.length
    · rw [rd_eq hf, pure_bind]
      by_cases ho : out < m.length
      · rw [wr_eq ho, pure_bind]
        by_cases hn : n = 0
        · omega
        · exact ih _ _ _ (by omega) (by rw [List.length_set]; omega)
      · rw [wr_oob (by omega)]
        rfl
    · rw [rd_oob (by omega)]
      rfl

example : cxprCopy 3 [1, 2, 3, 4] 0 2 = ub := rfl

/-- C366.  Moving gives the output the elements the input had, in their order, if the output begins before the input or behind it.  The elements of the input
that are not in the output are moved from, all others keep their values. -/
theorem C366_move (gone : α → α) (n : Nat) : ∀ (m : List α) (first out : Nat), first + n ≤ m.length → out + n ≤ m.length →
    out < first ∨ first + n ≤ out →
    ∃ m', cxprMove gone n m first out = pure (m', out + n) ∧ m'.length = m.length ∧ (∀ k, k < n → m'[out + k]? = m[first + k]?) ∧
      (∀ i, i < out ∨ out + n ≤ i → m'[i]? = if first ≤ i ∧ i < first + n then m[i]?.map gone else m[i]?) := by
  induction n with
  | zero =>
    intro m first out _ _ _
    exact ⟨m, rfl, rfl, fun k hk => absurd hk (Nat.not_lt_zero _), fun i _ => by rw [if_neg (by omega)]⟩
  | succ n ih =>
    intro m first out h1 h2 h
    have hset : ∀ j, ((m.set first (gone (m[first]'(by omega)))).set out (m[first]'(by omega)))[j]? =
        if j = out then m[first]? else if j = first then m[first]?.map gone else m[j]? := by
      intro j
      rw [List.getElem?_set, List.getElem?_set, List.length_set, List.getElem?_eq_getElem (show first < m.length by omega)]
      by_cases hj : j = out
      · subst hj
        rw [if_pos rfl, if_pos (by omega), if_pos rfl]
      · rw [if_neg (by omega), if_neg hj]
        by_cases hj' : j = first
        · subst hj'
          rw [if_pos rfl, if_pos (by omega), if_pos rfl]
          rfl
        · rw [if_neg (by omega), if_neg hj']
    obtain ⟨m', e, hl, hv, hw⟩ := ih ((m.set first (gone (m[first]'(by omega)))).set out (m[first]'(by omega))) (first + 1) (out + 1)
      (by rw [List.length_set, List.length_set]; omega) (by rw [List.length_set, List.length_set]; omega) (by omega)
    refine ⟨m', ?_, by rw [hl, List.length_set, List.length_set], ?_, ?_⟩
    · unfold cxprMove
      rw [rd_eq (by omega), pure_bind, wr_eq (by omega), pure_bind, wr_eq (by rw [List.length_set]; omega), pure_bind, e]
      congr 2
      omega
    · intro k hk
      cases k with
      | zero =>
        rw [Nat.add_zero, Nat.add_zero, hw _ (by omega), if_neg (by omega), hset, if_pos rfl]
      | succ k =>
        rw [show out + (k + 1) = out + 1 + k by omega, hv k (by omega), hset, if_neg (by omega), if_neg (by omega)]
        congr 1
        omega
    · intro i hi
      have hs := hset i
      rw [if_neg (show ¬ i = out by omega)] at hs
      rw [hw i (by omega), hs]
      by_cases hif : i = first
      · subst hif
        rw [if_neg (by omega), if_pos rfl, if_pos (by omega)]
      · rw [if_neg hif]
        by_cases hr : first + 1 ≤ i ∧ i < first + 1 + n
        · rw [if_pos hr, if_pos (by omega)]
        · rw [if_neg hr, if_neg (by omega)]

example : cxprMove (fun _ => 0) 3 [1, 2, 3, 4, 5] 2 0 = pure ([3, 4, 5, 0, 0], 3) := rfl

end Verif.CxprCopy
