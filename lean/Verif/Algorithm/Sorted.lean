import Verif.Algorithm.Search

/- C29: sortedness tests. -/

namespace Verif.Algorithm
open Cxx

variable {α : Type}

theorem SortedRange.extend {lt : α → α → Bool} (sw : StrictWeak lt) {xs : List α} {first next : Nat}
    {f n : α} (hs : SortedRange lt xs first (next + 1)) (hf : xs[next]? = some f)
    (hn : xs[next + 1]? = some n) (hnf : lt n f = false) :
    SortedRange lt xs first (next + 2) := by
  intro i j a b hi hij hj ha hb
  by_cases hj' : j = next + 1
  · subst hj'
    rw [hn] at hb; injection hb with hb; subst hb
    by_cases hi' : i = next
    · subst hi'
      rw [hf] at ha; injection ha with ha; subst ha; exact hnf
    · exact sw.incomp _ _ _ hnf (hs i next a f hi (by omega) (by omega) ha hf)
  · exact hs i j a b hi hij (by omega) ha hb

/-- `r` ends the longest sorted prefix of `[first, last)`. (Specification, no line of the source.) -/
def IsSortedPrefixEnd (lt : α → α → Bool) (xs : List α) (first last r : Nat) : Prop :=
  first ≤ r ∧ r ≤ last ∧ SortedRange lt xs first r ∧
  (r < last → ¬ SortedRange lt xs first (r + 1))

theorem isSortedUntilLoop_total (lt : α → α → Bool) (sw : StrictWeak lt) (xs : List α)
    (start last : Nat) (hlen : last ≤ xs.length) :
    ∀ n first, last - (first + 1) = n → first < last → start ≤ first →
      SortedRange lt xs start (first + 1) →
      ∃ r, isSortedUntilLoop lt xs last first (first + 1) = pure r ∧
        IsSortedPrefixEnd lt xs start last r := by
  intro n
  induction n with
  | zero =>
    intro first hn hf hst hs
    have : first + 1 = last := by omega
    rw [isSortedUntilLoop]
    refine ⟨last, by simp [this], by omega, Nat.le_refl _, this ▸ hs, by omega⟩
  | succ n ih =>
    intro first hn hf hst hs
    have hne : first + 1 ≠ last := by omega
    obtain ⟨x, hx⟩ := getElem?_of_lt (xs := xs) (i := first) (by omega)
    obtain ⟨y, hy⟩ := getElem?_of_lt (xs := xs) (i := first + 1) (by omega)
    rw [isSortedUntilLoop]
    simp only [hne, ne_eq, not_false_eq_true, if_true, rd_some hx, rd_some hy, pure_bind]
    by_cases hc : lt y x
    · refine ⟨first + 1, by simp [hc], by omega, by omega, hs, fun _ hs' => ?_⟩
      have := hs' first (first + 1) x y hst (by omega) (by omega) hx hy
      rw [hc] at this; cases this
    · simp only [hc, Bool.false_eq_true, if_false]
      exact ih (first + 1) (by omega) (by omega) (by omega)
        (SortedRange.extend sw hs hx hy (by simpa using hc))

/-- **C29**: `is_sorted_until` returns the end of the longest sorted prefix. -/
theorem C29_is_sorted_until (lt : α → α → Bool) (sw : StrictWeak lt) (xs : List α)
    (first last : Nat) (hf : first ≤ last) (hlen : last ≤ xs.length) :
    ∃ r, isSortedUntil lt xs first last = pure r ∧ IsSortedPrefixEnd lt xs first last r := by
  unfold isSortedUntil
  by_cases h : first = last
  · subst h
    exact ⟨first, by simp, Nat.le_refl _, Nat.le_refl _, by intro i j a b; intros; omega, by omega⟩
  · rw [if_neg h]
    exact isSortedUntilLoop_total lt sw xs first last hlen _ first rfl (by omega) (Nat.le_refl _)
      (by intro i j a b; intros; omega)

/-- **C29**: `is_sorted` is true iff the range is sorted. -/
theorem C29_is_sorted (lt : α → α → Bool) (sw : StrictWeak lt) (xs : List α)
    (first last : Nat) (hf : first ≤ last) (hlen : last ≤ xs.length) :
    ∃ b, isSorted lt xs first last = pure b ∧ (b = true ↔ SortedRange lt xs first last) := by
  obtain ⟨r, hr, h1, h2, h3, h4⟩ := C29_is_sorted_until lt sw xs first last hf hlen
  unfold isSorted
  rw [hr]
  refine ⟨r == last, rfl, ?_⟩
  rw [beq_iff_eq]
  constructor
  · rintro rfl; exact h3
  · intro hs
    by_cases h : r = last
    · exact h
    · refine absurd ?_ (h4 (by omega))
      intro i j a b hi hij hj
      exact hs i j a b hi hij (by omega)

/-- The hypotheses cover unsorted ranges and ranges of equivalent elements. -/
example : SortedRange (fun a b : Nat × Nat => decide (a.1 < b.1)) [(1, 2), (1, 1), (3, 0)] 0 3 :=
  SortedRange.of_pairwise (by decide)

theorem mismatchLoop_total (lt : α → α → Bool) (xs : List α) (sl : Nat) (hlen : sl < xs.length) :
    ∀ n first, sl - first = n → first ≤ sl →
      ∃ r, mismatchLoop lt xs sl first = pure r ∧ first ≤ r ∧ r ≤ sl ∧
        (∀ j a b, first ≤ j → j < r → xs[j]? = some a → xs[j + 1]? = some b → lt b a = false) ∧
        (r < sl → ∃ a b, xs[r]? = some a ∧ xs[r + 1]? = some b ∧ lt b a = true) := by
  intro n
  induction n with
  | zero =>
    intro first hn hf
    have : first = sl := by omega
    subst this
    rw [mismatchLoop]
    exact ⟨first, by simp, Nat.le_refl _, Nat.le_refl _, by intros; omega, by omega⟩
  | succ n ih =>
    intro first hn hf
    have hne : first ≠ sl := by omega
    obtain ⟨x, hx⟩ := getElem?_of_lt (xs := xs) (i := first) (by omega)
    obtain ⟨y, hy⟩ := getElem?_of_lt (xs := xs) (i := first + 1) (by omega)
    rw [mismatchLoop]
    simp only [hne, ne_eq, not_false_eq_true, if_true, rd_some hx, rd_some hy, pure_bind]
    by_cases hc : lt y x
    · exact ⟨first, by simp [hc], Nat.le_refl _, hf, by intros; omega, fun _ => ⟨x, y, hx, hy, hc⟩⟩
    · simp only [hc, Bool.false_eq_true, if_false]
      obtain ⟨r, h1, h2, h3, h4, h5⟩ := ih (first + 1) (by omega) (by omega)
      refine ⟨r, h1, by omega, h3, ?_, h5⟩
      intro j a b hj hjr ha hb
      by_cases hjf : j = first
      · subst hjf
        rw [hx] at ha; rw [hy] at hb
        injection ha with ha; injection hb with hb
        subst ha; subst hb
        simpa using hc
      · exact h4 j a b (by omega) hjr ha hb

/-- **C29**: for a non-empty range `find_unsorted` returns the first element greater than its
successor, or `last` when there is none. -/
theorem C29_find_unsorted_partial (lt : α → α → Bool) (xs : List α) (first last : Nat)
    (hf : first < last) (hlen : last ≤ xs.length) :
    ∃ r, findUnsorted lt xs first last = pure r ∧ first ≤ r ∧ r ≤ last ∧
      (∀ j a b, first ≤ j → j < r → j + 1 < last → xs[j]? = some a → xs[j + 1]? = some b →
        lt b a = false) ∧
      (r < last → r + 1 < last ∧ ∃ a b, xs[r]? = some a ∧ xs[r + 1]? = some b ∧ lt b a = true) := by
  unfold findUnsorted
  rw [if_neg (by omega)]
  obtain ⟨r, h1, h2, h3, h4, h5⟩ := mismatchLoop_total lt xs (last - 1) (by omega) _ first rfl (by omega)
  rw [h1]
  simp only [pure_bind]
  by_cases h : r = last - 1
  · refine ⟨last, by rw [if_pos h], by omega, Nat.le_refl _, ?_, by omega⟩
    intro j a b hj hjr hjl ha hb
    exact h4 j a b hj (by omega) ha hb
  · refine ⟨r, by rw [if_neg h], h2, by omega, ?_, fun _ => ⟨by omega, h5 (by omega)⟩⟩
    intro j a b hj hjr hjl ha hb
    exact h4 j a b hj hjr ha hb

example := C29_find_unsorted_partial (fun a b : Nat => decide (a < b)) [1, 2, 5, 3] 0 4 (by decide) (by decide)

/-- **C29** finding: `find_unsorted` of an empty range has undefined behaviour. -/
theorem C29_find_unsorted_empty_violated (lt : α → α → Bool) (xs : List α) (first : Nat) :
    findUnsorted lt xs first first = ub := by
  simp [findUnsorted]

end Verif.Algorithm
