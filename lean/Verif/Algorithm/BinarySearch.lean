import Verif.Algorithm.Model
import Verif.Algorithm.Spec

/- C22, C23: the binary searches of daw_algorithm.h. -/

namespace Verif.Algorithm
open Cxx

variable {α β : Type}

theorem getElem?_of_lt {xs : List α} {i : Nat} (h : i < xs.length) : ∃ a, xs[i]? = some a :=
  ⟨xs[i], by simp [h]⟩

/-- Number of probes sufficient for a range of `n` elements: `⌊log2 n⌋ + 1`, none for an
empty one. (Specification, no line of the source.) -/
def probes (n : Nat) : Nat := if n = 0 then 0 else Nat.log2 n + 1

theorem log2_mono {m n : Nat} (hm : 0 < m) (h : m ≤ n) : Nat.log2 m ≤ Nat.log2 n := by
  rw [Nat.le_log2 (by omega)]
  exact Nat.le_trans (Nat.log2_self_le (by omega)) h

theorem probes_half {m n : Nat} (hn : 0 < n) (h : m ≤ n / 2) : probes m + 1 ≤ probes n := by
  unfold probes
  split
  · split <;> omega
  · rename_i hm
    have h2 : 2 ≤ n := by omega
    have h1 : Nat.log2 n = Nat.log2 (n / 2) + 1 := by
      rw [Nat.log2_def]; simp [h2]
    have := log2_mono (m := m) (n := n / 2) (by omega) h
    split <;> omega

theorem lowerBound_total (cmp : α → β → Bool) (xs : List α) (v : β) :
    ∀ n first last k, last - first = n → first ≤ last → last ≤ xs.length →
      PartitionedRange (fun a => cmp a v) xs first last →
      ∃ i c, lowerBound cmp xs v first last k = pure (i, c) ∧
        IsPartitionPoint (fun a => cmp a v) xs first last i ∧ c ≤ k + probes n := by
  intro n
  induction n using Nat.strongRecOn with
  | _ n ih =>
    intro first last k hn hfl hlen hp
    rw [lowerBound]
    by_cases h : first = last
    · subst h
      refine ⟨first, k, by simp, ⟨Nat.le_refl _, Nat.le_refl _, ?_, ?_⟩, by omega⟩ <;>
        intros <;> omega
    · simp only [ne_eq, h, not_false_eq_true, if_true]
      obtain ⟨x, hx⟩ := getElem?_of_lt (xs := xs) (i := first + (last - first) / 2) (by omega)
      rw [rd_some hx]
      simp only [pure_bind]
      by_cases hc : cmp x v
      · simp only [hc, if_true]
        obtain ⟨i, c, hi, ⟨h1, h2, h3, h4⟩, hcnt⟩ :=
          ih (last - (first + (last - first) / 2 + 1)) (by omega) _ last (k + 1) rfl (by omega) hlen
            (fun i j a b hi => hp i j a b (by omega))
        refine ⟨i, c, hi, ⟨by omega, h2, ?_, h4⟩, ?_⟩
        · intro j a hj hji ha
          by_cases hjm : j < first + (last - first) / 2
          · exact hp j _ a x hj hjm (by omega) ha hx hc
          · by_cases hjm' : j = first + (last - first) / 2
            · subst hjm'; rw [hx] at ha; injection ha with ha; subst ha; exact hc
            · exact h3 j a (by omega) hji ha
        · have := probes_half (m := last - (first + (last - first) / 2 + 1)) (n := n)
            (by omega) (by omega)
          omega
      · simp only [hc]
        obtain ⟨i, c, hi, ⟨h1, h2, h3, h4⟩, hcnt⟩ :=
          ih ((last - first) / 2) (by omega) first (first + (last - first) / 2) (k + 1)
            (by omega) (by omega) (by omega) (fun i j a b hi hij hj => hp i j a b hi hij (by omega))
        refine ⟨i, c, by simpa using hi, ⟨h1, by omega, h3, ?_⟩, ?_⟩
        · intro j a hj hji ha
          by_cases hjm : j < first + (last - first) / 2
          · exact h4 j a hj hjm ha
          · by_cases hjm' : j = first + (last - first) / 2
            · subst hjm'; rw [hx] at ha; injection ha with ha; subst ha; simpa using hc
            · cases hq : cmp a v
              · exact hq
              · exact absurd (hp _ j x a (by omega) (by omega) hji hx ha hq) hc
        · have := probes_half (m := (last - first) / 2) (n := n) (by omega) (by omega)
          omega

theorem upperBoundLoop_total (comp : β → α → Bool) (xs : List α) (v : β) :
    ∀ n first k, first + n ≤ xs.length →
      PartitionedRange (fun a => !comp v a) xs first (first + n) →
      ∃ i c, upperBoundLoop comp xs v first n k = pure (i, c) ∧
        IsPartitionPoint (fun a => !comp v a) xs first (first + n) i ∧ c ≤ k + probes n := by
  intro n
  induction n using Nat.strongRecOn with
  | _ n ih =>
    intro first k hlen hp
    rw [upperBoundLoop]
    by_cases h : n = 0
    · subst h
      refine ⟨first, k, by simp, ⟨by omega, by omega, ?_, ?_⟩, by omega⟩ <;>
        intros <;> omega
    · have hpos : n > 0 := by omega
      simp only [hpos, if_true]
      obtain ⟨x, hx⟩ := getElem?_of_lt (xs := xs) (i := first + n / 2) (by omega)
      rw [rd_some hx]
      simp only [pure_bind]
      by_cases hc : comp v x
      · simp only [hc, not_true, if_false]
        obtain ⟨i, c, hi, ⟨h1, h2, h3, h4⟩, hcnt⟩ :=
          ih (n / 2) (by omega) first (k + 1) (by omega)
            (fun i j a b hi hij hj => hp i j a b hi hij (by omega))
        refine ⟨i, c, hi, ⟨h1, by omega, h3, ?_⟩, ?_⟩
        · intro j a hj hji ha
          by_cases hjm : j < first + n / 2
          · exact h4 j a hj hjm ha
          · by_cases hjm' : j = first + n / 2
            · subst hjm'; rw [hx] at ha; injection ha with ha; subst ha; simpa using hc
            · cases hq : (!comp v a)
              · exact hq
              · have := hp _ j x a (by omega) (by omega) hji hx ha hq
                simp [hc] at this
        · have := probes_half (m := n / 2) (n := n) (by omega) (by omega)
          omega
      · simp only [hc]
        obtain ⟨i, c, hi, ⟨h1, h2, h3, h4⟩, hcnt⟩ :=
          ih (n - (n / 2 + 1)) (by omega) (first + n / 2 + 1) (k + 1) (by omega)
            (fun i j a b hi hij hj => hp i j a b (by omega) hij (by omega))
        refine ⟨i, c, by simpa using hi, ⟨by omega, by omega, ?_, ?_⟩, ?_⟩
        · intro j a hj hji ha
          by_cases hjm : j < first + n / 2
          · exact hp j _ a x hj hjm (by omega) ha hx (by simpa using hc)
          · by_cases hjm' : j = first + n / 2
            · subst hjm'; rw [hx] at ha; injection ha with ha; subst ha; simpa using hc
            · exact h3 j a (by omega) hji ha
        · intro j a hj hji ha
          exact h4 j a hj (by omega) ha
        · have := probes_half (m := n - (n / 2 + 1)) (n := n) (by omega) (by omega)
          omega

/-- **C22**, `lower_bound` on a range partitioned by the comparison with the value: it
returns, within `⌊log2 n⌋ + 1` comparisons and reading only inside the range, the position
with exactly the smaller elements before it. -/
theorem C22_lower_bound_partitioned (cmp : α → β → Bool) (xs : List α) (v : β) (first last : Nat)
    (hfl : first ≤ last) (hlen : last ≤ xs.length)
    (hp : PartitionedRange (fun a => cmp a v) xs first last) :
    ∃ i c, lowerBound cmp xs v first last = pure (i, c) ∧
      IsPartitionPoint (fun a => cmp a v) xs first last i ∧ c ≤ probes (last - first) := by
  obtain ⟨i, c, h1, h2, h3⟩ := lowerBound_total cmp xs v _ first last 0 rfl hfl hlen hp
  exact ⟨i, c, h1, h2, by omega⟩

/-- **C22**, `lower_bound` on a sorted range: first position whose element is not less than
the value. -/
theorem C22_lower_bound (lt : α → α → Bool) (sw : StrictWeak lt) (xs : List α) (v : α)
    (first last : Nat) (hfl : first ≤ last) (hlen : last ≤ xs.length)
    (hs : SortedRange lt xs first last) :
    ∃ i c, lowerBound lt xs v first last = pure (i, c) ∧ first ≤ i ∧ i ≤ last ∧
      (∀ j a, first ≤ j → j < i → xs[j]? = some a → lt a v = true) ∧
      (∀ j a, i ≤ j → j < last → xs[j]? = some a → lt a v = false) ∧
      c ≤ probes (last - first) := by
  obtain ⟨i, c, h1, ⟨a, b, d, e⟩, h3⟩ := C22_lower_bound_partitioned lt xs v first last hfl hlen
    (fun i j a b hi hij hj ha hb hq => sw.lt_of_le_of_lt (hs i j a b hi hij hj ha hb) hq)
  exact ⟨i, c, h1, a, b, d, e, h3⟩

example := C22_lower_bound _ strictWeak_nat [1, 3, 3, 3, 7, 9] 3 0 6 (by decide) (by decide) (SortedRange.of_pairwise (by decide))

/-- **C22**, `upper_bound` on a sorted range: first position whose element is greater than
the value. -/
theorem C22_upper_bound (lt : α → α → Bool) (sw : StrictWeak lt) (xs : List α) (v : α)
    (first last : Nat) (hfl : first ≤ last) (hlen : last ≤ xs.length)
    (hs : SortedRange lt xs first last) :
    ∃ i c, upperBound lt xs v first last = pure (i, c) ∧ first ≤ i ∧ i ≤ last ∧
      (∀ j a, first ≤ j → j < i → xs[j]? = some a → lt v a = false) ∧
      (∀ j a, i ≤ j → j < last → xs[j]? = some a → lt v a = true) ∧
      c ≤ probes (last - first) := by
  obtain ⟨i, c, h1, ⟨a, b, d, e⟩, h3⟩ := upperBoundLoop_total lt xs v (last - first) first 0
    (by omega) (fun i j a b hi hij hj ha hb hq => by
      have hba := hs i j a b hi hij (by omega) ha hb
      simp only [Bool.not_eq_true'] at hq ⊢
      exact sw.incomp v b a hq hba)
  refine ⟨i, c, h1, a, by omega, ?_, ?_, by omega⟩
  · intro j x h h' hx; simpa using d j x h h' hx
  · intro j x h h' hx; simpa using e j x h (by omega) hx

/-- The hypotheses of the C22 theorems are met by a sorted range with ties. -/
example : SortedRange (fun a b : Nat => decide (a < b)) [1, 3, 3, 3, 7, 9] 0 6 :=
  SortedRange.of_pairwise (by decide)

theorem binarySearchLoop_total (lt : α → α → Bool) (sw : StrictWeak lt) (xs : List α) (v : α)
    (last : Nat) :
    ∀ n first itLast, itLast - first = n → first ≤ itLast → itLast ≤ xs.length → itLast ≤ last →
      SortedRange lt xs first itLast →
      ∃ r, binarySearchLoop lt xs v last first itLast = pure r ∧
        ((∃ x, first ≤ r ∧ r < itLast ∧ xs[r]? = some x ∧ lt x v = false ∧ lt v x = false) ∨
         (r = last ∧ ∀ j x, first ≤ j → j < itLast → xs[j]? = some x →
            lt x v = true ∨ lt v x = true)) := by
  intro n
  induction n using Nat.strongRecOn with
  | _ n ih =>
    intro first itLast hn hfl hlen hle hs
    rw [binarySearchLoop]
    by_cases h : first < itLast
    · simp only [h, if_true]
      obtain ⟨x, hx⟩ := getElem?_of_lt (xs := xs) (i := first + (itLast - first) / 2) (by omega)
      rw [rd_some hx]
      simp only [pure_bind]
      by_cases hc : lt x v
      · simp only [hc, if_true]
        obtain ⟨r, hr, hcase⟩ := ih (itLast - (first + (itLast - first) / 2 + 1)) (by omega) _ itLast
          rfl (by omega) hlen hle (fun i j a b hi => hs i j a b (by omega))
        refine ⟨r, hr, ?_⟩
        rcases hcase with ⟨y, h1, h2, h3⟩ | ⟨h1, h2⟩
        · exact Or.inl ⟨y, by omega, h2, h3⟩
        · refine Or.inr ⟨h1, fun j y hj hji hy => ?_⟩
          by_cases hjm : j < first + (itLast - first) / 2
          · left
            exact sw.lt_of_le_of_lt (hs j _ y x hj hjm (by omega) hy hx) hc
          · by_cases hjm' : j = first + (itLast - first) / 2
            · subst hjm'; rw [hx] at hy; injection hy with hy; subst hy; exact Or.inl hc
            · exact h2 j y (by omega) hji hy
      · simp only [hc]
        by_cases hc2 : lt v x
        · simp only [hc2, if_true]
          obtain ⟨r, hr, hcase⟩ := ih ((itLast - first) / 2) (by omega) first
            (first + (itLast - first) / 2) (by omega) (by omega) (by omega) (by omega)
            (fun i j a b hi hij hj => hs i j a b hi hij (by omega))
          refine ⟨r, by simpa using hr, ?_⟩
          rcases hcase with ⟨y, h1, h2, h3⟩ | ⟨h1, h2⟩
          · exact Or.inl ⟨y, h1, by omega, h3⟩
          · refine Or.inr ⟨h1, fun j y hj hji hy => ?_⟩
            by_cases hjm : j < first + (itLast - first) / 2
            · exact h2 j y hj hjm hy
            · by_cases hjm' : j = first + (itLast - first) / 2
              · subst hjm'; rw [hx] at hy; injection hy with hy; subst hy; exact Or.inr hc2
              · right
                exact sw.lt_of_lt_of_le hc2 (hs _ j x y (by omega) (by omega) hji hx hy)
        · refine ⟨first + (itLast - first) / 2, by simp [hc2], Or.inl ⟨x, by omega, by omega, hx, ?_, ?_⟩⟩
          · simpa using hc
          · simpa using hc2
    · refine ⟨last, by simp [h], Or.inr ⟨rfl, ?_⟩⟩
      intros; omega

/-- **C23** for non-empty ranges.  Missing: the empty range, on which the
call aborts (`C23_empty_range_aborts`).  The position returned holds an element equivalent to
the value when there is one, and is `last` when there is none. -/
theorem C23_binary_search_partial (lt : α → α → Bool) (sw : StrictWeak lt) (xs : List α) (v : α)
    (first last : Nat) (hfl : first < last) (hlen : last ≤ xs.length)
    (hs : SortedRange lt xs first last) :
    ∃ r, binarySearch lt xs v first last = pure r ∧
      ((∃ x, first ≤ r ∧ r < last ∧ xs[r]? = some x ∧ lt x v = false ∧ lt v x = false) ∨
       (r = last ∧ ∀ j x, first ≤ j → j < last → xs[j]? = some x →
          lt x v = true ∨ lt v x = true)) := by
  unfold binarySearch
  simp only [hfl, if_true]
  exact binarySearchLoop_total lt sw xs v last _ first last rfl (by omega) hlen (Nat.le_refl _) hs

example := C23_binary_search_partial _ strictWeak_nat [1, 3, 3, 3, 7, 9] 7 0 6 (by decide) (by decide) (SortedRange.of_pairwise (by decide))

/-- **C23** finding: searching an empty range does not return `last`, it aborts. -/
theorem C23_empty_range_aborts (lt : α → α → Bool) (xs : List α) (v : α) (p : Nat) :
    binarySearch lt xs v p p = abort := by
  simp [binarySearch]

end Verif.Algorithm
