import Verif.Algorithm.Model
import Verif.Algorithm.Spec
import Verif.Algorithm.BinarySearch

/- C25: max_element and minmax_element. -/

namespace Verif.Algorithm
open Cxx

variable {α : Type} {lt : α → α → Bool} {xs : List α} {first b r : Nat} {x m : α}

theorem IsFirstMax.step (sw : StrictWeak lt) (h : IsFirstMax lt xs first b r)
    (hm : xs[r]? = some m) (hx : xs[b]? = some x) :
    IsFirstMax lt xs first (b + 1) (if lt m x then b else r) := by
  obtain ⟨h1, h2, m', hm', h3, h4⟩ := h
  rw [hm] at hm'; injection hm' with hm'; subst hm'
  split
  · rename_i hlt
    refine ⟨by omega, by omega, x, hx, ?_, ?_⟩
    · intro j a hj hjb ha
      by_cases hjb' : j = b
      · subst hjb'; rw [hx] at ha; injection ha with ha; subst ha; exact sw.irrefl _
      · have := h3 j a hj (by omega) ha
        exact sw.asymm (sw.lt_of_le_of_lt this hlt)
    · intro j a hj hjb ha
      exact sw.lt_of_le_of_lt (h3 j a hj hjb ha) hlt
  · rename_i hlt
    refine ⟨h1, by omega, m, hm, ?_, h4⟩
    intro j a hj hjb ha
    by_cases hjb' : j = b
    · subst hjb'; rw [hx] at ha; injection ha with ha; subst ha; simpa using hlt
    · exact h3 j a hj (by omega) ha

theorem IsLastMax.step (sw : StrictWeak lt) (h : IsLastMax lt xs first b r)
    (hm : xs[r]? = some m) (hx : xs[b]? = some x) :
    IsLastMax lt xs first (b + 1) (if ¬ lt x m then b else r) := by
  obtain ⟨h1, h2, m', hm', h3, h4⟩ := h
  rw [hm] at hm'; injection hm' with hm'; subst hm'
  split
  · rename_i hlt
    simp only [Bool.not_eq_true] at hlt
    refine ⟨by omega, by omega, x, hx, ?_, by intros; omega⟩
    intro j a hj hjb ha
    by_cases hjb' : j = b
    · subst hjb'; rw [hx] at ha; injection ha with ha; subst ha; exact sw.irrefl _
    · exact sw.le_trans (h3 j a hj (by omega) ha) hlt
  · rename_i hlt
    simp only [Bool.not_eq_true, Bool.not_eq_false] at hlt
    refine ⟨h1, by omega, m, hm, ?_, ?_⟩
    · intro j a hj hjb ha
      by_cases hjb' : j = b
      · subst hjb'; rw [hx] at ha; injection ha with ha; subst ha; exact sw.asymm hlt
      · exact h3 j a hj (by omega) ha
    · intro j a hj hjb ha
      by_cases hjb' : j = b
      · subst hjb'; rw [hx] at ha; injection ha with ha; subst ha; exact hlt
      · exact h4 j a hj (by omega) ha

theorem IsFirstMin.step (sw : StrictWeak lt) (h : IsFirstMin lt xs first b r)
    (hm : xs[r]? = some m) (hx : xs[b]? = some x) :
    IsFirstMin lt xs first (b + 1) (if lt x m then b else r) := by
  obtain ⟨h1, h2, m', hm', h3, h4⟩ := h
  rw [hm] at hm'; injection hm' with hm'; subst hm'
  split
  · rename_i hlt
    refine ⟨by omega, by omega, x, hx, ?_, ?_⟩
    · intro j a hj hjb ha
      by_cases hjb' : j = b
      · subst hjb'; rw [hx] at ha; injection ha with ha; subst ha; exact sw.irrefl _
      · exact sw.asymm (sw.lt_of_lt_of_le hlt (h3 j a hj (by omega) ha))
    · intro j a hj hjb ha
      exact sw.lt_of_lt_of_le hlt (h3 j a hj hjb ha)
  · rename_i hlt
    refine ⟨h1, by omega, m, hm, ?_, h4⟩
    intro j a hj hjb ha
    by_cases hjb' : j = b
    · subst hjb'; rw [hx] at ha; injection ha with ha; subst ha; simpa using hlt
    · exact h3 j a hj (by omega) ha

theorem IsFirstMax.single (sw : StrictWeak lt) (hx : xs[b]? = some x) :
    IsFirstMax lt xs b (b + 1) b := by
  refine ⟨Nat.le_refl _, by omega, x, hx, ?_, by intros; omega⟩
  intro j a hj hjb ha
  have : j = b := by omega
  subst this; rw [hx] at ha; injection ha with ha; subst ha; exact sw.irrefl _

theorem IsLastMax.single (sw : StrictWeak lt) (hx : xs[b]? = some x) :
    IsLastMax lt xs b (b + 1) b := by
  refine ⟨Nat.le_refl _, by omega, x, hx, ?_, by intros; omega⟩
  intro j a hj hjb ha
  have : j = b := by omega
  subst this; rw [hx] at ha; injection ha with ha; subst ha; exact sw.irrefl _

theorem IsFirstMin.single (sw : StrictWeak lt) (hx : xs[b]? = some x) :
    IsFirstMin lt xs b (b + 1) b := by
  refine ⟨Nat.le_refl _, by omega, x, hx, ?_, by intros; omega⟩
  intro j a hj hjb ha
  have : j = b := by omega
  subst this; rw [hx] at ha; injection ha with ha; subst ha; exact sw.irrefl _

theorem maxElementLoop_total (sw : StrictWeak lt) (first last : Nat) (hlen : last ≤ xs.length) :
    ∀ n b r, last - b = n → b ≤ last → IsFirstMax lt xs first b r →
      ∃ i, maxElementLoop lt xs last b r = pure i ∧ IsFirstMax lt xs first last i := by
  intro n
  induction n with
  | zero =>
    intro b r hn hb h
    have : b = last := by omega
    subst this
    rw [maxElementLoop]
    exact ⟨r, by simp, h⟩
  | succ n ih =>
    intro b r hn hb h
    rw [maxElementLoop]
    have hne : b ≠ last := by omega
    obtain ⟨x, hx⟩ := getElem?_of_lt (xs := xs) (i := b) (by omega)
    obtain ⟨m, hm⟩ := getElem?_of_lt (xs := xs) (i := r) (by have := h.2.1; omega)
    simp only [hne, ne_eq, not_false_eq_true, if_true, rd_some hx, rd_some hm, pure_bind]
    exact ih (b + 1) _ (by omega) (by omega) (h.step sw hm hx)

/-- **C25**: `max_element` of a non-empty range is the first of the greatest elements. -/
theorem C25_max_element (sw : StrictWeak lt) (first last : Nat) (hf : first < last)
    (hlen : last ≤ xs.length) :
    ∃ i, maxElement lt xs first last = pure i ∧ IsFirstMax lt xs first last i := by
  unfold maxElement
  have hne : ¬ first = last := by omega
  obtain ⟨x, hx⟩ := getElem?_of_lt (xs := xs) (i := first) (by omega)
  simp only [hne, if_false]
  exact maxElementLoop_total sw first last hlen _ _ _ rfl (by omega) (IsFirstMax.single sw hx)

example := C25_max_element (xs := [1, 9, 4, 9, 2]) strictWeak_nat 0 4 (by decide) (by decide)

/-- **C25**: `max_element` of an empty range is `last`. -/
theorem C25_max_element_empty (p : Nat) : maxElement lt xs p p = pure p := by
  simp [maxElement]

theorem minmaxLoop_total (sw : StrictWeak lt) (first last : Nat) (hlen : last ≤ xs.length) :
    ∀ n b mn mx, last - b = n → b ≤ last → IsFirstMin lt xs first b mn →
      IsLastMax lt xs first b mx →
      ∃ i j, minmaxLoop lt xs last b mn mx = pure (i, j) ∧
        IsFirstMin lt xs first last i ∧ IsLastMax lt xs first last j := by
  intro n
  induction n using Nat.strongRecOn with
  | _ n ih =>
    intro b mn mx hn hb hmin hmax
    rw [minmaxLoop]
    by_cases hbl : b = last
    · subst hbl
      exact ⟨mn, mx, by simp, hmin, hmax⟩
    · obtain ⟨xi, hxi⟩ := getElem?_of_lt (xs := xs) (i := b) (by omega)
      obtain ⟨xmn, hxmn⟩ := getElem?_of_lt (xs := xs) (i := mn) (by have := hmin.2.1; omega)
      obtain ⟨xmx, hxmx⟩ := getElem?_of_lt (xs := xs) (i := mx) (by have := hmax.2.1; omega)
      simp only [hbl, ne_eq, not_false_eq_true, if_true, rd_some hxi, rd_some hxmn, rd_some hxmx,
        pure_bind]
      have hmin1 := hmin.step sw hxmn hxi
      have hmax1 := hmax.step sw hxmx hxi
      -- the greatest element is never less than the least one
      have hle : lt xmx xmn = false := by
        obtain ⟨_, _, m, hm, h3, _⟩ := hmax
        rw [hxmx] at hm; injection hm with hm; subst hm
        exact h3 mn xmn hmin.1 hmin.2.1 hxmn
      by_cases hlast : b + 1 = last
      · simp only [hlast, if_true]
        rw [hlast] at hmin1 hmax1
        by_cases h1 : lt xi xmn
        · have h2 : lt xi xmx = true := sw.lt_of_lt_of_le h1 hle
          simp only [h1, if_true] at hmin1
          simp only [h2, not_true, if_false] at hmax1
          exact ⟨b, mx, by simp [h1], hmin1, hmax1⟩
        · simp only [h1] at hmin1
          by_cases h2 : lt xi xmx
          · simp only [h2, not_true, if_false] at hmax1
            exact ⟨mn, mx, by simp [h1, h2], by simpa using hmin1, hmax1⟩
          · simp only [h2] at hmax1
            exact ⟨mn, b, by simp [h1, h2], by simpa using hmin1, by simpa using hmax1⟩
      · simp only [hlast, if_false]
        obtain ⟨xf, hxf⟩ := getElem?_of_lt (xs := xs) (i := b + 1) (by omega)
        simp only [rd_some hxf, pure_bind]
        have hmn1 : xs[if lt xi xmn = true then b else mn]? = some (if lt xi xmn then xi else xmn) := by
          split <;> assumption
        have hmx1 : xs[if ¬ lt xi xmx = true then b else mx]? = some (if ¬ lt xi xmx then xi else xmx) := by
          split <;> assumption
        have hmin2 := hmin1.step sw hmn1 hxf
        have hmax2 := hmax1.step sw hmx1 hxf
        by_cases hc : lt xf xi
        · simp only [hc, if_true]
          have e1 : (if lt xf (if lt xi xmn = true then xi else xmn) = true then b + 1
              else if lt xi xmn = true then b else mn) = (if lt xf xmn then b + 1 else mn) := by
            by_cases h1 : lt xi xmn
            · have : lt xf xmn = true := sw.trans _ _ _ hc h1
              simp [h1, hc, this]
            · simp [h1]
          have e2 : (if ¬ lt xf (if ¬ lt xi xmx = true then xi else xmx) = true then b + 1
              else if ¬ lt xi xmx = true then b else mx) = (if ¬ lt xi xmx then b else mx) := by
            by_cases h1 : lt xi xmx
            · have : lt xf xmx = true := sw.trans _ _ _ hc h1
              simp [h1, this]
            · simp [h1, hc]
          rw [e1] at hmin2
          rw [e2] at hmax2
          exact ih (last - (b + 1 + 1)) (by omega) _ _ _ rfl (by omega) hmin2 hmax2
        · have hc' : lt xf xi = false := by simpa using hc
          simp only [hc', Bool.false_eq_true, if_false]
          have e1 : (if lt xf (if lt xi xmn = true then xi else xmn) = true then b + 1
              else if lt xi xmn = true then b else mn) = (if lt xi xmn then b else mn) := by
            by_cases h1 : lt xi xmn
            · simp [h1, hc']
            · have h1' : lt xi xmn = false := by simpa using h1
              have : lt xf xmn = false := sw.incomp _ _ _ hc' h1'
              simp [h1', this]
          have e2 : (if ¬ lt xf (if ¬ lt xi xmx = true then xi else xmx) = true then b + 1
              else if ¬ lt xi xmx = true then b else mx) = (if ¬ lt xf xmx then b + 1 else mx) := by
            by_cases h1 : lt xi xmx
            · simp [h1]
            · have h1' : lt xi xmx = false := by simpa using h1
              have : lt xf xmx = false := sw.incomp _ _ _ hc' h1'
              simp [h1', this, hc']
          rw [e1] at hmin2
          rw [e2] at hmax2
          exact ih (last - (b + 1 + 1)) (by omega) _ _ _ rfl (by omega) hmin2 hmax2

/-- **C25**: `minmax_element` of a non-empty range returns the first of the least and the last
of the greatest elements. -/
theorem C25_minmax_element (sw : StrictWeak lt) (first last : Nat) (hf : first < last)
    (hlen : last ≤ xs.length) :
    ∃ i j, minmaxElement lt xs first last = pure (i, j) ∧
      IsFirstMin lt xs first last i ∧ IsLastMax lt xs first last j := by
  unfold minmaxElement
  have hne : ¬ first = last := by omega
  obtain ⟨x0, hx0⟩ := getElem?_of_lt (xs := xs) (i := first) (by omega)
  have s1 := IsFirstMin.single sw hx0
  have s2 := IsLastMax.single sw hx0
  simp only [hne, if_false]
  by_cases h1 : first + 1 = last
  · rw [h1] at s1 s2
    exact ⟨first, first, by simp [h1], s1, s2⟩
  · simp only [h1, if_false]
    obtain ⟨x1, hx1⟩ := getElem?_of_lt (xs := xs) (i := first + 1) (by omega)
    have t1 := s1.step sw hx0 hx1
    have t2 := s2.step sw hx0 hx1
    simp only [rd_some hx0, rd_some hx1, pure_bind]
    by_cases hc : lt x1 x0
    · simp only [hc, if_true] at t1 ⊢
      simp only [hc, not_true, if_false] at t2
      exact minmaxLoop_total sw first last hlen _ _ _ _ rfl (by omega) t1 t2
    · have hc' : lt x1 x0 = false := by simpa using hc
      simp only [hc', Bool.false_eq_true, if_false] at t1 ⊢
      simp only [hc', Bool.false_eq_true, not_false_eq_true, if_true] at t2
      exact minmaxLoop_total sw first last hlen _ _ _ _ rfl (by omega) t1 t2

/-- With ties: least elements at 1 and 4, greatest at 2 and 3. -/
example : ∃ i j, minmaxElement (fun a b : Nat => decide (a < b)) [3, 1, 9, 9, 1] 0 5 = pure (i, j) ∧
    IsFirstMin (fun a b : Nat => decide (a < b)) [3, 1, 9, 9, 1] 0 5 i ∧
    IsLastMax (fun a b : Nat => decide (a < b)) [3, 1, 9, 9, 1] 0 5 j :=
  C25_minmax_element strictWeak_nat 0 5 (by decide) (by decide)

end Verif.Algorithm
