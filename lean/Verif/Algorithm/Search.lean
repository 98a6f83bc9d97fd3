import Verif.Algorithm.Model
import Verif.Algorithm.Spec
import Verif.Algorithm.BinarySearch

/- C24: sub-range search; also the linear searches used by other properties. -/

namespace Verif.Algorithm
open Cxx

variable {α β : Type}

theorem searchInner_total (comp : α → β → Bool) (xs : List α) (ys : List β)
    (first last sLast : Nat) (hlen : last ≤ xs.length) (hsl : sLast ≤ ys.length) :
    ∀ n it sIt, sLast - sIt = n → it ≤ last → sIt ≤ sLast →
      ∃ o, searchInner comp xs ys first last sLast it sIt = pure o ∧
        ((o = some first ∧ OccursAt comp xs ys last sIt sLast it) ∨
         (o = some last ∧ last - it < sLast - sIt) ∨
         (o = none ∧ it < last ∧ ¬ OccursAt comp xs ys last sIt sLast it)) := by
  intro n
  induction n with
  | zero =>
    intro it sIt hn hit hs
    have : sIt = sLast := by omega
    subst this
    rw [searchInner]
    refine ⟨some first, by simp, Or.inl ⟨rfl, by omega, ?_⟩⟩
    intros; omega
  | succ n ih =>
    intro it sIt hn hit hs
    rw [searchInner]
    have hne : ¬ sIt = sLast := by omega
    simp only [hne, if_false]
    by_cases hl : it = last
    · refine ⟨some last, by simp [hl], Or.inr (Or.inl ⟨rfl, by omega⟩)⟩
    · simp only [hl, if_false]
      obtain ⟨x, hx⟩ := getElem?_of_lt (xs := xs) (i := it) (by omega)
      obtain ⟨y, hy⟩ := getElem?_of_lt (xs := ys) (i := sIt) (by omega)
      rw [rd_some hx, rd_some hy]
      simp only [pure_bind]
      by_cases hc : comp x y
      · simp only [hc, not_true, if_false]
        obtain ⟨o, ho, hcase⟩ := ih (it + 1) (sIt + 1) (by omega) (by omega) (by omega)
        refine ⟨o, ho, ?_⟩
        rcases hcase with ⟨h1, h2, h3⟩ | ⟨h1, h2⟩ | ⟨h1, h2, h3⟩
        · refine Or.inl ⟨h1, by omega, ?_⟩
          intro k a b hk ha hb
          cases k with
          | zero =>
            simp only [Nat.add_zero] at ha hb
            rw [hx] at ha; rw [hy] at hb
            injection ha with ha; injection hb with hb; subst ha; subst hb; exact hc
          | succ k =>
            exact h3 k a b (by omega) (by rw [← ha]; congr 1; omega)
              (by rw [← hb]; congr 1; omega)
        · exact Or.inr (Or.inl ⟨h1, by omega⟩)
        · refine Or.inr (Or.inr ⟨h1, by omega, ?_⟩)
          rintro ⟨h4, h5⟩
          refine h3 ⟨by omega, ?_⟩
          intro k a b hk ha hb
          exact h5 (k + 1) a b (by omega) (by rw [← ha]; congr 1; omega)
            (by rw [← hb]; congr 1; omega)
      · refine ⟨none, by simp [hc], Or.inr (Or.inr ⟨rfl, by omega, ?_⟩)⟩
        rintro ⟨_, h5⟩
        exact hc (h5 0 x y (by omega) (by simpa using hx) (by simpa using hy))

theorem search_total (comp : α → β → Bool) (xs : List α) (ys : List β)
    (last sFirst sLast : Nat) (hlen : last ≤ xs.length) (hsl : sLast ≤ ys.length)
    (hs : sFirst ≤ sLast) :
    ∀ n first, last - first = n → first ≤ last →
      ∃ r, search comp xs ys first last sFirst sLast = pure r ∧ first ≤ r ∧ r ≤ last ∧
        ((OccursAt comp xs ys last sFirst sLast r ∧
            ∀ p, first ≤ p → p < r → ¬ OccursAt comp xs ys last sFirst sLast p) ∨
         (r = last ∧ ∀ p, first ≤ p → ¬ OccursAt comp xs ys last sFirst sLast p)) := by
  intro n
  induction n with
  | zero =>
    intro first hn hf
    have : first = last := by omega
    subst this
    obtain ⟨o, ho, hcase⟩ := searchInner_total comp xs ys first first sLast hlen hsl _ first sFirst
      rfl (Nat.le_refl _) hs
    rw [search, ho]
    simp only [pure_bind]
    rcases hcase with ⟨h1, h2⟩ | ⟨h1, h2⟩ | ⟨h1, h2, h3⟩
    · subst h1
      exact ⟨first, rfl, Nat.le_refl _, Nat.le_refl _, Or.inl ⟨h2, by intros; omega⟩⟩
    · subst h1
      refine ⟨first, rfl, Nat.le_refl _, Nat.le_refl _, Or.inr ⟨rfl, ?_⟩⟩
      rintro p hp ⟨h3, _⟩
      omega
    · omega
  | succ n ih =>
    intro first hn hf
    obtain ⟨o, ho, hcase⟩ := searchInner_total comp xs ys first last sLast hlen hsl _ first sFirst
      rfl (by omega) hs
    rw [search, ho]
    simp only [pure_bind]
    rcases hcase with ⟨h1, h2⟩ | ⟨h1, h2⟩ | ⟨h1, h2, h3⟩
    · subst h1
      exact ⟨first, rfl, Nat.le_refl _, by omega, Or.inl ⟨h2, by intros; omega⟩⟩
    · subst h1
      refine ⟨last, rfl, by omega, Nat.le_refl _, Or.inr ⟨rfl, ?_⟩⟩
      rintro p hp ⟨h3, _⟩
      omega
    · subst h1
      obtain ⟨r, hr, h4, h5, hcase⟩ := ih (first + 1) (by omega) (by omega)
      refine ⟨r, hr, by omega, h5, ?_⟩
      rcases hcase with ⟨h6, h7⟩ | ⟨h6, h7⟩
      · refine Or.inl ⟨h6, fun p hp hpr => ?_⟩
        by_cases hpf : p = first
        · subst hpf; exact h3
        · exact h7 p (by omega) hpr
      · refine Or.inr ⟨h6, fun p hp => ?_⟩
        by_cases hpf : p = first
        · subst hpf; exact h3
        · exact h7 p (by omega)

/-- **C24**: `search` terminates without reading outside the two ranges and returns the first
position at which the needle occurs, or `last` when it occurs nowhere. -/
theorem C24_search (comp : α → β → Bool) (xs : List α) (ys : List β)
    (first last sFirst sLast : Nat) (hf : first ≤ last) (hlen : last ≤ xs.length)
    (hs : sFirst ≤ sLast) (hsl : sLast ≤ ys.length) :
    ∃ r, search comp xs ys first last sFirst sLast = pure r ∧ first ≤ r ∧ r ≤ last ∧
      ((OccursAt comp xs ys last sFirst sLast r ∧
          ∀ p, first ≤ p → p < r → ¬ OccursAt comp xs ys last sFirst sLast p) ∨
       (r = last ∧ ∀ p, first ≤ p → ¬ OccursAt comp xs ys last sFirst sLast p)) :=
  search_total comp xs ys last sFirst sLast hlen hsl hs _ first rfl hf

/-- A self-overlapping needle: the first occurrence is at 2. -/
example : OccursAt (· == ·) [1, 1, 0, 1, 0, 1, 1] [0, 1, 0] 7 0 3 2 := by
  refine ⟨by decide, ?_⟩
  intro k a b hk
  have : k = 0 ∨ k = 1 ∨ k = 2 := by omega
  rcases this with rfl | rfl | rfl <;> simp <;> rintro rfl rfl <;> rfl

theorem findIf_total (p : α → Bool) (xs : List α) (last : Nat) (hlen : last ≤ xs.length) :
    ∀ n first, last - first = n → first ≤ last →
      ∃ r, findIf p xs first last = pure r ∧ IsFirst p xs first last r := by
  intro n
  induction n with
  | zero =>
    intro first hn hf
    have : first = last := by omega
    subst this
    rw [findIf]
    exact ⟨first, by simp, Nat.le_refl _, Nat.le_refl _, by intros; omega, by intros; omega⟩
  | succ n ih =>
    intro first hn hf
    rw [findIf]
    have hne : first ≠ last := by omega
    obtain ⟨x, hx⟩ := getElem?_of_lt (xs := xs) (i := first) (by omega)
    simp only [hne, ne_eq, not_false_eq_true, if_true, rd_some hx, pure_bind]
    by_cases hp : p x
    · refine ⟨first, by simp [hp], Nat.le_refl _, hf, by intros; omega, fun _ => ⟨x, hx, hp⟩⟩
    · obtain ⟨r, hr, h1, h2, h3, h4⟩ := ih (first + 1) (by omega) (by omega)
      refine ⟨r, by simp [hp, hr], by omega, h2, ?_, h4⟩
      intro j a hj hjr ha
      by_cases hjf : j = first
      · subst hjf; rw [hx] at ha; injection ha with ha; subst ha; simpa using hp
      · exact h3 j a (by omega) hjr ha

theorem findIfNot_eq (p : α → Bool) (xs : List α) (last : Nat) (hlen : last ≤ xs.length) :
    ∀ n first, last - first = n → first ≤ last →
      findIfNot p xs first last = findIf (fun a => !p a) xs first last := by
  intro n
  induction n with
  | zero =>
    intro first hn hf
    have : first = last := by omega
    subst this
    rw [findIf, findIfNot]; simp
  | succ n ih =>
    intro first hn hf
    rw [findIf, findIfNot]
    have hne : first ≠ last := by omega
    obtain ⟨x, hx⟩ := getElem?_of_lt (xs := xs) (i := first) (by omega)
    simp only [hne, ne_eq, not_false_eq_true, if_true, rd_some hx, pure_bind]
    rw [ih (first + 1) (by omega) (by omega)]
    cases p x <;> simp

/-- `find_if` returns the first element satisfying the predicate, or `last`. -/
theorem find_if_first (p : α → Bool) (xs : List α) (first last : Nat) (hf : first ≤ last)
    (hlen : last ≤ xs.length) :
    ∃ r, findIf p xs first last = pure r ∧ IsFirst p xs first last r :=
  findIf_total p xs last hlen _ first rfl hf

/-- The elements `xs[first, last)` of a sub-range, as a list. (Specification, no line of the source.) -/
def slice (xs : List α) (first last : Nat) : List α := (xs.take last).drop first

theorem mem_slice {xs : List α} {first last : Nat} {a : α} :
    a ∈ slice xs first last ↔ ∃ j, first ≤ j ∧ j < last ∧ xs[j]? = some a := by
  unfold slice
  rw [List.mem_iff_getElem?]
  constructor
  · rintro ⟨i, hi⟩
    rw [List.getElem?_drop, List.getElem?_take] at hi
    split at hi
    · exact ⟨first + i, by omega, by omega, hi⟩
    · cases hi
  · rintro ⟨j, h1, h2, h3⟩
    refine ⟨j - first, ?_⟩
    rw [List.getElem?_drop, List.getElem?_take]
    have : first + (j - first) = j := by omega
    rw [this, if_pos h2, h3]

/-- **C72**: `any_of` decides whether some element of the range satisfies the predicate. -/
theorem C72_any_of (p : α → Bool) (xs : List α) (first last : Nat) (hf : first ≤ last)
    (hlen : last ≤ xs.length) :
    anyOf p xs first last = pure (decide (∃ a ∈ slice xs first last, p a = true)) := by
  obtain ⟨r, hr, h1, h2, h3, h4⟩ := find_if_first p xs first last hf hlen
  unfold anyOf
  rw [hr]
  simp only [pure_bind, pure_inj]
  by_cases h : r = last
  · subst h
    symm
    simp only [bne_self_eq_false, decide_eq_false_iff_not, mem_slice]
    rintro ⟨a, ⟨j, hj1, hj2, ha⟩, hp⟩
    rw [h3 j a hj1 hj2 ha] at hp
    cases hp
  · obtain ⟨a, ha, hp⟩ := h4 (by omega)
    have hex : ∃ a ∈ slice xs first last, p a = true := ⟨a, mem_slice.2 ⟨r, h1, by omega, ha⟩, hp⟩
    have hb : (r != last) = true := by simpa using h
    rw [hb, decide_eq_true hex]

example : anyOf (fun x : Nat => decide (x = 8)) [5, 2, 8, 3, 9] 1 4 = pure true := C72_any_of _ _ 1 4 (by decide) (by decide)

/-- **C72**: `none_of` is the negation of `any_of`. -/
theorem C72_none_of (p : α → Bool) (xs : List α) (first last : Nat) (hf : first ≤ last)
    (hlen : last ≤ xs.length) :
    noneOf p xs first last = pure (decide (∀ a ∈ slice xs first last, p a = false)) := by
  obtain ⟨r, hr, h1, h2, h3, h4⟩ := find_if_first p xs first last hf hlen
  unfold noneOf
  rw [hr]
  simp only [pure_bind, pure_inj]
  by_cases h : r = last
  · subst h
    symm
    simp only [beq_self_eq_true, decide_eq_true_iff, mem_slice]
    rintro a ⟨j, hj1, hj2, ha⟩
    exact h3 j a hj1 hj2 ha
  · obtain ⟨a, ha, hp⟩ := h4 (by omega)
    have hex : ¬ ∀ a ∈ slice xs first last, p a = false := by
      intro hall
      rw [hall a (mem_slice.2 ⟨r, h1, by omega, ha⟩)] at hp; cases hp
    have hb : (r == last) = false := by simpa using h
    rw [hb, decide_eq_false hex]

/-- **C72**: `all_of` decides whether every element of the range satisfies the predicate. -/
theorem C72_all_of (p : α → Bool) (xs : List α) (first last : Nat) (hf : first ≤ last)
    (hlen : last ≤ xs.length) :
    allOf p xs first last = pure (decide (∀ a ∈ slice xs first last, p a = true)) := by
  have h := C72_none_of (fun a => !p a) xs first last hf hlen
  unfold allOf
  unfold noneOf at h
  rw [findIfNot_eq p xs last hlen _ first rfl hf, h]
  simp

example : allOf (fun x : Nat => decide (x < 9)) [5, 2, 8, 3, 9] 1 4 = pure true := C72_all_of _ _ 1 4 (by decide) (by decide)

theorem countIf_total (p : α → Bool) (xs : List α) (last : Nat) (hlen : last ≤ xs.length) :
    ∀ n first result, last - first = n → first ≤ last →
      countIf p xs first last result = pure (result + ((slice xs first last).countP p)) := by
  intro n
  induction n with
  | zero =>
    intro first result hn hf
    have : first = last := by omega
    subst this
    rw [countIf]; simp [slice]
  | succ n ih =>
    intro first result hn hf
    rw [countIf]
    have hne : first ≠ last := by omega
    obtain ⟨x, hx⟩ := getElem?_of_lt (xs := xs) (i := first) (by omega)
    simp only [hne, ne_eq, not_false_eq_true, if_true, rd_some hx, pure_bind]
    rw [ih (first + 1) _ (by omega) (by omega)]
    have hs : slice xs first last = x :: slice xs (first + 1) last := by
      unfold slice
      have hlt : first < (xs.take last).length := by simp; omega
      rw [List.drop_eq_getElem_cons hlt]
      congr 1
      have := List.getElem?_eq_some_iff.1 hx
      obtain ⟨_, hxx⟩ := this
      simp [hxx]
    rw [hs, List.countP_cons]
    congr 1
    split <;> omega

/-- **C72**: `count_if` counts the elements satisfying the predicate. -/
theorem C72_count_if (p : α → Bool) (xs : List α) (first last : Nat) (hf : first ≤ last)
    (hlen : last ≤ xs.length) :
    countIf p xs first last = pure ((slice xs first last).countP p) := by
  rw [countIf_total p xs last hlen _ first 0 rfl hf]; simp

/-- Concrete instance with both outcomes present. -/
example : slice [5, 2, 8, 3, 9] 1 4 = [2, 8, 3] := by decide

end Verif.Algorithm
