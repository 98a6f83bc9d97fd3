import Verif.Algorithm.Search

/- C27 (remove_if), C73 (reverse). -/

namespace Verif.Algorithm
open Cxx

variable {α : Type}

theorem slice_cons {xs : List α} {i last : Nat} {x : α} (hi : i < last) (hx : xs[i]? = some x) :
    slice xs i last = x :: slice xs (i + 1) last := by
  unfold slice
  have h : (xs.take last)[i]? = some x := by rw [List.getElem?_take, if_pos hi, hx]
  obtain ⟨hl, he⟩ := List.getElem?_eq_some_iff.1 h
  rw [List.drop_eq_getElem_cons hl, he]

theorem slice_self (xs : List α) (i : Nat) : slice xs i i = [] := by
  unfold slice
  rw [List.drop_eq_nil_iff]
  simp [Nat.min_le_left]

theorem slice_set {xs : List α} {i last k : Nat} {x : α} (hk : k < i) :
    slice (xs.set k x) i last = slice xs i last := by
  unfold slice
  apply List.ext_getElem?
  intro j
  rw [List.getElem?_drop, List.getElem?_drop, List.getElem?_take, List.getElem?_take,
    List.getElem?_set]
  have : ¬ k = i + j := by omega
  simp [this]

theorem slice_append {xs : List α} {a b c : Nat} (h1 : a ≤ b) (h2 : b ≤ c) :
    slice xs a c = slice xs a b ++ slice xs b c := by
  unfold slice
  have e : xs.take c = xs.take b ++ (xs.drop b).take (c - b) := by
    rw [← List.take_add]; congr 1; omega
  rw [e]
  by_cases hb : b ≤ xs.length
  · have hl : (xs.take b).length = b := by simp [hb]
    rw [List.drop_append, List.drop_append]
    rw [hl, List.drop_eq_nil_of_le (as := xs.take b) (i := b) (by omega)]
    have : a - b = 0 := by omega
    simp [this]
  · have : xs.drop b = [] := by rw [List.drop_eq_nil_iff]; omega
    simp only [this, List.take_nil, List.append_nil]
    rw [List.drop_eq_nil_of_le (as := xs.take b) (i := b) (by simp; omega)]
    simp

theorem removeIfLoop_total (p : α → Bool) (last : Nat) :
    ∀ n (xs : List α) (first i : Nat), last - i = n → first < i → i ≤ last → last ≤ xs.length →
      ∃ ys r, removeIfLoop p last xs first i = pure (ys, r) ∧ first ≤ r ∧ r ≤ last ∧
        ys.length = xs.length ∧ ys.drop last = xs.drop last ∧
        ys.take r = xs.take first ++ (slice xs i last).filter (fun a => !p a) := by
  intro n
  induction n with
  | zero =>
    intro xs first i hn hf hi hl
    have : i = last := by omega
    subst this
    rw [removeIfLoop]
    exact ⟨xs, first, by simp, by omega, by omega, rfl, rfl, by simp [slice_self]⟩
  | succ n ih =>
    intro xs first i hn hf hi hl
    obtain ⟨x, hx⟩ := getElem?_of_lt (xs := xs) (i := i) (by omega)
    have hne : i ≠ last := by omega
    rw [removeIfLoop]
    simp only [hne, ne_eq, not_false_eq_true, if_true, rd_some hx, pure_bind]
    by_cases hp : p x
    · simp only [hp, not_true, if_false]
      obtain ⟨ys, r, h1, h2, h3, h4, h5, h6⟩ := ih xs first (i + 1) (by omega) (by omega) (by omega) hl
      refine ⟨ys, r, h1, h2, h3, h4, h5, ?_⟩
      rw [h6, slice_cons (by omega) hx]
      simp [hp]
    · simp only [hp, Bool.false_eq_true, not_false_eq_true, if_true]
      rw [wr_eq (by omega)]
      simp only [pure_bind]
      obtain ⟨ys, r, h1, h2, h3, h4, h5, h6⟩ :=
        ih (xs.set first x) (first + 1) (i + 1) (by omega) (by omega) (by omega) (by simpa using hl)
      refine ⟨ys, r, h1, by omega, h3, by simpa using h4, ?_, ?_⟩
      · rw [h5, List.drop_set, if_pos (by omega)]
      · rw [h6, slice_set (by omega), slice_cons (i := i) (by omega) hx]
        have ht : (xs.set first x).take (first + 1) = xs.take first ++ [x] := by
          rw [List.take_succ_eq_append_getElem (by simp; omega)]
          simp [List.take_set_of_le]
        rw [ht]
        simp [hp]

theorem filter_all_false {p : α → Bool} {l : List α} (h : ∀ a ∈ l, p a = false) :
    l.filter (fun a => !p a) = l := by
  rw [List.filter_eq_self]
  intro a ha; simp [h a ha]

/-- **C27**: `remove_if` terminates without leaving the range and returns a position `r` such that
up to `r` the block holds what preceded the range followed by exactly the elements of the range
not satisfying `p`, in order; nothing after the range and no size changes. -/
theorem C27_remove_if (p : α → Bool) (xs : List α) (first last : Nat) (hf : first ≤ last)
    (hlen : last ≤ xs.length) :
    ∃ ys r, removeIf p xs first last = pure (ys, r) ∧ first ≤ r ∧ r ≤ last ∧
      ys.length = xs.length ∧ ys.drop last = xs.drop last ∧
      ys.take r = xs.take first ++ (slice xs first last).filter (fun a => !p a) := by
  obtain ⟨m, hm, h1, h2, h3, h4⟩ := find_if_first p xs first last hf hlen
  unfold removeIf
  rw [hm]
  simp only [pure_bind]
  have hpre : (slice xs first m).filter (fun a => !p a) = slice xs first m := by
    apply filter_all_false
    intro a ha
    obtain ⟨j, hj1, hj2, hj3⟩ := mem_slice.1 ha
    exact h3 j a hj1 hj2 hj3
  have htake : xs.take m = xs.take first ++ slice xs first m := by
    unfold slice
    have : xs.take first = (xs.take m).take first := by rw [List.take_take]; congr 1; omega
    rw [this, List.take_append_drop]
  by_cases hml : m = last
  · subst hml
    simp only [ne_eq, not_true, if_false]
    exact ⟨xs, m, rfl, h1, Nat.le_refl _, rfl, rfl, by rw [hpre, htake]⟩
  · obtain ⟨a, ha, hpa⟩ := h4 (by omega)
    simp only [ne_eq, hml, not_false_eq_true, if_true]
    obtain ⟨ys, r, g1, g2, g3, g4, g5, g6⟩ :=
      removeIfLoop_total p last _ xs m (m + 1) rfl (by omega) (by omega) hlen
    refine ⟨ys, r, g1, by omega, g3, g4, g5, ?_⟩
    rw [g6, htake, slice_append (a := first) (b := m) (c := last) h1 h2, List.filter_append, hpre,
      slice_cons (i := m) (by omega) ha]
    simp [hpa]

/-- Removing the even numbers from the middle of a block. -/
example : ∃ ys r, removeIf (fun n => n % 2 == 0) [2, 4, 5, 6, 7, 8, 2] 1 6 = pure (ys, r) ∧
    ys.take r = [2, 5, 7] ∧ ys.drop 6 = [2] := by
  obtain ⟨ys, r, h, _, _, _, h5, h6⟩ :=
    C27_remove_if (fun n => n % 2 == 0) [2, 4, 5, 6, 7, 8, 2] 1 6 (by decide) (by decide)
  exact ⟨ys, r, h, h6.trans (by decide), h5⟩

theorem reverseLoop_total :
    ∀ n (xs : List α) (first last : Nat), last - first ≤ n → first ≤ last → last < xs.length →
      ∃ ys, reverseLoop xs first last = pure ys ∧ ys.length = xs.length ∧
        ∀ k, ys[k]? = if first ≤ k ∧ k ≤ last then xs[first + last - k]? else xs[k]? := by
  intro n
  induction n with
  | zero =>
    intro xs first last hn hf hl
    have : first = last := by omega
    subst this
    rw [reverseLoop]
    refine ⟨xs, by simp, rfl, fun k => ?_⟩
    split
    · congr 1; omega
    · rfl
  | succ n ih =>
    intro xs first last hn hf hl
    rw [reverseLoop]
    by_cases he : first = last
    · subst he
      refine ⟨xs, by simp, rfl, fun k => ?_⟩
      split
      · congr 1; omega
      · rfl
    · obtain ⟨a, ha⟩ := getElem?_of_lt (xs := xs) (i := first) (by omega)
      obtain ⟨b, hb⟩ := getElem?_of_lt (xs := xs) (i := last) (by omega)
      simp only [ne_eq, he, not_false_eq_true, if_true, rd_some ha, rd_some hb, pure_bind]
      rw [wr_eq (by omega)]
      simp only [pure_bind]
      rw [wr_eq (by simpa using hl)]
      simp only [pure_bind]
      have key : ∀ k, ((xs.set first b).set last a)[k]? =
          if k = first then some b else if k = last then some a else xs[k]? := by
        intro k
        rw [List.getElem?_set, List.getElem?_set]
        by_cases h1 : k = first
        · subst h1
          have : ¬ last = k := by omega
          simp [this]; omega
        · by_cases h2 : k = last
          · subst h2; simp [h1]; omega
          · simp [h1, h2, Ne.symm (a := k) h1, Ne.symm (a := k) h2]
      by_cases he2 : first + 1 = last
      · refine ⟨_, if_pos he2, by simp, fun k => ?_⟩
        rw [key]
        by_cases h1 : k = first
        · subst h1
          rw [if_pos rfl, if_pos (by omega), ← hb]; congr 1; omega
        · by_cases h2 : k = last
          · subst h2
            rw [if_neg h1, if_pos rfl, if_pos (by omega), ← ha]; congr 1; omega
          · rw [if_neg h1, if_neg h2, if_neg (by omega)]
      · rw [if_neg he2]
        obtain ⟨ys, h1, h2, h3⟩ := ih ((xs.set first b).set last a) (first + 1) (last - 1)
          (by omega) (by omega) (by simp; omega)
        refine ⟨ys, h1, by simpa using h2, fun k => ?_⟩
        rw [h3 k, key, key]
        by_cases k1 : k = first
        · subst k1
          rw [if_neg (by omega), if_pos rfl, if_pos (by omega), ← hb]; congr 1; omega
        · by_cases k2 : k = last
          · subst k2
            rw [if_neg (by omega), if_neg k1, if_pos rfl, if_pos (by omega), ← ha]; congr 1; omega
          · by_cases k3 : first ≤ k ∧ k ≤ last
            · rw [if_pos (by omega), if_neg (by omega), if_neg (by omega), if_pos k3]
              congr 1; omega
            · rw [if_neg (by omega), if_neg k1, if_neg k2, if_neg k3]

/-- **C73**: `reverse( first, last )` mirrors the range and leaves everything else alone. -/
theorem C73_reverse (xs : List α) (first last : Nat) (hf : first ≤ last) (hlen : last ≤ xs.length) :
    ∃ ys, reverse xs first last = pure ys ∧ ys.length = xs.length ∧
      ∀ k, ys[k]? = if first ≤ k ∧ k < last then xs[first + last - 1 - k]? else xs[k]? := by
  unfold reverse
  by_cases h : first = last
  · refine ⟨xs, if_pos h, rfl, fun k => ?_⟩
    rw [if_neg (by omega)]
  · rw [if_neg h]
    obtain ⟨ys, h1, h2, h3⟩ := reverseLoop_total _ xs first (last - 1) (Nat.le_refl _) (by omega) (by omega)
    refine ⟨ys, h1, h2, fun k => ?_⟩
    rw [h3]
    by_cases hk : first ≤ k ∧ k < last
    · rw [if_pos hk, if_pos (by omega)]; congr 1; omega
    · rw [if_neg hk, if_neg (by omega)]

/-- **C73**: reversing a whole block is list reversal. -/
theorem C73_reverse_all (xs : List α) : reverse xs 0 xs.length = pure xs.reverse := by
  obtain ⟨ys, h1, h2, h3⟩ := C73_reverse xs 0 xs.length (by omega) (by omega)
  rw [h1, pure_inj]
  apply List.ext_getElem?
  intro k
  rw [h3]
  by_cases hk : k < xs.length
  · rw [if_pos (by omega), List.getElem?_reverse hk]; congr 1; omega
  · rw [if_neg (by omega), List.getElem?_eq_none (by omega), List.getElem?_eq_none (by simp; omega)]

example : reverse [3, 1, 4, 1, 5] 0 5 = pure [5, 1, 4, 1, 3] := C73_reverse_all [3, 1, 4, 1, 5]

end Verif.Algorithm
