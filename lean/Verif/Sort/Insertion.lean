import Verif.Sort.Net
import Verif.Algorithm.Sorted

/- The insertion sorts and the `switch` on small lengths. -/

namespace Verif.Sort
open Cxx Verif.Algorithm

variable {α : Type} {lt : α → α → Bool}

theorem sort2_sorts (sw : StrictWeak lt) (xs : List α) (first : Nat) (hlen : first + 2 ≤ xs.length) :
    ∃ ys, sort2 lt xs first (first + 2) = pure ys ∧ SortedFrom lt first (first + 2) xs ys := by
  obtain ⟨a, ha⟩ := getElem?_of_lt (xs := xs) (i := first) (by omega)
  obtain ⟨b, hb⟩ := getElem?_of_lt (xs := xs) (i := first + 1) (by omega)
  unfold sort2
  rw [predIt_pos (by omega)]
  simp only [pure_bind, show first + 2 - 1 = first + 1 by omega, rd_some ha, rd_some hb]
  by_cases h : lt b a
  · obtain ⟨ys, e, hp, hk⟩ := swapAt_rangePerm (first := first) (last := first + 2) hb ha
      (by omega) (by omega) (by omega) (by omega)
    refine ⟨ys, by simp [h, e], hp, ?_⟩
    intro i j x y hi hij hj hx hy
    have : i = first := by omega
    subst this
    have : j = i + 1 := by omega
    subst this
    rw [hk, if_pos rfl] at hx
    rw [hk, if_neg (by omega), if_pos rfl] at hy
    injection hx with hx; injection hy with hy
    subst hx; subst hy
    exact sw.asymm h
  · refine ⟨xs, by simp [h], RangePerm.refl _ _ _, ?_⟩
    intro i j x y hi hij hj hx hy
    have : i = first := by omega
    subst this
    have : j = i + 1 := by omega
    subst this
    rw [ha] at hx; rw [hb] at hy
    injection hx with hx; injection hy with hy
    subst hx; subst hy
    simpa using h

theorem sortedRange_short (xs : List α) (first last : Nat) (h : last ≤ first + 1) :
    SortedRange lt xs first last := by
  intro i j a b; intros; omega

/-- The `switch`: it either falls through for a length of at least 9 or sorts. -/
theorem smallSort_spec (sw : StrictWeak lt) (xs : List α) (first last : Nat) (hf : first ≤ last)
    (hlen : last ≤ xs.length) :
    (smallSort lt xs first last = none ∧ 9 ≤ last - first) ∨
    ∃ ys, smallSort lt xs first last = some (pure ys) ∧ SortedFrom lt first last xs ys := by
  have net : ∀ n nt, WF n nt → (∀ v, BoolSorted 0 n (boolNet nt v)) → last - first = n →
      ∃ ys, some (runNet lt first nt xs) = some (pure ys) ∧ SortedFrom lt first last xs ys := by
    intro n nt wf hs hn
    obtain ⟨ys, e, h⟩ := runNet_sorts sw (first := first) wf hs xs (by omega)
    have : first + n = last := by omega
    rw [this] at h
    exact ⟨ys, by rw [e], h⟩
  unfold smallSort
  split
  · exact Or.inr ⟨xs, rfl, RangePerm.refl _ _ _, sortedRange_short _ _ _ (by omega)⟩
  · exact Or.inr ⟨xs, rfl, RangePerm.refl _ _ _, sortedRange_short _ _ _ (by omega)⟩
  · rename_i h
    have : last = first + 2 := by omega
    subst this
    obtain ⟨ys, e, h⟩ := sort2_sorts sw xs first hlen
    exact Or.inr ⟨ys, by rw [e], h⟩
  · rename_i h; exact Or.inr (net 3 net3 (by decide) net3_sorts h)
  · rename_i h; exact Or.inr (net 4 net4 (by decide) net4_sorts h)
  · rename_i h; exact Or.inr (net 5 net5 (by decide) net5_sorts h)
  · rename_i h; exact Or.inr (net 6 net6 (by decide) net6_sorts h)
  · rename_i h; exact Or.inr (net 7 net7 (by decide) net7_sorts h)
  · rename_i h; exact Or.inr (net 8 net8 (by decide) net8_sorts h)
  · rename_i h; exact Or.inr (net 16 net16 (by decide +kernel) net16_sorts h)
  · rename_i h; exact Or.inr (net 32 net32 (by decide +kernel) net32_sorts h)
  · left
    refine ⟨rfl, ?_⟩
    simp only [imp_false] at *
    omega

/-- State of the shifting loop: the block `ys` with `t` put into cell `j` is a rearrangement of
`xs`, sorted except for `t`, and all elements after `t` are greater. (Specification, no line of the source.) -/
structure ShiftInv (lt : α → α → Bool) (t : α) (first i : Nat) (xs ys : List α) (j : Nat) : Prop where
  hj1 : first ≤ j
  hj2 : j ≤ i
  perm : RangePerm first (i + 1) xs (ys.set j t)
  sorted : ∀ a b x y, first ≤ a → a < b → b ≤ i → a ≠ j → b ≠ j →
    ys[a]? = some x → ys[b]? = some y → lt y x = false
  greater : ∀ b y, j < b → b ≤ i → ys[b]? = some y → lt t y = true

theorem ShiftInv.step {t : α} {first i : Nat} {xs ys : List α} {k : Nat} {x : α}
    (h : ShiftInv lt t first i xs ys (k + 1)) (hk : first ≤ k) (hx : ys[k]? = some x)
    (hi : i < ys.length) (ht : lt t x = true) : ShiftInv lt t first i xs (ys.set (k + 1) x) k := by
  have hkl : k + 1 < ys.length := by have := h.hj2; omega
  have get : ∀ b, (ys.set (k + 1) x)[b]? = if b = k + 1 then some x else ys[b]? := by
    intro b
    rw [List.getElem?_set]
    by_cases hb : b = k + 1
    · subst hb; simp [hkl]
    · simp [hb, Ne.symm hb]
  refine ⟨hk, by have := h.hj2; omega, ?_, ?_, ?_⟩
  · refine h.perm.trans ⟨by simp, ?_, ?_⟩
    · intro b hb
      have := h.hj2
      rw [List.getElem?_set_ne (by omega), List.getElem?_set_ne (by omega), List.getElem?_set_ne (by omega)]
    · have h1 : k + 1 < (ys.set (k + 1) t).length := by simpa using hkl
      have h2 : k < (ys.set (k + 1) t).length := by simp; omega
      have := List.set_set_perm h1 h2
      obtain ⟨hk', hx'⟩ := List.getElem?_eq_some_iff.1 hx
      have e1 : (ys.set (k + 1) t)[k] = x := by
        rw [List.getElem_set_ne (by omega)]; exact hx'
      have e2 : (ys.set (k + 1) t)[k + 1] = t := by simp
      rw [e1, e2, List.set_set] at this
      exact this
  · intro a b u v ha hab hb hak hbk hu hv
    rw [get] at hu hv
    by_cases h1 : a = k + 1
    · subst h1
      rw [if_pos rfl] at hu
      rw [if_neg (by omega)] at hv
      injection hu with hu; subst hu
      exact h.sorted k b x v hk (by omega) hb (by omega) (by omega) hx hv
    · rw [if_neg h1] at hu
      by_cases h2 : b = k + 1
      · subst h2
        rw [if_pos rfl] at hv
        injection hv with hv; subst hv
        exact h.sorted a k u x ha (by omega) (by omega) h1 (by omega) hu hx
      · rw [if_neg h2] at hv
        exact h.sorted a b u v ha hab hb h1 h2 hu hv
  · intro b y hkb hb hy
    rw [get] at hy
    by_cases h2 : b = k + 1
    · rw [if_pos h2] at hy
      injection hy with hy; subst hy; exact ht
    · rw [if_neg h2] at hy
      exact h.greater b y (by omega) hb hy

theorem shiftLoop_spec (sw : StrictWeak lt) (t : α) (first i : Nat) (xs : List α) :
    ∀ (k : Nat) (ys : List α) (x : α), ShiftInv lt t first i xs ys (k + 1) → first ≤ k →
      ys[k]? = some x → lt t x = true → i < ys.length →
      ∃ zs j, shiftLoop lt t first ys (k + 1) k = pure (zs, j) ∧ j < zs.length ∧
        SortedFrom lt first (i + 1) xs (zs.set j t) := by
  intro k
  induction k with
  | zero =>
    intro ys x h hk hx ht hi
    have hj := h.hj2
    have hinv := h.step hk hx hi ht
    rw [shiftLoop, rd_some hx]
    simp only [pure_bind]
    rw [wr_eq (by omega)]
    simp only [pure_bind]
    have : first = 0 := by omega
    subst this
    refine ⟨_, _, rfl, by simp; omega, hinv.perm, ?_⟩
    intro a b u v ha hab hb hu hv
    rw [List.getElem?_set] at hu hv
    rw [if_neg (by omega)] at hv
    by_cases h0 : a = 0
    · subst h0
      rw [if_pos rfl, if_pos (by simp; omega)] at hu
      injection hu with hu; subst hu
      exact sw.asymm (hinv.greater b v (by omega) (by omega) hv)
    · rw [if_neg (by omega)] at hu
      exact hinv.sorted a b u v ha hab (by omega) (by omega) (by omega) hu hv
  | succ k ih =>
    intro ys x h hk hx ht hi
    have hj := h.hj2
    have hinv := h.step hk hx hi ht
    have hlen : (ys.set (k + 1 + 1) x).length = ys.length := by simp
    rw [shiftLoop, rd_some hx]
    simp only [pure_bind]
    rw [wr_eq (by omega)]
    simp only [pure_bind]
    -- the state in which the loop may stop
    have stop : (∀ a u, first ≤ a → a < k + 1 → (ys.set (k + 1 + 1) x)[a]? = some u → lt t u = false) →
        SortedFrom lt first (i + 1) xs ((ys.set (k + 1 + 1) x).set (k + 1) t) := by
      intro hle
      refine ⟨hinv.perm, ?_⟩
      intro a b u v ha hab hb hu hv
      rw [List.getElem?_set] at hu hv
      by_cases h1 : k + 1 = a
      · rw [if_pos h1, if_pos (by omega)] at hu
        rw [if_neg (by omega)] at hv
        injection hu with hu; subst hu
        exact sw.asymm (hinv.greater b v (by omega) (by omega) hv)
      · rw [if_neg h1] at hu
        by_cases h2 : k + 1 = b
        · rw [if_pos h2, if_pos (by omega)] at hv
          injection hv with hv; subst hv
          exact hle a u ha (by omega) hu
        · rw [if_neg h2] at hv
          exact hinv.sorted a b u v ha hab (by omega) (by omega) (by omega) hu hv
    by_cases hfirst : k + 1 = first
    · refine ⟨_, _, by rw [if_neg (by omega)], by omega, stop ?_⟩
      intros; omega
    · rw [if_pos hfirst, predIt_pos (by omega)]
      simp only [pure_bind, Nat.add_sub_cancel]
      obtain ⟨y, hy⟩ := getElem?_of_lt (xs := ys.set (k + 1 + 1) x) (i := k) (by omega)
      rw [rd_some hy]
      simp only [pure_bind]
      by_cases hty : lt t y
      · simp only [hty, if_true]
        exact ih _ y hinv (by omega) hy hty (by omega)
      · refine ⟨_, _, by simp [hty], by omega, stop ?_⟩
        intro a u ha hak hu
        by_cases hak' : a = k
        · subst hak'
          rw [hy] at hu; injection hu with hu; subst hu; simpa using hty
        · exact sw.incomp _ _ _ (by simpa using hty)
            (hinv.sorted a k u y ha (by omega) (by omega) (by omega) (by omega) hu hy)

/-- One insertion extends the sorted prefix by one element. -/
theorem insertAt_spec (sw : StrictWeak lt) (xs : List α) (first j : Nat) (a b : α) (hf : first ≤ j)
    (hlen : j + 1 < xs.length) (hs : SortedRange lt xs first (j + 1)) (ha : xs[j + 1]? = some a)
    (hb : xs[j]? = some b) (hab : lt a b = true) :
    ∃ ys, insertAt lt xs first (j + 1) j = pure ys ∧ SortedFrom lt first (j + 2) xs ys := by
  unfold insertAt
  rw [rd_some ha]
  simp only [pure_bind]
  have hset : xs.set (j + 1) a = xs := by
    apply List.ext_getElem?
    intro k
    rw [List.getElem?_set]
    by_cases hk : j + 1 = k
    · subst hk; rw [if_pos rfl, if_pos hlen, ha]
    · rw [if_neg hk]
  have inv : ShiftInv lt a first (j + 1) xs xs (j + 1) := by
    refine ⟨by omega, by omega, by rw [hset]; exact RangePerm.refl _ _ _, ?_, ?_⟩
    · intro p q u v hp hpq hq hpj hqj hu hv
      exact hs p q u v hp hpq (by omega) hu hv
    · intros; omega
  obtain ⟨zs, k, e, hk, hsorted⟩ := shiftLoop_spec sw a first (j + 1) xs j xs b inv hf hb hab (by omega)
  rw [e]
  simp only [pure_bind]
  exact ⟨_, wr_eq hk, hsorted⟩

theorem SortedFrom.trans_left {first last : Nat} {xs ys zs : List α} (h : SortedFrom lt first last ys zs)
    (h1 : RangePerm first last xs ys) : SortedFrom lt first last xs zs :=
  ⟨h1.trans h.rangePerm, h.sorted⟩

theorem insertionLoop_spec (sw : StrictWeak lt) (first last : Nat) :
    ∀ n (xs : List α) (j : Nat), last - (j + 1) = n → first ≤ j → j < last → last ≤ xs.length →
      SortedRange lt xs first (j + 1) →
      ∃ ys, insertionLoop lt first last xs (j + 1) j = pure ys ∧ SortedFrom lt first last xs ys := by
  intro n
  induction n with
  | zero =>
    intro xs j hn hf hj hlen hs
    have : j + 1 = last := by omega
    rw [insertionLoop]
    exact ⟨xs, by simp [this], RangePerm.refl _ _ _, this ▸ hs⟩
  | succ n ih =>
    intro xs j hn hf hj hlen hs
    obtain ⟨a, ha⟩ := getElem?_of_lt (xs := xs) (i := j + 1) (by omega)
    obtain ⟨b, hb⟩ := getElem?_of_lt (xs := xs) (i := j) (by omega)
    rw [insertionLoop, if_pos (by omega), rd_some ha, rd_some hb]
    simp only [pure_bind]
    by_cases h : lt a b
    · obtain ⟨ys, e, hy⟩ := insertAt_spec sw xs first j a b hf (by omega) hs ha hb h
      simp only [h, if_true, e, pure_bind]
      obtain ⟨zs, e', hz⟩ := ih ys (j + 1) (by omega) (by omega) (by omega)
        (by rw [hy.rangePerm.length_eq]; exact hlen) hy.sorted
      exact ⟨zs, e', hz.trans_left (hy.rangePerm.mono (Nat.le_refl _) (by omega))⟩
    · simp only [h, Bool.false_eq_true, if_false]
      exact ih xs (j + 1) (by omega) (by omega) (by omega) hlen
        (SortedRange.extend sw hs hb ha (by simpa using h))

theorem insertionSort3_spec (sw : StrictWeak lt) (xs : List α) (first last : Nat)
    (hf : first + 3 ≤ last) (hlen : last ≤ xs.length) :
    ∃ ys, insertionSort3 lt xs first last = pure ys ∧ SortedFrom lt first last xs ys := by
  obtain ⟨ys, e, h⟩ := runNet_sorts sw (first := first) (n := 3) (by decide) net3_sorts xs (by omega)
  unfold insertionSort3
  rw [e]
  simp only [pure_bind]
  obtain ⟨zs, e', hz⟩ := insertionLoop_spec sw first last _ ys (first + 2) rfl (by omega) (by omega)
    (by rw [h.rangePerm.length_eq]; exact hlen) h.sorted
  exact ⟨zs, e', hz.trans_left (h.rangePerm.mono (Nat.le_refl _) (by omega))⟩

theorem insertionIncLoop_spec (sw : StrictWeak lt) (first last : Nat) :
    ∀ n (xs : List α) (j c : Nat), last - (j + 1) = n → first ≤ j → j < last → last ≤ xs.length →
      SortedRange lt xs first (j + 1) →
      ∃ ys b, insertionIncLoop lt first last xs (j + 1) j c = pure (ys, b) ∧
        RangePerm first last xs ys ∧ (b = true → SortedRange lt ys first last) := by
  intro n
  induction n with
  | zero =>
    intro xs j c hn hf hj hlen hs
    have : j + 1 = last := by omega
    rw [insertionIncLoop]
    exact ⟨xs, true, by simp [this], RangePerm.refl _ _ _, fun _ => this ▸ hs⟩
  | succ n ih =>
    intro xs j c hn hf hj hlen hs
    obtain ⟨a, ha⟩ := getElem?_of_lt (xs := xs) (i := j + 1) (by omega)
    obtain ⟨b, hb⟩ := getElem?_of_lt (xs := xs) (i := j) (by omega)
    rw [insertionIncLoop, if_pos (by omega), rd_some ha, rd_some hb]
    simp only [pure_bind]
    by_cases h : lt a b
    · obtain ⟨ys, e, hy⟩ := insertAt_spec sw xs first j a b hf (by omega) hs ha hb h
      simp only [h, if_true, e, pure_bind]
      have hp := hy.rangePerm.mono (Nat.le_refl first) (show j + 2 ≤ last by omega)
      by_cases hc : c + 1 = 8
      · refine ⟨ys, j + 1 + 1 == last, by simp [hc], hp, fun hb' => ?_⟩
        have : j + 2 = last := by simpa using hb'
        exact this ▸ hy.sorted
      · obtain ⟨zs, b', e', hz, hs'⟩ := ih ys (j + 1) (c + 1) (by omega) (by omega) (by omega)
          (by rw [hy.rangePerm.length_eq]; exact hlen) hy.sorted
        exact ⟨zs, b', by simp [hc, e'], hp.trans hz, hs'⟩
    · simp only [h, Bool.false_eq_true, if_false]
      exact ih xs (j + 1) c (by omega) (by omega) (by omega) hlen
        (SortedRange.extend sw hs hb ha (by simpa using h))

/-- `sort_3_impl` on three different positions of the range. -/
theorem sort3Impl_spec (sw : StrictWeak lt) (xs : List α) (first last p q r : Nat)
    (hp : first ≤ p ∧ p < last) (hq : first ≤ q ∧ q < last) (hr : first ≤ r ∧ r < last)
    (hpq : p ≠ q) (hpr : p ≠ r) (hqr : q ≠ r) (hlen : last ≤ xs.length) :
    ∃ ys d, sort3Impl lt xs p q r = pure (ys, d) ∧ RangePerm first last xs ys ∧
      (∀ x y, ys[p]? = some x → ys[q]? = some y → lt y x = false) ∧
      (∀ x y, ys[q]? = some x → ys[r]? = some y → lt y x = false) ∧
      (∀ x y, ys[p]? = some x → ys[r]? = some y → lt y x = false) := by
  have cases3 : ∀ i, i < 3 → i = 0 ∨ i = 1 ∨ i = 2 := by intro i hi; omega
  obtain ⟨ys, d, e, h1, h2⟩ := runNet2_view sw (pos := fun k => [p, q, r].getD k 0) (n := 3)
    (first := first) (last := last) (net := net3Impl)
    (by
      intro i j hi hj hij
      rcases cases3 i hi with rfl | rfl | rfl <;> rcases cases3 j hj with rfl | rfl | rfl <;>
        simp at hij <;> omega)
    (by intro i hi; rcases cases3 i hi with rfl | rfl | rfl <;> simpa) (by decide) xs 0 hlen
  have hv : ∀ t, BoolSorted 0 3 (view lt (fun k => [p, q, r].getD k 0) ys t) := by
    intro t i j hi hij hj hvi
    rw [h2 t i (by omega)] at hvi
    rw [h2 t j (by omega)]
    exact net3_sorts _ i j hi hij hj hvi
  have hs := sorted_of_views sw hv
  exact ⟨ys, d, e, h1, fun x y => hs 0 1 x y (by omega) (by omega),
    fun x y => hs 1 2 x y (by omega) (by omega), fun x y => hs 0 2 x y (by omega) (by omega)⟩

/-- `sort_5_impl` on five different positions of the range. -/
theorem sort5Impl_spec (sw : StrictWeak lt) (xs : List α) (first last p q r s u : Nat)
    (hp : first ≤ p) (hpq : p < q) (hqr : q < r) (hrs : r < s) (hsu : s < u) (hu : u < last)
    (hlen : last ≤ xs.length) :
    ∃ ys d, sort5Impl lt xs p q r s u = pure (ys, d) ∧ RangePerm first last xs ys ∧
      (∀ x y, ys[p]? = some x → ys[r]? = some y → lt y x = false) ∧
      (∀ x y, ys[r]? = some x → ys[u]? = some y → lt y x = false) := by
  have cases5 : ∀ i, i < 5 → i = 0 ∨ i = 1 ∨ i = 2 ∨ i = 3 ∨ i = 4 := by intro i hi; omega
  obtain ⟨ys, d, e, h1, h2⟩ := runNet2_view sw (pos := fun k => [p, q, r, s, u].getD k 0) (n := 5)
    (first := first) (last := last) (net := net5Impl)
    (by
      intro i j hi hj hij
      rcases cases5 i hi with rfl | rfl | rfl | rfl | rfl <;>
        rcases cases5 j hj with rfl | rfl | rfl | rfl | rfl <;> simp at hij <;> omega)
    (by intro i hi; rcases cases5 i hi with rfl | rfl | rfl | rfl | rfl <;> simp <;> omega)
    (by decide) xs 0 hlen
  have hv : ∀ t, BoolSorted 0 5 (view lt (fun k => [p, q, r, s, u].getD k 0) ys t) := by
    intro t i j hi hij hj hvi
    rw [h2 t i (by omega)] at hvi
    rw [h2 t j (by omega)]
    exact net5_sorts _ i j hi hij hj hvi
  have hs := sorted_of_views sw hv
  exact ⟨ys, d, e, h1, fun x y => hs 0 2 x y (by omega) (by omega),
    fun x y => hs 2 4 x y (by omega) (by omega)⟩

theorem insertionSortIncomplete_spec (sw : StrictWeak lt) (xs : List α) (first last : Nat)
    (hf : first ≤ last) (hlen : last ≤ xs.length) :
    ∃ ys b, insertionSortIncomplete lt xs first last = pure (ys, b) ∧
      RangePerm first last xs ys ∧ (b = true → SortedRange lt ys first last) := by
  unfold insertionSortIncomplete
  rcases smallSort_spec sw xs first last hf hlen with ⟨e, h9⟩ | ⟨ys, e, h⟩
  · rw [e]
    simp only []
    obtain ⟨ys, d, e', hp, h1, h2, h3⟩ := sort3Impl_spec sw xs first (first + 3) first (first + 1) (first + 2)
      (by omega) (by omega) (by omega) (by omega) (by omega) (by omega) (by omega)
    rw [e']
    simp only [pure_bind]
    have hp' := hp.mono (Nat.le_refl first) (show first + 3 ≤ last by omega)
    obtain ⟨zs, b, e'', hz, hs⟩ := insertionIncLoop_spec sw first last _ ys (first + 2) 0 rfl
      (by omega) (by omega) (by rw [hp.length_eq]; exact hlen) (by
        intro i j x y hi hij hj hx hy
        have : (i = first ∧ j = first + 1) ∨ (i = first ∧ j = first + 2) ∨
            (i = first + 1 ∧ j = first + 2) := by omega
        rcases this with ⟨rfl, rfl⟩ | ⟨rfl, rfl⟩ | ⟨rfl, rfl⟩
        · exact h1 x y hx hy
        · exact h3 x y hx hy
        · exact h2 x y hx hy)
    exact ⟨zs, b, e'', hp'.trans hz, hs⟩
  · rw [e]
    exact ⟨ys, true, rfl, h.rangePerm, fun _ => h.sorted⟩

end Verif.Sort
