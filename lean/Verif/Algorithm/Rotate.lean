import Verif.Algorithm.SwapRanges
import Verif.Sort.Perm

/-
include/daw/daw_algorithm_cx.h. `slide`, 46-64, does not compile, as `rotate` returns nothing.
-/

namespace Verif.Algorithm
open Cxx
variable {α : Type}

/-- The loop of `rotate`, daw_algorithm_cx.h 33-43. -/
def rotateLoop (xs : List α) (first tmp middle last : Nat) : Cxx (List α) :=
  if first ≠ tmp then do
    let xs ← cswapTrivial xs first tmp
    let first := first + 1
    let tmp := tmp + 1
    if tmp = last then rotateLoop xs first middle middle last
    else if first = middle then rotateLoop xs first tmp tmp last
    else rotateLoop xs first tmp middle last
  else pure xs
partial_fixpoint

/-- `rotate`, daw_algorithm_cx.h 25-44. -/
def rotate (xs : List α) (first middle last : Nat) : Cxx (List α) := rotateLoop xs first middle middle last

/-- The inner loop of `nth_element`, daw_algorithm_cx.h 85-91. -/
def nthInner (comp : α → α → Bool) (xs : List α) (first minIdx j last : Nat) : Cxx (List α) :=
  if j ≠ last then do
    let a ← rd xs j
    let b ← rd xs minIdx
    if comp a b then do
      let xs ← cswapTrivial xs first j
      nthInner comp xs first j (j + 1) last
    else nthInner comp xs first minIdx (j + 1) last
  else pure xs
partial_fixpoint

/-- The outer loop of `nth_element`, daw_algorithm_cx.h 82-93; `daw::next` of an iterator that is not the last. -/
def nthOuter (comp : α → α → Bool) (xs : List α) (first nth last : Nat) : Cxx (List α) :=
  if first ≠ nth then do
    let xs ← nthInner comp xs first first (first + 1) last
    nthOuter comp xs (first + 1) nth last
  else pure xs
partial_fixpoint

/-- `nth_element`, daw_algorithm_cx.h 66-93. -/
def nthElement (comp : α → α → Bool) (xs : List α) (first nth last : Nat) : Cxx (List α) :=
  if first ≠ last then nthOuter comp xs first nth last else pure xs

/-- The loop of `partition`, daw_algorithm_cx.h 109-114. -/
def partLoopCx (p : α → Bool) (xs : List α) (first it last : Nat) : Cxx (List α × Nat) :=
  if it ≠ last then do
    let a ← rd xs it
    if p a then do
      let xs ← iterSwap xs it first
      partLoopCx p xs (first + 1) (it + 1) last
    else partLoopCx p xs first (it + 1) last
  else pure (xs, first)
partial_fixpoint

/-- `partition`, daw_algorithm_cx.h 95-116. -/
def partitionCx (p : α → Bool) (xs : List α) (first last : Nat) : Cxx (List α × Nat) := do
  let first ← findIfNot p xs first last
  if first = last then pure (xs, first)
  else partLoopCx p xs first (first + 1) last

theorem swap_parts (A B C : List α) (x y : α) {i j : Nat} (hi : i = A.length) (hj : j = A.length + 1 + B.length) :
    iterSwap (A ++ x :: (B ++ y :: C)) i j = pure (A ++ y :: (B ++ x :: C)) ∧
    iterSwap (A ++ x :: (B ++ y :: C)) j i = pure (A ++ y :: (B ++ x :: C)) ∧
    cswapTrivial (A ++ x :: (B ++ y :: C)) i j = pure (A ++ y :: (B ++ x :: C)) := by
  have l : (A ++ x :: (B ++ y :: C)).length = A.length + 1 + B.length + 1 + C.length := by simp; omega
  have h1 : i < (A ++ x :: (B ++ y :: C)).length := by omega
  have h2 : j < (A ++ x :: (B ++ y :: C)).length := by omega
  have gi : (A ++ x :: (B ++ y :: C))[i]? = some x := by subst hi; simp
  have gj : (A ++ x :: (B ++ y :: C))[j]? = some y := by
    subst hj
    rw [List.getElem?_append_right (by omega), show A.length + 1 + B.length - A.length = B.length + 1 by omega, List.getElem?_cons_succ,
      List.getElem?_append_right (by omega), Nat.sub_self]
    rfl
  have target : ∀ ys : List α, ys.length = (A ++ x :: (B ++ y :: C)).length → ys[i]? = some y → ys[j]? = some x →
      (∀ k, k ≠ i → k ≠ j → ys[k]? = (A ++ x :: (B ++ y :: C))[k]?) → ys = A ++ y :: (B ++ x :: C) := by
    intro ys hl e1 e2 e3
    apply List.ext_getElem?
    intro k
    by_cases k1 : k = i
    · subst k1; rw [e1]; subst hi; simp
    · by_cases k2 : k = j
      · subst k2; rw [e2]; subst hj
        rw [List.getElem?_append_right (by omega), show A.length + 1 + B.length - A.length = B.length + 1 by omega, List.getElem?_cons_succ,
          List.getElem?_append_right (by omega), Nat.sub_self]
        rfl
      · rw [e3 k k1 k2]
        rcases Nat.lt_or_ge k A.length with g | g
        · rw [List.getElem?_append_left g, List.getElem?_append_left g]
        · rw [List.getElem?_append_right g, List.getElem?_append_right g]
          obtain ⟨m, hm⟩ : ∃ m, k - A.length = m + 1 := ⟨k - A.length - 1, by omega⟩
          rw [hm, List.getElem?_cons_succ, List.getElem?_cons_succ]
          rcases Nat.lt_or_ge m B.length with g' | g'
          · rw [List.getElem?_append_left g', List.getElem?_append_left g']
          · rw [List.getElem?_append_right g', List.getElem?_append_right g']
            obtain ⟨m', hm'⟩ : ∃ m', m - B.length = m' + 1 := ⟨m - B.length - 1, by omega⟩
            rw [hm', List.getElem?_cons_succ, List.getElem?_cons_succ]
  obtain ⟨ys, e1, e2, hl, a1, a2, a3⟩ := C163_swap _ i j h1 h2
  have e := target ys hl (a1.trans gj) (a2.trans gi) a3
  obtain ⟨zs, f1, _, hl', b1, b2, b3⟩ := C163_swap _ j i h2 h1
  have f := target zs hl' (b2.trans gj) (b1.trans gi) (fun k k1 k2 => b3 k k2 k1)
  subst e f
  exact ⟨e1, f1, e2⟩

theorem rotateLoop_spec (B : List α) : ∀ (n : Nat) (A X Y Z : List α) (first tmp middle last : Nat),
    X.length + Y.length + Z.length = n → (X = [] → Y = []) → Z ≠ [] →
    first = A.length → middle = A.length + X.length → tmp = middle + Y.length → last = tmp + Z.length →
    rotateLoop (A ++ X ++ Y ++ Z ++ B) first tmp middle last = pure (A ++ Z ++ Y ++ X ++ B) := by
  intro n
  induction n with
  | zero => intro A X Y Z _ _ _ _ hn _ hz; exact absurd (List.length_eq_zero_iff.mp (by omega)) hz
  | succ n ih =>
    intro A X Y Z first tmp middle last hn hxy hz hf hm ht hl
    cases X with
    | nil =>
      have hy := hxy rfl
      subst hy
      rw [rotateLoop, if_neg (by simp at hm ht; omega)]
      simp
    | cons x X =>
      cases Z with
      | nil => exact absurd rfl hz
      | cons z Z =>
        simp only [List.length_cons] at hn hm hl
        rw [rotateLoop, if_pos (by omega)]
        have hs := (swap_parts A (X ++ Y) (Z ++ B) x z (i := first) (j := tmp) hf (by rw [List.length_append]; omega)).2.2
        have e0 : A ++ x :: X ++ Y ++ z :: Z ++ B = A ++ x :: (X ++ Y ++ z :: (Z ++ B)) := by simp
        rw [e0, hs, pure_bind]
        simp only []
        by_cases hlast : tmp + 1 = last
        · have hZ : Z = [] := List.length_eq_zero_iff.mp (by omega)
          subst hZ
          rw [if_pos hlast]
          have := ih (A ++ [z]) X [] (Y ++ [x]) (first + 1) middle middle last (by simp at hn ⊢; omega) (fun _ => rfl) (by simp)
            (by simp; omega) (by simp; omega) (by simp) (by simp at hl ⊢; omega)
          have e1 : A ++ z :: (X ++ Y ++ x :: ([] ++ B)) = A ++ [z] ++ X ++ [] ++ (Y ++ [x]) ++ B := by simp
          rw [e1, this]
          simp
        · rw [if_neg hlast]
          have hZ : Z ≠ [] := by intro e; subst e; simp at hl; omega
          by_cases hmid : first + 1 = middle
          · have hX : X = [] := List.length_eq_zero_iff.mp (by omega)
            subst hX
            rw [if_pos hmid]
            have := ih (A ++ [z]) (Y ++ [x]) [] Z (first + 1) (tmp + 1) (tmp + 1) last (by simp at hn ⊢; omega) (by simp) hZ
              (by simp; omega) (by simp; omega) (by simp) (by omega)
            have e1 : A ++ z :: ([] ++ Y ++ x :: (Z ++ B)) = A ++ [z] ++ (Y ++ [x]) ++ [] ++ Z ++ B := by simp
            rw [e1, this]
            simp
          · rw [if_neg hmid]
            have hX : X ≠ [] := by intro e; subst e; simp at hm; omega
            have := ih (A ++ [z]) X (Y ++ [x]) Z (first + 1) (tmp + 1) middle last (by simp; omega) (fun e => absurd e hX) hZ
              (by simp; omega) (by simp; omega) (by simp; omega) (by omega)
            have e1 : A ++ z :: (X ++ Y ++ x :: (Z ++ B)) = A ++ [z] ++ X ++ (Y ++ [x]) ++ Z ++ B := by simp
            rw [e1, this]
            simp

/-- `rotate` exchanges the two parts of the range, each of them in its order, and touches nothing else, unless the second part is empty. -/
theorem C170_rotate_partial (pre left right post : List α) (h : right ≠ []) :
    rotate (pre ++ left ++ right ++ post) pre.length (pre.length + left.length) (pre.length + left.length + right.length) =
      pure (pre ++ right ++ left ++ post) := by
  have := rotateLoop_spec post _ pre left [] right pre.length (pre.length + left.length) (pre.length + left.length)
    (pre.length + left.length + right.length) rfl (fun _ => rfl) h rfl rfl rfl rfl
  simp only [List.append_nil] at this
  exact this

example : rotate [0, 1, 2, 3, 4, 5, 9] 1 3 6 = pure [0, 3, 4, 5, 1, 2, 9] := C170_rotate_partial [0] [1, 2] [3, 4, 5] [9] (by simp)

theorem rotateLoop_ub (last : Nat) : ∀ (n : Nat) (xs : List α) (first tmp middle : Nat), xs.length - tmp = n → first < tmp → last ≤ tmp →
    rotateLoop xs first tmp middle last = ub := by
  intro n
  induction n with
  | zero =>
    intro xs first tmp middle hn hf hl
    rw [rotateLoop, if_pos (by omega)]
    unfold cswapTrivial
    rcases Nat.lt_or_ge first xs.length with g | g
    · rw [rd_eq g, pure_bind, rd_oob (by omega)]; rfl
    · rw [rd_oob g]; rfl
  | succ n ih =>
    intro xs first tmp middle hn hf hl
    rw [rotateLoop, if_pos (by omega)]
    obtain ⟨ys, _, e, hlen, _⟩ := C163_swap xs first tmp (by omega) (by omega)
    rw [e, pure_bind]
    simp only []
    rw [if_neg (by omega)]
    split
    · exact ih _ _ _ _ (by omega) (by omega) (by omega)
    · exact ih _ _ _ _ (by omega) (by omega) (by omega)

/-- With `middle == last`, for which there is nothing to do, it runs out of the array, whatever is behind the range. -/
theorem C170_rotate_violated (pre left post : List α) (h : left ≠ []) :
    rotate (pre ++ left ++ post) pre.length (pre.length + left.length) (pre.length + left.length) = ub := by
  have hlen := List.length_pos_iff.mpr h
  exact rotateLoop_ub _ _ _ _ _ _ rfl (by omega) (by omega)

example : rotate [1, 2, 3, 4] 1 3 3 = ub := C170_rotate_violated [1] [2, 3] [4] (by decide)

/-! ### nth_element -/

theorem cswap_rangePerm {xs : List α} {first last i j : Nat} (hl : last ≤ xs.length) (h1 : first ≤ i) (h2 : i < last) (h3 : first ≤ j) (h4 : j < last) :
    ∃ ys, cswapTrivial xs i j = pure ys ∧ Sort.RangePerm first last xs ys := by
  have hi : i < xs.length := by omega
  have hj : j < xs.length := by omega
  obtain ⟨ys, e, hp, _⟩ := Sort.swapAt_rangePerm (List.getElem?_eq_getElem hi) (List.getElem?_eq_getElem hj) h1 h2 h3 h4
  obtain ⟨ys', e1, e2, _⟩ := C163_swap xs i j hi hj
  have : iterSwap xs i j = Sort.swapAt xs i j := rfl
  rw [this, e] at e1
  have := pure_inj.mp e1
  subst this
  exact ⟨ys, e2, hp⟩

theorem nthInner_spec (comp : α → α → Bool) (last : Nat) : ∀ (n : Nat) (xs : List α) (first minIdx j : Nat), j + n = last → last ≤ xs.length →
    first < last → minIdx < last → first ≤ minIdx → first ≤ j →
    ∃ ys, nthInner comp xs first minIdx j last = pure ys ∧ Sort.RangePerm first last xs ys := by
  intro n
  induction n with
  | zero =>
    intro xs first minIdx j hn _ _ _ _ _
    rw [nthInner, if_neg (by omega)]
    exact ⟨xs, rfl, .refl _ _ _⟩
  | succ n ih =>
    intro xs first minIdx j hn hl hf hm hm' hj
    rw [nthInner, if_pos (by omega), rd_eq (by omega), pure_bind, rd_eq (by omega), pure_bind]
    split
    · obtain ⟨ys, e, hp⟩ := cswap_rangePerm (first := first) hl (Nat.le_refl _) hf hj (by omega : j < last)
      obtain ⟨zs, e', hp'⟩ := ih ys first j (j + 1) (by omega) (by rw [hp.length_eq]; exact hl) hf (by omega) hj (by omega)
      exact ⟨zs, by rw [e, pure_bind, e'], hp.trans hp'⟩
    · exact ih xs first minIdx (j + 1) (by omega) hl hf hm hm' (by omega)

/-- `nth_element` ends without undefined behaviour and only rearranges the elements of the range. -/
theorem C171_nth_element_partial (comp : α → α → Bool) (xs : List α) (first nth last : Nat) (h1 : first ≤ nth) (h2 : nth ≤ last) (h3 : last ≤ xs.length) :
    ∃ ys, nthElement comp xs first nth last = pure ys ∧ Sort.RangePerm first last xs ys := by
  have key : ∀ (n : Nat) (xs : List α) (first : Nat), first + n = nth → last ≤ xs.length →
      ∃ ys, nthOuter comp xs first nth last = pure ys ∧ Sort.RangePerm first last xs ys := by
    intro n
    induction n with
    | zero =>
      intro xs first hn _
      rw [nthOuter, if_neg (by omega)]
      exact ⟨xs, rfl, .refl _ _ _⟩
    | succ n ih =>
      intro xs first hn hl
      rw [nthOuter, if_pos (by omega)]
      obtain ⟨ys, e, hp⟩ := nthInner_spec comp last (last - (first + 1)) xs first first (first + 1) (by omega) hl (by omega) (by omega) (by omega) (by omega)
      obtain ⟨zs, e', hp'⟩ := ih ys (first + 1) (by omega) (by rw [hp.length_eq]; exact hl)
      exact ⟨zs, by rw [e, pure_bind, e'], hp.trans (hp'.mono (by omega) (Nat.le_refl _))⟩
  unfold nthElement
  split
  · exact key (nth - first) xs first (by omega) h3
  · exact ⟨xs, rfl, .refl _ _ _⟩

/-- The element at `nth` is not the one that belongs there: the loop stops before it looks for it, and what it puts in the places before `nth` are not the smallest
elements, as it compares with the element that it has just swapped away. -/
theorem C171_nth_element_violated :
    nthElement (fun a b : Nat => decide (a < b)) [2, 1] 0 0 2 = pure [2, 1] ∧
    nthElement (fun a b : Nat => decide (a < b)) [3, 1, 2] 0 1 3 = pure [2, 3, 1] := by
  constructor
  · rw [nthElement, if_pos (by decide), nthOuter, if_neg (by decide)]
  · rw [nthElement, if_pos (by decide), nthOuter, if_pos (by decide)]
    rw [nthInner, if_pos (by decide)]
    simp only [rd_some (show [3, 1, 2][0 + 1]? = some 1 from rfl), rd_some (show [3, 1, 2][0]? = some 3 from rfl), pure_bind]
    rw [if_pos (by decide), show cswapTrivial [3, 1, 2] 0 (0 + 1) = pure [1, 3, 2] by decide +kernel, pure_bind]
    rw [nthInner, if_pos (by decide)]
    simp only [rd_some (show [1, 3, 2][0 + 1 + 1]? = some 2 from rfl), rd_some (show [1, 3, 2][0 + 1]? = some 3 from rfl), pure_bind]
    rw [if_pos (by decide), show cswapTrivial [1, 3, 2] 0 (0 + 1 + 1) = pure [2, 3, 1] by decide +kernel, pure_bind]
    rw [nthInner, if_neg (by decide), pure_bind, nthOuter, if_neg (by decide)]

example : ∃ ys, nthElement (fun a b : Nat => decide (a < b)) [9, 3, 1, 2] 1 2 4 = pure ys ∧ Sort.RangePerm 1 4 [9, 3, 1, 2] ys :=
  C171_nth_element_partial _ _ _ _ _ (by decide) (by decide) (by decide)

/-! ### partition -/

theorem partLoopCx_spec (p : α → Bool) (post : List α) : ∀ (rest pre no : List α) (n : α) (first it last : Nat),
    p n = false → (∀ a ∈ no, p a = false) → first = pre.length → it = pre.length + 1 + no.length → last = it + rest.length →
    ∃ no', partLoopCx p (pre ++ n :: no ++ rest ++ post) first it last = pure (pre ++ rest.filter p ++ no' ++ post, first + (rest.filter p).length) ∧
      no'.Perm (n :: no ++ rest.filter (fun a => !p a)) := by
  intro rest
  induction rest with
  | nil =>
    intro pre no n first it last hn hno hf hi hl
    rw [partLoopCx, if_neg (by simp at hl; omega)]
    exact ⟨n :: no, by simp, by simp⟩
  | cons a rest ih =>
    intro pre no n first it last hn hno hf hi hl
    simp only [List.length_cons] at hl
    have hrd : rd (pre ++ n :: no ++ a :: rest ++ post) it = pure a := by
      apply rd_some
      subst hi
      rw [List.append_assoc, List.getElem?_append_right (by simp; omega),
        show pre.length + 1 + no.length - (pre ++ n :: no).length = 0 by simp; omega]
      rfl
    rw [partLoopCx, if_pos (by omega), hrd, pure_bind]
    cases hp : p a with
    | true =>
      rw [if_pos rfl]
      have hs := (swap_parts pre no (rest ++ post) n a (i := first) (j := it) hf hi).2.1
      have e0 : pre ++ n :: no ++ a :: rest ++ post = pre ++ n :: (no ++ a :: (rest ++ post)) := by simp
      rw [e0, hs, pure_bind]
      cases no with
      | nil =>
        obtain ⟨no', e, hperm⟩ := ih (pre ++ [a]) [] n (first + 1) (it + 1) last hn (by simp) (by simp; omega) (by simp at hi ⊢; omega) (by omega)
        refine ⟨no', ?_, ?_⟩
        · have e1 : pre ++ a :: ([] ++ n :: (rest ++ post)) = pre ++ [a] ++ n :: [] ++ rest ++ post := by simp
          rw [e1, e, List.filter_cons_of_pos hp, List.length_cons, show first + ((rest.filter p).length + 1) = first + 1 + (rest.filter p).length by omega]
          simp
        · rw [List.filter_cons_of_neg (by simp [hp])]; exact hperm
      | cons m no =>
        obtain ⟨no', e, hperm⟩ := ih (pre ++ [a]) (no ++ [n]) m (first + 1) (it + 1) last (hno m (by simp))
          (by
            intro b hb
            simp only [List.mem_append, List.mem_singleton] at hb
            rcases hb with hb | hb
            · exact hno b (by simp [hb])
            · rw [hb]; exact hn)
          (by simp; omega) (by simp at hi ⊢; omega) (by omega)
        refine ⟨no', ?_, ?_⟩
        · have e1 : pre ++ a :: (m :: no ++ n :: (rest ++ post)) = pre ++ [a] ++ m :: (no ++ [n]) ++ rest ++ post := by simp
          rw [e1, e, List.filter_cons_of_pos hp, List.length_cons, show first + ((rest.filter p).length + 1) = first + 1 + (rest.filter p).length by omega]
          simp
        · rw [List.filter_cons_of_neg (by simp [hp])]
          refine hperm.trans ((List.perm_append_right_iff _).2 ?_)
          have : (m :: (no ++ [n])) = (m :: no) ++ [n] := by simp
          rw [this]
          exact List.perm_append_comm (l₁ := m :: no) (l₂ := [n])
    | false =>
      rw [if_neg (by simp)]
      obtain ⟨no', e, hperm⟩ := ih pre (no ++ [a]) n first (it + 1) last hn
        (by
          intro b hb
          simp only [List.mem_append, List.mem_singleton] at hb
          rcases hb with hb | hb
          · exact hno b hb
          · rw [hb]; exact hp)
        hf (by simp; omega) (by omega)
      refine ⟨no', ?_, ?_⟩
      · have e1 : pre ++ n :: no ++ a :: rest ++ post = pre ++ n :: (no ++ [a]) ++ rest ++ post := by simp
        rw [e1, e, List.filter_cons_of_neg (by simp [hp])]
      · rw [List.filter_cons_of_pos (by simp [hp])]
        refine hperm.trans (List.Perm.of_eq ?_)
        simp

/-- `partition` puts the elements of the range that satisfy the predicate first, in their order, then the others in some order, touches nothing else and returns
the position of the first of the others. -/
theorem C172_partition (p : α → Bool) (pre cur post : List α) :
    ∃ no, partitionCx p (pre ++ cur ++ post) pre.length (pre.length + cur.length) =
      pure (pre ++ cur.filter p ++ no ++ post, pre.length + (cur.filter p).length) ∧ no.Perm (cur.filter (fun a => !p a)) := by
  have hfind : ∀ (cur pre : List α), findIfNot p (pre ++ cur ++ post) pre.length (pre.length + cur.length) = pure (pre.length + (cur.takeWhile p).length) := by
    intro cur
    induction cur with
    | nil => intro pre; rw [findIfNot]; simp
    | cons a cur ih =>
      intro pre
      rw [findIfNot]
      rw [if_pos (by simp), rd_some (a := a) (by simp), pure_bind]
      cases hp : p a with
      | true =>
        rw [if_neg (by simp)]
        have := ih (pre ++ [a])
        simp only [List.length_append, List.length_cons, List.length_nil, List.append_assoc, List.cons_append, List.nil_append] at this
        rw [show pre ++ a :: cur ++ post = pre ++ a :: (cur ++ post) by simp, List.length_cons, show pre.length + (cur.length + 1) = pre.length + (0 + 1) + cur.length by omega,
          this, List.takeWhile_cons_of_pos hp, List.length_cons]
        congr 1
        omega
      | false =>
        rw [if_pos (by simp), List.takeWhile_cons_of_neg (by simp [hp])]
        rfl
  unfold partitionCx
  rw [hfind, pure_bind]
  have hsplit := List.takeWhile_append_dropWhile (p := p) (l := cur)
  have hall : ∀ a ∈ cur.takeWhile p, p a = true := fun a ha => by
    have := List.all_takeWhile (p := p) (l := cur)
    exact List.all_eq_true.mp this a ha
  have hyes : (cur.takeWhile p).filter p = cur.takeWhile p := List.filter_eq_self.mpr hall
  have hno : (cur.takeWhile p).filter (fun a => !p a) = [] := List.filter_eq_nil_iff.mpr (fun a ha => by simp [hall a ha])
  cases hd : cur.dropWhile p with
  | nil =>
    rw [hd, List.append_nil] at hsplit
    rw [hsplit] at hyes hno ⊢
    rw [if_pos rfl]
    exact ⟨[], by rw [hyes]; simp, by rw [hno]⟩
  | cons n rest =>
    rw [hd] at hsplit
    have hn : p n = false := by
      have := List.head?_dropWhile_not p cur
      rw [hd] at this
      simpa using this
    have hl : cur.length = (cur.takeWhile p).length + (1 + rest.length) := by
      conv => lhs; rw [← hsplit]
      simp; omega
    rw [if_neg (by omega)]
    obtain ⟨no', e, hperm⟩ := partLoopCx_spec p post rest (pre ++ cur.takeWhile p) [] n (pre.length + (cur.takeWhile p).length)
      (pre.length + (cur.takeWhile p).length + 1) (pre.length + cur.length) hn (by simp) (by simp) (by simp) (by omega)
    have e1 : pre ++ cur ++ post = pre ++ cur.takeWhile p ++ n :: [] ++ rest ++ post := by
      conv => lhs; rw [← hsplit]
      simp
    have e2 : cur.filter p = cur.takeWhile p ++ rest.filter p := by
      conv => lhs; rw [← hsplit]
      rw [List.filter_append, hyes, List.filter_cons_of_neg (by simp [hn])]
    have e3 : cur.filter (fun a => !p a) = n :: rest.filter (fun a => !p a) := by
      conv => lhs; rw [← hsplit]
      rw [List.filter_append, hno, List.filter_cons_of_pos (by simp [hn])]
      rfl
    refine ⟨no', ?_, ?_⟩
    · rw [e1, e, e2]
      simp only [List.length_append, List.append_assoc, Nat.add_assoc]
    · rw [e3]
      exact hperm

example : ∃ no, partitionCx (· % 2 == 0) [9, 1, 2, 3, 4, 8] 1 5 = pure ([9] ++ [2, 4] ++ no ++ [8], 3) ∧ no.Perm [1, 3] :=
  C172_partition (· % 2 == 0) [9] [1, 2, 3, 4] [8]

end Verif.Algorithm
