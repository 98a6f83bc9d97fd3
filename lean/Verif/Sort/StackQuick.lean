import Verif.Algorithm.Search
import Verif.Containers.Lists

/-
`daw::quick_sort`, include/daw/deprecated/daw_stack_quick_sort.h.  `std::partition` leaves the order within the two groups open; it
is a parameter.
-/

namespace Verif.Sort.StackQuick
open Cxx Algorithm

variable {α : Type}

/-- `std::partition` of a whole list: the list afterwards and the number of elements of the first group.
(Rule of C++ or its library, no line of the source.) -/
abbrev Part (α : Type) := (α → Bool) → List α → List α × Nat

/-- What the library says of `std::partition`. (Rule of C++ or its library, no line of the source.) -/
structure Partitions (part : Part α) : Prop where
  perm : ∀ p l, (part p l).1.Perm l
  le : ∀ p l, (part p l).2 ≤ l.length
  yes : ∀ p l, ∀ a ∈ (part p l).1.take (part p l).2, p a = true
  no : ∀ p l, ∀ a ∈ (part p l).1.drop (part p l).2, p a = false

/-- `bounded_stack::push_back`, daw_stack_quick_sort.h 20-29: the stack of line 61-65 has 256 places; the top is the head. -/
def push (st : List (Nat × Nat)) (r : Nat × Nat) : Cxx (List (Nat × Nat)) :=
  if st.length < 256 then pure (r :: st) else ub

/-- `median`, daw_stack_quick_sort.h 44-52. -/
def median (lt : α → α → Bool) (a b c : α) : α :=
  if lt a b != lt a c then a else if lt a b != lt c b then b else c

/-- A call of `std::partition` for the part `[f, l)`: the elements and the iterator, daw_stack_quick_sort.h 79-87. -/
def partAt (part : Part α) (p : α → Bool) (xs : List α) (f l : Nat) : List α × Nat :=
  (xs.take f ++ (part p (slice xs f l)).1 ++ xs.drop l, f + (part p (slice xs f l)).2)

/-- The loop of `quick_sort`, daw_stack_quick_sort.h 67-91; a part of at most one element ends the function (72-74). -/
def loop (lt : α → α → Bool) (part : Part α) (xs : List α) (st : List (Nat × Nat)) : Cxx (List α) :=
  match st with
  | [] => pure xs
  | (f, l) :: st =>
    if l ≤ f + 1 then pure xs
    else do
      let a ← rd xs f
      let b ← rd xs (f + (l - f) / 2)
      let c ← rd xs (l - 1)
      let pivot := median lt a b c
      let (xs, lp) := partAt part (fun v => lt v pivot) xs f l
      let (xs, sp) := partAt part (fun v => !lt pivot v) xs lp l
      let st ← push st (sp, l)
      let st ← push st (f, lp)
      loop lt part xs st
  partial_fixpoint

/-- `quick_sort` of a whole container, daw_stack_quick_sort.h 55-92. -/
def quickSort (lt : α → α → Bool) (part : Part α) (xs : List α) : Cxx (List α) := do
  let st ← push [] (0, xs.length)
  loop lt part xs st

/-- A partition that keeps the order within the groups, as `std::stable_partition`. (Rule of C++ or its library, no line of the source.) -/
def stable : Part α := fun p l => (l.filter p ++ l.filter (fun a => !p a), (l.filter p).length)

theorem stable_ok : Partitions (stable : Part α) where
  perm p l := List.filter_append_perm p l
  le p l := List.length_filter_le p l
  yes p l a ha := by
    simp only [stable, List.take_left] at ha
    exact (List.mem_filter.1 ha).2
  no p l a ha := by
    simp only [stable, List.drop_left] at ha
    simpa using (List.mem_filter.1 ha).2

theorem median_mem (lt : α → α → Bool) (a b c : α) : median lt a b c = a ∨ median lt a b c = b ∨ median lt a b c = c := by
  unfold median
  by_cases h1 : (lt a b != lt a c) = true
  · rw [if_pos h1]; exact Or.inl rfl
  · rw [if_neg h1]
    by_cases h2 : (lt a b != lt c b) = true
    · rw [if_pos h2]; exact Or.inr (Or.inl rfl)
    · rw [if_neg h2]; exact Or.inr (Or.inr rfl)

theorem loop_turn {lt : α → α → Bool} {part : Part α} {xs ys zs : List α} {f l lp sp : Nat} {st : List (Nat × Nat)} {a b c pv : α}
    (hl : f + 1 < l) (ha : xs[f]? = some a) (hb : xs[f + (l - f) / 2]? = some b) (hc : xs[l - 1]? = some c)
    (hm : median lt a b c = pv) (h1 : partAt part (fun v => lt v pv) xs f l = (ys, lp))
    (h2 : partAt part (fun v => !lt pv v) ys lp l = (zs, sp)) :
    loop lt part xs ((f, l) :: st) = if st.length + 2 ≤ 256 then loop lt part zs ((f, lp) :: (sp, l) :: st) else ub := by
  rw [loop]
  simp only []
  rw [if_neg (by omega), rd_some ha, rd_some hb, rd_some hc]
  simp only [pure_bind]
  rw [hm, h1]
  simp only [h2]
  unfold push
  by_cases h3 : st.length + 2 ≤ 256
  · rw [if_pos h3, if_pos (by omega)]
    simp only [pure_bind]
    rw [if_pos (by rw [List.length_cons]; omega)]
    rfl
  · rw [if_neg h3]
    by_cases h4 : st.length < 256
    · rw [if_pos h4]
      simp only [pure_bind]
      rw [if_neg (by rw [List.length_cons]; omega)]
      rfl
    · rw [if_neg h4]; rfl

/-- One turn of the loop on a front part `A` of the elements. -/
theorem turn {lt : α → α → Bool} (hw : StrictWeak lt) {part : Part α} (hp : Partitions part) (A B : List α) (st : List (Nat × Nat))
    (hA : 2 ≤ A.length) (hst : st.length + 2 ≤ 256) (hAB : ∀ a ∈ A, ∀ b ∈ B, lt b a = false) :
    ∃ L Z k2, loop lt part (A ++ B) ((0, A.length) :: st) = loop lt part (L ++ (Z ++ B)) ((0, L.length) :: (k2, A.length) :: st) ∧
      (L ++ Z).Perm A ∧ L.length < A.length ∧ (∀ a ∈ L, ∀ b ∈ Z ++ B, lt b a = false) ∧
      (L = [] → ∃ m Z', Z = m :: Z' ∧ ∀ b ∈ Z ++ B, lt b m = false) := by
  have hlen : (A ++ B).length = A.length + B.length := List.length_append
  have h0 : 0 < (A ++ B).length := by omega
  have h1 : (0 + (A.length - 0) / 2) < (A ++ B).length := by omega
  have h2 : A.length - 1 < (A ++ B).length := by omega
  have hmem : ∀ i (hi : i < (A ++ B).length), i < A.length → (A ++ B)[i] ∈ A := by
    intro i hi hiA
    rw [List.getElem_append_left hiA]
    exact List.getElem_mem _
  obtain ⟨pv, hpv⟩ : ∃ pv, median lt (A ++ B)[0] (A ++ B)[0 + (A.length - 0) / 2] (A ++ B)[A.length - 1] = pv := ⟨_, rfl⟩
  have hpA : pv ∈ A := by
    rcases median_mem lt (A ++ B)[0] (A ++ B)[0 + (A.length - 0) / 2] (A ++ B)[A.length - 1] with h | h | h
    · rw [← hpv, h]; exact hmem _ _ (by omega)
    · rw [← hpv, h]; exact hmem _ _ (by omega)
    · rw [← hpv, h]; exact hmem _ _ (by omega)
  obtain ⟨Y, hY⟩ : ∃ Y, part (fun v => lt v pv) A = Y := ⟨_, rfl⟩
  have y1 := hp.perm (fun v => lt v pv) A
  have y2 := hp.le (fun v => lt v pv) A
  have y3 := hp.yes (fun v => lt v pv) A
  have y4 := hp.no (fun v => lt v pv) A
  rw [hY] at y1 y2 y3 y4
  have hYlen : Y.1.length = A.length := y1.length_eq
  have hR : Y.1.take Y.2 ++ Y.1.drop Y.2 = Y.1 := List.take_append_drop _ _
  obtain ⟨L, hL⟩ : ∃ L, Y.1.take Y.2 = L := ⟨_, rfl⟩
  obtain ⟨R, hRd⟩ : ∃ R, Y.1.drop Y.2 = R := ⟨_, rfl⟩
  rw [hL] at y3 hR
  rw [hRd] at y4 hR
  have hLlen : L.length = Y.2 := by rw [← hL, List.length_take]; omega
  have hRlen : L.length + R.length = A.length := by rw [← hYlen, ← hR, List.length_append]
  have hpR : pv ∈ R := by
    have : pv ∈ Y.1 := y1.mem_iff.2 hpA
    rw [← hR, List.mem_append] at this
    rcases this with h | h
    · have := y3 pv h
      simp only [hw.irrefl] at this
      cases this
    · exact h
  have hRpos : 0 < R.length := List.length_pos_of_mem hpR
  obtain ⟨Z, hZ⟩ : ∃ Z, part (fun v => !lt pv v) R = Z := ⟨_, rfl⟩
  have z1 := hp.perm (fun v => !lt pv v) R
  have z2 := hp.le (fun v => !lt pv v) R
  have z3 := hp.yes (fun v => !lt pv v) R
  have z4 := hp.no (fun v => !lt pv v) R
  rw [hZ] at z1 z2 z3 z4
  have hP1 : partAt part (fun v => lt v pv) (A ++ B) 0 A.length = (L ++ R ++ B, L.length) := by
    unfold partAt slice
    rw [List.take_left, List.drop_zero, List.take_zero, List.drop_left, hY, List.nil_append, hR, Nat.zero_add, hLlen]
  have hP2 : partAt part (fun v => !lt pv v) (L ++ R ++ B) L.length A.length = (L ++ (Z.1 ++ B), L.length + Z.2) := by
    unfold partAt slice
    have e1 : (L ++ R ++ B).take A.length = L ++ R := by rw [← hRlen, ← List.length_append, List.take_left]
    have e2 : (L ++ R ++ B).drop A.length = B := by rw [← hRlen, ← List.length_append, List.drop_left]
    rw [e1, e2, List.drop_left, hZ, List.append_assoc L R B, List.take_left, List.append_assoc]
  refine ⟨L, Z.1, L.length + Z.2, ?_, ?_, by omega, ?_, ?_⟩
  · rw [loop_turn (by omega) (List.getElem?_eq_getElem h0) (List.getElem?_eq_getElem h1) (List.getElem?_eq_getElem h2) hpv hP1 hP2,
      if_pos hst]
  · refine (z1.append_left L).trans ?_
    rw [hR]; exact y1
  · intro a ha b hb
    have haA : a ∈ A := y1.mem_iff.1 (by rw [← hR]; exact List.mem_append_left _ ha)
    rw [List.mem_append] at hb
    rcases hb with hb | hb
    · have h3 := y4 b (z1.mem_iff.1 hb)
      have h4 := y3 a ha
      cases hba : lt b a with
      | false => rfl
      | true =>
        rw [hw.trans _ _ _ hba h4] at h3
        cases h3
    · exact hAB a haA b hb
  · intro hLn
    have hz2 : Z.2 ≠ 0 := by
      intro hz
      rw [hz, List.drop_zero] at z4
      have := z4 pv (z1.mem_iff.2 hpR)
      simp only [hw.irrefl] at this
      cases this
    cases hZ1 : Z.1 with
    | nil =>
      have : pv ∈ Z.1 := z1.mem_iff.2 hpR
      rw [hZ1] at this; cases this
    | cons m Z' =>
      refine ⟨m, Z', rfl, fun b hb => ?_⟩
      have hm : lt pv m = false := by
        have := z3 m (by
          rw [hZ1]
          obtain ⟨k, hk⟩ : ∃ k, Z.2 = k + 1 := ⟨Z.2 - 1, by omega⟩
          rw [hk, List.take_succ_cons]; simp)
        simpa using this
      rw [List.mem_append] at hb
      rcases hb with hb | hb
      · rw [← hZ1] at hb
        exact hw.incomp _ _ _ (y4 b (z1.mem_iff.1 hb)) hm
      · refine hAB m ?_ b hb
        refine y1.mem_iff.1 ?_
        rw [← hR]
        refine List.mem_append_right _ (z1.mem_iff.1 ?_)
        rw [hZ1]; simp

theorem loop_ok {lt : α → α → Bool} (hw : StrictWeak lt) {part : Part α} (hp : Partitions part) (n : Nat) : ∀ (A B : List α)
    (st : List (Nat × Nat)), A.length = n → st.length + A.length ≤ 256 → (∀ a ∈ A, ∀ b ∈ B, lt b a = false) →
    (A = [] → ∀ m B', B = m :: B' → ∀ b ∈ B, lt b m = false) →
    ∃ ys, loop lt part (A ++ B) ((0, A.length) :: st) = pure ys ∧ ys.Perm (A ++ B) ∧
      ∀ m ys', ys = m :: ys' → ∀ b ∈ ys, lt b m = false := by
  induction n using Nat.strongRecOn with
  | ind n ih =>
    intro A B st hn hst hAB hB
    by_cases h2 : 2 ≤ A.length
    · obtain ⟨L, Z, k2, e, hperm, hlt, hLZ, hnil⟩ := turn hw hp A B st h2 (by omega) hAB
      have hLB : L = [] → ∀ m B', Z ++ B = m :: B' → ∀ b ∈ Z ++ B, lt b m = false := by
        intro hL m B' hm b hb
        obtain ⟨m', Z', hZ, hm'⟩ := hnil hL
        rw [hZ, List.cons_append] at hm
        injection hm with h1 _
        rw [← h1]
        exact hm' b hb
      obtain ⟨ys, e', hys, hmin⟩ := ih L.length (by omega) L (Z ++ B) ((k2, A.length) :: st) rfl
        (by rw [List.length_cons]; omega) hLZ hLB
      refine ⟨ys, by rw [e, e'], ?_, hmin⟩
      refine hys.trans ?_
      rw [← List.append_assoc]
      exact hperm.append_right B
    · refine ⟨A ++ B, ?_, List.Perm.refl _, ?_⟩
      · rw [loop]
        simp only []
        rw [if_pos (by omega)]
      · intro m ys' hm b hb
        cases A with
        | nil => exact hB rfl m ys' hm b hb
        | cons a A' =>
          cases A' with
          | cons a' A'' => simp at h2
          | nil =>
            injection hm with h1 _
            subst h1
            rw [List.mem_append] at hb
            rcases hb with hb | hb
            · rw [List.mem_singleton] at hb; subst hb; exact hw.irrefl _
            · exact hAB a (by simp) b hb

/-- C196, as far as it holds: for every strict weak order, every `std::partition` and every container of at most 256 elements,
`quick_sort` ends and leaves the same elements with a least one first.  Missing: that they are sorted, see
`C196_unsorted_violated`, and larger containers, see `C196_overflow_violated`. -/
theorem C196_quick_sort_partial (lt : α → α → Bool) (hw : StrictWeak lt) (part : Part α) (hp : Partitions part) (xs : List α)
    (hx : xs.length ≤ 256) :
    ∃ ys, quickSort lt part xs = pure ys ∧ ys.Perm xs ∧ ∀ m ys', ys = m :: ys' → ∀ b ∈ ys, lt b m = false := by
  have := loop_ok hw hp xs.length xs [] [] rfl (by simpa using hx) (by simp) (by simp)
  rw [List.append_nil] at this
  obtain ⟨ys, e, h1, h2⟩ := this
  exact ⟨ys, by unfold quickSort; rw [show push [] (0, xs.length) = pure [(0, xs.length)] from rfl]; exact e, h1, h2⟩

/-- Five numbers, with a partition that keeps the order. -/
example : StrictWeak (fun a b : Nat => decide (a < b)) ∧ Partitions (stable : Part Nat) ∧
    quickSort (fun a b : Nat => decide (a < b)) stable [4, 9, 5, 1, 6] = pure [1, 4, 5, 9, 6] := by
  refine ⟨strictWeak_nat, stable_ok, ?_⟩
  unfold quickSort
  rw [show push [] (0, [4, 9, 5, 1, 6].length) = pure [(0, 5)] from rfl]
  simp only [pure_bind]
  rw [loop_turn (a := 4) (b := 5) (c := 6) (pv := 5) (ys := [4, 1, 9, 5, 6]) (lp := 2) (zs := [4, 1, 5, 9, 6]) (sp := 3) (by omega) rfl rfl
    rfl (by decide) (by decide) (by decide), if_pos (by decide),
    loop_turn (a := 4) (b := 1) (c := 1) (pv := 1) (ys := [4, 1, 5, 9, 6]) (lp := 0) (zs := [1, 4, 5, 9, 6]) (sp := 1) (by omega) rfl rfl
    rfl (by decide) (by decide) (by decide), if_pos (by decide), loop]
  rfl

/-- C196 does not hold: a part of at most one element ends the whole function, and the parts right of the pivots are never sorted.
With every `std::partition` that leaves elements alone that are already partitioned, as the usual ones do, the elements
1, 2, 3, 5, 4 stay as they are. -/
theorem C196_unsorted_violated (part : Part Nat)
    (hp : ∀ (p : Nat → Bool) a b, (∀ x ∈ a, p x = true) → (∀ x ∈ b, p x = false) → part p (a ++ b) = (a ++ b, a.length)) :
    quickSort (fun a b => decide (a < b)) part [1, 2, 3, 5, 4] = pure [1, 2, 3, 5, 4] := by
  have h1 := hp (fun v => decide (v < 3)) [1, 2] [3, 5, 4] (by decide) (by decide)
  have h2 := hp (fun v => !decide (3 < v)) [3] [5, 4] (by decide) (by decide)
  have h3 := hp (fun v => decide (v < 2)) [1] [2] (by decide) (by decide)
  have h4 := hp (fun v => !decide (2 < v)) [2] [] (by decide) (by decide)
  simp only [List.cons_append, List.nil_append, List.length_cons, List.length_nil] at h1 h2 h3 h4
  unfold quickSort
  rw [show push [] (0, [1, 2, 3, 5, 4].length) = pure [(0, 5)] from rfl]
  simp only [pure_bind]
  have e1 : partAt part (fun v => decide (v < 3)) [1, 2, 3, 5, 4] 0 5 = ([1, 2, 3, 5, 4], 2) := by
    unfold partAt
    rw [show slice [1, 2, 3, 5, 4] 0 5 = [1, 2, 3, 5, 4] from rfl, h1]; rfl
  have e2 : partAt part (fun v => !decide (3 < v)) [1, 2, 3, 5, 4] 2 5 = ([1, 2, 3, 5, 4], 3) := by
    unfold partAt
    rw [show slice [1, 2, 3, 5, 4] 2 5 = [3, 5, 4] from rfl, h2]; rfl
  have e3 : partAt part (fun v => decide (v < 2)) [1, 2, 3, 5, 4] 0 2 = ([1, 2, 3, 5, 4], 1) := by
    unfold partAt
    rw [show slice [1, 2, 3, 5, 4] 0 2 = [1, 2] from rfl, h3]; rfl
  have e4 : partAt part (fun v => !decide (2 < v)) [1, 2, 3, 5, 4] 1 2 = ([1, 2, 3, 5, 4], 2) := by
    unfold partAt
    rw [show slice [1, 2, 3, 5, 4] 1 2 = [2] from rfl, h4]; rfl
  rw [loop_turn (a := 1) (b := 3) (c := 4) (by omega) rfl rfl rfl (by decide) e1 e2, if_pos (by decide),
    loop_turn (a := 1) (b := 2) (c := 2) (by omega) rfl rfl rfl (by decide) e3 e4, if_pos (by decide), loop]
  rfl

/-- A partition that keeps the order leaves partitioned elements alone. -/
example (p : Nat → Bool) (a b : List Nat) (ha : ∀ x ∈ a, p x = true) (hb : ∀ x ∈ b, p x = false) :
    stable p (a ++ b) = (a ++ b, a.length) := by
  have h1 : a.filter p = a := List.filter_eq_self.2 ha
  have h2 : b.filter p = [] := List.filter_eq_nil_iff.2 fun x hx => by simp [hb x hx]
  have h3 : a.filter (fun x => !p x) = [] := List.filter_eq_nil_iff.2 fun x hx => by simp [ha x hx]
  have h4 : b.filter (fun x => !p x) = b := List.filter_eq_self.2 fun x hx => by simp [hb x hx]
  simp only [stable, List.filter_append, h1, h2, h3, h4, List.append_nil, List.nil_append]

/-- Numbers with the two largest ones at the two ends, and so on inwards. (Specification, no line of the source.) -/
def hill : Nat → List Nat
  | 0 => [0]
  | n + 1 => [2 * n + 2] ++ hill n ++ [2 * n + 1]

theorem hill_length (n : Nat) : (hill n).length = 2 * n + 1 := by
  induction n with
  | zero => rfl
  | succ n ih => simp only [hill, List.length_append, ih, List.length_cons, List.length_nil]; omega

theorem hill_le (n : Nat) : ∀ x ∈ hill n, x ≤ 2 * n := by
  induction n with
  | zero => intro x hx; simp [hill] at hx; omega
  | succ n ih =>
    intro x hx
    simp only [hill, List.mem_append, List.mem_singleton] at hx
    rcases hx with (h | h) | h
    · omega
    · have := ih x h; omega
    · omega

theorem hill_turn (n : Nat) (B : List Nat) (st : List (Nat × Nat)) :
    ∃ B' sp, loop (fun a b => decide (a < b)) stable (hill (n + 1) ++ B) ((0, (hill (n + 1)).length) :: st) =
      if st.length + 2 ≤ 256 then loop (fun a b => decide (a < b)) stable (hill n ++ B')
        ((0, (hill n).length) :: (sp, (hill (n + 1)).length) :: st) else ub := by
  have hl := hill_length n
  have hl1 := hill_length (n + 1)
  have hle := hill_le n
  have h1 : (hill n).filter (fun v => decide (v < 2 * n + 1)) = hill n := List.filter_eq_self.2 fun x hx => by
    have := hle x hx; simp; omega
  have h2 : (hill n).filter (fun v => !decide (v < 2 * n + 1)) = [] := List.filter_eq_nil_iff.2 fun x hx => by
    have := hle x hx; simp; omega
  refine ⟨[2 * n + 1, 2 * n + 2] ++ B, (hill n).length + 1, ?_⟩
  have e : hill (n + 1) ++ B = [2 * n + 2] ++ hill n ++ ([2 * n + 1] ++ B) := by simp [hill]
  have hb : ∃ b, (hill (n + 1) ++ B)[0 + ((hill (n + 1)).length - 0) / 2]? = some b ∧ b ≤ 2 * n := by
    rw [hl1, e, List.getElem?_append_left (by simp; omega), List.getElem?_append_right (by simp; omega)]
    have hlt : (0 + (2 * (n + 1) + 1 - 0) / 2) - [2 * n + 2].length < (hill n).length := by
      simp only [List.length_cons, List.length_nil]; omega
    exact ⟨_, List.getElem?_eq_getElem hlt, hle _ (List.getElem_mem _)⟩
  obtain ⟨b, hb, hb'⟩ := hb
  refine loop_turn (a := 2 * n + 2) (b := b) (c := 2 * n + 1) (pv := 2 * n + 1)
    (ys := hill n ++ [2 * n + 2, 2 * n + 1] ++ B) (by omega) ?_ hb ?_ ?_ ?_ ?_
  · rw [e]; rfl
  · rw [hl1, e, List.getElem?_append_right (by simp; omega)]
    rw [List.length_append, hl]
    simp only [List.length_cons, List.length_nil]
    rw [show 2 * (n + 1) + 1 - 1 - (0 + 1 + (2 * n + 1)) = 0 by omega]
    rfl
  · unfold median
    simp only [show decide (2 * n + 2 < b) = false by simp; omega, show decide (2 * n + 2 < 2 * n + 1) = false by simp,
      show decide (2 * n + 1 < b) = false by simp; omega]
    rfl
  · unfold partAt slice
    rw [List.take_left, List.drop_left, List.drop_zero, List.take_zero]
    simp only [stable, hill, List.filter_append, h1, h2, List.filter_cons, List.filter_nil]
    simp
  · unfold partAt slice
    have e3 : (hill n ++ [2 * n + 2, 2 * n + 1] ++ B).take (hill (n + 1)).length = hill n ++ [2 * n + 2, 2 * n + 1] := by
      rw [show (hill (n + 1)).length = (hill n ++ [2 * n + 2, 2 * n + 1]).length by simp [hl, hl1]; omega, List.take_left]
    have e4 : (hill n ++ [2 * n + 2, 2 * n + 1] ++ B).drop (hill (n + 1)).length = B := by
      rw [show (hill (n + 1)).length = (hill n ++ [2 * n + 2, 2 * n + 1]).length by simp [hl, hl1]; omega, List.drop_left]
    rw [e3, e4, List.drop_left, List.append_assoc (hill n), List.take_left]
    simp [stable]

/-- C196 does not hold for large containers: the stack of 256 places overflows if the pivots are badly placed.  With a partition that
keeps the order, every "hill" of more than 512 numbers, with the two largest ones at the ends and so on inwards, writes out of
bounds. -/
theorem C196_overflow_violated (n : Nat) (hn : 256 ≤ n) : quickSort (fun a b => decide (a < b)) stable (hill n) = ub := by
  have key : ∀ k n (B : List Nat) (st : List (Nat × Nat)), 255 - st.length = k → k < n →
      loop (fun a b => decide (a < b)) stable (hill n ++ B) ((0, (hill n).length) :: st) = ub := by
    intro k
    induction k with
    | zero =>
      intro n B st hk hn
      cases n with
      | zero => omega
      | succ n =>
        obtain ⟨B', sp, e⟩ := hill_turn n B st
        rw [e, if_neg (by omega)]
    | succ k ih =>
      intro n B st hk hn
      cases n with
      | zero => omega
      | succ n =>
        obtain ⟨B', sp, e⟩ := hill_turn n B st
        rw [e, if_pos (by omega)]
        exact ih n B' _ (by rw [List.length_cons]; omega) (by omega)
  have := key 255 n [] [] rfl (by omega)
  rw [List.append_nil] at this
  unfold quickSort
  rw [show push [] (0, (hill n).length) = pure [(0, (hill n).length)] from rfl]
  exact this

/-- A small hill, which the stack can take. -/
example : hill 2 = [4, 2, 0, 1, 3] := by decide

end Verif.Sort.StackQuick
