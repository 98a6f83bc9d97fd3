import Verif.StringView.Compare

/-
The operations that shorten a view and split it.
-/

namespace Verif.SV
open Cxx

variable {α : Type}

namespace View

/-! ### Texts of the elementary operations -/

theorem text_removePrefix (m : List α) (v : View) (n : Nat) :
    (v.removePrefix (some n)).text m = (v.text m).drop n := by
  unfold text removePrefix clip
  simp only []
  rw [List.drop_take, List.drop_drop]
  by_cases h : n ≤ v.len
  · rw [Nat.min_eq_left h]
  · rw [Nat.min_eq_right (by omega)]
    rw [Nat.sub_self, show v.len - n = 0 by omega]
    simp

theorem text_removePrefix_all (m : List α) (v : View) : (v.removePrefix none).text m = [] := by
  simp [text, removePrefix, clip]

theorem text_removeSuffix (m : List α) (v : View) (n : Nat) :
    (v.removeSuffix (some n)).text m = (v.text m).take (v.len - n) := by
  unfold text removeSuffix clip
  simp only []
  rw [List.take_take]
  congr 1
  omega

theorem text_removeSuffix_all (m : List α) (v : View) : (v.removeSuffix none).text m = [] := by
  simp [text, removeSuffix, clip]

theorem text_length {m : List α} {v : View} (h : v.off + v.len ≤ m.length) : (v.text m).length = v.len := by
  simp [text]; omega

theorem substr_eq {v : View} {pos : Nat} {count : Option Nat} (h : pos ≤ v.len) :
    ∃ w, v.substr pos count = pure w ∧ w.off = v.off + pos ∧ w.off + w.len ≤ v.off + v.len ∧ w.zt = false ∧
      ∀ (m : List α), w.text m = match count with
        | some n => ((v.text m).drop pos).take n
        | none => (v.text m).drop pos := by
  unfold substr
  rw [if_pos h]
  refine ⟨_, rfl, rfl, ?_, rfl, ?_⟩
  · cases count <;> simp only [] <;> omega
  · intro m
    unfold text
    rw [List.drop_take, List.drop_drop]
    cases count with
    | none => rfl
    | some n => simp only []; rw [List.take_take]

theorem popFront_eq (v : View) (count : Option Nat) :
    ∃ result, v.popFront count = pure (v.removePrefix count, result) ∧ result.off = v.off ∧
      result.off + result.len ≤ v.off + v.len ∧ result.zt = false ∧
      ∀ (m : List α), result.text m = match count with
        | some n => (v.text m).take n
        | none => v.text m := by
  obtain ⟨w, e, h1, h2, h3, h4⟩ := substr_eq (α := α) (v := v) (count := count) (Nat.zero_le _)
  refine ⟨w, ?_, by simpa using h1, h2, h3, fun m => ?_⟩
  · unfold popFront
    rw [e, pure_bind]
  · rw [h4 m]
    cases count <;> simp

/-- **C86**: `pop_front( count )` splits the text: what it returns followed by what it leaves is the text, and it returns
`count` characters or, if there are not that many, all. -/
theorem C86_pop_front (m : List α) (v : View) (n : Nat) :
    ∃ rest result, v.popFront (some n) = pure (rest, result) ∧ result.text m ++ rest.text m = v.text m ∧
      (result.text m).length = min n (v.text m).length := by
  obtain ⟨w, e, _, _, _, h⟩ := popFront_eq (α := α) v (some n)
  refine ⟨_, w, e, ?_, ?_⟩
  · rw [h m, text_removePrefix]; simp
  · rw [h m]; simp

/-- **C86**: `pop_back( count )` splits the text. -/
theorem C86_pop_back (m : List α) (v : View) (n : Nat) (hv : v.off + v.len ≤ m.length) :
    ∃ rest result, v.popBack (some n) = pure (rest, result) ∧ rest.text m ++ result.text m = v.text m ∧
      (result.text m).length = min n (v.text m).length := by
  unfold popBack
  obtain ⟨w, e, _, _, _, h⟩ := substr_eq (α := α) (v := v) (pos := v.len - v.clip (some n)) (count := none) (by omega)
  simp only [] at h
  simp only [e, pure_bind]
  refine ⟨_, w, rfl, ?_, ?_⟩
  · rw [h m, text_removeSuffix]; simp
  · rw [h m, List.length_drop, text_length hv]
    simp only [clip]
    omega

example := C86_pop_back [5, 2, 8, 3, 9] ⟨1, 3, false⟩ 2 (by decide)

/-- C86 does not hold for `pop_front_unsafe( count )`: it returns the whole text. -/
theorem C86_pop_front_unsafe_violated : (⟨0, 3, false⟩ : View).popFrontUnsafe 1 = pure (⟨1, 2, false⟩, ⟨0, 3, true⟩) := rfl

/-- C86 for the other forms: `pop_front( )`, `pop_back( )` on texts that are not empty and `pop_back_unsafe( count )`
within the text.  Missing: `pop_front_unsafe( count )`. -/
theorem C86_pop_partial (m : List α) (v : View) (hv : v.off + v.len ≤ m.length) :
    (∀ c cs, v.text m = c :: cs → ∃ rest, v.popFrontChar m = pure (rest, c) ∧ rest.text m = cs) ∧
    (∀ c cs, v.text m = cs ++ [c] → ∃ rest, v.popBackChar m = pure (rest, c) ∧ rest.text m = cs) ∧
    (∀ n, n ≤ v.len → ∃ rest result, v.popBackUnsafe n = pure (rest, result) ∧
      rest.text m ++ result.text m = v.text m ∧ (result.text m).length = n) := by
  refine ⟨fun c cs h => ?_, fun c cs h => ?_, fun n hn => ?_⟩
  · refine ⟨v.removePrefix (some 1), ?_, by rw [text_removePrefix, h]; rfl⟩
    unfold popFrontChar
    rw [rd_some (a := c) (by rw [h]; rfl), pure_bind]
  · have hl : v.len = cs.length + 1 := by rw [← text_length hv, h]; simp
    refine ⟨v.removeSuffix (some 1), ?_, ?_⟩
    · unfold popBackChar
      rw [if_neg (by omega), rd_some (a := c) (by rw [h, hl]; simp), pure_bind]
    · rw [text_removeSuffix, h, hl]; simp
  · unfold popBackUnsafe substrUnsafe
    rw [if_pos hn, if_pos (by omega), pure_bind]
    refine ⟨_, _, rfl, ?_, ?_⟩
    · rw [text_removeSuffix]
      have : text m ⟨v.off + (v.len - n), n, decide (v.len - n + n = v.len)⟩ = (v.text m).drop (v.len - n) := by
        unfold text
        simp only []
        rw [List.drop_take, List.drop_drop, show v.len - (v.len - n) = n by omega]
      rw [this]; simp
    · simp [text]; omega

example := C86_pop_partial [5, 2, 8, 3, 9] ⟨1, 3, false⟩ (by decide)

/-! ### Until -/

/-- `left ++ w ++ right` is the text, split at the first occurrence of `w`; without an occurrence `left` is all.
(Specification, no line of the source.) -/
def SplitFirst (w xs left right : List α) : Prop :=
  (xs = left ++ w ++ right ∧ ∀ j, j < left.length → ¬ Occurs w xs j) ∨
  ((∀ j, ¬ Occurs w xs j) ∧ left = xs ∧ right = [])

/-- `left ++ w ++ right` is the text, split at the last occurrence of `w`; without an occurrence `right` is all.
(Specification, no line of the source.) -/
def SplitLast (w xs left right : List α) : Prop :=
  (xs = left ++ w ++ right ∧ ∀ j, left.length < j → ¬ Occurs w xs j) ∨
  ((∀ j, ¬ Occurs w xs j) ∧ left = [] ∧ right = xs)

/-- The text is split at the first character with `p`. (Specification, no line of the source.) -/
def SplitFirstIf (p : α → Bool) (xs left right : List α) : Prop :=
  (∃ c, p c = true ∧ xs = left ++ [c] ++ right ∧ ∀ a ∈ left, p a = false) ∨
  ((∀ a ∈ xs, p a = false) ∧ left = xs ∧ right = [])

/-- The text is split at the last character with `p`. (Specification, no line of the source.) -/
def SplitLastIf (p : α → Bool) (xs left right : List α) : Prop :=
  (∃ c, p c = true ∧ xs = left ++ [c] ++ right ∧ ∀ a ∈ right, p a = false) ∨
  ((∀ a ∈ xs, p a = false) ∧ left = [] ∧ right = xs)

theorem occurs_split {w xs : List α} {i : Nat} (h : Occurs w xs i) : xs = xs.take i ++ w ++ xs.drop (i + w.length) := by
  obtain ⟨hi, t, ht⟩ := h
  have : xs.drop (i + w.length) = t := by
    rw [← List.drop_drop, ← ht]; simp
  rw [this, List.append_assoc, ht, List.take_append_drop]

theorem at_split {p : α → Bool} {xs : List α} {i : Nat} (h : At p xs i) :
    ∃ c, p c = true ∧ xs = xs.take i ++ [c] ++ xs.drop (i + 1) := by
  obtain ⟨c, hc, hp⟩ := h
  obtain ⟨hi, rfl⟩ := List.getElem?_eq_some_iff.1 hc
  refine ⟨_, hp, ?_⟩
  rw [List.append_assoc, List.singleton_append, ← List.drop_eq_getElem_cons hi, List.take_append_drop]

theorem not_at_mem {p : α → Bool} {xs : List α} (h : ∀ j, j < xs.length → ¬ At p xs j) : ∀ a ∈ xs, p a = false := by
  intro a ha
  obtain ⟨i, hi, rfl⟩ := List.mem_iff_getElem.1 ha
  rw [Bool.eq_false_iff]
  intro hp
  exact h i hi ⟨_, List.getElem?_eq_getElem hi, hp⟩

theorem splitFirstIf_of {p : α → Bool} {xs : List α} {r : Option Nat} (h : FirstIn (At p xs) 0 xs.length r) :
    SplitFirstIf p xs (match (generalizing := false) r with | some i => xs.take i | none => xs)
      (match (generalizing := false) r with | some i => xs.drop (i + 1) | none => []) := by
  cases r with
  | none => exact Or.inr ⟨not_at_mem fun j hj => h.2 rfl j (Nat.zero_le _) hj, rfl, rfl⟩
  | some i =>
    obtain ⟨_, hi, ha, hmin⟩ := h.1 i rfl
    obtain ⟨c, hc, he⟩ := at_split ha
    refine Or.inl ⟨c, hc, he, not_at_mem fun j hj hat => ?_⟩
    rw [List.length_take] at hj
    refine hmin j (Nat.zero_le _) (by omega) ?_
    obtain ⟨b, hb, hpb⟩ := hat
    rw [List.getElem?_take_of_lt (by omega)] at hb
    exact ⟨b, hb, hpb⟩

theorem splitLastIf_of {p : α → Bool} {xs : List α} {r : Option Nat} (h : LastIn (At p xs) xs.length r) :
    SplitLastIf p xs (match (generalizing := false) r with | some i => xs.take i | none => [])
      (match (generalizing := false) r with | some i => xs.drop (i + 1) | none => xs) := by
  cases r with
  | none => exact Or.inr ⟨not_at_mem fun j hj => h.2 rfl j hj, rfl, rfl⟩
  | some i =>
    obtain ⟨hi, ha, hmax⟩ := h.1 i rfl
    obtain ⟨c, hc, he⟩ := at_split ha
    refine Or.inl ⟨c, hc, he, not_at_mem fun j hj hat => ?_⟩
    rw [List.length_drop] at hj
    rw [at_drop] at hat
    exact hmax _ (by omega) (by omega) hat

section
variable [DecidableEq α]

omit [DecidableEq α] in
theorem splitFirst_of {w xs : List α} {r : Option Nat} (h : FirstIn (Occurs w xs) 0 (xs.length + 1) r) :
    SplitFirst w xs (match (generalizing := false) r with | some i => xs.take i | none => xs)
      (match (generalizing := false) r with | some i => xs.drop (i + w.length) | none => []) := by
  cases r with
  | none => exact Or.inr ⟨fun j hj => h.2 rfl j (Nat.zero_le _) (by have := hj.1; omega) hj, rfl, rfl⟩
  | some i =>
    obtain ⟨_, hi, ho, hmin⟩ := h.1 i rfl
    refine Or.inl ⟨occurs_split ho, fun j hj => hmin j (Nat.zero_le _) ?_⟩
    rw [List.length_take] at hj
    omega

omit [DecidableEq α] in
theorem splitLast_of {w xs : List α} {r : Option Nat} (h : LastIn (fun i => Occurs w xs i ∧ ∀ p, none = some p → i ≤ p)
    (xs.length + 1) r) :
    SplitLast w xs (match (generalizing := false) r with | some i => xs.take i | none => [])
      (match (generalizing := false) r with | some i => xs.drop (i + w.length) | none => xs) := by
  cases r with
  | none => exact Or.inr ⟨fun j hj => h.2 rfl j (by have := hj.1; omega) ⟨hj, by simp⟩, rfl, rfl⟩
  | some i =>
    obtain ⟨hi, ho, hmax⟩ := h.1 i rfl
    refine Or.inl ⟨occurs_split ho.1, fun j hj hocc => hmax j ?_ (by have := hocc.1; omega) ⟨hocc, by simp⟩⟩
    rw [List.length_take] at hj
    omega

/-- **C16**: `pop_front_until( where )`. -/
theorem C16_pop_front_until (m : List α) (v : View) (w : List α) :
    ∃ rest result, v.popFrontUntil m w = pure (rest, result) ∧
      SplitFirst w (v.text m) (result.text m) (rest.text m) := by
  obtain ⟨r, e, h⟩ := C13_find_partial (v.text m) w 0 (Nat.zero_le _)
  obtain ⟨res, e', _, _, _, ht⟩ := popFront_eq (α := α) v r
  refine ⟨_, res, by unfold popFrontUntil; rw [e, pure_bind, e', pure_bind], ?_⟩
  have := splitFirst_of h
  rw [ht m, text_removePrefix]
  cases r with
  | none => rw [text_removePrefix_all]; simpa using this
  | some i => rw [text_removePrefix]; simpa [List.drop_drop] using this

/-- **C16**: `pop_front_until( where, nodiscard )` leaves the delimiter. -/
theorem C16_pop_front_until_keep (m : List α) (v : View) (w : List α) :
    ∃ rest result right, v.popFrontUntilKeep m w = pure (rest, result) ∧
      SplitFirst w (v.text m) (result.text m) right ∧ result.text m ++ rest.text m = v.text m := by
  obtain ⟨r, e, h⟩ := C13_find_partial (v.text m) w 0 (Nat.zero_le _)
  obtain ⟨res, e', _, _, _, ht⟩ := popFront_eq (α := α) v r
  have hs := splitFirst_of h
  cases r with
  | none =>
    exact ⟨_, res, [], by unfold popFrontUntilKeep; rw [e, pure_bind, e'], by rw [ht m]; exact hs,
      by rw [ht m, text_removePrefix_all]; simp⟩
  | some i =>
    exact ⟨_, res, (v.text m).drop (i + w.length), by unfold popFrontUntilKeep; rw [e, pure_bind, e'],
      by rw [ht m]; exact hs, by rw [ht m, text_removePrefix]; simp⟩

/-- **C16**: `pop_front_until( c )`. -/
theorem C16_pop_front_until_char (m : List α) (v : View) (c : α) :
    ∃ rest result, v.popFrontUntilChar m c = pure (rest, result) ∧
      SplitFirstIf (· == c) (v.text m) (result.text m) (rest.text m) := by
  obtain ⟨r, e, _, h⟩ := C14_find_char_partial (v.text m) c
  obtain ⟨res, e', _, _, _, ht⟩ := popFront_eq (α := α) v r
  refine ⟨_, res, by unfold popFrontUntilChar; rw [e, pure_bind, e', pure_bind], ?_⟩
  have := splitFirstIf_of h
  rw [ht m, text_removePrefix]
  cases r with
  | none => rw [text_removePrefix_all]; simpa using this
  | some i => rw [text_removePrefix]; simpa [List.drop_drop] using this

/-- **C16**: `pop_front_until( c, nodiscard )` leaves the delimiter. -/
theorem C16_pop_front_until_char_keep (m : List α) (v : View) (c : α) :
    ∃ rest result right, v.popFrontUntilCharKeep m c = pure (rest, result) ∧
      SplitFirstIf (· == c) (v.text m) (result.text m) right ∧ result.text m ++ rest.text m = v.text m := by
  obtain ⟨r, e, _, h⟩ := C14_find_char_partial (v.text m) c
  obtain ⟨res, e', _, _, _, ht⟩ := popFront_eq (α := α) v r
  have hs := splitFirstIf_of h
  cases r with
  | none =>
    exact ⟨_, res, [], by unfold popFrontUntilCharKeep; rw [e, pure_bind, e'], by rw [ht m]; exact hs,
      by rw [ht m, text_removePrefix_all]; simp⟩
  | some i =>
    exact ⟨_, res, (v.text m).drop (i + 1), by unfold popFrontUntilCharKeep; rw [e, pure_bind, e'],
      by rw [ht m]; exact hs, by rw [ht m, text_removePrefix]; simp⟩

omit [DecidableEq α] in
/-- **C16**: `pop_front_until( pred )`. -/
theorem C16_pop_front_until_if (m : List α) (v : View) (p : α → Bool) :
    ∃ rest result, v.popFrontUntilIf m p = pure (rest, result) ∧
      SplitFirstIf p (v.text m) (result.text m) (rest.text m) := by
  have h := C15_find_first_of_if p (v.text m) 0
  obtain ⟨res, e', _, _, _, ht⟩ := popFront_eq (α := α) v (findFirstOfIf p (v.text m) 0)
  refine ⟨_, res, by unfold popFrontUntilIf popFrontUntilIfKeep; rw [e', pure_bind], ?_⟩
  have := splitFirstIf_of h
  rw [ht m, text_removePrefix]
  cases hr : findFirstOfIf p (v.text m) 0 with
  | none => rw [hr] at this; rw [text_removePrefix_all]; simpa using this
  | some i => rw [hr] at this; rw [text_removePrefix]; simpa [List.drop_drop] using this

omit [DecidableEq α] in
/-- **C16**: `pop_front_until( pred, nodiscard )` leaves the delimiter. -/
theorem C16_pop_front_until_if_keep (m : List α) (v : View) (p : α → Bool) :
    ∃ rest result right, v.popFrontUntilIfKeep m p = pure (rest, result) ∧
      SplitFirstIf p (v.text m) (result.text m) right ∧ result.text m ++ rest.text m = v.text m := by
  have h := C15_find_first_of_if p (v.text m) 0
  have hs := splitFirstIf_of h
  unfold popFrontUntilIfKeep
  generalize findFirstOfIf p (v.text m) 0 = r at hs
  obtain ⟨res, e', _, _, _, ht⟩ := popFront_eq (α := α) v r
  cases r with
  | none => exact ⟨_, res, [], e', by rw [ht m]; exact hs, by rw [ht m, text_removePrefix_all]; simp⟩
  | some i =>
    exact ⟨_, res, (v.text m).drop (i + 1), e', by rw [ht m]; exact hs, by rw [ht m, text_removePrefix]; simp⟩

omit [DecidableEq α] in
/-- **C16**: `pop_front_while( pred )` takes the longest front part whose characters all satisfy the predicate. -/
theorem C16_pop_front_while (m : List α) (v : View) (p : α → Bool) :
    ∃ rest result, v.popFrontWhileIf m p = pure (rest, result) ∧ result.text m ++ rest.text m = v.text m ∧
      (∀ a ∈ result.text m, p a = true) ∧ ∀ a, (rest.text m).head? = some a → p a = false := by
  have h := C15_find_first_not_of_if p (v.text m) 0
  obtain ⟨res, e', _, _, _, ht⟩ := popFront_eq (α := α) v (findFirstNotOfIf p (v.text m) 0)
  refine ⟨_, res, by unfold popFrontWhileIf; rw [e'], ?_⟩
  have := splitFirstIf_of h
  rw [ht m]
  cases hr : findFirstNotOfIf p (v.text m) 0 with
  | none =>
    rw [hr] at this h
    rw [text_removePrefix_all]
    refine ⟨by simp, fun a ha => ?_, by simp⟩
    simpa using not_at_mem (fun j hj => h.2 rfl j (Nat.zero_le _) hj) a ha
  | some i =>
    rw [hr] at h
    rw [text_removePrefix]
    refine ⟨by simp, fun a ha => ?_, fun a ha => ?_⟩
    · obtain ⟨_, hi, _, hmin⟩ := h.1 i rfl
      obtain ⟨k, hk, rfl⟩ := List.mem_iff_getElem.1 ha
      rw [List.length_take] at hk
      rw [List.getElem_take]
      have := hmin k (Nat.zero_le _) (by omega)
      cases hp : p (v.text m)[k]
      · exact absurd ⟨_, List.getElem?_eq_getElem (by omega), by simp [hp]⟩ this
      · rfl
    · obtain ⟨_, hi, ⟨b, hb, hpb⟩, _⟩ := h.1 i rfl
      rw [List.head?_drop, hb] at ha
      cases ha
      simpa using hpb

/-- **C16**: `pop_front_while( c )` and `pop_front_while( where )` take the longest front part whose characters are all among those given. -/
theorem C16_pop_front_while_in (m : List α) (v : View) (w : List α) :
    ∃ rest result, v.popFrontWhileIn m w = pure (rest, result) ∧ result.text m ++ rest.text m = v.text m ∧
      (∀ a ∈ result.text m, a ∈ w) ∧ ∀ a, (rest.text m).head? = some a → a ∉ w := by
  have h := C15_find_first_not_of (v.text m) w 0
  obtain ⟨res, e', _, _, _, ht⟩ := popFront_eq (α := α) v (findFirstNotOf (v.text m) w 0)
  refine ⟨_, res, by unfold popFrontWhileIn; rw [e'], ?_⟩
  rw [ht m]
  cases hr : findFirstNotOf (v.text m) w 0 with
  | none =>
    rw [hr] at h
    rw [text_removePrefix_all]
    refine ⟨by simp, fun a ha => ?_, by simp⟩
    simpa using not_at_mem (fun j hj => h.2 rfl j (Nat.zero_le _) hj) a ha
  | some i =>
    rw [hr] at h
    rw [text_removePrefix]
    obtain ⟨_, hi, ⟨b, hb, hpb⟩, hmin⟩ := h.1 i rfl
    refine ⟨by simp, fun a ha => ?_, fun a ha => ?_⟩
    · obtain ⟨k, hk, rfl⟩ := List.mem_iff_getElem.1 ha
      rw [List.length_take] at hk
      rw [List.getElem_take]
      by_cases hp : (v.text m)[k] ∈ w
      · exact hp
      · exact absurd ⟨_, List.getElem?_eq_getElem (by omega), by simp [hp]⟩ (hmin k (Nat.zero_le _) (by omega))
    · rw [List.head?_drop, hb] at ha
      cases ha
      simpa using hpb

example : (⟨1, 4, false⟩ : View).popFrontWhileIn [9, 1, 2, 3, 1] [2, 1] = pure (⟨3, 2, false⟩, ⟨1, 2, false⟩) := rfl

omit [DecidableEq α] in
/-- What the members that split at the last occurrence do, given where it is. -/
theorem popBackUntil_eq {m : List α} {v : View} (pos n : Nat) (h : pos + n ≤ v.len) :
    ∃ result, v.substr (pos + n) none = pure result ∧ result.text m = (v.text m).drop (pos + n) ∧
      (v.removeSuffix (some (v.len - pos))).text m = (v.text m).take pos := by
  obtain ⟨w, e, _, _, _, ht⟩ := substr_eq (α := α) (v := v) (pos := pos + n) (count := none) h
  refine ⟨w, e, ht m, ?_⟩
  rw [text_removeSuffix, show v.len - (v.len - pos) = pos by omega]

/-- **C16**: `pop_back_until( where )`. -/
theorem C16_pop_back_until (m : List α) (v : View) (w : List α) (hv : v.off + v.len ≤ m.length) :
    ∃ rest result, v.popBackUntil m w = pure (rest, result) ∧
      SplitLast w (v.text m) (rest.text m) (result.text m) := by
  obtain ⟨r, e, h⟩ := C13_rfind (v.text m) w none
  have hs := splitLast_of h
  unfold popBackUntil
  rw [e, pure_bind]
  cases r with
  | none => exact ⟨_, _, rfl, by rw [text_removePrefix_all]; exact hs⟩
  | some pos =>
    have hb := occurs_length (h.1 pos rfl).2.1.1
    rw [text_length hv] at hb
    obtain ⟨res, e', h1, h2⟩ := popBackUntil_eq (m := m) pos w.length hb
    exact ⟨v.removeSuffix (some (v.len - pos)), res, by simp only [e', pure_bind], by rw [h1, h2]; exact hs⟩

/-- **C16**: `pop_back_until( c )`. -/
theorem C16_pop_back_until_char (m : List α) (v : View) (c : α) (hv : v.off + v.len ≤ m.length) :
    ∃ rest result, v.popBackUntilChar m c = pure (rest, result) ∧
      SplitLast [c] (v.text m) (rest.text m) (result.text m) := by
  exact C16_pop_back_until m v [c] hv

example := C16_pop_back_until_char [5, 2, 8, 3, 9] ⟨1, 3, false⟩ 8 (by decide)

omit [DecidableEq α] in
/-- **C16**: `pop_back_until( pred )`. -/
theorem C16_pop_back_until_if (m : List α) (v : View) (p : α → Bool) (hv : v.off + v.len ≤ m.length) :
    ∃ rest result, v.popBackUntilIf m p = pure (rest, result) ∧
      SplitLastIf p (v.text m) (rest.text m) (result.text m) := by
  obtain ⟨r, e, h⟩ := C15_find_last_of_if p (v.text m) none
  have hs := splitLastIf_of h
  unfold popBackUntilIf
  rw [e, pure_bind]
  cases r with
  | none => exact ⟨_, _, rfl, by rw [text_removePrefix_all]; exact hs⟩
  | some pos =>
    have hb := (h.1 pos rfl).1
    simp only [text_length hv] at hb
    obtain ⟨w, e', _, _, _, ht⟩ := substr_eq (α := α) (v := v) (pos := pos + 1) (count := none) (by omega)
    refine ⟨v.removeSuffix (some (v.len - pos)), w, by simp only [e', pure_bind], ?_⟩
    rw [text_removeSuffix, show v.len - (v.len - pos) = pos by omega, ht m]
    exact hs

example := C16_pop_back_until_if [5, 2, 8, 3, 9] ⟨1, 3, false⟩ (fun x : Nat => decide (x = 8)) (by decide)

/-- C16 does not hold for `pop_back_until( where, nodiscard )`: the delimiter is removed. -/
theorem C16_pop_back_until_keep_violated :
    (⟨0, 3, false⟩ : View).popBackUntilKeep [1, 2, 3] [2] = pure (⟨0, 1, false⟩, ⟨2, 1, false⟩) := rfl

/-- C16, what `pop_back_until( where, nodiscard )` does: the same as without `nodiscard`.  Missing: that the delimiter
stays. -/
theorem C16_pop_back_until_keep_partial (m : List α) (v : View) (w : List α) :
    v.popBackUntilKeep m w = v.popBackUntil m w := rfl

/-- C16 does not hold for `pop_back_until( pred, nodiscard )`: the delimiter goes to the result. -/
theorem C16_pop_back_until_if_keep_violated :
    (⟨0, 3, false⟩ : View).popBackUntilIfKeep [1, 2, 3] (· == 2) = pure (⟨0, 1, false⟩, ⟨1, 2, false⟩) := rfl

omit [DecidableEq α] in
/-- C16, what `pop_back_until( pred, nodiscard )` does: it loses nothing.  Missing: the delimiter is in the result, not in
the rest. -/
theorem C16_pop_back_until_if_keep_partial (m : List α) (v : View) (p : α → Bool) (hv : v.off + v.len ≤ m.length) :
    ∃ rest result right, v.popBackUntilIfKeep m p = pure (rest, result) ∧
      SplitLastIf p (v.text m) (rest.text m) right ∧ rest.text m ++ result.text m = v.text m := by
  obtain ⟨r, e, h⟩ := C15_find_last_of_if p (v.text m) none
  have hs := splitLastIf_of h
  unfold popBackUntilIfKeep
  rw [e, pure_bind]
  cases r with
  | none => exact ⟨_, _, v.text m, rfl, by rw [text_removePrefix_all]; exact hs, by rw [text_removePrefix_all]; rfl⟩
  | some pos =>
    have hb := (h.1 pos rfl).1
    simp only [text_length hv] at hb
    obtain ⟨w, e', _, _, _, ht⟩ := substr_eq (α := α) (v := v) (pos := pos) (count := none) (by omega)
    refine ⟨v.removeSuffix (some (v.len - pos)), w, (v.text m).drop (pos + 1), by simp only [e', pure_bind], ?_, ?_⟩
    · rw [text_removeSuffix, show v.len - (v.len - pos) = pos by omega]
      exact hs
    · rw [text_removeSuffix, show v.len - (v.len - pos) = pos by omega, ht m]
      simp

example := C16_pop_back_until_if_keep_partial [5, 2, 8, 3, 9] ⟨1, 3, false⟩ (fun x : Nat => decide (x = 8)) (by decide)

/-- **C16**: `try_pop_front_until( where )` does as `pop_front_until` if the delimiter occurs, and nothing otherwise. -/
theorem C16_try_pop_front_until (m : List α) (v : View) (w : List α) :
    (∃ rest result, v.tryPopFrontUntil m w = pure (rest, result) ∧ v.text m = result.text m ++ w ++ rest.text m ∧
      ∀ j, j < (result.text m).length → ¬ Occurs w (v.text m) j) ∨
    ((∀ j, ¬ Occurs w (v.text m) j) ∧ v.tryPopFrontUntil m w = pure (v, null)) := by
  obtain ⟨r, e, h⟩ := C13_find_partial (v.text m) w 0 (Nat.zero_le _)
  unfold tryPopFrontUntil
  rw [e, pure_bind]
  cases r with
  | none => exact Or.inr ⟨fun j hj => h.2 rfl j (Nat.zero_le _) (by have := hj.1; omega) hj, rfl⟩
  | some i =>
    obtain ⟨res, e', _, _, _, ht⟩ := popFront_eq (α := α) v (some i)
    obtain ⟨_, _, ho, hmin⟩ := h.1 i rfl
    refine Or.inl ⟨(v.removePrefix (some i)).removePrefix (some w.length), res, by simp only [e', pure_bind], ?_,
      fun j hj => hmin j (Nat.zero_le _) ?_⟩
    · rw [ht m, text_removePrefix, text_removePrefix, List.drop_drop]
      exact occurs_split ho
    · rw [ht m, List.length_take] at hj; omega

/-- **C16**: `try_pop_front_until( where, nodiscard )`. -/
theorem C16_try_pop_front_until_keep (m : List α) (v : View) (w : List α) :
    (∃ rest result, v.tryPopFrontUntilKeep m w = pure (rest, result) ∧ v.text m = result.text m ++ rest.text m ∧
      w <+: rest.text m ∧ ∀ j, j < (result.text m).length → ¬ Occurs w (v.text m) j) ∨
    ((∀ j, ¬ Occurs w (v.text m) j) ∧ v.tryPopFrontUntilKeep m w = pure (v, null)) := by
  obtain ⟨r, e, h⟩ := C13_find_partial (v.text m) w 0 (Nat.zero_le _)
  unfold tryPopFrontUntilKeep
  rw [e, pure_bind]
  cases r with
  | none => exact Or.inr ⟨fun j hj => h.2 rfl j (Nat.zero_le _) (by have := hj.1; omega) hj, rfl⟩
  | some i =>
    obtain ⟨res, e', _, _, _, ht⟩ := popFront_eq (α := α) v (some i)
    obtain ⟨_, _, ho, hmin⟩ := h.1 i rfl
    refine Or.inl ⟨_, res, e', ?_, ?_, fun j hj => hmin j (Nat.zero_le _) ?_⟩
    · rw [ht m, text_removePrefix]; simp
    · rw [text_removePrefix]; exact ho.2
    · rw [ht m, List.length_take] at hj; omega

/-- **C16**: `try_pop_front_until( c )`. -/
theorem C16_try_pop_front_until_char (m : List α) (v : View) (c : α) :
    (∃ rest result, v.tryPopFrontUntilChar m c = pure (rest, result) ∧ v.text m = result.text m ++ [c] ++ rest.text m ∧
      c ∉ result.text m) ∨
    (c ∉ v.text m ∧ v.tryPopFrontUntilChar m c = pure (v, null)) := by
  obtain ⟨r, e, _, h⟩ := C14_find_char_partial (v.text m) c
  have hs := splitFirstIf_of h
  unfold tryPopFrontUntilChar
  rw [e, pure_bind]
  cases r with
  | none =>
    refine Or.inr ⟨fun hc => ?_, rfl⟩
    have := not_at_mem (fun j hj => h.2 rfl j (Nat.zero_le _) hj) c hc
    simp at this
  | some i =>
    obtain ⟨res, e', _, _, _, ht⟩ := popFront_eq (α := α) v (some i)
    refine Or.inl ⟨(v.removePrefix (some i)).removePrefix (some 1), res, by simp only [e', pure_bind], ?_⟩
    rw [ht m, text_removePrefix, text_removePrefix, List.drop_drop]
    obtain ⟨_, hi, hat, hmin⟩ := h.1 i rfl
    obtain ⟨d, hd, hsp⟩ := at_split hat
    have : d = c := by simpa using hd
    subst this
    refine ⟨hsp, fun hc => ?_⟩
    obtain ⟨k, hk, hkc⟩ := List.mem_iff_getElem.1 hc
    rw [List.length_take] at hk
    rw [List.getElem_take] at hkc
    exact hmin k (Nat.zero_le _) (by omega) ⟨_, List.getElem?_eq_getElem (by omega), by simp [hkc]⟩

/-- C16 does not hold for `try_pop_front_until( pred )`: without a delimiter it still removes a character. -/
theorem C16_try_pop_front_until_if_violated :
    (⟨0, 3, false⟩ : View).tryPopFrontUntilIf [1, 2, 3] (· == 4) = pure (⟨1, 2, false⟩, null) := rfl

omit [DecidableEq α] in
/-- C16, `try_pop_front_until( pred )` if a character satisfies the predicate.  Missing: the case that none does. -/
theorem C16_try_pop_front_until_if_partial (m : List α) (v : View) (p : α → Bool) (h : ∃ a ∈ v.text m, p a = true) :
    ∃ rest result, v.tryPopFrontUntilIf m p = pure (rest, result) ∧
      SplitFirstIf p (v.text m) (result.text m) (rest.text m) := by
  have h' := C15_find_first_of_if p (v.text m) 0
  have hs := splitFirstIf_of h'
  unfold tryPopFrontUntilIf tryPopFrontUntilIfKeep
  cases hr : findFirstOfIf p (v.text m) 0 with
  | none =>
    rw [hr] at h'
    obtain ⟨a, ha, hp⟩ := h
    have := not_at_mem (fun j hj => h'.2 rfl j (Nat.zero_le _) hj) a ha
    rw [hp] at this; cases this
  | some i =>
    rw [hr] at hs
    obtain ⟨res, e', _, _, _, ht⟩ := popFront_eq (α := α) v (some i)
    refine ⟨(v.removePrefix (some i)).removePrefix (some 1), res, by simp only [e', pure_bind], ?_⟩
    rw [ht m, text_removePrefix, text_removePrefix, List.drop_drop]
    exact hs

example := C16_try_pop_front_until_if_partial [5, 2, 8, 3, 9] ⟨1, 3, false⟩ (fun x : Nat => decide (x = 8)) (by decide)

omit [DecidableEq α] in
/-- **C16**: `try_pop_front_until( pred, nodiscard )`. -/
theorem C16_try_pop_front_until_if_keep (m : List α) (v : View) (p : α → Bool) :
    (∃ rest result, v.tryPopFrontUntilIfKeep m p = pure (rest, result) ∧ v.text m = result.text m ++ rest.text m ∧
      (∃ c cs, rest.text m = c :: cs ∧ p c = true) ∧ ∀ a ∈ result.text m, p a = false) ∨
    ((∀ a ∈ v.text m, p a = false) ∧ v.tryPopFrontUntilIfKeep m p = pure (v, null)) := by
  have h := C15_find_first_of_if p (v.text m) 0
  unfold tryPopFrontUntilIfKeep
  cases hr : findFirstOfIf p (v.text m) 0 with
  | none =>
    rw [hr] at h
    exact Or.inr ⟨not_at_mem fun j hj => h.2 rfl j (Nat.zero_le _) hj, rfl⟩
  | some i =>
    rw [hr] at h
    obtain ⟨res, e', _, _, _, ht⟩ := popFront_eq (α := α) v (some i)
    obtain ⟨_, hi, ⟨c, hc, hpc⟩, hmin⟩ := h.1 i rfl
    refine Or.inl ⟨_, res, e', ?_, ?_, ?_⟩
    · rw [ht m, text_removePrefix]; simp
    · obtain ⟨_, rfl⟩ := List.getElem?_eq_some_iff.1 hc
      rw [text_removePrefix, List.drop_eq_getElem_cons hi]
      exact ⟨_, _, rfl, hpc⟩
    · rw [ht m]
      refine not_at_mem fun j hj hat => ?_
      rw [List.length_take] at hj
      obtain ⟨b, hb, hpb⟩ := hat
      rw [List.getElem?_take_of_lt (by omega)] at hb
      exact hmin j (Nat.zero_le _) (by omega) ⟨b, hb, hpb⟩

/-- **C16**: `try_pop_back_until( where )`. -/
theorem C16_try_pop_back_until (m : List α) (v : View) (w : List α) (hv : v.off + v.len ≤ m.length) :
    (∃ rest result, v.tryPopBackUntil m w = pure (rest, result) ∧ v.text m = rest.text m ++ w ++ result.text m ∧
      ∀ j, (rest.text m).length < j → ¬ Occurs w (v.text m) j) ∨
    ((∀ j, ¬ Occurs w (v.text m) j) ∧ v.tryPopBackUntil m w = pure (v, null)) := by
  obtain ⟨r, e, h⟩ := C13_rfind (v.text m) w none
  unfold tryPopBackUntil
  rw [e, pure_bind]
  cases r with
  | none => exact Or.inr ⟨fun j hj => h.2 rfl j (by have := hj.1; omega) ⟨hj, by simp⟩, rfl⟩
  | some pos =>
    obtain ⟨_, ho, hmax⟩ := h.1 pos rfl
    have hb := occurs_length ho.1
    rw [text_length hv] at hb
    obtain ⟨res, e', h1, h2⟩ := popBackUntil_eq (m := m) pos w.length hb
    refine Or.inl ⟨v.removeSuffix (some (v.len - pos)), res, by simp only [e', pure_bind], ?_, fun j hj hocc => ?_⟩
    · rw [h1, h2]; exact occurs_split ho.1
    · rw [h2, List.length_take, text_length hv] at hj
      have := hocc.1
      exact hmax j (by omega) (by omega) ⟨hocc, by simp⟩

example := C16_try_pop_back_until [5, 2, 8, 3, 9] ⟨1, 3, false⟩ [8, 3] (by decide)

/-- C16 does not hold for the other forms of `try_pop_back_until`: with `nodiscard` the delimiter is removed all the
same; for a character it is in the result, and with `nodiscard` in both parts; for a predicate likewise. -/
theorem C16_try_pop_back_until_violated :
    (⟨0, 3, false⟩ : View).tryPopBackUntilKeep [1, 2, 3] [2] = pure (⟨0, 1, false⟩, ⟨2, 1, false⟩) ∧
    (⟨0, 3, false⟩ : View).tryPopBackUntilChar [1, 2, 3] 2 = pure (⟨0, 1, false⟩, ⟨1, 2, false⟩) ∧
    (⟨0, 3, false⟩ : View).tryPopBackUntilCharKeep [1, 2, 3] 2 = pure (⟨0, 2, false⟩, ⟨1, 2, false⟩) ∧
    (⟨0, 3, false⟩ : View).tryPopBackUntilIf [1, 2, 3] (· == 2) = pure (⟨0, 1, false⟩, ⟨1, 2, false⟩) ∧
    (⟨0, 3, false⟩ : View).tryPopBackUntilIfKeep [1, 2, 3] (· == 2) = pure (⟨0, 2, false⟩, ⟨1, 2, false⟩) :=
  ⟨rfl, rfl, rfl, rfl, rfl⟩

/-- **C16**: `remove_prefix_until( where )` leaves what `pop_front_until` leaves. -/
theorem C16_remove_prefix_until (m : List α) (v : View) (w : List α) :
    ∃ rest left, v.removePrefixUntil m w = pure rest ∧ SplitFirst w (v.text m) left (rest.text m) := by
  obtain ⟨rest, result, e, h⟩ := C16_pop_front_until m v w
  refine ⟨rest, _, ?_, h⟩
  unfold popFrontUntil at e
  unfold removePrefixUntil
  obtain ⟨r, e1, e2⟩ := bind_eq_pure.1 e
  rw [e1, pure_bind]
  obtain ⟨res, e', _⟩ := popFront_eq (α := α) v r
  rw [e', pure_bind] at e2
  have := pure_inj.1 e2
  rw [(Prod.mk.injEq .. |>.mp this).1]

/-- **C16**: the other `remove_prefix_until` leave what the `pop_front_until` with the same arguments leave. -/
theorem C16_remove_prefix_until_others (m : List α) (v : View) (w : List α) (c : α) (p : α → Bool) :
    (∃ rest left right, v.removePrefixUntilKeep m w = pure rest ∧ SplitFirst w (v.text m) left right ∧ left ++ rest.text m = v.text m) ∧
    (∃ rest left, v.removePrefixUntilChar m c = pure rest ∧ SplitFirstIf (· == c) (v.text m) left (rest.text m)) ∧
    (∃ rest left right, v.removePrefixUntilCharKeep m c = pure rest ∧ SplitFirstIf (· == c) (v.text m) left right ∧
      left ++ rest.text m = v.text m) ∧
    ∃ left, SplitFirstIf p (v.text m) left ((v.removePrefixUntilIf m p).text m) := by
  refine ⟨?_, ?_, ?_, ?_⟩
  · obtain ⟨rest, result, right, e, h, k⟩ := C16_pop_front_until_keep m v w
    refine ⟨rest, _, _, ?_, h, k⟩
    unfold popFrontUntilKeep at e
    unfold removePrefixUntilKeep
    obtain ⟨r, e1, e2⟩ := bind_eq_pure.1 e
    rw [e1, pure_bind]
    obtain ⟨res, e', _⟩ := popFront_eq (α := α) v r
    rw [e'] at e2
    rw [(Prod.mk.injEq .. |>.mp (pure_inj.1 e2)).1]
  · obtain ⟨rest, result, e, h⟩ := C16_pop_front_until_char m v c
    refine ⟨rest, _, ?_, h⟩
    unfold popFrontUntilChar at e
    unfold removePrefixUntilChar
    obtain ⟨r, e1, e2⟩ := bind_eq_pure.1 e
    rw [e1, pure_bind]
    obtain ⟨res, e', _⟩ := popFront_eq (α := α) v r
    rw [e', pure_bind] at e2
    rw [(Prod.mk.injEq .. |>.mp (pure_inj.1 e2)).1]
  · obtain ⟨rest, result, right, e, h, k⟩ := C16_pop_front_until_char_keep m v c
    refine ⟨rest, _, _, ?_, h, k⟩
    unfold popFrontUntilCharKeep at e
    unfold removePrefixUntilCharKeep
    obtain ⟨r, e1, e2⟩ := bind_eq_pure.1 e
    rw [e1, pure_bind]
    obtain ⟨res, e', _⟩ := popFront_eq (α := α) v r
    rw [e'] at e2
    rw [(Prod.mk.injEq .. |>.mp (pure_inj.1 e2)).1]
  · obtain ⟨rest, result, e, h⟩ := C16_pop_front_until_if m v p
    refine ⟨result.text m, ?_⟩
    unfold popFrontUntilIf popFrontUntilIfKeep at e
    obtain ⟨res, e', _⟩ := popFront_eq (α := α) v (findFirstOfIf p (v.text m) 0)
    rw [e', pure_bind] at e
    have := (Prod.mk.injEq .. |>.mp (pure_inj.1 e)).1
    unfold removePrefixUntilIf
    rw [this]
    exact h

example : (⟨1, 5, false⟩ : View).removePrefixUntilKeep [9, 1, 2, 3, 2, 4] [3, 2] = pure ⟨3, 3, false⟩ ∧
    (⟨1, 5, false⟩ : View).removePrefixUntilChar [9, 1, 2, 3, 2, 4] 3 = pure ⟨4, 2, false⟩ ∧
    (⟨1, 5, false⟩ : View).removePrefixUntilIf [9, 1, 2, 3, 2, 4] (· == 3) = ⟨4, 2, false⟩ := ⟨rfl, rfl, rfl⟩

example : (⟨1, 5, false⟩ : View).popFrontUntil [9, 1, 2, 3, 2, 4] [2, 3] = pure (⟨4, 2, false⟩, ⟨1, 1, false⟩) ∧
    (⟨1, 5, false⟩ : View).popBackUntil [9, 1, 2, 3, 2, 4] [2] = pure (⟨1, 3, false⟩, ⟨5, 1, false⟩) ∧
    (1 + 5 ≤ [9, 1, 2, 3, 2, 4].length) := ⟨rfl, rfl, by decide⟩

end

/-! ### Trimming -/

/-- **C17** for `remove_prefix_while`, and so for `trim_prefix`: a front part of white space is removed, and what is left
does not start with white space. -/
theorem C17_trim_prefix (m : List α) (v : View) (p : α → Bool) :
    ∃ pre, v.text m = pre ++ (v.removePrefixWhile m p).text m ∧ (∀ a ∈ pre, p a = true) ∧
      ∀ a, ((v.removePrefixWhile m p).text m).head? = some a → p a = false := by
  obtain ⟨rest, result, e, h1, h2, h3⟩ := C16_pop_front_while m v p
  unfold popFrontWhileIf at e
  obtain ⟨res, e', _⟩ := popFront_eq (α := α) v (findFirstNotOfIf p (v.text m) 0)
  rw [e'] at e
  have he := (Prod.mk.injEq .. |>.mp (pure_inj.1 e)).1
  subst he
  exact ⟨result.text m, h1.symm, h2, h3⟩

/-- **C17** for `remove_suffix_while`, and so for `trim_suffix`. -/
theorem C17_trim_suffix (m : List α) (v : View) (p : α → Bool) (hv : v.off + v.len ≤ m.length) :
    ∃ out post, v.removeSuffixWhile m p = pure out ∧ v.text m = out.text m ++ post ∧ (∀ a ∈ post, p a = true) ∧
      ∀ a, (out.text m).getLast? = some a → p a = false := by
  obtain ⟨r, e, h1, h2⟩ := C15_find_last_not_of_if_partial p (v.text m) none (by simp)
  simp only [text_length hv] at h1 h2
  have hlen := text_length hv
  have resize_eq : ∀ n, n ≤ v.len → ∃ out, v.resize n = pure out ∧ out.text m = (v.text m).take n := by
    intro n hn
    unfold resize
    by_cases h : n = v.len
    · rw [if_neg (by simpa using h)]
      exact ⟨v, rfl, by rw [List.take_of_length_le (by omega)]⟩
    · rw [if_pos h, if_pos hn]
      refine ⟨_, rfl, ?_⟩
      unfold text
      simp only []
      rw [List.take_take, Nat.min_eq_left hn]
  unfold removeSuffixWhile
  rw [e, pure_bind]
  cases r with
  | none =>
    obtain ⟨out, eo, ht⟩ := resize_eq 0 (Nat.zero_le _)
    refine ⟨out, v.text m, eo, by rw [ht]; simp, fun a ha => ?_, by rw [ht]; simp⟩
    have := not_at_mem (p := fun x => !p x) (xs := v.text m) (fun j hj => h2 rfl j (by omega)) a ha
    simpa using this
  | some pos =>
    obtain ⟨hp, ⟨b, hb, hpb⟩, hmax⟩ := h1 pos rfl
    obtain ⟨out, eo, ht⟩ := resize_eq (pos + 1) (by omega)
    refine ⟨out, (v.text m).drop (pos + 1), eo, by rw [ht]; simp, fun a ha => ?_, fun a ha => ?_⟩
    · have := not_at_mem (p := fun x => !p x) (xs := (v.text m).drop (pos + 1)) (fun j hj hat => by
        rw [at_drop] at hat
        rw [List.length_drop] at hj
        exact hmax _ (by omega) (by omega) hat) a ha
      simpa using this
    · rw [ht, List.getLast?_take, Nat.add_sub_cancel, if_neg (by omega), hb] at ha
      simp at ha
      subst ha
      simpa using hpb

/-- **C17**: `trim` removes white space at both ends and nothing else; what is left neither starts nor ends with white
space. -/
theorem C17_trim (m : List α) (v : View) (p : α → Bool) (hv : v.off + v.len ≤ m.length) :
    ∃ out pre post, v.trimIf m p = pure out ∧ v.text m = pre ++ out.text m ++ post ∧
      (∀ a ∈ pre, p a = true) ∧ (∀ a ∈ post, p a = true) ∧
      (∀ a, (out.text m).head? = some a → p a = false) ∧ (∀ a, (out.text m).getLast? = some a → p a = false) := by
  obtain ⟨pre, h1, h2, h3⟩ := C17_trim_prefix m v p
  have hv' : (v.removePrefixWhile m p).off + (v.removePrefixWhile m p).len ≤ m.length := by
    unfold removePrefixWhile removePrefix
    simp only []
    have : v.clip (findFirstNotOfIf p (v.text m) 0) ≤ v.len := by
      unfold clip; split <;> omega
    omega
  obtain ⟨out, post, e, g1, g2, g3⟩ := C17_trim_suffix m (v.removePrefixWhile m p) p hv'
  refine ⟨out, pre, post, e, by rw [h1, g1]; simp, h2, g2, fun a ha => h3 a ?_, g3⟩
  rw [g1]
  cases ho : out.text m with
  | nil => rw [ho] at ha; simp at ha
  | cons x xs => rw [ho] at ha; simpa using ha

/-- What `is_space` accepts: blank, tab, line feed, vertical tab, form feed, carriage return. -/
theorem C17_is_space (c : BitVec 8) : isSpace c = true ↔ c.toNat = 32 ∨ (9 ≤ c.toNat ∧ c.toNat ≤ 13) := by
  have key : ∀ k : Nat, k < 256 → ((c == BitVec.ofNat 8 k) = true ↔ c.toNat = k) := by
    intro k hk
    rw [beq_iff_eq, ← BitVec.toNat_inj, BitVec.toNat_ofNat, Nat.mod_eq_of_lt (by omega)]
  unfold isSpace
  simp only [Bool.or_eq_true]
  rw [key 32 (by omega), key 9 (by omega), key 10 (by omega), key 11 (by omega), key 12 (by omega), key 13 (by omega)]
  omega

/-- **C17** for `trim` itself: blanks, tabs and line ends at both ends are removed and nothing else. -/
theorem C17_trim_space (m : List (BitVec 8)) (v : View) (hv : v.off + v.len ≤ m.length) :
    ∃ out pre post, v.trim m = pure out ∧ v.text m = pre ++ out.text m ++ post ∧
      (∀ a ∈ pre ++ post, a.toNat = 32 ∨ (9 ≤ a.toNat ∧ a.toNat ≤ 13)) ∧
      (∀ a, (out.text m).head? = some a ∨ (out.text m).getLast? = some a → ¬ (a.toNat = 32 ∨ (9 ≤ a.toNat ∧ a.toNat ≤ 13))) := by
  obtain ⟨out, pre, post, h1, h2, h3, h4, h5, h6⟩ := C17_trim m v isSpace hv
  refine ⟨out, pre, post, h1, h2, fun a ha => ?_, fun a ha hs => ?_⟩
  · rw [← C17_is_space]
    rcases List.mem_append.1 ha with ha | ha
    · exact h3 a ha
    · exact h4 a ha
  · rw [← C17_is_space] at hs
    rcases ha with ha | ha
    · rw [h5 a ha] at hs; cases hs
    · rw [h6 a ha] at hs; cases hs

example : (⟨0, 6, true⟩ : View).trim [32#8, 9#8, 97#8, 32#8, 98#8, 10#8] = pure ⟨2, 3, false⟩ := rfl

end View

end Verif.SV
