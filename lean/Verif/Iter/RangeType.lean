import Verif.Base
import Verif.Containers.Lists

/-
`daw::range::Range`, include/daw/deprecated/daw_range_type.h, for random access iterators into an array.
-/

namespace Verif.Iter.RangeType
open Cxx

variable {α : Type}

/-- `Range`, deprecated/daw_range_type.h 36-37: places in an array. -/
structure Range where
  first : Nat
  last : Nat
  deriving DecidableEq

/-- Arithmetic on an iterator into an array with `n` elements. (Rule of C++ or its library, no line of the source.) -/
def moved (n it : Nat) (d : Int) : Cxx Nat := if 0 ≤ it + d ∧ it + d ≤ n then pure (it + d).toNat else ub

/-- `static_cast<ptrdiff_t>` of a `size_t`. (Rule of C++ or its library, no line of the source.) -/
def toPtrdiff (n : Nat) : Int := if n < 2 ^ 63 then n else (n : Int) - 2 ^ 64

/-- `size`, deprecated/daw_range_type.h 149-151: modulo 2^64. -/
def size (r : Range) : Nat := (((r.last : Int) - r.first) % 2 ^ 64).toNat

/-- `empty` and `at_end`, deprecated/daw_range_type.h 68-74. -/
def empty (r : Range) : Bool := !(r.first != r.last)

/-- `move_next`, deprecated/daw_range_type.h 51-55. -/
def moveNext (xs : List α) (r : Range) : Cxx Range :=
  if r.first = r.last then abort
  else do
    let b ← moved xs.length r.first 1
    pure ⟨b, r.last⟩

/-- `move_back`, deprecated/daw_range_type.h 57-60. -/
def moveBack (xs : List α) (r : Range) : Cxx Range := do
  let b ← moved xs.length r.first (-1)
  pure ⟨b, r.last⟩

/-- `move_back` with a start, deprecated/daw_range_type.h 62-66. -/
def moveBackFrom (xs : List α) (r : Range) (start : Nat) : Cxx Range :=
  if ¬ start < r.first then abort
  else do
    let b ← moved xs.length r.first (-1)
    pure ⟨b, r.last⟩

/-- `advance`, deprecated/daw_range_type.h 84-86. -/
def advance (xs : List α) (r : Range) (n : Int) : Cxx Range := do
  let b ← moved xs.length r.first n
  pure ⟨b, r.last⟩

/-- `front`, deprecated/daw_range_type.h 121-127. -/
def front (xs : List α) (r : Range) : Cxx α := rd xs r.first

/-- `back`, deprecated/daw_range_type.h 129-139: the distance is computed as `size_t`. -/
def back (xs : List α) (r : Range) : Cxx α := do
  let it ← moved xs.length r.first (toPtrdiff ((size r + 2 ^ 64 - 1) % 2 ^ 64))
  rd xs it

/-- `operator[]`, deprecated/daw_range_type.h 153-159. -/
def at' (xs : List α) (r : Range) (pos : Nat) : Cxx α := do
  let it ← moved xs.length r.first pos
  rd xs it

/-- `slice` with one position, deprecated/daw_range_type.h 278-286. -/
def slice1 (xs : List α) (r : Range) (firstPos : Nat) : Cxx Range := do
  let b ← moved xs.length r.first (toPtrdiff firstPos)
  let e ← moved xs.length r.first (toPtrdiff (size r))
  pure ⟨b, e⟩

/-- `slice` with two positions, deprecated/daw_range_type.h 288-296. -/
def slice2 (xs : List α) (r : Range) (firstPos lastPos : Nat) : Cxx Range := do
  let b ← moved xs.length r.first (toPtrdiff firstPos)
  let e ← moved xs.length r.first (toPtrdiff lastPos)
  pure ⟨b, e⟩

/-- `shrink`, deprecated/daw_range_type.h 298-306. -/
def shrink (xs : List α) (r : Range) (newSize : Nat) : Cxx Range := do
  let e ← moved xs.length r.first (toPtrdiff ((newSize + 1) % 2 ^ 64))
  pure ⟨r.first, e⟩

/-- `safe_advance`, deprecated/daw_range_type.h 345-355. -/
def safeAdvance (xs : List α) (r : Range) (count : Int) : Cxx Range :=
  if ¬ 0 ≤ count then abort
  else if (r.last : Int) - r.first ≥ count then advance xs r count
  else pure ⟨r.last, r.last⟩

/-- The loop of `as_vector`, deprecated/daw_range_type.h 308-312, from `it` on. -/
def copyOut (xs : List α) (last : Nat) (it : Nat) : Cxx (List α) :=
  if it = last then pure []
  else do
    let x ← rd xs it
    let rest ← copyOut xs last (it + 1)
    pure (x :: rest)
partial_fixpoint

/-- `as_vector`, deprecated/daw_range_type.h 308-312. -/
def asVector (xs : List α) (r : Range) : Cxx (List α) := copyOut xs r.last r.first

/-- `find`, deprecated/daw_range_type.h 196-199. -/
def find [DecidableEq α] (xs : List α) (last : Nat) (v : α) (it : Nat) : Cxx Nat :=
  if it = last then pure it
  else do
    let x ← rd xs it
    if x = v then pure it else find xs last v (it + 1)
partial_fixpoint

/-- `contains`, deprecated/daw_range_type.h 256-259, 357-362. -/
def contains [DecidableEq α] (xs : List α) (r : Range) (v : α) : Cxx Bool := do
  let it ← find xs r.last v r.first
  pure (it != r.last)

/-- A range inside an array that is not longer than the memory. (Specification, no line of the source.) -/
def Valid (xs : List α) (r : Range) : Prop := r.first ≤ r.last ∧ r.last ≤ xs.length ∧ xs.length < 2 ^ 63

/-- The elements of a range. (Specification, no line of the source.) -/
def view (xs : List α) (r : Range) : List α := (xs.drop r.first).take (r.last - r.first)

theorem view_length {xs : List α} {r : Range} (h : Valid xs r) : (view xs r).length = r.last - r.first := by
  unfold view
  obtain ⟨_, _, _⟩ := h
  simp
  omega

theorem view_getElem? {xs : List α} {r : Range} (i : Nat) (hi : i < r.last - r.first) : (view xs r)[i]? = xs[r.first + i]? := by
  unfold view
  rw [List.getElem?_take, if_pos hi, List.getElem?_drop]

theorem size_eq {xs : List α} {r : Range} (h : Valid xs r) : size r = (view xs r).length := by
  rw [view_length h]
  obtain ⟨h1, h2, h3⟩ := h
  unfold size
  omega

theorem moved_eq {n it : Nat} {d : Int} (h0 : 0 ≤ it + d) (h1 : it + d ≤ n) : moved n it d = pure (it + d).toNat := if_pos ⟨h0, h1⟩

/-- A range has the elements of its part of the array: their number, the first, the last, each, and all of them. -/
theorem C275_view_partial (xs : List α) (r : Range) (h : Valid xs r) :
    size r = (view xs r).length ∧ (empty r = true ↔ view xs r = []) ∧
    (∀ x, (view xs r).head? = some x → front xs r = pure x) ∧
    (∀ x, (view xs r).getLast? = some x → back xs r = pure x) ∧
    (∀ i x, (view xs r)[i]? = some x → at' xs r i = pure x) ∧
    asVector xs r = pure (view xs r) := by
  have hl := view_length h
  have hsz := size_eq h
  obtain ⟨h1, h2, h3⟩ := h
  refine ⟨hsz, ?_, ?_, ?_, ?_, ?_⟩
  · rw [← List.length_eq_zero_iff, hl]
    unfold empty
    simp
    omega
  · intro x hx
    have : (view xs r)[0]? = some x := by rw [← hx, List.head?_eq_getElem?]
    have hlt := (List.getElem?_eq_some_iff.mp this).1
    rw [view_getElem? 0 (by omega)] at this
    exact rd_some (by simpa using this)
  · intro x hx
    rw [List.getLast?_eq_getElem?] at hx
    have hlt := (List.getElem?_eq_some_iff.mp hx).1
    rw [view_getElem? _ (by omega), hl] at hx
    unfold back
    have hd : toPtrdiff ((size r + 2 ^ 64 - 1) % 2 ^ 64) = ((r.last - r.first - 1 : Nat) : Int) := by
      unfold toPtrdiff
      rw [hsz, hl]
      split <;> omega
    rw [hd, moved_eq (by omega) (by omega)]
    exact rd_some (by rw [← hx]; congr 1; all_goals omega)
  · intro i x hx
    have hlt := (List.getElem?_eq_some_iff.mp hx).1
    rw [view_getElem? _ (by omega)] at hx
    unfold at'
    rw [moved_eq (by omega) (by omega)]
    exact rd_some (by rw [← hx]; rfl)
  · have key : ∀ (k it : Nat), it + k = r.last → copyOut xs r.last it = pure ((xs.drop it).take k) := by
      intro k
      induction k with
      | zero =>
        intro it hit
        rw [copyOut, if_pos (by omega)]
        simp
      | succ k ih =>
        intro it hit
        rw [copyOut, if_neg (by omega), rd_eq (by omega), List.drop_eq_getElem_cons (by omega), List.take_succ_cons]
        show (do let rest ← copyOut xs r.last (it + 1); pure (xs[it] :: rest)) = _
        rw [ih (it + 1) (by omega)]
        rfl
    exact key _ _ (by omega)

example : asVector [1, 2, 3, 4, 5] ⟨1, 4⟩ = pure [2, 3, 4] :=
  (C275_view_partial [1, 2, 3, 4, 5] ⟨1, 4⟩ (by unfold Valid; decide)).2.2.2.2.2

/-- `front` and `back` of an empty range and `operator[]` beyond the end give elements of the array that are not in the range, if there are any. -/
theorem C275_view_violated :
    view [1, 2, 3] ⟨1, 1⟩ = [] ∧ front [1, 2, 3] ⟨1, 1⟩ = pure 2 ∧ back [1, 2, 3] ⟨1, 1⟩ = pure 1 ∧ at' [1, 2, 3] ⟨0, 1⟩ 2 = pure 3 := by
  refine ⟨?_, ?_, ?_, ?_⟩ <;> decide +kernel

/-- Finding a value: the first place that has it, or the end. -/
theorem C275_find [DecidableEq α] (xs : List α) (r : Range) (h : Valid xs r) (v : α) :
    find xs r.last v r.first = pure (r.first + (view xs r).findIdx (· = v)) ∧
      contains xs r v = pure (decide (v ∈ view xs r)) := by
  obtain ⟨h1, h2, h3⟩ := h
  have key : ∀ (k it : Nat), it + k = r.last → find xs r.last v it = pure (it + ((xs.drop it).take k).findIdx (· = v)) := by
    intro k
    induction k with
    | zero =>
      intro it hit
      rw [find, if_pos (by omega)]
      simp
    | succ k ih =>
      intro it hit
      rw [find, if_neg (by omega), rd_eq (by omega), List.drop_eq_getElem_cons (by omega), List.take_succ_cons, List.findIdx_cons]
      show (if xs[it] = v then pure it else find xs r.last v (it + 1)) = _
      by_cases hv : xs[it] = v
      · rw [if_pos hv]
        simp [hv]
      · rw [if_neg hv, ih (it + 1) (by omega), pure_inj]
        simp only [hv, decide_false, cond_false]
        omega
  have hfind := key (r.last - r.first) r.first (by omega)
  refine ⟨hfind, ?_⟩
  unfold contains
  rw [hfind]
  show (pure (_ != r.last) : Cxx Bool) = pure _
  rw [pure_inj]
  have hl : (view xs r).length = r.last - r.first := view_length ⟨h1, h2, h3⟩
  change (r.first + (view xs r).findIdx (· = v) != r.last) = _
  by_cases hv : v ∈ view xs r
  · have : (view xs r).findIdx (· = v) < (view xs r).length := List.findIdx_lt_length_of_exists ⟨v, hv, by simp⟩
    simp [hv]
    omega
  · have : (view xs r).findIdx (· = v) = (view xs r).length := by
      rw [List.findIdx_eq_length]
      intro x hx
      simp
      intro he
      exact hv (he ▸ hx)
    simp [hv]
    omega

example := C275_find [5, 2, 8, 3, 9] ⟨1, 4⟩ (by simp [Valid]) 8

/-! ## Changing the range -/

/-- Slices take positions inside the range: from one position to the end, and between two. -/
theorem C276_slice (xs : List α) (r : Range) (h : Valid xs r) (i j : Nat) (hij : i ≤ j) (hj : j ≤ (view xs r).length) :
    (∃ s, slice1 xs r i = pure s ∧ Valid xs s ∧ view xs s = (view xs r).drop i) ∧
    (∃ s, slice2 xs r i j = pure s ∧ Valid xs s ∧ view xs s = ((view xs r).take j).drop i) := by
  have hl := view_length h
  have hsz := size_eq h
  obtain ⟨h1, h2, h3⟩ := h
  have hp : ∀ n : Nat, n ≤ r.last - r.first → moved xs.length r.first (toPtrdiff n) = pure (r.first + n) := by
    intro n hn
    have : toPtrdiff n = n := by unfold toPtrdiff; rw [if_pos (by omega)]
    rw [this, moved_eq (by omega) (by omega)]
    congr 1
  constructor
  · refine ⟨⟨r.first + i, r.first + size r⟩, ?_, ?_, ?_⟩
    · unfold slice1
      rw [hp i (by omega), hp (size r) (by omega)]
      rfl
    · unfold Valid; dsimp only; omega
    · unfold view at *
      rw [List.drop_take, List.drop_drop]
      congr 1
      dsimp only
      omega
  · refine ⟨⟨r.first + i, r.first + j⟩, ?_, ?_, ?_⟩
    · unfold slice2
      rw [hp i (by omega), hp j (by omega)]
      rfl
    · unfold Valid; dsimp only; omega
    · unfold view at *
      rw [List.take_take, Nat.min_eq_left (by omega), List.drop_take, List.drop_drop]
      congr 1
      dsimp only
      omega

example := C276_slice [5, 2, 8, 3, 9] ⟨1, 4⟩ (by simp [Valid]) 1 2 (by decide) (by decide)

/-- `shrink( n )` leaves one element too many, and is undefined for the size of the array behind the begin. -/
theorem C276_shrink_violated (xs : List α) (r : Range) (h : Valid xs r) (n : Nat) :
    (n < (view xs r).length → ∃ s, shrink xs r n = pure s ∧ view xs s = (view xs r).take (n + 1) ∧ (view xs s).length = n + 1) ∧
    (r.first + n = xs.length → shrink xs r n = ub) := by
  have hl := view_length h
  obtain ⟨h1, h2, h3⟩ := h
  have hp : n ≤ xs.length → toPtrdiff ((n + 1) % 2 ^ 64) = n + 1 ∨ toPtrdiff ((n + 1) % 2 ^ 64) < 0 := by
    intro hn
    unfold toPtrdiff
    rw [Nat.mod_eq_of_lt (by omega)]
    split <;> omega
  constructor
  · intro hn
    refine ⟨⟨r.first, r.first + (n + 1)⟩, ?_, ?_, ?_⟩
    · unfold shrink
      have : toPtrdiff ((n + 1) % 2 ^ 64) = n + 1 := by
        unfold toPtrdiff
        rw [Nat.mod_eq_of_lt (by omega), if_pos (by omega)]
        rfl
      rw [this, moved_eq (by omega) (by omega)]
      rfl
    · unfold view at *
      rw [List.take_take, Nat.min_eq_left (by omega)]
      congr 1
      dsimp only
      omega
    · unfold view
      simp
      omega
  · intro hn
    unfold shrink moved
    rw [if_neg]
    · rfl
    · rcases hp (by omega) with h | h
      · omega
      · unfold toPtrdiff at h ⊢
        rw [Nat.mod_eq_of_lt (by omega)] at h ⊢
        split at h <;> omega

/-- What `shrink` keeps does begin with the elements that it should keep. -/
theorem C276_shrink_partial (xs : List α) (r : Range) (h : Valid xs r) (n : Nat) (hn : n < (view xs r).length) :
    ∃ s, shrink xs r n = pure s ∧ (view xs s).take n = (view xs r).take n := by
  obtain ⟨s, h1, h2, _⟩ := (C276_shrink_violated xs r h n).1 hn
  exact ⟨s, h1, by rw [h2, List.take_take, Nat.min_eq_left (by omega)]⟩

example : shrink [1, 2, 3, 4] ⟨0, 4⟩ 2 = pure ⟨0, 3⟩ := by decide +kernel

/-- `move_back` with a start does not go back beyond it: the program is ended at the start and before it. -/
theorem C276_move_back_start (xs : List α) (r : Range) (start : Nat) :
    (r.first ≤ start → moveBackFrom xs r start = abort) ∧ (start < r.first → moveBackFrom xs r start = moveBack xs r) := by
  unfold moveBackFrom moveBack
  exact ⟨fun h => by rw [if_pos (by omega)], fun h => by rw [if_neg (by omega)]⟩

example : moveBackFrom [1, 2, 3] ⟨1, 3⟩ 1 = abort ∧ moveBackFrom [1, 2, 3] ⟨1, 3⟩ 0 = pure ⟨0, 3⟩ := by decide +kernel

/-- `move_next` and `safe_advance` drop elements at the begin: one, which has to be there, and as many as there are at most; `move_back` undoes
`move_next`. -/
theorem C276_advance (xs : List α) (r : Range) (h : Valid xs r) (n : Nat) :
    (∃ s, safeAdvance xs r n = pure s ∧ Valid xs s ∧ view xs s = (view xs r).drop n) ∧
    (view xs r = [] → moveNext xs r = abort) ∧
    (view xs r ≠ [] → ∃ s, moveNext xs r = pure s ∧ Valid xs s ∧ view xs s = (view xs r).drop 1 ∧ moveBack xs s = pure r ∧
      moveBackFrom xs s r.first = pure r) := by
  have hl := view_length h
  obtain ⟨h1, h2, h3⟩ := h
  refine ⟨?_, ?_, ?_⟩
  · by_cases hn : n ≤ r.last - r.first
    · refine ⟨⟨r.first + n, r.last⟩, ?_, ?_, ?_⟩
      · unfold safeAdvance advance
        rw [if_neg (by omega), if_pos (by omega), moved_eq (by omega) (by omega)]
        rfl
      · unfold Valid; dsimp only; omega
      · unfold view
        rw [List.drop_take, List.drop_drop]
        congr 1
        dsimp only
        omega
    · refine ⟨⟨r.last, r.last⟩, ?_, ?_, ?_⟩
      · unfold safeAdvance
        rw [if_neg (by omega), if_neg (by omega)]
      · unfold Valid; dsimp only; omega
      · rw [List.drop_eq_nil_of_le (by omega)]
        unfold view
        simp
  · intro he
    rw [he] at hl
    unfold moveNext
    rw [if_pos (by simp at hl; omega)]
  · intro he
    have hpos : 0 < (view xs r).length := List.length_pos_iff.mpr he
    refine ⟨⟨r.first + 1, r.last⟩, ?_, ?_, ?_, ?_, ?_⟩
    · unfold moveNext
      rw [if_neg (by omega), moved_eq (by omega) (by omega)]
      rfl
    · unfold Valid; dsimp only; omega
    · unfold view
      rw [List.drop_take, List.drop_drop]
      congr 1
    · unfold moveBack
      rw [moved_eq (by dsimp only; omega) (by dsimp only; omega)]
      show (pure ⟨_, r.last⟩ : Cxx Range) = pure r
      rw [pure_inj]
      dsimp only
      rw [show ((r.first + 1 : Nat) + -1 : Int).toNat = r.first by omega]
    · unfold moveBackFrom
      rw [if_neg (by dsimp only; omega), moved_eq (by dsimp only; omega) (by dsimp only; omega)]
      show (pure ⟨_, r.last⟩ : Cxx Range) = pure r
      rw [pure_inj]
      dsimp only
      rw [show ((r.first + 1 : Nat) + -1 : Int).toNat = r.first by omega]

example := C276_advance [1, 2, 3] ⟨1, 3⟩ (by unfold Valid; decide) 1

/-- `safe_advance` goes no step back: a negative number ends the program, whatever the range is. -/
theorem C276_no_way_back (xs : List α) (r : Range) (n : Nat) : safeAdvance xs r (-(n + 1 : Int)) = abort := by
  unfold safeAdvance
  rw [if_pos (by omega)]

example : safeAdvance [1, 2, 3] ⟨1, 3⟩ (-1) = abort := C276_no_way_back [1, 2, 3] ⟨1, 3⟩ 0

example : Valid [1, 2, 3, 4] ⟨1, 3⟩ ∧ view [1, 2, 3, 4] ⟨1, 3⟩ ≠ [] := by unfold Valid; decide

end Verif.Iter.RangeType
