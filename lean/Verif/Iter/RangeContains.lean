import Verif.Base
import Mathlib.Algebra.Order.Floor.Ring
import Mathlib.Data.Rat.Floor
import Mathlib.Tactic.Linarith

/-
`contains( value, predicate )` of the ranges, include/daw/deprecated/daw_range_type.h, daw_range_collection.h, daw_range_reference.h and
daw_range_algorithm.h: the predicate gets every element converted to the type of the value.
-/

namespace Verif.Iter.RangeContains
open Verif Verif.Cxx

/-- The lambda and the search, deprecated/daw_range_type.h 262-267, deprecated/daw_range_collection.h 163-168, deprecated/daw_range_reference.h 293-298 and
deprecated/daw_range_algorithm.h 340-349: `conv` is the conversion from the elements to the type `β` of the value. -/
def containsBy (conv : α → Cxx β) (pred : β → β → Bool) (value : β) : List α → Cxx Bool
  | [] => pure false
  | x :: xs => do
    let v ← conv x
    if pred value v then pure true else containsBy conv pred value xs

/-- The conversion of a floating point number to `int`: towards zero; undefined where this is no `int`.
(Rule of C++ or its library, no line of the source.) -/
def toInt (x : Rat) : Cxx Int :=
  let n := if 0 ≤ x then ⌊x⌋ else ⌈x⌉
  if -2 ^ 31 ≤ n ∧ n < 2 ^ 31 then pure n else ub

theorem containsBy_eq (conv : α → Cxx β) (f : α → β) (pred : β → β → Bool) (value : β) (xs : List α) (h : ∀ x ∈ xs, conv x = pure (f x)) :
    containsBy conv pred value xs = pure (xs.any (fun x => pred value (f x))) := by
  induction xs with
  | nil => rfl
  | cons x xs ih =>
    rw [containsBy, h x List.mem_cons_self, pure_bind]
    by_cases hp : pred value (f x) = true
    · simp [hp]
    · rw [if_neg hp, ih (fun y hy => h y (List.mem_cons_of_mem _ hy))]
      simp [hp]

/-- C355, as far as it holds: where the elements have the type of the value, or are whole numbers that it has, the search tells whether
some element is as the predicate, for numbers of both types, says.  Missing: other numbers, see `C355_rounded_violated`. -/
theorem C355_contains_partial :
    (∀ (α : Type) (pred : α → α → Bool) (value : α) (xs : List α),
      containsBy pure pred value xs = pure (decide (∃ x ∈ xs, pred value x = true))) ∧
    ∀ (pred : Int → Rat → Bool) (value : Int) (xs : List Rat), (∀ x ∈ xs, ∃ n : Int, x = n ∧ -2 ^ 31 ≤ n ∧ n < 2 ^ 31) →
      containsBy toInt (fun a b => pred a b) value xs = pure (decide (∃ x ∈ xs, pred value x = true)) := by
  refine ⟨fun α pred value xs => ?_, fun pred value xs h => ?_⟩
  · rw [containsBy_eq pure id pred value xs (fun x _ => rfl)]
    congr 1
    rw [Bool.eq_iff_iff]
    simp only [List.any_eq_true, decide_eq_true_eq, id]
  · rw [containsBy_eq toInt (fun x => ⌊x⌋) _ value xs]
    · congr 1
      rw [Bool.eq_iff_iff]
      simp only [List.any_eq_true, decide_eq_true_eq]
      constructor
      · rintro ⟨x, hx, hp⟩
        obtain ⟨n, rfl, -⟩ := h x hx
        exact ⟨_, hx, by simpa using hp⟩
      · rintro ⟨x, hx, hp⟩
        obtain ⟨n, rfl, -⟩ := h x hx
        exact ⟨_, hx, by simpa using hp⟩
    · intro x hx
      obtain ⟨n, rfl, h1, h2⟩ := h x hx
      have hc : (if (0 : Rat) ≤ (n : Rat) then ⌊(n : Rat)⌋ else ⌈(n : Rat)⌉) = n := by simp
      unfold toInt
      simp only [hc]
      rw [if_pos ⟨h1, h2⟩, Int.floor_intCast]

example : ∀ x ∈ [(3 : Rat), -7], ∃ n : Int, x = n ∧ -2 ^ 31 ≤ n ∧ n < 2 ^ 31 := by
  intro x hx
  simp only [List.mem_cons, List.not_mem_nil, or_false] at hx
  rcases hx with rfl | rfl
  · exact ⟨3, by norm_num, by norm_num, by norm_num⟩
  · exact ⟨-7, by norm_num, by norm_num, by norm_num⟩

/-- C355 does not hold for numbers that are not whole: between 0 and `n + 1` all the numbers of the interval from `n` count as `n`, so
that a range without `n` contains it; and it is undefined if a number too great for the type is met. -/
theorem C355_rounded_violated (n : Int) (hn : 0 ≤ n) (hm : n < 2 ^ 31) (x : Rat) (h1 : (n : Rat) < x) (h2 : x < n + 1) :
    containsBy toInt (fun a b => decide (a = b)) n [x] = pure true ∧ ¬ ((n : Rat) = x) ∧
    ∀ y : Rat, 2 ^ 31 ≤ y → ∀ ys, containsBy toInt (fun a b => decide (a = b)) n (y :: ys) = ub := by
  have hf : ⌊x⌋ = n := by
    rw [Int.floor_eq_iff]
    exact ⟨le_of_lt h1, h2⟩
  have hn' : (0 : Rat) ≤ n := by exact_mod_cast hn
  have hx : 0 ≤ x := by linarith
  refine ⟨?_, fun h => by linarith, fun y hy ys => ?_⟩
  · have : toInt x = pure n := by
      unfold toInt
      simp only [hx, if_true, hf]
      rw [if_pos ⟨by omega, hm⟩]
    simp [containsBy, this]
  · have hy0 : (0 : Rat) ≤ y := by linarith
    have : toInt y = ub := by
      unfold toInt
      simp only [hy0, if_true]
      rw [if_neg]
      rintro ⟨-, h⟩
      rw [Int.floor_lt] at h
      push_cast at h
      linarith
    rw [containsBy, this, ub_bind]

/-- C355, the same below zero: all the numbers between `n - 1` and `n` count as `n`, also where that is zero. -/
theorem C355_rounded_up_violated (n : Int) (hn : n ≤ 0) (hm : -2 ^ 31 ≤ n) (x : Rat) (h1 : (n : Rat) - 1 < x) (h2 : x < n) :
    containsBy toInt (fun a b => decide (a = b)) n [x] = pure true ∧ ¬ ((n : Rat) = x) := by
  have hf : ⌈x⌉ = n := by
    rw [Int.ceil_eq_iff]
    exact ⟨h1, le_of_lt h2⟩
  have hn' : (n : Rat) ≤ 0 := by exact_mod_cast hn
  have hx : ¬ 0 ≤ x := by
    intro h
    linarith
  refine ⟨?_, fun h => by linarith⟩
  have : toInt x = pure n := by
    unfold toInt
    simp only [hx, if_false, hf]
    rw [if_pos ⟨hm, by omega⟩]
  simp [containsBy, this]

example : ((0 : Int) : Rat) - 1 < -1 / 2 ∧ (-1 / 2 : Rat) < (0 : Int) := by norm_num

example : (3 : Rat) < 7 / 2 ∧ (7 / 2 : Rat) < 3 + 1 := by norm_num

end Verif.Iter.RangeContains
