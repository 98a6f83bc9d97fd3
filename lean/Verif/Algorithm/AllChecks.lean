import Verif.Base

/-
Checks of all elements, include/daw/daw_exception.h, and loops over subsets, include/daw/daw_container_algorithm.h.
-/

namespace Verif.AllChecks
open Verif Verif.Cxx

variable {α σ : Type}

/-- `assert_all_false`, daw_exception.h 441-454: the elements for which the predicate was called, and whether the exception was thrown.  Simplified: the
predicate has no state. -/
def assertAllFalse (p : α → Bool) : List α → List α × Bool
  | [] => ([], false)
  | x :: xs =>
    if p x then ([x], true)
    else
      let r := assertAllFalse p xs
      (x :: r.1, r.2)

/-- `assert_all_true`, daw_exception.h 456-466. -/
def assertAllTrue (p : α → Bool) (xs : List α) : List α × Bool := assertAllFalse (fun v => !p v) xs

/-- The loop of `for_each_subset`, daw_container_algorithm.h 558-560, with `k` calls left: the function may change the container and may throw. -/
def subsetLoop (f : σ → Nat → Cxx σ) : Nat → σ → Nat → Cxx σ
  | 0, c, _ => pure c
  | k + 1, c, first => do
    let c ← f c first
    subsetLoop f k c (first + 1)

/-- `for_each_subset`, daw_container_algorithm.h 545-561. -/
def forEachSubset (f : σ → Nat → Cxx σ) (c : σ) (first last : Nat) : Cxx σ := if first < last then subsetLoop f (last - first) c first else pure c

theorem false_spec (p : α → Bool) (xs : List α) :
    ((assertAllFalse p xs).2 = true → ∃ pre x post, xs = pre ++ x :: post ∧ (∀ y ∈ pre, p y = false) ∧ p x = true ∧ (assertAllFalse p xs).1 = pre ++ [x]) ∧
    ((assertAllFalse p xs).2 = false → (∀ y ∈ xs, p y = false) ∧ (assertAllFalse p xs).1 = xs) := by
  induction xs with
  | nil => exact ⟨fun h => (by cases h), fun _ => ⟨fun _ h => (by cases h), rfl⟩⟩
  | cons x xs ih =>
    unfold assertAllFalse
    cases hx : p x with
    | true => exact ⟨fun _ => ⟨[], x, xs, rfl, fun _ h => (by cases h), hx, rfl⟩, fun h => (by cases h)⟩
    | false =>
      constructor
      · intro h
        obtain ⟨pre, y, post, e, h1, h2, h3⟩ := ih.1 h
        refine ⟨x :: pre, y, post, by rw [e]; rfl, ?_, h2, by show x :: (assertAllFalse p xs).1 = _; rw [h3]; rfl⟩
        intro z hz
        rcases List.mem_cons.1 hz with rfl | hz
        · exact hx
        · exact h1 z hz
      · intro h
        obtain ⟨h1, h2⟩ := ih.2 h
        refine ⟨?_, by show x :: (assertAllFalse p xs).1 = _; rw [h2]⟩
        intro z hz
        rcases List.mem_cons.1 hz with rfl | hz
        · exact hx
        · exact h1 z hz

/-- C364: `assert_all_false` throws just if the predicate holds for some element, `assert_all_true` just if it fails for some. -/
theorem C364_throws (p : α → Bool) (xs : List α) :
    ((assertAllFalse p xs).2 = true ↔ ∃ x ∈ xs, p x = true) ∧ ((assertAllTrue p xs).2 = true ↔ ∃ x ∈ xs, p x = false) := by
  have h : ∀ q : α → Bool, (assertAllFalse q xs).2 = true ↔ ∃ x ∈ xs, q x = true := by
    intro q
    constructor
    · intro h
      obtain ⟨pre, x, post, e, -, hx, -⟩ := (false_spec q xs).1 h
      exact ⟨x, by rw [e]; simp, hx⟩
    · rintro ⟨x, hx, hq⟩
      cases hb : (assertAllFalse q xs).2 with
      | true => rfl
      | false =>
        rw [((false_spec q xs).2 hb).1 x hx] at hq
        cases hq
  refine ⟨h p, (h _).trans ?_⟩
  simp

example : (assertAllTrue (· < 5) [1, 7, 2]).2 = true ∧ (assertAllTrue (· < 5) ([] : List Nat)).2 = false := ⟨rfl, rfl⟩

/-- C364: the predicate is called once for each element in order, up to the first that makes the check fail. -/
theorem C364_calls (p : α → Bool) (xs : List α) :
    (∀ pre x post, xs = pre ++ x :: post → (∀ y ∈ pre, p y = true) → p x = false → (assertAllTrue p xs).1 = pre ++ [x]) ∧
    ((∀ y ∈ xs, p y = true) → (assertAllTrue p xs).1 = xs) := by
  constructor
  · intro pre x post e
    subst e
    induction pre with
    | nil => intro _ hx; simp [assertAllTrue, assertAllFalse, hx]
    | cons a pre ih =>
      intro h hx
      have := ih (fun y hy => h y (List.mem_cons_of_mem _ hy)) hx
      simp only [assertAllTrue] at this
      simp [assertAllTrue, assertAllFalse, h a (List.mem_cons_self ..), this]
  · intro h
    refine ((false_spec _ xs).2 ?_).2
    cases hb : (assertAllFalse (fun v => !p v) xs).2 with
    | false => rfl
    | true =>
      obtain ⟨x, hx, hp⟩ := (C364_throws p xs).2.1 hb
      rw [h x hx] at hp
      cases hp

example : (assertAllTrue (· < 5) [1, 7, 2]).1 = [1, 7] := (C364_calls (· < 5) [1, 7, 2]).1 [1] 7 [2] rfl (by decide) rfl

/-- C364: `for_each_subset` calls the function with the indexes from `first` up to `last`, each call with the container that the one before left, and not at all if
`last` is not greater; the indexes are not checked. -/
theorem C364_subset (f : σ → Nat → Cxx σ) (c : σ) (first last : Nat) :
    forEachSubset f c first last = (List.range' first (last - first)).foldlM f c := by
  have h : ∀ k c first, subsetLoop f k c first = (List.range' first k).foldlM f c := by
    intro k
    induction k with
    | zero => intros; rfl
    | succ k ih =>
      intro c first
      rw [subsetLoop, List.range'_succ, List.foldlM_cons]
      congr 1
      funext c
      exact ih c (first + 1)
  unfold forEachSubset
  split
  · exact h _ _ _
  · rw [Nat.sub_eq_zero_of_le (by omega)]
    rfl

example : forEachSubset (fun c i => do let x ← rd c i; wr c i (x + 10)) [1, 2, 3, 4] 1 3 = pure [1, 12, 13, 4] := rfl

example : forEachSubset (fun c i => do let x ← rd c i; wr c i (x + 10)) [1, 2, 3, 4] 3 6 = ub := rfl

end Verif.AllChecks
