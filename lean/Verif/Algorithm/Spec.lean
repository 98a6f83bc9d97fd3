import Verif.Base

/-
Specification notions for the range algorithms, independent of the model of the code.
-/

namespace Verif.Algorithm

variable {α β : Type}

/-- `[first, last)` of `xs` is sorted by `lt`: no later element is less than an earlier one.
(Specification, no line of the source.) -/
def SortedRange (lt : α → α → Bool) (xs : List α) (first last : Nat) : Prop :=
  ∀ i j a b, first ≤ i → i < j → j < last → xs[i]? = some a → xs[j]? = some b → lt b a = false

/-- All elements of `[first, last)` satisfying `q` come before all those not satisfying it.
(Specification, no line of the source.) -/
def PartitionedRange (q : α → Bool) (xs : List α) (first last : Nat) : Prop :=
  ∀ i j a b, first ≤ i → i < j → j < last → xs[i]? = some a → xs[j]? = some b →
    q b = true → q a = true

/-- `i` is the place in `[first, last]` with only `q`-elements before it and
only non-`q`-elements from it on. (Specification, no line of the source.) -/
def IsPartitionPoint (q : α → Bool) (xs : List α) (first last i : Nat) : Prop :=
  first ≤ i ∧ i ≤ last ∧
  (∀ j a, first ≤ j → j < i → xs[j]? = some a → q a = true) ∧
  (∀ j a, i ≤ j → j < last → xs[j]? = some a → q a = false)

/-- `r` is the first position of `[first, last)` holding an element with `q`, or `last`
if there is none. (Specification, no line of the source.) -/
def IsFirst (q : α → Bool) (xs : List α) (first last r : Nat) : Prop :=
  first ≤ r ∧ r ≤ last ∧
  (∀ j a, first ≤ j → j < r → xs[j]? = some a → q a = false) ∧
  (r < last → ∃ a, xs[r]? = some a ∧ q a = true)

/-- `ys[sFirst, sLast)` occurs (up to `comp`) in `xs[first, last)` at position `p`. (Specification, no line of the source.) -/
def OccursAt (comp : α → β → Bool) (xs : List α) (ys : List β) (last sFirst sLast p : Nat) : Prop :=
  p + (sLast - sFirst) ≤ last ∧
  ∀ k a b, k < sLast - sFirst → xs[p + k]? = some a → ys[sFirst + k]? = some b → comp a b = true

/-- A list sorted in the usual sense is sorted on every sub-range. -/
theorem SortedRange.of_pairwise {lt : α → α → Bool} {xs : List α} {first last : Nat}
    (h : xs.Pairwise (fun a b => lt b a = false)) : SortedRange lt xs first last := by
  intro i j a b _ hij _ ha hb
  obtain ⟨hi, rfl⟩ := List.getElem?_eq_some_iff.1 ha
  obtain ⟨hj, rfl⟩ := List.getElem?_eq_some_iff.1 hb
  exact List.pairwise_iff_getElem.1 h i j hi hj hij

end Verif.Algorithm

namespace Verif.Algorithm

variable {α : Type}

/-- `r` is the first of the greatest elements of `[first, last)`. (Specification, no line of the source.) -/
def IsFirstMax (lt : α → α → Bool) (xs : List α) (first last r : Nat) : Prop :=
  first ≤ r ∧ r < last ∧ ∃ m, xs[r]? = some m ∧
    (∀ j a, first ≤ j → j < last → xs[j]? = some a → lt m a = false) ∧
    (∀ j a, first ≤ j → j < r → xs[j]? = some a → lt a m = true)

/-- `r` is the last of the greatest elements of `[first, last)`. (Specification, no line of the source.) -/
def IsLastMax (lt : α → α → Bool) (xs : List α) (first last r : Nat) : Prop :=
  first ≤ r ∧ r < last ∧ ∃ m, xs[r]? = some m ∧
    (∀ j a, first ≤ j → j < last → xs[j]? = some a → lt m a = false) ∧
    (∀ j a, r < j → j < last → xs[j]? = some a → lt a m = true)

/-- `r` is the first of the least elements of `[first, last)`. (Specification, no line of the source.) -/
def IsFirstMin (lt : α → α → Bool) (xs : List α) (first last r : Nat) : Prop :=
  first ≤ r ∧ r < last ∧ ∃ m, xs[r]? = some m ∧
    (∀ j a, first ≤ j → j < last → xs[j]? = some a → lt a m = false) ∧
    (∀ j a, first ≤ j → j < r → xs[j]? = some a → lt m a = true)

end Verif.Algorithm
