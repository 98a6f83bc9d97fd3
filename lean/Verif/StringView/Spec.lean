import Verif.Base

/-
Specification notions for texts, independent of the model of the code.
-/

namespace Verif.SV

variable {α : Type}

/-- `ys` occurs in `xs` at position `i`. (Specification, no line of the source.) -/
def Occurs (ys xs : List α) (i : Nat) : Prop := i ≤ xs.length ∧ ys <+: xs.drop i

/-- The character at position `i` satisfies `p`. (Specification, no line of the source.) -/
def At (p : α → Bool) (xs : List α) (i : Nat) : Prop := ∃ a, xs[i]? = some a ∧ p a = true

/-- The result is the least position in `[lo, hi)` with `P`, `none` if there is none. (Specification, no line of the source.) -/
def FirstIn (P : Nat → Prop) (lo hi : Nat) (r : Option Nat) : Prop :=
  (∀ i, r = some i → lo ≤ i ∧ i < hi ∧ P i ∧ ∀ j, lo ≤ j → j < i → ¬ P j) ∧
  (r = none → ∀ j, lo ≤ j → j < hi → ¬ P j)

/-- The result is the greatest position in `[0, hi)` with `P`, `none` if there is none. (Specification, no line of the source.) -/
def LastIn (P : Nat → Prop) (hi : Nat) (r : Option Nat) : Prop :=
  (∀ i, r = some i → i < hi ∧ P i ∧ ∀ j, i < j → j < hi → ¬ P j) ∧
  (r = none → ∀ j, j < hi → ¬ P j)

theorem FirstIn.congr {P Q : Nat → Prop} {lo hi : Nat} {r : Option Nat} (h : FirstIn P lo hi r)
    (hPQ : ∀ i, P i ↔ Q i) : FirstIn Q lo hi r := by
  have : P = Q := funext fun i => propext (hPQ i)
  rw [← this]; exact h

theorem LastIn.congr {P Q : Nat → Prop} {hi : Nat} {r : Option Nat} (h : LastIn P hi r)
    (hPQ : ∀ i, P i ↔ Q i) : LastIn Q hi r := by
  have : P = Q := funext fun i => propext (hPQ i)
  rw [← this]; exact h

theorem FirstIn.unique {P : Nat → Prop} {lo hi : Nat} {r s : Option Nat} (h : FirstIn P lo hi r)
    (h' : FirstIn P lo hi s) : r = s := by
  cases r with
  | none =>
    cases s with
    | none => rfl
    | some i => obtain ⟨a, b, c, _⟩ := h'.1 i rfl; exact absurd c (h.2 rfl i a b)
  | some i =>
    obtain ⟨a, b, c, d⟩ := h.1 i rfl
    cases s with
    | none => exact absurd c (h'.2 rfl i a b)
    | some k =>
      obtain ⟨a', b', c', d'⟩ := h'.1 k rfl
      rcases Nat.lt_trichotomy i k with hik | hik | hik
      · exact absurd c (d' i a hik)
      · rw [hik]
      · exact absurd c' (d k a' hik)

end Verif.SV
