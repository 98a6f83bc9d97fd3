import Verif.Base

/-
Reading, writing and swapping in the middle of a list of cells, used by the models of the containers.
-/

namespace Verif
deriving instance DecidableEq for Except

/-- Results of runs can be compared, for the examples. -/
instance {α : Type} [DecidableEq α] : DecidableEq (Cxx α) := inferInstanceAs (DecidableEq (Option (Except Err α)))
end Verif

namespace Verif.Containers
open Cxx

/-- Sums of `size_t`. (Rule of C++ or its library, no line of the source.) -/
def addSize (a b : Nat) : Nat := (a + b) % 2 ^ 64

/-- Differences of `size_t`. (Rule of C++ or its library, no line of the source.) -/
def subSize (a b : Nat) : Nat := (a + 2 ^ 64 - b) % 2 ^ 64

theorem subSize_of_le {a b : Nat} (h : b ≤ a) (ha : a < 2 ^ 64) : subSize a b = a - b := by
  unfold subSize; omega

theorem addSize_of_lt {a b : Nat} (h : a + b < 2 ^ 64) : addSize a b = a + b := by
  unfold addSize; omega

/-- `daw::iter_swap` and `daw::cswap` of two cells, daw_swap.h 43-75: the values are exchanged. -/
def swapAt {α : Type} (s : List α) (i j : Nat) : Cxx (List α) := do
  let a ← rd s i
  let b ← rd s j
  let s ← wr s i b
  wr s j a

section
variable {α : Type}

theorem rd_mid (a : List α) (x : α) (b : List α) (i : Nat) (h : i = a.length) : rd (a ++ x :: b) i = pure x := by
  subst h
  exact rd_some (by simp)

theorem wr_mid (a : List α) (x y : α) (b : List α) (i : Nat) (h : i = a.length) : wr (a ++ x :: b) i y = pure (a ++ y :: b) := by
  subst h
  rw [wr_eq (by simp)]
  simp

theorem wr_take {s : List α} {i : Nat} (x : α) (h : i < s.length) :
    ∃ s', wr s i x = pure s' ∧ s'.length = s.length ∧ s'.take (i + 1) = s.take i ++ [x] ∧ s'.drop (i + 1) = s.drop (i + 1) := by
  refine ⟨s.set i x, wr_eq h, by simp, ?_, ?_⟩
  · rw [List.take_add_one, List.take_set_of_le (Nat.le_refl i)]
    simp [h]
  · rw [List.drop_set_of_lt (Nat.lt_succ_self i)]

theorem drop_of_drop {a b : List α} {n : Nat} (h : a.drop n = b.drop n) (k : Nat) : a.drop (n + k) = b.drop (n + k) := by
  have := congrArg (List.drop k) h
  rwa [List.drop_drop, List.drop_drop] at this

theorem swapAt_eq {s : List α} {i j : Nat} (hi : i < s.length) (hj : j < s.length) :
    swapAt s i j = pure ((s.set i s[j]).set j s[i]) := by
  unfold swapAt
  rw [rd_eq hi, rd_eq hj]
  simp only [pure_bind]
  rw [wr_eq hi]
  simp only [pure_bind]
  rw [wr_eq (by simpa using hj)]

theorem swapAt_self {s : List α} {i : Nat} (hi : i < s.length) : swapAt s i i = pure s := by
  rw [swapAt_eq hi hi]
  simp

/-- Swapping two elements in the middle. -/
theorem swapAt_mid (a : List α) (x : α) (g : List α) (y : α) (b : List α) :
    swapAt (a ++ x :: (g ++ y :: b)) a.length (a.length + (g.length + 1)) = pure (a ++ y :: (g ++ x :: b)) := by
  have e : ∀ u : α, a ++ u :: (g ++ y :: b) = (a ++ u :: g) ++ y :: b := by intro u; simp
  unfold swapAt
  rw [rd_mid a x _ _ rfl]
  simp only [pure_bind]
  rw [e x, rd_mid (a ++ x :: g) y b _ (by simp), ← e x]
  simp only [pure_bind]
  rw [wr_mid a x y _ _ rfl]
  simp only [pure_bind]
  rw [e y, wr_mid (a ++ y :: g) y x b _ (by simp)]
  simp
end

end Verif.Containers
