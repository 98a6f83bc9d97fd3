import Verif.Sort.Model
import Verif.Algorithm.Remove

/- Rearrangements of a range inside a block, and the swap primitive. -/

namespace Verif.Sort
open Cxx Verif.Algorithm

variable {α : Type}

/-- `ys` is `xs` with the elements of `[first, last)` rearranged. (Specification, no line of the source.) -/
structure RangePerm (first last : Nat) (xs ys : List α) : Prop where
  length_eq : ys.length = xs.length
  outside : ∀ k, k < first ∨ last ≤ k → ys[k]? = xs[k]?
  perm : ys.Perm xs

namespace RangePerm

theorem refl (first last : Nat) (xs : List α) : RangePerm first last xs xs :=
  ⟨rfl, fun _ _ => rfl, List.Perm.refl _⟩

theorem trans {first last : Nat} {xs ys zs : List α} (h1 : RangePerm first last xs ys)
    (h2 : RangePerm first last ys zs) : RangePerm first last xs zs :=
  ⟨h2.length_eq.trans h1.length_eq, fun k hk => (h2.outside k hk).trans (h1.outside k hk),
    h2.perm.trans h1.perm⟩

theorem mono {first last first' last' : Nat} {xs ys : List α} (h : RangePerm first last xs ys)
    (h1 : first' ≤ first) (h2 : last ≤ last') : RangePerm first' last' xs ys :=
  ⟨h.length_eq, fun k hk => h.outside k (by omega), h.perm⟩

theorem slice_perm {first last : Nat} {xs ys : List α} (h : RangePerm first last xs ys)
    (hf : first ≤ last) : (slice ys first last).Perm (slice xs first last) := by
  have key : ∀ l : List α, l = l.take first ++ (slice l first last ++ l.drop last) := by
    intro l
    unfold slice
    have : l.take first = (l.take last).take first := by rw [List.take_take]; congr 1; omega
    rw [this, ← List.append_assoc, List.take_append_drop, List.take_append_drop]
  have e1 : ys.take first = xs.take first := by
    apply List.ext_getElem?
    intro k
    rw [List.getElem?_take, List.getElem?_take]
    split
    · exact h.outside k (by omega)
    · rfl
  have e2 : ys.drop last = xs.drop last := by
    apply List.ext_getElem?
    intro k
    rw [List.getElem?_drop, List.getElem?_drop]
    exact h.outside _ (by omega)
  have hp := h.perm
  rw [key xs, key ys, e1, e2] at hp
  exact (List.perm_append_right_iff _).1 ((List.perm_append_left_iff _).1 hp)

/-- What holds of all elements of the range still holds. -/
theorem forall_range {first last : Nat} {xs ys : List α} (h : RangePerm first last xs ys)
    {P : α → Prop} (hP : ∀ k a, first ≤ k → k < last → xs[k]? = some a → P a) :
    ∀ k a, first ≤ k → k < last → ys[k]? = some a → P a := by
  intro k a h1 h2 ha
  have hmem : a ∈ slice ys first last := mem_slice.2 ⟨k, h1, h2, ha⟩
  obtain ⟨j, h3, h4, h5⟩ := mem_slice.1 ((h.slice_perm (by omega)).mem_iff.1 hmem)
  exact hP j a h3 h4 h5

end RangePerm

/-- Total correctness of `swapAt`. -/
theorem swapAt_spec {xs : List α} {i j : Nat} {a b : α} (ha : xs[i]? = some a) (hb : xs[j]? = some b) :
    ∃ ys, swapAt xs i j = pure ys ∧ ys.length = xs.length ∧ ys.Perm xs ∧
      ∀ k, ys[k]? = if k = j then some a else if k = i then some b else xs[k]? := by
  obtain ⟨hi, hi'⟩ := List.getElem?_eq_some_iff.1 ha
  obtain ⟨hj, hj'⟩ := List.getElem?_eq_some_iff.1 hb
  refine ⟨(xs.set i b).set j a, ?_, by simp, ?_, ?_⟩
  · unfold swapAt
    rw [rd_some ha, rd_some hb]
    simp only [pure_bind]
    rw [wr_eq hi]
    simp only [pure_bind]
    rw [wr_eq (by simpa using hj)]
  · rw [← hi', ← hj']
    exact List.set_set_perm hi hj
  · intro k
    rw [List.getElem?_set, List.getElem?_set]
    by_cases h1 : k = j
    · subst h1; simp [hj]
    · by_cases h2 : k = i
      · subst h2; simp [h1, Ne.symm h1, hi]
      · simp [h1, h2, Ne.symm h1, Ne.symm h2]

theorem swapAt_rangePerm {xs : List α} {first last i j : Nat} {a b : α} (ha : xs[i]? = some a)
    (hb : xs[j]? = some b) (h1 : first ≤ i) (h2 : i < last) (h3 : first ≤ j) (h4 : j < last) :
    ∃ ys, swapAt xs i j = pure ys ∧ RangePerm first last xs ys ∧
      ∀ k, ys[k]? = if k = j then some a else if k = i then some b else xs[k]? := by
  obtain ⟨ys, e, hl, hp, hk⟩ := swapAt_spec ha hb
  refine ⟨ys, e, ⟨hl, fun k hk' => ?_, hp⟩, hk⟩
  rw [hk, if_neg (by omega), if_neg (by omega)]

theorem predIt_pos {j : Nat} (h : 0 < j) : predIt j = pure (j - 1) := by
  unfold predIt; rw [if_neg (by omega)]

end Verif.Sort
