import Verif.Base
import Verif.Containers.Lists

/-
Iterators into one block of elements, the vocabulary shared by the models of the iterator adaptors.

A random access iterator into a block is the index it points to.  Moving it in front of the first element or behind the end
is undefined behaviour, and so is reading at the end.
-/

namespace Verif.Iter
open Cxx

/-- An iterator into a block of `len` elements after a move to index `p`.
(Rule of C++ or its library, no line of the source.) -/
def goto (len : Nat) (p : Int) : Cxx Int := if 0 ≤ p ∧ p ≤ len then pure p else ub

/-- Reading through an iterator at index `p`. (Rule of C++ or its library, no line of the source.) -/
def readAt {α : Type} (xs : List α) (p : Int) : Cxx α := if 0 ≤ p then rd xs p.toNat else ub

theorem goto_ok {len : Nat} {p : Int} (h : 0 ≤ p) (h2 : p ≤ len) : goto len p = pure p := if_pos ⟨h, h2⟩

theorem goto_lt {len : Nat} {p : Int} (h : p < 0) : goto len p = ub := if_neg (by omega)

theorem goto_gt {len : Nat} {p : Int} (h : len < p) : goto len p = ub := if_neg (by omega)

theorem goto_eq {len : Nat} {p q : Int} (h : goto len p = pure q) : q = p ∧ 0 ≤ p ∧ p ≤ len := by
  unfold goto at h
  split at h
  · rename_i hp
    exact ⟨(pure_inj.1 h).symm, hp⟩
  · exact absurd h (ub_ne_pure _)

theorem readAt_some {α : Type} {xs : List α} {p : Nat} {a : α} (h : xs[p]? = some a) : readAt xs (p : Int) = pure a := by
  unfold readAt
  rw [if_pos (by omega), Int.toNat_natCast]
  exact rd_some h

theorem readAt_end {α : Type} {xs : List α} {p : Int} (h : xs.length ≤ p) : readAt xs p = ub := by
  unfold readAt
  split
  · exact rd_oob (by omega)
  · rfl

theorem readAt_neg {α : Type} {xs : List α} {p : Int} (h : p < 0) : readAt xs p = ub := if_neg (by omega)

end Verif.Iter
