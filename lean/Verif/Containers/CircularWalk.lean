import Verif.Containers.Circular

/-
Loops over circular iterators, their differences and order, and containers that change: include/daw/iterator/daw_circular_iterator.h.
-/

namespace Verif.Containers.CircularWalk
open Verif Verif.Cxx Verif.Containers.Circular

/-- `end( )`, daw_circular_iterator.h 179-184, as a position. -/
def endPos (c : List α) : Int := c.length

/-- The loop `for( auto it = first; it != it.end( ); ++it )` that collects the elements, with `operator!=`, daw_circular_iterator.h
191-195, and `operator++`, 145-148. -/
def walk (c : List α) (pos : Int) (acc : List α) : Cxx (List α) :=
  if pos ≠ endPos c then do
    let x ← deref c pos
    let pos ← inc c.length pos
    walk c pos (acc ++ [x])
  else pure acc
partial_fixpoint

/-- `lhs - rhs`, daw_circular_iterator.h 225-231, for iterators of one container. -/
def diff (l r : Int) : Cxx Int := arith (l - r)

/-- `lhs < rhs`, daw_circular_iterator.h 197-202, for iterators of one container. -/
def less (l r : Int) : Bool := decide (l < r)

theorem inc_inside (sz pos : Int) (hs : 0 < sz) (hsz : sz < 2 ^ 63) (h0 : 0 ≤ pos) (h1 : pos < 2 ^ 63 - 1) :
    ∃ p, inc sz pos = pure p ∧ 0 ≤ p ∧ p < sz ∧ p % sz = (pos + 1) % sz := by
  exact C48_move_partial sz pos 1 hs hsz ⟨by omega, by omega⟩ ⟨by omega, by omega⟩ (Or.inl (by omega))

/-- C358, as far as it holds: with a container without elements the loop ends at once.  Missing: all the others, see
`C358_loop_violated`. -/
theorem C358_loop_partial (acc : List α) : walk ([] : List α) 0 acc = pure acc := by
  rw [walk]
  simp [endPos]

/-- C358 does not hold for any container with elements, from whichever of them: the loop never ends. -/
theorem C358_loop_violated (c : List α) (hc : c ≠ []) (hl : (c.length : Int) < 2 ^ 63 - 1) :
    ∀ (pos : Int) (acc : List α), 0 ≤ pos → pos < c.length → walk c pos acc = diverge := by
  have hpos : 0 < c.length := List.length_pos_iff.2 hc
  apply walk.fixpoint_induct c (motive := fun g => ∀ (pos : Int) (acc : List α), 0 ≤ pos → pos < c.length → g pos acc = diverge)
  · exact Cxx.admissible2 (fun (pos : Int) (_ : List α) r => 0 ≤ pos → pos < c.length → r = diverge) fun _ _ _ _ => rfl
  · intro g ih pos acc h0 h1
    dsimp only
    rw [if_pos (by unfold endPos; omega)]
    obtain ⟨x, hx⟩ : ∃ x, c[pos.toNat]? = some x := ⟨_, List.getElem?_eq_getElem (by omega)⟩
    have hd : deref c pos = pure x := by
      unfold deref
      rw [if_neg (by omega), rd_some hx]
    obtain ⟨p, hp, k0, k1, -⟩ := inc_inside c.length pos (by omega) (by omega) h0 (by omega)
    rw [hd, pure_bind, hp, pure_bind]
    exact ih p _ k0 k1

example : ([5, 6, 7] : List Nat) ≠ [] ∧ (([5, 6, 7] : List Nat).length : Int) < 2 ^ 63 - 1 := by decide

/-- C358, differences: moving by the difference of two iterators leads from one to the other, and as many increments as the difference
modulo the size do. -/
theorem C358_difference (sz p q : Nat) (hp : p < sz) (hq : q < sz) (hsz : (sz : Int) < 2 ^ 62) :
    ∃ d, diff q p = pure d ∧ add sz p d = pure (q : Int) ∧ incs sz (d % sz).toNat p = pure (q : Int) := by
  refine ⟨(q : Int) - p, ?_, ?_, ?_⟩
  · unfold diff arith
    rw [if_pos ⟨by omega, by omega⟩]
  · obtain ⟨r, h, h0, h1, h2⟩ := C48_move_partial sz p ((q : Int) - p) (by omega) (by omega) ⟨by omega, by omega⟩ ⟨by omega, by omega⟩
      (Or.inl (by omega))
    unfold add
    rw [h]
    rw [Int.emod_eq_of_lt h0 h1, show (p : Int) + (q - p) = q by omega, Int.emod_eq_of_lt (by omega) (by omega)] at h2
    rw [h2]
  · rw [C48_turn sz (by omega) (by omega) _ p hp]
    congr 1
    by_cases hle : p ≤ q
    · rw [Int.emod_eq_of_lt (by omega) (by omega), show p + ((q : Int) - p).toNat = q by omega, Nat.mod_eq_of_lt hq]
    · have : ((q : Int) - p) % sz = (q : Int) - p + sz := by
        rw [← Int.add_emod_right]
        exact Int.emod_eq_of_lt (by omega) (by omega)
      rw [this, show p + ((q : Int) - p + sz).toNat = q + sz by omega, Nat.add_mod_right, Nat.mod_eq_of_lt hq]

example : incs 5 (((1 : Int) - 4) % 5).toNat 4 = pure 1 := by decide +kernel

/-- C358, the order: it is that of the places in the container, so the increment of the last place is less than it, and no other;
no iterator is less than itself. -/
theorem C358_order_finding (sz p : Nat) (hp : p < sz) (h1 : 1 < sz) (hsz : (sz : Int) < 2 ^ 62) :
    ∃ q, inc sz p = pure q ∧ (less q p = true ↔ p = sz - 1) ∧ (less p q = true ↔ p ≠ sz - 1) ∧ less p p = false := by
  obtain ⟨q, hq, k0, k1, k2⟩ := inc_inside sz p (by omega) (by omega) (by omega) (by omega)
  refine ⟨q, hq, and_assoc.1 ⟨?_, by simp [less]⟩⟩
  rw [Int.emod_eq_of_lt k0 k1] at k2
  unfold less
  simp only [decide_eq_true_eq]
  by_cases he : p = sz - 1
  · have : ((p : Int) + 1) % sz = 0 := by
      rw [show (p : Int) + 1 = sz by omega, Int.emod_self]
    rw [this] at k2
    omega
  · rw [Int.emod_eq_of_lt (by omega) (by omega)] at k2
    omega

example : inc 5 4 = pure 0 ∧ less 0 4 = true ∧ inc 5 3 = pure 4 := by decide +kernel

/-- C358, a container that has become shorter: an iterator outside of it is undefined to read, and after one increment, by whatever way
it came to be there, it is inside again, if there are elements. -/
theorem C358_shrunk (c : List α) (pos : Int) (hc : c ≠ []) (hl : (c.length : Int) < 2 ^ 62) (h0 : (c.length : Int) ≤ pos)
    (h1 : pos < 2 ^ 62) :
    deref c pos = ub ∧ ∃ p, inc c.length pos = pure p ∧ ∃ x, deref c p = pure x ∧ c[((pos + 1) % c.length).toNat]? = some x := by
  have hpos : 0 < c.length := List.length_pos_iff.2 hc
  constructor
  · unfold deref
    rw [if_neg (by omega)]
    exact rd_oob (by omega)
  · obtain ⟨p, hp, k0, k1, k2⟩ := inc_inside c.length pos (by omega) (by omega) (by omega) (by omega)
    rw [Int.emod_eq_of_lt k0 k1] at k2
    obtain ⟨x, hx⟩ : ∃ x, c[p.toNat]? = some x := ⟨_, List.getElem?_eq_getElem (by omega)⟩
    refine ⟨p, hp, x, ?_, by rw [← k2]; exact hx⟩
    unfold deref
    rw [if_neg (by omega), rd_some hx]

example : inc ([5, 6, 7] : List Nat).length 7 = pure 2 := by decide +kernel

end Verif.Containers.CircularWalk
