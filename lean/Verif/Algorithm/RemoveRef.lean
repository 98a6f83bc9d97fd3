import Verif.Algorithm.Remove

/-
`remove( first, last, value )` of include/daw/daw_algorithm.h and `erase_remove` of include/daw/daw_container_algorithm.h, where the
value is a reference that may be to an element of the range itself.
-/

namespace Verif.Algorithm.RemoveRef
open Cxx

variable {α : Type} [DecidableEq α]

/-- What a `T const &` refers to: an object apart from the memory, or the element at a place of it.
(Rule of C++ or its library, no line of the source.) -/
inductive Arg (α : Type) where
  | val (v : α)
  | ref (j : Nat)

/-- The value of the object when it is read. (Rule of C++ or its library, no line of the source.) -/
def Arg.get (m : List α) : Arg α → Cxx α
  | .val v => pure v
  | .ref j => rd m j

/-- `find( first, last, value )`, daw_algorithm.h 309-320. -/
def findRef (a : Arg α) (m : List α) (last first : Nat) : Cxx Nat :=
  if first ≠ last then do
    let x ← rd m first
    let v ← a.get m
    if x = v then pure first else findRef a m last (first + 1)
  else pure last
partial_fixpoint

/-- The loop of `remove`, daw_algorithm.h 1756-1761; a value moved from is left as it was. -/
def removeLoop (a : Arg α) (last : Nat) (m : List α) (first i : Nat) : Cxx (List α × Nat) :=
  if i ≠ last then do
    let x ← rd m i
    let v ← a.get m
    if ¬ x = v then do
      let m ← wr m first x
      removeLoop a last m (first + 1) (i + 1)
    else removeLoop a last m first (i + 1)
  else pure (m, first)
partial_fixpoint

/-- `remove( first, last, value )`, daw_algorithm.h 1751-1764.  (`std::remove` is the same.) -/
def remove (a : Arg α) (m : List α) (first last : Nat) : Cxx (List α × Nat) := do
  let first ← findRef a m last first
  if first ≠ last then removeLoop a last m first (first + 1) else pure (m, first)

/-- `erase_remove( container, value )`, daw_container_algorithm.h 169-181: the elements of the container in the end.  It is a vector, so
that `erase( it, end )` drops the elements from `it` on. -/
def eraseRemove (a : Arg α) (m : List α) : Cxx (List α) := do
  let (m, r) ← remove a m 0 m.length
  pure (m.take r)

/-- `erase_remove_if( container, pred )`, daw_container_algorithm.h 183-202. -/
def eraseRemoveIf (p : α → Bool) (m : List α) : Cxx (List α) := do
  let (m, r) ← removeIf p m 0 m.length
  pure (m.take r)

/-! ### Helpers -/

/-- The reference reads `v` and is to no place from `lo` up to `last`. (Specification, no line of the source.) -/
def Apart (a : Arg α) (m : List α) (lo last : Nat) (v : α) : Prop :=
  a.get m = pure v ∧ ∀ j, a = .ref j → j < lo ∨ last ≤ j

theorem Apart.set {a : Arg α} {m : List α} {lo last k : Nat} {v x : α} (h : Apart a m lo last v) (h1 : lo ≤ k) (h2 : k < last) :
    Apart a (m.set k x) lo last v := by
  refine ⟨?_, h.2⟩
  cases a with
  | val w => exact h.1
  | ref j =>
    have hj := h.2 j rfl
    have hg : rd m j = pure v := h.1
    show rd (m.set k x) j = pure v
    unfold rd at hg ⊢
    rw [List.getElem?_set_ne (by omega)]
    exact hg

theorem find_eq (a : Arg α) (m : List α) (last : Nat) (v : α) (hv : a.get m = pure v) :
    ∀ (n first : Nat), last - first = n → first ≤ last → last ≤ m.length → findRef a m last first = findIf (fun x => decide (x = v)) m first last := by
  intro n
  induction n with
  | zero =>
    intro first hn hf hl
    rw [findRef, findIf, if_neg (by omega), if_neg (by omega)]
  | succ n ih =>
    intro first hn hf hl
    obtain ⟨x, hx⟩ := getElem?_of_lt (xs := m) (i := first) (by omega)
    rw [findRef, findIf, if_pos (by omega), if_pos (by omega), rd_some hx]
    simp only [pure_bind, hv, decide_eq_true_eq]
    rw [ih (first + 1) (by omega) (by omega) hl]

theorem loop_eq (a : Arg α) (last lo : Nat) (v : α) :
    ∀ (n : Nat) (m : List α) (first i : Nat), last - i = n → lo ≤ first → first < i → i ≤ last → last ≤ m.length → Apart a m lo last v →
      removeLoop a last m first i = removeIfLoop (fun x => decide (x = v)) last m first i := by
  intro n
  induction n with
  | zero =>
    intro m first i hn _ hf hi hl ha
    rw [removeLoop, removeIfLoop, if_neg (by omega), if_neg (by omega)]
  | succ n ih =>
    intro m first i hn h0 hf hi hl ha
    obtain ⟨x, hx⟩ := getElem?_of_lt (xs := m) (i := i) (by omega)
    rw [removeLoop, removeIfLoop, if_pos (by omega), if_pos (by omega), rd_some hx]
    simp only [pure_bind, ha.1, decide_eq_true_eq]
    by_cases hxv : x = v
    · rw [if_neg (by simpa using hxv), if_neg (by simpa using hxv), ih m first (i + 1) (by omega) h0 (by omega) (by omega) hl ha]
    · rw [if_pos hxv, if_pos hxv, wr_eq (by omega)]
      simp only [pure_bind]
      exact ih _ _ _ (by omega) (by omega) (by omega) (by omega) (by simpa using hl) (ha.set h0 (by omega))

/-! ### C347 -/

/-- C347, as far as it holds: with a value that is not itself in the range, `remove` keeps the other elements in order and nothing else.
Missing: a value in the range, see `C347_own_element_violated`. -/
theorem C347_remove_partial (a : Arg α) (m : List α) (first last : Nat) (v : α) (hf : first ≤ last) (hl : last ≤ m.length)
    (hv : a.get m = pure v) (ha : ∀ j, a = .ref j → j < first ∨ last ≤ j) :
    ∃ ys r, remove a m first last = pure (ys, r) ∧ first ≤ r ∧ r ≤ last ∧ ys.length = m.length ∧ ys.drop last = m.drop last ∧
      ys.take r = m.take first ++ ((m.take last).drop first).filter (fun x => decide (x ≠ v)) := by
  obtain ⟨ys, r, h, h1, h2, h3, h4, h5⟩ := C27_remove_if (fun x => decide (x = v)) m first last hf hl
  refine ⟨ys, r, ?_, h1, h2, h3, h4, ?_⟩
  · rw [← h]
    unfold remove removeIf
    rw [find_eq a m last v hv _ _ rfl hf hl]
    obtain ⟨k, hk, hk1, hk2, -, -⟩ := find_if_first (fun x => decide (x = v)) m first last hf hl
    rw [hk, pure_bind, pure_bind]
    by_cases hkl : k = last
    · rw [if_neg (by simpa using hkl), if_neg (by simpa using hkl)]
    · rw [if_pos hkl, if_pos hkl]
      exact loop_eq a last first v _ _ _ _ rfl hk1 (by omega) (by omega) hl ⟨hv, ha⟩
  · rw [h5]
    unfold slice
    congr 2
    funext x
    simp

example : (Arg.ref 0 : Arg Int).get [7, 1, 7, 2, 7, 3] = pure 7 ∧ ∀ j, (Arg.ref 0 : Arg Int) = .ref j → j < 1 ∨ 6 ≤ j :=
  ⟨rfl, fun j hj => by cases hj; omega⟩

/-- C347 does not hold for the first element as the value, if the next one differs: it is overwritten by this, and from then on the
elements equal to the next one are removed, while the ones that were to be removed stay. -/
theorem C347_own_element_violated (v w : α) (xs : List α) (h : v ≠ w) :
    eraseRemove (.ref 0) (v :: w :: xs) = pure (w :: xs.filter (fun x => decide (x ≠ w))) := by
  have hlen : (v :: w :: xs).length = xs.length + 2 := rfl
  have hget : (Arg.ref 0 : Arg α).get (v :: w :: xs) = pure v := rfl
  obtain ⟨ys, r, hr, h2, h3, h4, h5, h6⟩ := removeIfLoop_total (fun x => decide (x = w)) (xs.length + 2) _ (w :: w :: xs) 1 2 rfl
    (by omega) (by omega) (by simp)
  have hstep : remove (.ref 0) (v :: w :: xs) 0 (v :: w :: xs).length = pure (ys, r) := by
    unfold remove
    rw [hlen, findRef, if_pos (by omega)]
    simp only [rd_some (show (v :: w :: xs)[0]? = some v from rfl), pure_bind, hget, if_true]
    rw [if_pos (by omega), removeLoop, if_pos (by omega)]
    simp only [rd_some (show (v :: w :: xs)[0 + 1]? = some w from rfl), pure_bind, hget]
    rw [if_pos (fun he => h he.symm), wr_eq (by simp), pure_bind, ← hr]
    exact loop_eq (.ref 0) (xs.length + 2) 1 w _ _ 1 2 rfl (by omega) (by omega) (by omega) (by simp)
      ⟨rfl, fun j hj => by cases hj; omega⟩
  unfold eraseRemove
  rw [hstep, pure_bind]
  show (pure (ys.take r) : Cxx _) = _
  rw [h6]
  simp only [slice, List.take_succ_cons, List.take_zero, List.drop_succ_cons, List.drop_zero, List.take_length, List.cons_append,
    List.nil_append]
  congr 3
  funext x
  simp

/-- C347, such a case in full: asked to remove the ones, it removes a two and keeps the ones. -/
theorem C347_own_element_witness : eraseRemove (.ref 0) [1, 2, 1, 2, (1 : Int)] = pure [2, 1, 1] :=
  C347_own_element_violated 1 2 [1, 2, 1] (by decide)

/-- C347, `erase_remove` and `erase_remove_if`: for a value apart from the container, and for a predicate, exactly the others are left,
in order. -/
theorem C347_erase_partial (v : α) (p : α → Bool) (m : List α) :
    eraseRemove (.val v) m = pure (m.filter (fun x => decide (x ≠ v))) ∧ eraseRemoveIf p m = pure (m.filter (fun x => !p x)) := by
  constructor
  · obtain ⟨ys, r, h, -, -, -, -, h5⟩ := C347_remove_partial (.val v) m 0 m.length v (by omega) (by omega) rfl (by simp)
    unfold eraseRemove
    rw [h, pure_bind]
    show (pure (ys.take r) : Cxx _) = _
    rw [h5]
    simp
  · obtain ⟨ys, r, h, -, -, -, -, h5⟩ := C27_remove_if p m 0 m.length (by omega) (by omega)
    unfold eraseRemoveIf
    rw [h, pure_bind]
    show (pure (ys.take r) : Cxx _) = _
    rw [h5]
    simp [slice]

example : eraseRemove (.val 1) [1, 2, 1, 2, (1 : Int)] = pure [2, 2] := (C347_erase_partial 1 (fun _ => true) _).1

end Verif.Algorithm.RemoveRef
