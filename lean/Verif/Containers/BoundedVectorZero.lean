import Verif.Containers.BoundedVector

/-
The bounded vector of capacity 0, a class of its own: include/daw/daw_bounded_vector.h 353-466.
-/

namespace Verif.Containers.BVecZero
open Verif Verif.Cxx

/-- The questions and changes that both classes have. (Specification, no line of the source.) -/
inductive Call where
  | clear
  | resize (count : Nat)
  | zero
  | swap
  | size
  | empty
  | full
  | available
  | at (pos : Nat)

/-- What a call gives: a number (true is 1), or nothing. (Specification, no line of the source.) -/
abbrev Answer := Option Nat

/-- A call of the class of capacity 0, which has no state: daw_bounded_vector.h 379-403 (`empty`, `full`, `size`, `available`, `clear`),
417-419 (`at`), 457-465 (`resize`, `zero`, `swap`). -/
def stepZero : Call → Cxx Answer
  | .clear => pure none
  | .resize count => if count ≤ 0 then pure none else thrown
  | .zero => pure none
  | .swap => pure none
  | .size => pure (some 0)
  | .empty => pure (some 1)
  | .full => pure (some 1)
  | .available => pure (some 0)
  | .at _ => abort

/-- The same call of the general class for a capacity `N`, daw_bounded_vector.h 64-91, 118-122, 286-299, 338-342 and 344-350; the other vector
of `swap` is `w`. -/
def stepGeneral (d : Nat) (N : Nat) (v w : BVec Nat) : Call → Cxx (Answer × BVec Nat × BVec Nat)
  | .clear => pure (none, v.clear, w)
  | .resize count => do
    let v ← BVec.resize d N v count
    pure (none, v, w)
  | .zero => do
    let s ← BVec.fillLoop 0 N 0 v.stack
    pure (none, ⟨v.index, v.first, s⟩, w)
  | .swap => do
    let (v, w) ← BVec.swap v w
    pure (none, v, w)
  | .size => pure (some v.size, v, w)
  | .empty => pure (some v.isEmpty.toNat, v, w)
  | .full => pure (some (v.full N).toNat, v, w)
  | .available => pure (some (v.available N), v, w)
  | .at pos => do
    let x ← v.at' pos
    pure (some x, v, w)

/-- A sequence of calls of the class of capacity 0. (Specification, no line of the source.) -/
def runZero : List Call → Cxx (List Answer)
  | [] => pure []
  | c :: cs => do
    let a ← stepZero c
    let as ← runZero cs
    pure (a :: as)

/-- A sequence of calls of the general class. (Specification, no line of the source.) -/
def runGeneral (d N : Nat) (v w : BVec Nat) : List Call → Cxx (List Answer)
  | [] => pure []
  | c :: cs => do
    let (a, v, w) ← stepGeneral d N v w c
    let as ← runGeneral d N v w cs
    pure (a :: as)

theorem sub_zero_zero : subSize 0 0 = 0 := by decide +kernel

theorem step_same (d : Nat) (c : Call) : stepGeneral d 0 (BVec.empty d 0) (BVec.empty d 0) c =
    (stepZero c >>= fun a => pure (a, BVec.empty d 0, BVec.empty d 0)) := by
  have he : BVec.empty d 0 = ⟨0, 0, []⟩ := rfl
  rw [he]
  have hs : BVec.size (⟨0, 0, []⟩ : BVec Nat) = 0 := sub_zero_zero
  cases c with
  | clear => rfl
  | resize count =>
    cases count with
    | zero =>
      simp only [stepGeneral, stepZero, BVec.resize, hs]
      rfl
    | succ n =>
      simp only [stepGeneral, stepZero, BVec.resize]
      rw [if_pos (by omega), if_neg (by omega)]
      rfl
  | zero => rfl
  | swap =>
    simp only [stepGeneral, stepZero, BVec.swap, sub_zero_zero]
    rfl
  | size =>
    simp only [stepGeneral, stepZero, hs]
    rfl
  | empty => rfl
  | full =>
    simp only [stepGeneral, stepZero, BVec.full, sub_zero_zero]
    rfl
  | available =>
    simp only [stepGeneral, stepZero, BVec.available, hs, sub_zero_zero]
    rfl
  | «at» pos =>
    simp only [stepGeneral, stepZero, BVec.at', hs]
    rw [if_neg (by omega)]
    rfl

/-- C361, as far as it holds: every sequence of calls gives, throws and ends what the general vector does with a capacity of 0.
Missing: `has_room` and the constructor from two iterators, see `C361_has_room_violated` and `C361_range_violated`. -/
theorem C361_calls_partial (d : Nat) (cs : List Call) : runZero cs = runGeneral d 0 (BVec.empty d 0) (BVec.empty d 0) cs := by
  induction cs with
  | nil => rfl
  | cons c cs ih =>
    rw [runZero, runGeneral, step_same, ih]
    simp only [bind_assoc, pure_bind]

example : runZero [.size, .resize 0, .full] = pure [some 0, none, some 1] := rfl

/-- The constructor from a pointer and a count, daw_bounded_vector.h 372: what the vector holds. -/
def ofPtrZero (_src : List α) (_count : Nat) : List α := []

/-- C361: elements given by pointer and count are left out, as the general vector does with those for which it has no room. -/
theorem C361_pointer (d : Nat) (src : List Nat) (count : Nat) (h : count ≤ src.length) :
    ∃ v, BVec.ofPtr d 0 src count = pure v ∧ v.contents = ofPtrZero src count := by
  obtain ⟨v, h1, -, h3⟩ := (BVec.C45_construct d (N := 0) src).1 count h
  refine ⟨v, h1, ?_⟩
  rw [h3, ofPtrZero, Nat.min_zero, List.take_zero]

example : ∃ v, BVec.ofPtr 9 0 [5, 6, 7] 2 = pure v ∧ v.contents = [] := C361_pointer 9 [5, 6, 7] 2 (by decide)

/-- The constructor from two iterators, daw_bounded_vector.h 374-377: it ends the program. -/
def ofRangeZero (_src : List α) : Cxx (List α) := abort

/-- C361 does not hold for the constructor from two iterators: it ends the program for a range without elements, which the general
vector takes with every capacity. -/
theorem C361_range_violated (d : Nat) : ofRangeZero ([] : List Nat) = abort ∧ ∀ N, BVec.ofRange d N [] = pure (BVec.empty d N) :=
  ⟨rfl, fun _ => rfl⟩

/-- `has_room( count )`, daw_bounded_vector.h 395-397. -/
def hasRoomZero (_count : Nat) : Bool := false

/-- C361 does not hold for `has_room`: it denies room for nothing, and the general vector with a capacity of 0 affirms room for any
number of elements. -/
theorem C361_has_room_violated (d : Nat) : hasRoomZero 0 = false ∧ ∀ count, BVec.hasRoom 0 (BVec.empty d 0) count = true := by
  refine ⟨rfl, fun count => ?_⟩
  simp [BVec.hasRoom]

end Verif.Containers.BVecZero
