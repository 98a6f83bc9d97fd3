import Verif.Base
import Verif.Containers.Lists
import Verif.Iter.Cpp17

/-
Owning ranges and their clauses, include/daw/deprecated/daw_range_collection.h and daw_range_operators.h.
-/

namespace Verif.Iter.Collections
open Verif Verif.Cxx Verif.Iter.Cpp17

/-- `std::remove_if`: the elements to keep move to the front, what is after them is not specified and here left as it was; with the position after the kept ones.
(Rule of C++ or its library, no line of the source.) -/
def stdRemoveIf {T : Type} (p : T → Bool) (xs : List T) : List T × Nat :=
  let kept := xs.filter fun x => !p x
  (kept ++ xs.drop kept.length, kept.length)

/-- The elements of which none equals the one kept before it. (Rule of C++ or its library, no line of the source.) -/
def withoutRuns {T : Type} (eq : T → T → Bool) : List T → List T
  | [] => []
  | [x] => [x]
  | x :: y :: rest => if eq x y then withoutRuns eq (x :: rest) else x :: withoutRuns eq (y :: rest)
termination_by xs => xs.length

/-- `std::unique`, as `std::remove_if`. (Rule of C++ or its library, no line of the source.) -/
def stdUnique {T : Type} (eq : T → T → Bool) (xs : List T) : List T × Nat :=
  let kept := withoutRuns eq xs
  (kept ++ xs.drop kept.length, kept.length)

/-- `vector::erase` of the elements from `first` to before `last`. (Rule of C++ or its library, no line of the source.) -/
def vectorErase {T : Type} (xs : List T) (first last : Nat) : List T := xs.take first ++ xs.drop last

/-- `erase`, deprecated/daw_range_collection.h 266-272. -/
def erase {T : Type} (p : T → Bool) (xs : List T) : List T :=
  let (ys, n) := stdRemoveIf p xs
  vectorErase ys n ys.length

/-- `erase_where_equal_to`, deprecated/daw_range_collection.h 279-284. -/
def eraseWhereEqualTo {T : Type} [DecidableEq T] (v : T) (xs : List T) : List T := erase (fun x => decide (v = x)) xs

/-- `where`, deprecated/daw_range_collection.h 291-296. -/
def whereIs {T : Type} (p : T → Bool) (xs : List T) : List T := erase (fun x => !p x) xs

/-- `where_equal_to`, deprecated/daw_range_collection.h 303-308. -/
def whereEqualTo {T : Type} [DecidableEq T] (v : T) (xs : List T) : List T := whereIs (fun x => decide (v = x)) xs

/-- `unique`, deprecated/daw_range_collection.h 225-231. -/
def unique {T : Type} (eq : T → T → Bool) (xs : List T) : List T :=
  let (ys, n) := stdUnique eq xs
  vectorErase ys n ys.length

/-- `stable_partition`, deprecated/daw_range_collection.h 249-253, by `std::stable_partition`. -/
def stablePartition {T : Type} (p : T → Bool) (xs : List T) : List T := xs.filter p ++ xs.filter fun x => !p x

/-- `stable_sort`, deprecated/daw_range_collection.h 204-208, by `std::stable_sort`. -/
def stableSort {T : Type} (less : T → T → Bool) (xs : List T) : List T := xs.mergeSort fun a b => !less b a

/-- The clauses, deprecated/daw_range_operators.h 166-180. -/
inductive Clause (T : Type) where
  | isWhere (p : T → Bool)
  | erase (p : T → Bool)
  | whereEqualTo (v : T)
  | eraseWhereEqualTo (v : T)
  | unique (eq : T → T → Bool)
  | stablePartition (p : T → Bool)
  | stableSort (less : T → T → Bool)

/-- The members of a range that is not const, deprecated/daw_range_collection.h 204-308. -/
def member {T : Type} [DecidableEq T] : Clause T → List T → List T
  | .isWhere p, xs => whereIs p xs
  | .erase p, xs => erase p xs
  | .whereEqualTo v, xs => whereEqualTo v xs
  | .eraseWhereEqualTo v, xs => eraseWhereEqualTo v xs
  | .unique eq, xs => unique eq xs
  | .stablePartition p, xs => stablePartition p xs
  | .stableSort less, xs => stableSort less xs

/-- The members of a const range, deprecated/daw_range_collection.h 198-313, daw_range_reference.h 53-54 and 408-414: first the references, then the same on what they refer to.
The elements are at the places from 0 on, `room` is as at `toReferenceVector`. -/
def constMember {T : Type} [DecidableEq T] (room : Nat) (c : Clause T) (xs : List T) : Cxx (List T) := do
  let refs ← toReferenceVector room 0 xs.length []
  let values ← refs.mapM fun (i : Nat) => rd xs i
  pure (member c values)

/-- What `<<` is given at its left. (Rule of C++ or its library, no line of the source.) -/
inductive Left (T : Type) where
  | container (xs : List T)
  | collection (xs : List T)

/-- `<<` with a clause, deprecated/daw_range_operators.h 57-68, 80-88 and 133-154: a container is copied by `from`, deprecated/daw_range_collection.h 441-446, whose test of a reference
for const is never true; a range is taken as const. -/
def operatorClause {T : Type} [DecidableEq T] (room : Nat) (left : Left T) (c : Clause T) : Cxx (Left T) :=
  match left with
  | .container xs => pure (.collection (member c xs))
  | .collection xs => do
    let ys ← constMember room c xs
    pure (.collection ys)

/-- Clauses one after the other, `container << c1 << c2 …`, deprecated/daw_range_operators.h 133-154. -/
def chain {T : Type} [DecidableEq T] (room : Nat) : Left T → List (Clause T) → Cxx (Left T)
  | left, [] => pure left
  | left, c :: cs => do
    let next ← operatorClause room left c
    chain room next cs

/-! ## Proofs -/

theorem erase_eq {T : Type} (p : T → Bool) (xs : List T) : erase p xs = xs.filter fun x => !p x := by
  simp [erase, stdRemoveIf, vectorErase]
  omega

theorem unique_eq {T : Type} (eq : T → T → Bool) (xs : List T) : unique eq xs = withoutRuns eq xs := by
  simp [unique, stdUnique, vectorErase]
  omega

theorem whereIs_eq {T : Type} (p : T → Bool) (xs : List T) : whereIs p xs = xs.filter p := by simp [whereIs, erase_eq]

theorem withoutRuns_sublist {T : Type} (eq : T → T → Bool) (xs : List T) : (withoutRuns eq xs).Sublist xs := by
  induction hn : xs.length using Nat.strongRecOn generalizing xs with
  | ind n ih =>
    match xs with
    | [] => simp [withoutRuns]
    | [x] => simp [withoutRuns]
    | x :: y :: rest =>
      rw [withoutRuns]
      simp only [List.length_cons] at hn
      split
      · exact (ih (rest.length + 1) (by omega) (x :: rest) (by simp)).trans ((List.sublist_cons_self y rest).cons_cons x)
      · exact (ih (rest.length + 1) (by omega) (y :: rest) (by simp)).cons_cons x

/-- **C320.**  `where` keeps exactly the elements its condition is true of, `erase` exactly the others, in their order, however many there are and wherever they stand. -/
theorem C320_filter {T : Type} [DecidableEq T] (p : T → Bool) (v : T) (xs : List T) :
    whereIs p xs = xs.filter p ∧ erase p xs = xs.filter (fun x => !p x) ∧ whereEqualTo v xs = xs.filter (· = v) ∧ eraseWhereEqualTo v xs = xs.filter (· ≠ v) := by
  refine ⟨?_, erase_eq p xs, ?_, ?_⟩
  · simp [whereIs, erase_eq]
  · simp [whereEqualTo, whereIs, erase_eq, eq_comm]
  · simp [eraseWhereEqualTo, erase_eq, eq_comm]

/-- **C320.**  What `where` keeps and what `erase` keeps are together all elements. -/
theorem C320_split {T : Type} [DecidableEq T] (p : T → Bool) (xs : List T) : (whereIs p xs ++ erase p xs).Perm xs := by
  rw [whereIs_eq, erase_eq]
  exact List.filter_append_perm p xs

theorem withoutRuns_head {T : Type} (eq : T → T → Bool) (x : T) (xs : List T) : ∃ ys, withoutRuns eq (x :: xs) = x :: ys := by
  induction xs with
  | nil => exact ⟨[], by simp [withoutRuns]⟩
  | cons y rest ih =>
    rw [withoutRuns]
    split
    · exact ih
    · exact ⟨_, rfl⟩

theorem withoutRuns_chain {T : Type} (eq : T → T → Bool) (xs : List T) :
    ∀ (i : Nat) (a b : T), (withoutRuns eq xs)[i]? = some a → (withoutRuns eq xs)[i + 1]? = some b → eq a b = false := by
  induction hn : xs.length using Nat.strongRecOn generalizing xs with
  | ind n ih =>
    match xs with
    | [] => simp [withoutRuns]
    | [x] => simp [withoutRuns]
    | x :: y :: rest =>
      rw [withoutRuns]
      simp only [List.length_cons] at hn
      split
      · exact ih (rest.length + 1) (by omega) (x :: rest) (by simp)
      · rename_i hxy
        have h := ih (rest.length + 1) (by omega) (y :: rest) (by simp)
        obtain ⟨ys, hys⟩ := withoutRuns_head eq y rest
        rw [hys] at h ⊢
        intro i a b ha hb
        cases i with
        | zero =>
          simp at ha hb
          subst ha hb
          simpa using hxy
        | succ i => exact h i a b (by simpa using ha) (by simpa using hb)

/-- **C320.**  After `unique` no element equals the one before it, the others are as they were, and there is an element if there was one. -/
theorem C320_unique {T : Type} (eq : T → T → Bool) (xs : List T) :
    (∀ (i : Nat) (a b : T), (unique eq xs)[i]? = some a → (unique eq xs)[i + 1]? = some b → eq a b = false) ∧ (unique eq xs).Sublist xs ∧ (unique eq xs).head? = xs.head? := by
  rw [unique_eq]
  refine ⟨withoutRuns_chain eq xs, withoutRuns_sublist eq xs, ?_⟩
  cases xs with
  | nil => simp [withoutRuns]
  | cons x xs =>
    obtain ⟨ys, h⟩ := withoutRuns_head eq x xs
    rw [h]
    rfl

/-- **C320.**  Programs of clauses that select leave a subsequence of the elements, programs of clauses that arrange leave all of them. -/
theorem C320_program {T : Type} [DecidableEq T] (cs : List (Clause T)) (xs : List T) :
    ((∀ c ∈ cs, ∀ (p : T → Bool), c ≠ .stablePartition p) → (∀ c ∈ cs, ∀ (less : T → T → Bool), c ≠ .stableSort less) → (cs.foldl (fun l c => member c l) xs).Sublist xs) ∧
    ((∀ c ∈ cs, (∃ p : T → Bool, c = .stablePartition p) ∨ ∃ less : T → T → Bool, c = .stableSort less) → (cs.foldl (fun l c => member c l) xs).Perm xs) := by
  induction cs generalizing xs with
  | nil => exact ⟨fun _ _ => List.Sublist.refl _, fun _ => List.Perm.refl _⟩
  | cons c cs ih =>
    constructor
    · intro h1 h2
      have hc : (member c xs).Sublist xs := by
        cases c with
        | isWhere p => rw [member, whereIs_eq]; exact List.filter_sublist
        | erase p => rw [member, erase_eq]; exact List.filter_sublist
        | whereEqualTo v => rw [member, (C320_filter (fun _ => true) v xs).2.2.1]; exact List.filter_sublist
        | eraseWhereEqualTo v => rw [member, (C320_filter (fun _ => true) v xs).2.2.2]; exact List.filter_sublist
        | unique eq => rw [member, unique_eq]; exact withoutRuns_sublist eq xs
        | stablePartition p => exact absurd rfl (h1 _ (by simp) p)
        | stableSort less => exact absurd rfl (h2 _ (by simp) less)
      exact ((ih (member c xs)).1 (fun d hd => h1 d (by simp [hd])) (fun d hd => h2 d (by simp [hd]))).trans hc
    · intro h
      have hc : (member c xs).Perm xs := by
        rcases h c (by simp) with ⟨p, rfl⟩ | ⟨less, rfl⟩
        · exact List.filter_append_perm p xs
        · exact List.mergeSort_perm _ _
      exact ((ih (member c xs)).2 fun d hd => h d (by simp [hd])).trans hc

example : [Clause.isWhere (fun x : Nat => decide (2 < x)), .eraseWhereEqualTo 5].foldl (fun l c => member c l) [5, 1, 3, 2, 5, 4] = [3, 4] := by decide +kernel

/-- **C320.**  One clause after a container gives what the member of a range that is not const gives, of a copy: the container stays as it was.  Missing: a second clause. -/
theorem C320_operator_partial {T : Type} [DecidableEq T] (room : Nat) (c : Clause T) (xs : List T) : chain room (.container xs) [c] = pure (.collection (member c xs)) := rfl

/-- **C320** (finding).  The clauses of a const range with an element never give a result, the references to the elements are never complete. -/
theorem C320_const_violated {T : Type} [DecidableEq T] (room : Nat) (c : Clause T) (x : T) (xs : List T) : constMember room c (x :: xs) = thrown := by
  unfold constMember
  rw [C306_endless_violated room 0 (x :: xs).length (by simp)]
  rfl

/-- **C320** (finding).  So a second clause never gives a result unless the first left no element. -/
theorem C320_chain_violated {T : Type} [DecidableEq T] (room : Nat) (c d : Clause T) (cs : List (Clause T)) (xs : List T) (h : member c xs ≠ []) :
    chain room (.container xs) (c :: d :: cs) = thrown := by
  obtain ⟨y, ys, hy⟩ := List.exists_cons_of_ne_nil h
  simp only [chain, operatorClause, pure_bind, hy, C320_const_violated]
  rfl

example : chain 1000 (.container [1, 2, 3]) [.isWhere fun x : Nat => decide (1 < x), .erase fun x => decide (x = 3)] = thrown :=
  C320_chain_violated 1000 _ _ [] [1, 2, 3] (by decide +kernel)

end Verif.Iter.Collections
