import Verif.StringView.View1Ops
import Verif.Pipelines.Chunk
import Verif.Containers.Lists

/-
Splitting a text at a delimiter text, include/daw/deprecated/daw_string_split_range.h, over the first string view.  An
iterator is its position, `none` for `npos`, next to the text `xs` and the delimiter `ys`.
-/

namespace Verif.SV1
namespace SplitRange
open Cxx Verif.SV Verif.Containers Verif.Pipe

variable {α : Type}

/-- `find_next`, daw_string_split_range.h 31-36. -/
def findNext [DecidableEq α] (xs ys : List α) (pos : Nat) : Cxx (Option Nat) :=
  if xs.isEmpty then pure none else find xs ys pos

/-- `move_next`, daw_string_split_range.h 38-45, and the prefix `++`, 63-66. -/
def moveNext [DecidableEq α] (xs ys : List α) (pos : Nat) : Cxx (Option Nat) := do
  match ← findNext xs ys pos with
  | none => pure none
  | some n => pure (some (n + ys.length))

/-- The postfix `++`, daw_string_split_range.h 68-72: the iterator afterwards and the result. -/
def postInc [DecidableEq α] (xs ys : List α) (pos : Nat) : Cxx (Option Nat × Option Nat) := do
  let tmp ← moveNext xs ys pos
  pure (some pos, tmp)

/-- `operator*`, daw_string_split_range.h 74-78, and `->`, 80-84; `npos - m_pos` is a number. -/
def deref [DecidableEq α] (xs ys : List α) (pos : Nat) : Cxx (List α) := do
  let result := (⟨0, xs.length⟩ : View).removePrefix (some pos)
  let next ← findNext xs ys pos
  let r ← result.substr 0 (some (subSize (next.getD (2 ^ 64 - 1)) pos))
  pure (r.text xs)

/-- The steps of a loop over the range, daw_string_split_range.h 74-94 and 129-143: an iterator is different from that at the
end unless its position is `npos`; the end is not dereferenced. -/
def derefIt [DecidableEq α] (xs ys : List α) : Option Nat → Cxx (List α × Option Nat)
  | some pos => do
    let t ← deref xs ys pos
    pure (t, some pos)
  | none => ub

/-- The prefix `++` in a loop over the range, daw_string_split_range.h 63-66. -/
def nextIt [DecidableEq α] (xs ys : List α) : Option Nat → Cxx (Option Nat)
  | some pos => moveNext xs ys pos
  | none => ub

/-- The texts of a loop over `split_string( xs, ys )`, daw_string_split_range.h 53-61 and 119-197. -/
def split [DecidableEq α] (xs ys : List α) : Cxx (List (List α)) :=
  collect (fun it => it.isSome) (derefIt xs ys) (nextIt xs ys) (some 0)

/-- The pieces of a text between the delimiters, which are taken from the left. (Specification, no line of the source.) -/
inductive Cut (ys : List α) : List α → List (List α) → Prop where
  | last {xs : List α} (h : ∀ i, ¬Occurs ys xs i) : Cut ys xs [xs]
  | more {xs : List α} {i : Nat} {ps : List (List α)} (ho : Occurs ys xs i) (hf : ∀ j, j < i → ¬Occurs ys xs j)
      (h : Cut ys (xs.drop (i + ys.length)) ps) : Cut ys xs (xs.take i :: ps)

theorem occurs_drop {xs ys : List α} {pos i : Nat} (hp : pos ≤ xs.length) :
    Occurs ys xs (pos + i) ↔ Occurs ys (xs.drop pos) i := by
  unfold Occurs
  rw [List.drop_drop, List.length_drop]
  constructor <;> rintro ⟨a, b⟩ <;> exact ⟨by omega, b⟩

theorem findNext_spec [DecidableEq α] (xs ys : List α) (hy : ys ≠ []) (pos : Nat) (hp : pos ≤ xs.length) :
    ∃ r, findNext xs ys pos = pure r ∧ FirstIn (Occurs ys xs) pos (xs.length + 1) r := by
  unfold findNext
  cases xs with
  | nil =>
    refine ⟨none, rfl, ⟨(fun _ h => by cases h), fun _ j _ _ ho => ?_⟩⟩
    have := ho.2.length_le
    simp at this
    exact hy this
  | cons x xs => exact C216_find_partial (x :: xs) ys pos hp

/-- The pieces join to the text, and no piece contains the delimiter. -/
theorem Cut.spec {xs ys : List α} {ps : List (List α)} (h : Cut ys xs ps) :
    ys.intercalate ps = xs ∧ ps ≠ [] ∧ ∀ p ∈ ps, ys ≠ [] → ∀ i, ¬Occurs ys p i := by
  induction h with
  | last h => exact ⟨by simp [List.intercalate], by simp, fun p hp _ => by rw [List.mem_singleton.1 hp]; exact h⟩
  | @more xs i ps ho hf h ih =>
    obtain ⟨h1, h2, h3⟩ := ih
    have hx : ys ++ xs.drop (i + ys.length) = xs.drop i := by
      obtain ⟨t, ht⟩ := ho.2
      rw [← List.drop_drop, ← ht, List.drop_left]
    refine ⟨?_, by simp, fun p hp hy j hj => ?_⟩
    · obtain ⟨p, ps', rfl⟩ := List.exists_cons_of_ne_nil h2
      have : ys.intercalate (xs.take i :: p :: ps') = xs.take i ++ (ys ++ ys.intercalate (p :: ps')) := by
        simp [List.intercalate, List.intersperse]
      rw [this, h1, hx, List.take_append_drop]
    · rcases List.mem_cons.1 hp with rfl | hp
      · have hl := hj.2.length_le
        have hyl : 0 < ys.length := List.length_pos_iff.2 hy
        rw [List.length_drop, List.length_take] at hl
        refine hf j (by omega) ⟨by have := ho.1; omega, ?_⟩
        have hp := hj.2
        rw [List.drop_take] at hp
        exact hp.trans (List.take_prefix _ _)
      · exact h3 p hp hy j hj

/-- The pieces are determined. -/
theorem Cut.unique {xs ys : List α} {ps qs : List (List α)} (h : Cut ys xs ps) (h' : Cut ys xs qs) : ps = qs := by
  induction h generalizing qs with
  | last h =>
    cases h' with
    | last _ => rfl
    | more ho _ _ => exact absurd ho (h _)
  | @more xs i ps ho hf h ih =>
    cases h' with
    | last h'' => exact absurd ho (h'' _)
    | @more _ j qs' ho' hf' h'' =>
      have : i = j := by
        rcases Nat.lt_trichotomy i j with hl | hl | hl
        · exact absurd ho (hf' i hl)
        · exact hl
        · exact absurd ho' (hf j hl)
      subst this
      rw [ih h'']

/-- C222: splitting at a delimiter that is not empty gives the pieces between its occurrences, taken from the left, also the
empty ones; they join to the text, and none contains the delimiter.  Missing: the empty delimiter, and the postfix `++`. -/
theorem C222_split_partial [DecidableEq α] (xs ys : List α) (hy : ys ≠ []) (hx : xs.length < 2 ^ 63) :
    ∃ ps, split xs ys = pure ps ∧ Cut ys xs ps ∧ ys.intercalate ps = xs ∧ ∀ p ∈ ps, ∀ i, ¬Occurs ys p i := by
  have hyl : 0 < ys.length := List.length_pos_iff.2 hy
  have key : ∀ (n pos : Nat), pos ≤ xs.length → xs.length - pos ≤ n → ∃ ps,
      collect (fun it => it.isSome) (derefIt xs ys) (nextIt xs ys) (some pos) = pure ps ∧ Cut ys (xs.drop pos) ps := by
    intro n
    induction n with
    | zero =>
      intro pos hp hn
      obtain ⟨r, er, hr⟩ := findNext_spec xs ys hy pos hp
      have hnone : ∀ i, ¬Occurs ys (xs.drop pos) i := by
        intro i ho
        have := ho.2.length_le
        rw [List.length_drop, List.length_drop] at this
        omega
      have hrn : r = none := by
        cases r with
        | none => rfl
        | some i =>
          obtain ⟨a, _, c, _⟩ := hr.1 i rfl
          rw [show i = pos + (i - pos) by omega, occurs_drop hp] at c
          exact absurd c (hnone _)
      subst hrn
      refine ⟨[xs.drop pos], ?_, .last hnone⟩
      refine collect_cons (s' := some pos) (s'' := none) rfl ?_ ?_ (collect_nil rfl)
      · simp only [derefIt, deref, er, pure_bind, View.removePrefix, View.clip, View.substr, Nat.zero_le, if_true, Nat.zero_add]
        simp only [View.text, Option.getD_none]
        rw [subSize_of_le (by omega) (by omega), Nat.min_eq_left hp, Nat.add_zero]
        congr 2
        rw [List.take_of_length_le (by rw [List.length_drop]; omega)]
      · simp only [nextIt, moveNext, er, pure_bind]
    | succ n ih =>
      intro pos hp hn
      obtain ⟨r, er, hr⟩ := findNext_spec xs ys hy pos hp
      cases r with
      | none =>
        have hnone : ∀ i, ¬Occurs ys (xs.drop pos) i := by
          intro i ho
          have h1 := ho.1
          rw [List.length_drop] at h1
          exact hr.2 rfl (pos + i) (by omega) (by omega) ((occurs_drop hp).2 ho)
        refine ⟨[xs.drop pos], ?_, .last hnone⟩
        refine collect_cons (s' := some pos) (s'' := none) rfl ?_ ?_ (collect_nil rfl)
        · simp only [derefIt, deref, er, pure_bind, View.removePrefix, View.clip, View.substr, Nat.zero_le, if_true, Nat.zero_add]
          simp only [View.text, Option.getD_none]
          rw [subSize_of_le (by omega) (by omega), Nat.min_eq_left hp, Nat.add_zero]
          congr 2
          rw [List.take_of_length_le (by rw [List.length_drop]; omega)]
        · simp only [nextIt, moveNext, er, pure_bind]
      | some i =>
        obtain ⟨a, b, c, d⟩ := hr.1 i rfl
        have hil := c.2.length_le
        rw [List.length_drop] at hil
        obtain ⟨ps, e, hc⟩ := ih (i + ys.length) (by omega) (by omega)
        have hoc : Occurs ys (xs.drop pos) (i - pos) := by
          rw [← occurs_drop hp, show pos + (i - pos) = i by omega]
          exact c
        have hdd : (xs.drop pos).drop (i - pos + ys.length) = xs.drop (i + ys.length) := by
          rw [List.drop_drop, show pos + (i - pos + ys.length) = i + ys.length by omega]
        refine ⟨(xs.drop pos).take (i - pos) :: ps, ?_, .more hoc (fun j hj ho => ?_) (by rw [hdd]; exact hc)⟩
        · refine collect_cons (s' := some pos) (s'' := some (i + ys.length)) rfl ?_ ?_ e
          · simp only [derefIt, deref, er, pure_bind, View.removePrefix, View.clip, View.substr, Nat.zero_le, if_true, Nat.zero_add]
            simp only [View.text, Option.getD_some]
            rw [subSize_of_le (by omega) (by omega), Nat.min_eq_left hp, Nat.add_zero, Nat.sub_zero, Nat.min_eq_left (by omega)]
          · simp only [nextIt, moveNext, er, pure_bind]
        · refine d (pos + j) (by omega) (by omega) ((occurs_drop hp).2 ho)
  obtain ⟨ps, e, hc⟩ := key xs.length 0 (Nat.zero_le _) (by omega)
  rw [List.drop_zero] at hc
  exact ⟨ps, e, hc, hc.spec.1, fun p hp => hc.spec.2.2 p hp hy⟩

/-- A text that starts and ends with the delimiter, and has two in a row. -/
example : Cut [0, 0] [0, 0, 1, 0, 0, 0, 0] [[], [1], [], []] := by
  refine .more (i := 0) ⟨by simp, [1, 0, 0, 0, 0], rfl⟩ (fun j hj => by omega) (.more (i := 1) ⟨by simp, [0, 0], rfl⟩ ?_
    (.more (i := 0) ⟨by simp, [], rfl⟩ (fun j hj => by omega) (.last ?_)))
  · intro j hj ho
    have : j = 0 := by omega
    subst this
    have := ho.2
    revert this
    decide
  · intro i ho
    have := ho.2.length_le
    simp at this

/-- C222 does not hold for the empty delimiter: the loop over the pieces of any text that is not empty does not end. -/
theorem C222_empty_violated [DecidableEq α] (x : α) (xs : List α) (r : List (List α)) : split (x :: xs) [] ≠ pure r := by
  refine collect_never (Inv := fun it => it = some 0) (fun s hs => by rw [hs]; rfl) (fun s hs b s' h1 s'' h2 => ?_) (some 0) rfl r
  subst hs
  have hf : findNext (x :: xs) [] 0 = pure (some 0) := rfl
  have hs' : s' = some 0 := by
    unfold derefIt at h1
    obtain ⟨t, _, h1⟩ := bind_eq_pure.1 h1
    have := pure_inj.1 h1
    rw [Prod.mk.injEq] at this
    exact this.2.symm
  subst hs'
  simp only [nextIt, moveNext, hf, pure_bind] at h2
  exact (pure_inj.1 h2).symm

/-- C222: the postfix `++` leaves the iterator where it is and returns the next one; it should be the other way round. -/
theorem C222_postfix_violated [DecidableEq α] (xs ys : List α) (hy : ys ≠ []) (pos : Nat) (hp : pos ≤ xs.length) :
    ∃ r, moveNext xs ys pos = pure r ∧ r ≠ some pos ∧ postInc xs ys pos = pure (some pos, r) := by
  have hyl : 0 < ys.length := List.length_pos_iff.2 hy
  obtain ⟨r, er, hr⟩ := findNext_spec xs ys hy pos hp
  cases r with
  | none =>
    have e : moveNext xs ys pos = pure none := by simp only [moveNext, er, pure_bind]
    exact ⟨none, e, by simp, by unfold postInc; rw [e]; rfl⟩
  | some i =>
    have e : moveNext xs ys pos = pure (some (i + ys.length)) := by simp only [moveNext, er, pure_bind]
    have := (hr.1 i rfl).1
    exact ⟨some (i + ys.length), e, by simp; omega, by unfold postInc; rw [e]; rfl⟩

example := C222_postfix_violated [1, 0, 2] [0] (by decide) 1 (by decide)

end SplitRange
end Verif.SV1
