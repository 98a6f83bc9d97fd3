import Verif.Pipelines.Chunk

/-
include/daw/pipelines/concat.h and flatten.h.  A pair of iterators is the list of the elements between them; incrementing the first takes an
element away.
-/

namespace Verif.Pipe
open Cxx
variable {α : Type}

/-! ### Concat -/

/-- `concat_view`: `m_ranges` and `m_index`, pipelines/concat.h 39-46. -/
structure ConcatIt (α : Type) where
  ranges : List (List α)
  index : Nat

/-- `concat_view::operator++`, pipelines/concat.h 80-88. -/
def ConcatIt.incr (s : ConcatIt α) : Cxx (ConcatIt α) :=
  match s.ranges[s.index]? with
  | none => ub
  | some [] => ub
  | some (_ :: t) => pure ⟨s.ranges.set s.index t, if t = [] then s.index + 1 else s.index⟩

/-- `concat_view::operator*`, pipelines/concat.h 96-106. -/
def ConcatIt.deref (s : ConcatIt α) : Cxx (α × ConcatIt α) :=
  match s.ranges[s.index]? with
  | none => ub
  | some [] => ub
  | some (a :: _) => pure (a, s)

/-- Iterating over `concat_view`, pipelines/concat.h 60-117: in the end iterator, 69-78, all pairs are empty; `==` compares the pairs. -/
def concat (rs : List (List α)) : Cxx (List α) :=
  collect (fun s : ConcatIt α => s.ranges.any fun r => !r.isEmpty) ConcatIt.deref ConcatIt.incr ⟨rs, 0⟩

theorem all_empty {rs : List (List α)} (h : ∀ r ∈ rs, r = []) : rs.any (fun r => !r.isEmpty) = false := by
  rw [List.any_eq_false]
  intro r hr
  simp [h r hr]

/-- One range from its middle to its end, with the next behind it. -/
theorem concat_run (a : List α) : ∀ (e rest : List (List α)) (x : α) (t : List α) (k : Cxx (List α)),
    a = x :: t →
    collect (fun s : ConcatIt α => s.ranges.any fun r => !r.isEmpty) ConcatIt.deref ConcatIt.incr ⟨e ++ [] :: rest, e.length + 1⟩ = k →
    collect (fun s : ConcatIt α => s.ranges.any fun r => !r.isEmpty) ConcatIt.deref ConcatIt.incr ⟨e ++ a :: rest, e.length⟩ =
      (k >>= fun r => pure (a ++ r)) := by
  induction a with
  | nil => intro e rest x t k h; cases h
  | cons y u ih =>
    intro e rest x t k h hk
    cases h
    have hi : ∀ u : List α, (e ++ u :: rest)[e.length]? = some u := by simp
    rw [collect, if_pos (by simp), ConcatIt.deref]
    simp only [hi, pure_bind]
    rw [ConcatIt.incr]
    simp only [hi, pure_bind]
    rw [show (e ++ (y :: u) :: rest).set e.length u = e ++ u :: rest by simp]
    cases u with
    | nil =>
      simp only [if_true]
      rw [hk]
      rfl
    | cons z u =>
      simp only [reduceCtorEq, if_false]
      rw [ih e rest z u k rfl hk]
      simp

/-- `Concat` gives the elements of the ranges one after the other when no empty range is in front of one that is not empty. -/
theorem C68_concat_partial (rs es : List (List α)) (hrs : ∀ r ∈ rs, r ≠ []) (hes : ∀ r ∈ es, r = []) : concat (rs ++ es) = pure rs.flatten := by
  suffices ∀ (rs : List (List α)), (∀ r ∈ rs, r ≠ []) → ∀ e : List (List α), (∀ r ∈ e, r = []) →
      collect (fun s : ConcatIt α => s.ranges.any fun r => !r.isEmpty) ConcatIt.deref ConcatIt.incr ⟨e ++ (rs ++ es), e.length⟩ = pure rs.flatten from
    this rs hrs [] (by simp)
  intro rs
  induction rs with
  | nil =>
    intro _ e he
    refine collect_nil (all_empty ?_)
    intro r hr
    rcases List.mem_append.1 hr with h | h
    · exact he r h
    · exact hes r h
  | cons a rs ih =>
    intro h e he
    have ha := h a (by simp)
    have := ih (fun r hr => h r (by simp [hr])) (e ++ [[]]) (by
      intro r hr
      rcases List.mem_append.1 hr with h | h
      · exact he r h
      · simpa using h)
    rw [List.append_assoc, List.length_append, List.length_singleton, List.singleton_append] at this
    cases a with
    | nil => exact absurd rfl ha
    | cons x t =>
      rw [List.cons_append, concat_run (x :: t) e (rs ++ es) x t _ rfl this]
      simp

example : ∀ r ∈ [[1, 2], [3]], r ≠ ([] : List Nat) := by decide

/-- An empty range in front of one that is not empty is dereferenced. -/
theorem C68_violated (rs fs : List (List α)) (hrs : ∀ r ∈ rs, r ≠ []) (hfs : ∃ r ∈ fs, r ≠ []) : concat (rs ++ [] :: fs) = ub := by
  suffices ∀ (rs : List (List α)), (∀ r ∈ rs, r ≠ []) → ∀ e : List (List α),
      collect (fun s : ConcatIt α => s.ranges.any fun r => !r.isEmpty) ConcatIt.deref ConcatIt.incr ⟨e ++ (rs ++ [] :: fs), e.length⟩ = ub from
    this rs hrs []
  intro rs
  induction rs with
  | nil =>
    intro _ e
    obtain ⟨r, hr, hne⟩ := hfs
    refine collect_deref_ub ?_ ?_
    · rw [List.any_eq_true]
      exact ⟨r, by simp [hr], by simpa using hne⟩
    · simp [ConcatIt.deref]
  | cons a rs ih =>
    intro h e
    have ha := h a (by simp)
    have := ih (fun r hr => h r (by simp [hr])) (e ++ [[]])
    rw [List.append_assoc, List.length_append, List.length_singleton, List.singleton_append] at this
    cases a with
    | nil => exact absurd rfl ha
    | cons x t =>
      rw [List.cons_append, concat_run (x :: t) e _ x t _ rfl this]
      rfl

example : ∃ r ∈ [[1]], r ≠ ([] : List Nat) := by decide

/-! ### Flatten -/

/-- `flatten_view`: the ranges from `m_range_first` on, and what is left of the range that `m_cur_first` is in; `none` is the value initialised
iterator, pipelines/flatten.h 50-55. -/
structure FlattenIt (α : Type) where
  outer : List (List α)
  cur : Option (List α)

/-- The constructor, pipelines/flatten.h 96-104, and `inc_range` behind its increment, 76-81. -/
def FlattenIt.enter (outer : List (List α)) : FlattenIt α :=
  match outer with
  | [] => ⟨[], none⟩
  | r :: rs => ⟨r :: rs, some r⟩

/-- `flatten_view::inc_sub_range` and `inc_range`, pipelines/flatten.h 73-91, with the asserts. -/
def FlattenIt.incr (s : FlattenIt α) : Cxx (FlattenIt α) :=
  match s.outer, s.cur with
  | _, none => abort
  | _, some [] => abort
  | [], some _ => ub
  | o :: os, some (_ :: t) => if t = [] then pure (FlattenIt.enter os) else pure ⟨o :: os, some t⟩

/-- `flatten_view::operator*`, pipelines/flatten.h 125-137, with the asserts. -/
def FlattenIt.deref (s : FlattenIt α) : Cxx (α × FlattenIt α) :=
  match s.outer, s.cur with
  | [], _ => abort
  | _, none => abort
  | _, some [] => abort
  | _, some (a :: _) => pure (a, s)

/-- Iterating over `Flatten`, pipelines/flatten.h 106-155: `!=` compares `m_range_first` with the end of the range. -/
def flatten (rs : List (List α)) : Cxx (List α) :=
  collect (fun s : FlattenIt α => !s.outer.isEmpty) FlattenIt.deref FlattenIt.incr (FlattenIt.enter rs)

theorem flatten_run (a : List α) : ∀ (o : List α) (rest : List (List α)) (x : α) (t : List α) (k : Cxx (List α)), a = x :: t →
    collect (fun s : FlattenIt α => !s.outer.isEmpty) FlattenIt.deref FlattenIt.incr (FlattenIt.enter rest) = k →
    collect (fun s : FlattenIt α => !s.outer.isEmpty) FlattenIt.deref FlattenIt.incr ⟨o :: rest, some a⟩ = (k >>= fun r => pure (a ++ r)) := by
  induction a with
  | nil => intro o rest x t k h; cases h
  | cons y u ih =>
    intro o rest x t k h hk
    cases h
    rw [collect, if_pos (by simp), FlattenIt.deref]
    simp only [pure_bind]
    rw [FlattenIt.incr]
    cases u with
    | nil =>
      simp only [if_true, pure_bind]
      rw [hk]
      rfl
    | cons z u =>
      simp only [reduceCtorEq, if_false, pure_bind]
      rw [ih o rest z u k rfl hk]
      simp

/-- `Flatten` gives the elements of the inner ranges one after the other when none of them is empty. -/
theorem C69_flatten_partial (rs : List (List α)) (h : ∀ r ∈ rs, r ≠ []) : flatten rs = pure rs.flatten := by
  unfold flatten
  induction rs with
  | nil => exact collect_nil rfl
  | cons a rs ih =>
    have e := ih fun r hr => h r (by simp [hr])
    have ha := h a (by simp)
    cases a with
    | nil => exact absurd rfl ha
    | cons x t =>
      rw [FlattenIt.enter, flatten_run (x :: t) (x :: t) rs x t _ rfl e]
      simp

example : flatten [[1, 2], [3]] = pure [1, 2, 3] := C69_flatten_partial [[1, 2], [3]] (by decide)

/-- An empty inner range, wherever it is, is dereferenced: the assert fails. -/
theorem C69_violated (rs : List (List α)) (h : [] ∈ rs) : flatten rs = abort := by
  unfold flatten
  induction rs with
  | nil => cases h
  | cons a rs ih =>
    cases a with
    | nil => exact collect_deref_abort rfl rfl
    | cons x t =>
      have e := ih (by simpa using h)
      rw [FlattenIt.enter, flatten_run (x :: t) (x :: t) rs x t _ rfl e]
      rfl

example : (∀ r ∈ [[1], [2, 3]], r ≠ ([] : List Nat)) ∧ ([] : List Nat) ∈ [[1], [], [2]] := by decide

/-- The views that a program gets from one over `rs` by `++`. (Specification, no line of the source.) -/
inductive FlattenIt.Reached (rs : List (List α)) : FlattenIt α → Prop
  | start : Reached rs (FlattenIt.enter rs)
  | next {s t : FlattenIt α} : Reached rs s → s.incr = pure t → Reached rs t

/-- C69: a view that has come to the end is neither read nor moved on, the asserts end the program. -/
theorem C69_past_end (rs : List (List α)) (s : FlattenIt α) (h : FlattenIt.Reached rs s) (he : s.outer = []) :
    s.deref = abort ∧ s.incr = abort := by
  have key : s.outer = [] → s.cur = none := by
    clear he
    have he : ∀ l : List (List α), (FlattenIt.enter l).outer = [] → (FlattenIt.enter l).cur = none := by
      intro l
      cases l <;> simp [FlattenIt.enter]
    cases h with
    | start => exact he rs
    | @next u _ _ hi =>
      obtain ⟨o, c⟩ := u
      unfold FlattenIt.incr at hi
      split at hi
      · exact absurd hi (abort_ne_pure _)
      · exact absurd hi (abort_ne_pure _)
      · cases hi
      · split at hi
        · rw [← pure_inj.1 hi]
          exact he _
        · rw [← pure_inj.1 hi]
          simp
  have hc := key he
  obtain ⟨o, c⟩ := s
  subst he hc
  exact ⟨rfl, rfl⟩

example : FlattenIt.Reached [[1]] ⟨[], none⟩ := .next .start rfl

end Verif.Pipe
