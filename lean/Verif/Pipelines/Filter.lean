import Verif.Pipelines.Chunk

/-
include/daw/pipelines/filter.h, take.h, skip.h, sized_iterator.h and unique.h.
-/

namespace Verif.Pipe
open Cxx Algorithm
variable {α σ : Type}

/-! ### Filter, TakeWhile and TakeUntil -/

/-- The loop `while( good( ) and not filter( *m_first ) ) ++m_first`, pipelines/filter.h 63-65, 107-109, with the identity as projection.  The filter
function is a mutable member; `f` gives its answer and its new state. -/
def filterSkip (f : σ → α → Bool × σ) (xs : List α) (it : Nat) (s : σ) : Cxx (Nat × σ) :=
  if it = xs.length then pure (it, s)
  else if h : it < xs.length then
    let r := f s xs[it]
    if r.1 then pure (it, r.2) else filterSkip f xs (it + 1) r.2
  else ub
termination_by xs.length - it

/-- `filter_view::operator++`, pipelines/filter.h 105-111. -/
def filterInc (f : σ → α → Bool × σ) (xs : List α) (it : Nat × σ) : Cxx (Nat × σ) :=
  if it.1 < xs.length then filterSkip f xs (it.1 + 1) it.2 else ub

/-- `filter_view::operator*`, pipelines/filter.h 84-91. -/
def filterDeref (xs : List α) (it : Nat × σ) : Cxx (α × (Nat × σ)) := do
  let a ← rd xs it.1
  pure (a, it)

/-- Iterating over a `filter_view`, pipelines/filter.h 56-128. -/
def filterView (f : σ → α → Bool × σ) (s : σ) (xs : List α) : Cxx (List α) := do
  let it ← filterSkip f xs 0 s
  collect (fun it : Nat × σ => it.1 != xs.length) (filterDeref xs) (filterInc f xs) it

/-- `Filter`, pipelines/filter.h 178-182, with a predicate without state. -/
def filterFn (p : α → Bool) (s : Unit) (v : α) : Bool × Unit := (p v, s)

/-- `TakeWhile_t::operator()`, pipelines/take.h 53-62. -/
def takeWhileFn (p : α → Bool) (trigger : Bool) (v : α) : Bool × Bool :=
  if trigger then (true, trigger) else if !p v then (true, true) else (false, trigger)

/-- `TakeUntil_t::operator()`, pipelines/take.h 72-81. -/
def takeUntilFn (p : α → Bool) (trigger : Bool) (v : α) : Bool × Bool :=
  if trigger then (false, trigger) else if p v then (false, true) else (true, trigger)

/-- What a filter with state lets pass. (Specification, no line of the source.) -/
def passes (f : σ → α → Bool × σ) : σ → List α → List α
  | _, [] => []
  | s, a :: l => if (f s a).1 then a :: passes f (f s a).2 l else passes f (f s a).2 l

theorem filter_from (f : σ → α → Bool × σ) (xs : List α) (k : Nat) : ∀ (it : Nat) (s : σ), it + k = xs.length →
    (do
      let it ← filterSkip f xs it s
      collect (fun it : Nat × σ => it.1 != xs.length) (filterDeref xs) (filterInc f xs) it) = pure (passes f s (xs.drop it)) := by
  induction k with
  | zero =>
    intro it s h
    rw [filterSkip, if_pos (by omega)]
    simp only [pure_bind]
    rw [collect_nil (by simp; omega), List.drop_of_length_le (by omega)]
    rfl
  | succ k ih =>
    intro it s h
    have hlt : it < xs.length := by omega
    rw [filterSkip, if_neg (by omega), dif_pos hlt, List.drop_eq_getElem_cons hlt]
    simp only [passes]
    by_cases hp : (f s xs[it]).1 = true
    · rw [if_pos hp, if_pos hp]
      simp only [pure_bind]
      have e := ih (it + 1) (f s xs[it]).2 (by omega)
      obtain ⟨t, h1, h2⟩ := bind_eq_pure.1 e
      refine collect_cons (s' := (it, (f s xs[it]).2)) (s'' := t) (by simp; omega) ?_ ?_ h2
      · unfold filterDeref
        rw [rd_eq hlt]
        rfl
      · unfold filterInc
        rw [if_pos hlt]
        exact h1
    · rw [if_neg hp, if_neg hp]
      exact ih (it + 1) _ (by omega)

theorem filterView_eq (f : σ → α → Bool × σ) (s : σ) (xs : List α) : filterView f s xs = pure (passes f s xs) := by
  have := filter_from f xs xs.length 0 s (by omega)
  rw [List.drop_zero] at this
  exact this

/-- `Filter` gives the elements that satisfy the predicate, in order. -/
theorem C67_filter (p : α → Bool) (xs : List α) : filterView (filterFn p) () xs = pure (xs.filter p) := by
  rw [filterView_eq, pure_inj]
  induction xs with
  | nil => rfl
  | cons a xs ih =>
    rw [passes, ih]
    by_cases h : p a = true <;> simp [filterFn, h]

theorem passes_until (p : α → Bool) (xs : List α) : passes (takeUntilFn p) true xs = [] := by
  induction xs with
  | nil => rfl
  | cons a xs ih => simpa [passes, takeUntilFn] using ih

/-- `TakeUntil` gives the elements before the first that satisfies the predicate. -/
theorem C67_take_until (p : α → Bool) (xs : List α) :
    ∃ ys zs, filterView (takeUntilFn p) false xs = pure ys ∧ xs = ys ++ zs ∧ (∀ c ∈ ys, p c = false) ∧ ∀ c, zs.head? = some c → p c = true := by
  rw [filterView_eq]
  induction xs with
  | nil => exact ⟨[], [], rfl, rfl, by simp, by simp⟩
  | cons a xs ih =>
    rw [passes]
    by_cases h : p a = true
    · refine ⟨[], a :: xs, ?_, rfl, by simp, by simpa using h⟩
      simp [takeUntilFn, h, passes_until]
    · have h : p a = false := by simpa using h
      obtain ⟨ys, zs, e, e1, h1, h2⟩ := ih
      refine ⟨a :: ys, zs, ?_, by rw [e1]; rfl, by simpa [h] using h1, h2⟩
      rw [pure_inj] at e ⊢
      simp [takeUntilFn, h, e]

example : (filterSkip (takeUntilFn fun c : Nat => decide (3 ≤ c)) [1, 3, 2] 0 false) = pure (0, false) := by decide +kernel

theorem passes_while (p : α → Bool) (xs : List α) : passes (takeWhileFn p) true xs = xs := by
  induction xs with
  | nil => rfl
  | cons a xs ih => simpa [passes, takeWhileFn] using ih

/-- `TakeWhile` leaves the longest prefix that satisfies the predicate out and gives the rest. -/
theorem C67_take_while_violated (p : α → Bool) (xs : List α) : filterView (takeWhileFn p) false xs = pure (xs.dropWhile p) := by
  rw [filterView_eq, pure_inj]
  induction xs with
  | nil => rfl
  | cons a xs ih =>
    rw [passes]
    by_cases h : p a = true
    · simp [takeWhileFn, h, ih]
    · simp [takeWhileFn, h, passes_while]

/-! ### Take and Skip -/

/-- `sized_iterator::increment`, pipelines/sized_iterator.h 35-41, with the check of a build without NDEBUG: position and count. -/
def sizedInc (last : Nat) (it : Nat × Int) : Cxx (Nat × Int) :=
  if it.1 < last then (if 0 ≤ it.2 - 1 then pure (it.1 + 1, it.2 - 1) else abort) else ub

/-- `sized_iterator::operator*`, pipelines/sized_iterator.h 79-86. -/
def sizedDeref (xs : List α) (it : Nat × Int) : Cxx (α × (Nat × Int)) := do
  let a ← rd xs it.1
  pure (a, it)

/-- Iterating over `Take( n )` for forward iterators, pipelines/take.h 28-44; `!=` compares the counts, pipelines/sized_iterator.h 88-96. -/
def take (n : Nat) (xs : List α) : Cxx (List α) :=
  collect (fun it => it.2 != (0 : Int)) (sizedDeref xs) (sizedInc xs.length) (0, min (xs.length : Int) (toPtrdiff n))

/-- Iterating over `Skip( n )` for forward iterators, pipelines/skip.h 23-42. -/
def skip (n : Nat) (xs : List α) : Cxx (List α) :=
  let s := min (toPtrdiff n) (xs.length : Int)
  if s < 0 then ub
  else collect (fun it => it != xs.length) (fun it => do let a ← rd xs it; pure (a, it)) (fun it => pure (it + 1)) s.toNat

theorem take_from (xs : List α) (k : Nat) : ∀ it, it + k ≤ xs.length →
    collect (fun it => it.2 != (0 : Int)) (sizedDeref xs) (sizedInc xs.length) (it, (k : Int)) = pure ((xs.drop it).take k) := by
  induction k with
  | zero =>
    intro it h
    rw [collect_nil (by simp)]
    simp
  | succ k ih =>
    intro it h
    have hlt : it < xs.length := by omega
    rw [List.drop_eq_getElem_cons hlt, List.take_succ_cons]
    refine collect_cons (s' := (it, ((k + 1 : Nat) : Int))) (s'' := (it + 1, (k : Int))) (by simp; omega) ?_ ?_ (ih (it + 1) (by omega))
    · unfold sizedDeref
      rw [rd_eq hlt]
      rfl
    · unfold sizedInc
      simp only []
      rw [if_pos hlt, if_pos (by omega), pure_inj, Prod.mk.injEq]
      exact ⟨rfl, by omega⟩

/-- `Take( n )` gives the first `n` elements, or all. -/
theorem C67_take_partial (n : Nat) (hn : (n : Int) ≤ ptrdiffMax) (xs : List α) : take n xs = pure (xs.take n) := by
  unfold take toPtrdiff
  rw [if_pos hn, show min (xs.length : Int) (n : Int) = ((min xs.length n : Nat) : Int) by omega, take_from xs _ 0 (by omega)]
  rw [List.drop_zero, List.take_eq_take_iff.2]
  omega

example : ((3 : Nat) : Int) ≤ ptrdiffMax := by decide

/-- Counts beyond `PTRDIFF_MAX`, such as `npos` for "all", are taken for negative ones. -/
theorem C67_take_violated (n : Nat) (hn : 2 ^ 63 ≤ n) (hn' : n < 2 ^ 64) (xs : List α) : take n xs = if xs = [] then ub else abort := by
  have hneg : toPtrdiff n < 0 := by
    unfold toPtrdiff ptrdiffMax
    rw [if_neg (by omega)]
    omega
  unfold take
  rw [show min (xs.length : Int) (toPtrdiff n) = toPtrdiff n by omega]
  generalize toPtrdiff n = c at hneg
  split
  · rename_i h
    subst h
    refine collect_deref_ub (by simp; omega) ?_
    unfold sizedDeref
    rw [rd_oob (by simp)]
    rfl
  · rename_i h
    have hlt : 0 < xs.length := List.length_pos_iff.2 h
    rw [collect, if_pos (by simp; omega)]
    unfold sizedDeref
    rw [rd_eq hlt]
    simp only [pure_bind]
    unfold sizedInc
    simp only []
    rw [if_pos hlt, if_neg (by omega)]
    rfl

example : take (2 ^ 63) [1, 2] = abort := C67_take_violated (2 ^ 63) (by decide) (by decide) [1, 2]

theorem skip_from (xs : List α) (k : Nat) : ∀ it, it + k = xs.length →
    collect (fun it => it != xs.length) (fun it => do let a ← rd xs it; pure (a, it)) (fun it => pure (it + 1)) it = pure (xs.drop it) := by
  induction k with
  | zero =>
    intro it h
    rw [collect_nil (by simp; omega), List.drop_of_length_le (by omega)]
  | succ k ih =>
    intro it h
    have hlt : it < xs.length := by omega
    rw [List.drop_eq_getElem_cons hlt]
    refine collect_cons (s' := it) (s'' := it + 1) (by simp; omega) ?_ rfl (ih (it + 1) (by omega))
    rw [rd_eq hlt]
    rfl

/-- `Skip( n )` gives all but the first `n` elements. -/
theorem C67_skip_partial (n : Nat) (hn : (n : Int) ≤ ptrdiffMax) (xs : List α) : skip n xs = pure (xs.drop n) := by
  unfold skip toPtrdiff
  simp only [if_pos hn]
  rw [if_neg (by omega), show (min (n : Int) (xs.length : Int)).toNat = min n xs.length by omega, skip_from xs (xs.length - min n xs.length) _ (by omega)]
  by_cases h : n ≤ xs.length
  · rw [Nat.min_eq_left h]
  · rw [Nat.min_eq_right (by omega), List.drop_of_length_le (by omega), List.drop_of_length_le (by omega)]

example : skip 2 [1, 2, 3] = pure [3] := C67_skip_partial 2 (by decide) [1, 2, 3]

/-- Counts beyond `PTRDIFF_MAX` move in front of the range. -/
theorem C67_skip_violated (n : Nat) (hn : 2 ^ 63 ≤ n) (hn' : n < 2 ^ 64) (xs : List α) : skip n xs = ub := by
  have hneg : toPtrdiff n < 0 := by
    unfold toPtrdiff ptrdiffMax
    rw [if_neg (by omega)]
    omega
  unfold skip
  simp only []
  rw [if_pos (by omega)]

example : skip (2 ^ 64 - 1) [1, 2] = ub := C67_skip_violated (2 ^ 64 - 1) (by decide) (by decide) [1, 2]

/-! ### Unique -/

/-- The loop of `unique_view::operator++`, pipelines/unique.h 78-80. -/
def uniqueSkip [DecidableEq α] (xs : List α) (v : α) (it : Nat) : Nat :=
  if h : it < xs.length then
    if xs[it] = v then uniqueSkip xs v (it + 1) else it
  else it
termination_by xs.length - it

/-- `unique_view::operator++`, pipelines/unique.h 72-82. -/
def uniqueInc [DecidableEq α] (xs : List α) (it : Nat) : Cxx Nat :=
  if it = xs.length then pure it
  else do
    let v ← rd xs it
    pure (uniqueSkip xs v (it + 1))

/-- Iterating over `Unique`, pipelines/unique.h 41-98, 119-134. -/
def unique [DecidableEq α] (xs : List α) : Cxx (List α) :=
  collect (fun it => it != xs.length) (fun it => do let a ← rd xs it; pure (a, it)) (uniqueInc xs) 0

/-- Runs: every element of `ys` stands for one or more copies of it, and neighbours differ.
(Specification, no line of the source.) -/
inductive Runs : List α → List α → Prop where
  | nil : Runs [] []
  | cons (a : α) (n : Nat) (xs ys : List α) : ys.head? ≠ some a → Runs xs ys → Runs (List.replicate (n + 1) a ++ xs) (a :: ys)

theorem Runs.head {xs ys : List α} (h : Runs xs ys) : xs.head? = ys.head? := by
  cases h with
  | nil => rfl
  | cons a n xs ys _ _ => simp [List.replicate_succ]

theorem runs_exist [DecidableEq α] (xs : List α) : ∃ ys, Runs xs ys := by
  induction xs with
  | nil => exact ⟨[], .nil⟩
  | cons x xs ih =>
    obtain ⟨ys, h⟩ := ih
    by_cases hx : ys.head? = some x
    · cases h with
      | nil => cases hx
      | cons a n xs ys hne hr =>
        simp at hx
        subst hx
        refine ⟨a :: ys, ?_⟩
        have := Runs.cons a (n + 1) xs ys hne hr
        simpa [List.replicate_succ] using this
    · have := Runs.cons x 0 xs ys hx h
      exact ⟨x :: ys, by simpa using this⟩

theorem uniqueSkip_run [DecidableEq α] (v : α) (n : Nat) : ∀ (pre rest : List α), rest.head? ≠ some v →
    uniqueSkip (pre ++ List.replicate n v ++ rest) v pre.length = pre.length + n := by
  induction n with
  | zero =>
    intro pre rest h
    rw [uniqueSkip]
    cases rest with
    | nil => simp
    | cons r rest =>
      have : r ≠ v := by simpa using h
      simp [this]
  | succ n ih =>
    intro pre rest h
    rw [uniqueSkip, dif_pos (by simp; omega), if_pos (by simp)]
    have := ih (pre ++ [v]) rest h
    simp only [List.length_append, List.length_singleton, List.append_assoc, List.replicate_succ, List.cons_append, List.nil_append] at this ⊢
    rw [this]
    omega

theorem unique_from [DecidableEq α] (xs ys : List α) (h : Runs xs ys) : ∀ pre : List α,
    collect (fun it => it != (pre ++ xs).length) (fun it => do let a ← rd (pre ++ xs) it; pure (a, it)) (uniqueInc (pre ++ xs)) pre.length = pure ys := by
  induction h with
  | nil => intro pre; exact collect_nil (by simp)
  | cons a n xs ys hne hr ih =>
    intro pre
    have hh := hr.head
    have hget : rd (pre ++ (List.replicate (n + 1) a ++ xs)) pre.length = pure a := rd_some (by simp [List.replicate_succ])
    have e := ih (pre ++ List.replicate (n + 1) a)
    rw [List.append_assoc] at e
    refine collect_cons (s' := pre.length) (s'' := (pre ++ List.replicate (n + 1) a).length) ?_ ?_ ?_ e
    · simp
    · rw [hget]
      rfl
    · unfold uniqueInc
      rw [if_neg (by simp), hget]
      simp only [pure_bind]
      have := uniqueSkip_run a n (pre ++ [a]) xs (by rw [hh]; exact hne)
      simp only [List.append_assoc, List.length_append, List.length_singleton, List.cons_append, List.nil_append] at this
      rw [List.replicate_succ, List.cons_append, this, pure_inj, List.length_append, List.length_cons, List.length_replicate]
      omega

/-- `Unique` replaces every run of equal neighbours by one of them. -/
theorem C70_unique [DecidableEq α] (xs : List α) : ∃ ys, unique xs = pure ys ∧ Runs xs ys := by
  obtain ⟨ys, h⟩ := runs_exist xs
  exact ⟨ys, unique_from xs ys h [], h⟩

/-- The runs are determined by the range. -/
theorem C70_runs_unique [DecidableEq α] (xs ys zs : List α) (h : Runs xs ys) (h' : Runs xs zs) : ys = zs :=
  pure_inj.1 ((unique_from xs ys h []).symm.trans (unique_from xs zs h' []))

example : Runs [1, 1, 2, 1, 3, 3, 3] [1, 2, 1, 3] := by
  have := Runs.cons 1 1 _ _ (by decide) (Runs.cons 2 0 _ _ (by decide) (Runs.cons 1 0 _ _ (by decide) (Runs.cons 3 2 _ _ (by decide) Runs.nil)))
  exact this

end Verif.Pipe
