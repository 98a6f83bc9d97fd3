import Verif.Pipelines.Chunk

/-
include/daw/pipelines/split.h.  The asserts are on; without them the same runs read an empty `std::optional`.
-/

namespace Verif.Pipe
open Cxx
variable {α : Type}

/-- `FindIf_t<1>::operator()` and `FindValue_t::operator()`, pipelines/find.h 54-65, 75-92, from a position on; the projection is the identity. -/
def findFrom (p : α → Bool) (xs : List α) (it : Nat) : Nat :=
  if h : it < xs.length then
    if p xs[it] then it else findFrom p xs (it + 1)
  else it
termination_by xs.length - it

/-- `std::search` from a position on: the first position where `d` is found, or the end.
(Rule of C++ or its library, no line of the source.) -/
def searchFrom [DecidableEq α] (d xs : List α) (it : Nat) : Nat :=
  if h : it < xs.length then
    if d.isPrefixOf (xs.drop it) then it else searchFrom d xs (it + 1)
  else it
termination_by xs.length - it

/-- `split_view_iterator`: `m_first` and `m_next`, pipelines/split.h 60-64. -/
structure SplitIt where
  first : Nat
  next : Option Nat
  deriving DecidableEq

/-- `split_view_iterator::increment_iterator`, pipelines/split.h 66-81; `find` is one of the three searches. -/
def SplitIt.advance (find : Nat → Nat) (last : Nat) (s : SplitIt) : SplitIt :=
  if s.next.isSome = true ∨ s.first = last then s else ⟨s.first, some (find s.first)⟩

/-- `split_view_iterator::operator*`, pipelines/split.h 115-119. -/
def SplitIt.deref (find : Nat → Nat) (xs : List α) (s : SplitIt) : Cxx (List α × SplitIt) :=
  let s := s.advance find xs.length
  match s.next with
  | none => abort
  | some n => pure ((xs.drop s.first).take (n - s.first), s)

/-- `split_view_iterator::operator++`, pipelines/split.h 99-107; `get_delimiter_length` is 1 for every delimiter, 24-44, 83-85. -/
def SplitIt.incr (last : Nat) (s : SplitIt) : Cxx SplitIt :=
  match s.next with
  | none => abort
  | some n => pure (if n ≠ last then ⟨n + 1, none⟩ else ⟨n, none⟩)

/-- `split_view::end`, pipelines/split.h 184-194. -/
def SplitIt.end (find : Nat → Nat) (last : Nat) : SplitIt := SplitIt.advance find last ⟨last, none⟩

/-- `split_view::begin`, pipelines/split.h 169-182. -/
def SplitIt.begin (find : Nat → Nat) (last : Nat) : SplitIt := SplitIt.advance find last ⟨0, none⟩

/-- Iterating over `split_view`; `!=` is the negation of `==`, pipelines/split.h 121-125. -/
def splitView (find : Nat → Nat) (xs : List α) : Cxx (List (List α)) :=
  collect (fun s => s != SplitIt.end find xs.length) (SplitIt.deref find xs) (SplitIt.incr xs.length) (SplitIt.begin find xs.length)

/-- `std::distance` over the forward iterators of the view: only increments and comparisons.
(Rule of C++ or its library, no line of the source.) -/
def splitDistance (find : Nat → Nat) (last : Nat) (s : SplitIt) : Cxx Nat :=
  if s != SplitIt.end find last then do
    let s ← s.incr last
    let n ← splitDistance find last s
    pure (n + 1)
  else pure 0
partial_fixpoint

/-- The parts of a range: between the elements that satisfy `p`. (Specification, no line of the source.) -/
inductive Parts (p : α → Bool) : List α → List (List α) → Prop where
  | last (xs : List α) : (∀ c ∈ xs, p c = false) → Parts p xs [xs]
  | cons (a : List α) (d : α) (rest : List α) (ps : List (List α)) : (∀ c ∈ a, p c = false) → p d = true → Parts p rest ps →
      Parts p (a ++ d :: rest) (a :: ps)

theorem Parts.ne_nil {p : α → Bool} {xs : List α} {ps : List (List α)} (h : Parts p xs ps) : ps ≠ [] := by cases h <;> simp

/-- Every range has parts. -/
theorem parts_exist (p : α → Bool) (xs : List α) : ∃ ps, Parts p xs ps := by
  induction xs with
  | nil => exact ⟨[[]], .last [] (by simp)⟩
  | cons x xs ih =>
    obtain ⟨ps, h⟩ := ih
    by_cases hx : p x = true
    · exact ⟨[] :: ps, .cons [] x xs ps (by simp) hx h⟩
    · have hx : p x = false := by simpa using hx
      cases h with
      | last _ hno => exact ⟨[x :: xs], .last _ (by simpa [hx] using hno)⟩
      | cons a d rest ps ha hd hr => exact ⟨(x :: a) :: ps, .cons (x :: a) d rest ps (by simpa [hx] using ha) hd hr⟩

theorem findFrom_parts (p : α → Bool) (a : List α) : ∀ (pre b : List α), (∀ c ∈ a, p c = false) → (∀ c, b.head? = some c → p c = true) →
    findFrom p (pre ++ a ++ b) pre.length = pre.length + a.length := by
  induction a with
  | nil =>
    intro pre b _ hb
    rw [findFrom]
    cases b with
    | nil => simp
    | cons c b => simp [hb c rfl]
  | cons x a ih =>
    intro pre b ha hb
    rw [findFrom, dif_pos (by simp)]
    have hx : p ((pre ++ x :: a ++ b)[pre.length]'(by simp)) = false := by simpa using ha x (by simp)
    rw [if_neg (by rw [hx]; simp)]
    have := ih (pre ++ [x]) b (fun c hc => ha c (by simp [hc])) hb
    simp only [List.append_assoc, List.length_append, List.length_singleton, List.cons_append, List.nil_append] at this ⊢
    rw [this]
    simp
    omega

/-- All parts but an empty last one. (Specification, no line of the source.) -/
def dropLastEmpty : List (List α) → List (List α)
  | [] => []
  | [[]] => []
  | a :: ps => a :: dropLastEmpty ps

theorem split_from (p : α → Bool) (xs : List α) (ps : List (List α)) (hps : Parts p xs ps) : ∀ (pre : List α) (s : SplitIt),
    (s = ⟨pre.length, none⟩ ∨ s = SplitIt.advance (findFrom p (pre ++ xs)) (pre ++ xs).length ⟨pre.length, none⟩) →
    collect (fun s => s != SplitIt.end (findFrom p (pre ++ xs)) (pre ++ xs).length) (SplitIt.deref (findFrom p (pre ++ xs)) (pre ++ xs))
      (SplitIt.incr (pre ++ xs).length) s = pure (dropLastEmpty ps) := by
  have hend : ∀ (ys : List α), SplitIt.end (findFrom p ys) ys.length = ⟨ys.length, none⟩ := by
    intro ys
    simp [SplitIt.end, SplitIt.advance]
  induction hps with
  | last xs hno =>
    intro pre s hs
    by_cases hne : xs = []
    · subst hne
      have : s = ⟨pre.length, none⟩ := by
        rcases hs with h | h
        · exact h
        · simpa [SplitIt.advance] using h
      subst this
      rw [collect_nil]
      · rfl
      · rw [hend]
        simp
    · have hpos : 0 < xs.length := List.length_pos_iff.2 hne
      have hf := findFrom_parts p xs pre [] hno (by simp)
      rw [List.append_nil] at hf
      have hadv : SplitIt.advance (findFrom p (pre ++ xs)) (pre ++ xs).length s = ⟨pre.length, some (pre.length + xs.length)⟩ := by
        rcases hs with rfl | rfl
        · simp [SplitIt.advance, hf, hne]
        · simp [SplitIt.advance, hf, hne]
      have hd : dropLastEmpty [xs] = [xs] := by
        cases xs with
        | nil => exact absurd rfl hne
        | cons x xs => rfl
      rw [hd]
      refine collect_cons (s' := ⟨pre.length, some (pre.length + xs.length)⟩) (s'' := ⟨(pre ++ xs).length, none⟩) ?_ ?_ ?_ (collect_nil ?_)
      · rw [hend]
        rcases hs with rfl | rfl
        · simp; omega
        · simp [SplitIt.advance, hne]
      · unfold SplitIt.deref
        rw [hadv]
        simp
      · simp [SplitIt.incr]
      · rw [hend]
        simp
  | cons a d rest ps ha hd hr ih =>
    intro pre s hs
    have hf := findFrom_parts p a pre (d :: rest) ha (by simpa using hd)
    rw [List.append_assoc] at hf
    have hadv : SplitIt.advance (findFrom p (pre ++ (a ++ d :: rest))) (pre ++ (a ++ d :: rest)).length s = ⟨pre.length, some (pre.length + a.length)⟩ := by
      rcases hs with rfl | rfl
      · simp [SplitIt.advance, hf]
      · simp [SplitIt.advance, hf]
    have hdl : dropLastEmpty (a :: ps) = a :: dropLastEmpty ps := by
      have := hr.ne_nil
      cases ps with
      | nil => exact absurd rfl this
      | cons q qs => cases a <;> rfl
    rw [hdl]
    have := ih (pre ++ a ++ [d]) ⟨(pre ++ a ++ [d]).length, none⟩ (Or.inl rfl)
    simp only [List.append_assoc, List.singleton_append] at this
    refine collect_cons (s' := ⟨pre.length, some (pre.length + a.length)⟩) ?_ ?_ ?_ this
    · rw [hend]
      rcases hs with rfl | rfl
      · simp
      · simp [SplitIt.advance]
    · unfold SplitIt.deref
      rw [hadv]
      simp
    · rw [SplitIt.incr]
      simp only [List.length_append, List.length_cons, List.length_nil]
      rw [if_pos (by omega), pure_inj, SplitIt.mk.injEq]
      exact ⟨by omega, rfl⟩

/-- Splitting at a value or at a predicate gives the parts, except that an empty last part is left out. -/
theorem C66_parts_partial (p : α → Bool) (xs : List α) (ps : List (List α)) (h : Parts p xs ps) :
    splitView (findFrom p xs) xs = pure (dropLastEmpty ps) := by
  have := split_from p xs ps h [] (SplitIt.begin (findFrom p xs) xs.length) (Or.inr rfl)
  exact this

theorem parts_join [DecidableEq α] (d : α) (xs : List α) (ps : List (List α)) (h : Parts (fun c => decide (c = d)) xs ps) : [d].intercalate ps = xs := by
  induction h with
  | last xs _ => simp [List.intercalate]
  | cons a c rest ps _ hd hr ih =>
    have : c = d := by simpa using hd
    subst this
    have := hr.ne_nil
    cases ps with
    | nil => exact absurd rfl this
    | cons q qs =>
      have e : [c].intercalate (a :: q :: qs) = a ++ [c] ++ [c].intercalate (q :: qs) := by simp [List.intercalate, List.intersperse]
      rw [e, ih]
      simp

theorem dropLastEmpty_of_last (p : α → Bool) (xs : List α) (ps : List (List α)) (h : Parts p xs ps) (hne : xs ≠ []) (hl : ∀ c, xs.getLast? = some c → p c = false) :
    dropLastEmpty ps = ps := by
  induction h with
  | last xs _ =>
    cases xs with
    | nil => exact absurd rfl hne
    | cons x xs => rfl
  | cons a d rest ps _ hd hr ih =>
    have hrest : rest ≠ [] := by
      rintro rfl
      have := hl d (by simp)
      rw [hd] at this
      cases this
    have := ih hrest (fun c hc => hl c (by
      rw [List.getLast?_append, List.getLast?_cons, hc]
      simp))
    have hp := hr.ne_nil
    cases ps with
    | nil => exact absurd rfl hp
    | cons q qs =>
      rw [show dropLastEmpty (a :: q :: qs) = a :: dropLastEmpty (q :: qs) by cases a <;> rfl, this]

/-- Joining the parts of a range that does not end with the delimiter gives back the range. -/
theorem C66_join_partial [DecidableEq α] (d : α) (xs : List α) (hne : xs ≠ []) (hl : xs.getLast? ≠ some d) :
    ∃ ps, splitView (findFrom (fun c => decide (c = d)) xs) xs = pure ps ∧ [d].intercalate ps = xs := by
  obtain ⟨ps, h⟩ := parts_exist (fun c => decide (c = d)) xs
  refine ⟨ps, ?_, parts_join d xs ps h⟩
  rw [C66_parts_partial _ xs ps h, dropLastEmpty_of_last _ xs ps h hne]
  intro c hc
  rw [hc] at hl
  simpa using hl

example : ([97, 44, 44, 98] : List Nat) ≠ [] ∧ ([97, 44, 44, 98] : List Nat).getLast? ≠ some 44 := by decide

theorem parts_append (p : α → Bool) (d : α) (hd : p d = true) (xs : List α) (ps : List (List α)) (h : Parts p xs ps) : Parts p (xs ++ [d]) (ps ++ [[]]) := by
  induction h with
  | last xs hno => exact .cons xs d [] [[]] hno hd (.last [] (by simp))
  | cons a c rest ps ha hc _ ih =>
    rw [List.append_assoc, List.cons_append]
    exact .cons a c _ _ ha hc ih

theorem dropLastEmpty_append (ps : List (List α)) : dropLastEmpty (ps ++ [[]]) = ps := by
  induction ps with
  | nil => rfl
  | cons a ps ih =>
    rw [List.cons_append]
    have : dropLastEmpty (a :: (ps ++ [[]])) = a :: dropLastEmpty (ps ++ [[]]) := by
      cases ps with
      | nil => cases a <;> rfl
      | cons q qs => cases a <;> rfl
    rw [this, ih]

/-- A range and the same range with a delimiter behind it give the same parts. -/
theorem C66_trailing_violated (p : α → Bool) (d : α) (hd : p d = true) (xs : List α) (hne : xs ≠ []) (hl : ∀ c, xs.getLast? = some c → p c = false) :
    splitView (findFrom p (xs ++ [d])) (xs ++ [d]) = splitView (findFrom p xs) xs := by
  obtain ⟨ps, h⟩ := parts_exist p xs
  rw [C66_parts_partial p xs ps h, C66_parts_partial p _ _ (parts_append p d hd xs ps h), dropLastEmpty_append, dropLastEmpty_of_last p xs ps h hne hl]

example := C66_trailing_violated (fun x : Nat => decide (x = 0)) 0 (by decide) [1, 0, 2] (by decide) (by decide)

/-- Of a delimiter with several elements only the first is skipped: `a--b` split at `--`. -/
theorem C66_range_violated : splitView (searchFrom [45, 45] [97, 45, 45, 98]) [97, 45, 45, 98] = pure [[97], [45, 98]] := by
  have h0 : SplitIt.begin (searchFrom [45, 45] [97, 45, 45, 98]) [97, 45, 45, 98].length = ⟨0, some 1⟩ := by decide +kernel
  have h4 : SplitIt.end (searchFrom [45, 45] [97, 45, 45, 98]) [97, 45, 45, 98].length = ⟨4, none⟩ := by decide +kernel
  unfold splitView
  rw [h0, h4]
  refine collect_cons (s' := ⟨0, some 1⟩) (s'' := ⟨2, none⟩) (by decide) (by decide +kernel) (by decide +kernel) ?_
  refine collect_cons (s' := ⟨2, some 4⟩) (s'' := ⟨4, none⟩) (by decide) (by decide +kernel) (by decide +kernel) ?_
  exact collect_nil (by decide)

/-- An empty range as the delimiter gives an empty part for every element: nothing of the range is left. -/
theorem C66_empty_violated [DecidableEq α] (xs : List α) : splitView (searchFrom [] xs) xs = pure (List.replicate xs.length []) := by
  have hs : ∀ it, it < xs.length → searchFrom [] xs it = it := by
    intro it h
    rw [searchFrom, dif_pos h, if_pos (by simp)]
  have hend : SplitIt.end (searchFrom [] xs) xs.length = ⟨xs.length, none⟩ := by simp [SplitIt.end, SplitIt.advance]
  suffices ∀ (k it : Nat) (s : SplitIt), it + k = xs.length → (s = ⟨it, none⟩ ∨ s = SplitIt.advance (searchFrom [] xs) xs.length ⟨it, none⟩) →
      collect (fun s => s != SplitIt.end (searchFrom [] xs) xs.length) (SplitIt.deref (searchFrom [] xs) xs) (SplitIt.incr xs.length) s =
        pure (List.replicate k []) from this xs.length 0 _ (by omega) (Or.inr rfl)
  intro k
  induction k with
  | zero =>
    intro it s h hs'
    have : s = ⟨it, none⟩ := by
      rcases hs' with h' | h'
      · exact h'
      · rw [h', SplitIt.advance, if_pos (Or.inr (by simpa using h))]
    subst this
    rw [collect_nil]
    · rfl
    · rw [hend]
      simp
      omega
  | succ k ih =>
    intro it s h hs'
    have hne : it ≠ xs.length := by omega
    have hadv : SplitIt.advance (searchFrom [] xs) xs.length s = ⟨it, some it⟩ := by
      rcases hs' with rfl | rfl
      · simp [SplitIt.advance, hne, hs it (by omega)]
      · simp [SplitIt.advance, hne, hs it (by omega)]
    rw [List.replicate_succ]
    refine collect_cons (s' := ⟨it, some it⟩) (s'' := ⟨it + 1, none⟩) ?_ ?_ ?_ (ih (it + 1) _ (by omega) (Or.inl rfl))
    · rw [hend]
      rcases hs' with rfl | rfl
      · simp; omega
      · simp [SplitIt.advance, hne]
    · unfold SplitIt.deref
      rw [hadv]
      simp
    · simp [SplitIt.incr, hne]

/-- Counting the parts with `std::distance` fails: two increments without a dereference between them. -/
theorem C66_distance_violated (p : α → Bool) (xs : List α) (k : Nat) (hk : k + 1 < xs.length) (hp : p (xs[k]'(by omega)) = true) :
    splitDistance (findFrom p xs) xs.length (SplitIt.begin (findFrom p xs) xs.length) = abort := by
  have hf : ∀ n it, it + n = k → findFrom p xs it ≤ k := by
    intro n
    induction n with
    | zero =>
      intro it h
      have : it = k := by omega
      subst this
      rw [findFrom, dif_pos (by omega), if_pos hp]
      exact Nat.le_refl _
    | succ n ih =>
      intro it h
      rw [findFrom, dif_pos (by omega)]
      split
      · omega
      · exact ih (it + 1) (by omega)
  have hr := hf k 0 (by omega)
  have h0 : SplitIt.begin (findFrom p xs) xs.length = ⟨0, some (findFrom p xs 0)⟩ := by
    rw [SplitIt.begin, SplitIt.advance, if_neg (by simp; omega)]
  have hend : SplitIt.end (findFrom p xs) xs.length = ⟨xs.length, none⟩ := by simp [SplitIt.end, SplitIt.advance]
  generalize findFrom p xs 0 = r at hr h0
  rw [h0, splitDistance, hend, if_pos (by simp)]
  rw [show SplitIt.incr xs.length ⟨0, some r⟩ = pure ⟨r + 1, none⟩ by rw [SplitIt.incr]; simp only []; rw [if_pos (by omega)]]
  simp only [pure_bind]
  rw [splitDistance, hend, if_pos (by simp; omega)]
  rfl

example := C66_distance_violated (· == 0) [4, 0, 5, 6] 1 (by decide) rfl

/-- At the end of the range there is no part to read, the program ends. -/
theorem C66_end_not_read (find : Nat → Nat) (xs : List α) : SplitIt.deref find xs ⟨xs.length, none⟩ = abort := by
  simp [SplitIt.deref, SplitIt.advance]

example := C66_end_not_read (findFrom (· = 2) [1, 2, 3]) [1, 2, 3]

example : (1 + 1 < [97, 44, 98].length) ∧ (fun c : Nat => decide (c = 44)) ([97, 44, 98][1]) = true := by decide

end Verif.Pipe
