import Verif.Iter.Base
import Verif.Algorithm.Search

/-
Iterators that search: `find_iterator`, include/daw/iterator/daw_find_iterator.h, `find_one_iterator`,
include/daw/iterator/daw_find_one_iterator.h with `find_one_of` of include/daw/daw_algorithm.h, and the sorted insert
iterator, include/daw/iterator/daw_sorted_insert_iterator.h.
-/

namespace Verif.Iter
open Cxx Verif.Algorithm

variable {α : Type}

/-! ### Model of `find_iterator` -/

namespace Find

/-- The constructor from a range, daw_find_iterator.h 47-53.  The iterator is the index `m_first`; the filter and `m_last`
never change and are parameters. -/
def make (p : α → Bool) (xs : List α) (first last : Nat) : Cxx Nat := findIf p xs first last

/-- `operator++`, daw_find_iterator.h 71-75. -/
def incr (p : α → Bool) (xs : List α) (last it : Nat) : Cxx Nat := do
  let n ← goto xs.length (it + 1 : Nat)
  findIf p xs n.toNat last

/-- `for( auto x : find_iterator( first, last, filt ) )` with `operator*`, 59-61, `end`, 87-91, and `operator!=`, 106-109, of
daw_find_iterator.h: what the body sees. -/
def visit (p : α → Bool) (xs : List α) (last it : Nat) : Cxx (List α) := do
  if it ≠ last then
    let x ← rd xs it
    let it ← incr p xs last it
    let rest ← visit p xs last it
    pure (x :: rest)
  else pure []
partial_fixpoint

/-- `find_if`, algorithms/daw_algorithm_find.h 53-71, when `last` is a null pointer: no pointer into the block equals it. -/
def findIfNull (p : α → Bool) (xs : List α) (first : Nat) : Cxx Nat := do
  let x ← rd xs first
  if p x then pure first else findIfNull p xs (first + 1)
partial_fixpoint

/-- The constructor without an end, daw_find_iterator.h 40-45, for pointers: `m_last` is a null pointer. -/
def makeNull (p : α → Bool) (xs : List α) (first : Nat) : Cxx Nat := findIfNull p xs first

theorem slice_nil (xs : List α) (n : Nat) : slice xs n n = [] := by
  unfold slice
  exact List.drop_eq_nil_of_le (by rw [List.length_take]; omega)

theorem slice_cons {xs : List α} {first last : Nat} {x : α} (h : first < last) (hx : xs[first]? = some x) :
    slice xs first last = x :: slice xs (first + 1) last := by
  unfold slice
  obtain ⟨hl, e⟩ := List.getElem?_eq_some_iff.1 hx
  have hlt : first < (xs.take last).length := by rw [List.length_take]; omega
  rw [List.drop_eq_getElem_cons hlt, List.getElem_take, e]

/-- C132: the loop over `find_iterator( first, last, filt )` sees exactly the elements of the range that satisfy the filter,
each once and in order. -/
theorem C132_visits_partial (p : α → Bool) (xs : List α) (first last : Nat) (hf : first ≤ last) (hl : last ≤ xs.length) :
    (make p xs first last >>= visit p xs last) = pure ((slice xs first last).filter p) := by
  generalize hn : last - first = n
  induction n generalizing first with
  | zero =>
    have e : first = last := by omega
    rw [e, slice_nil]
    unfold make
    rw [findIf, if_neg (by simp), pure_bind, visit, if_neg (by simp)]
    rfl
  | succ n ih =>
    have hlt : first < xs.length := by omega
    have hx := List.getElem?_eq_getElem hlt
    have ih := ih (first + 1) (by omega) (by omega)
    unfold make at ih ⊢
    rw [slice_cons (by omega) hx, findIf, if_pos (by omega), rd_some hx, pure_bind]
    by_cases hp : p xs[first] = true
    · rw [if_pos hp, pure_bind, visit, if_pos (by omega), rd_some hx, pure_bind, List.filter_cons_of_pos hp]
      unfold incr
      rw [goto_ok (by omega) (by omega), pure_bind, Int.toNat_natCast, ← bind_assoc, ih, pure_bind]
    · rw [if_neg hp, ih, List.filter_cons_of_neg hp]

example : (make (· > 2) [5, 1, 3, 2, 9] 1 5 >>= visit (· > 2) [5, 1, 3, 2, 9] 5) = pure [3, 9] :=
  C132_visits_partial (· > 2) [5, 1, 3, 2, 9] 1 5 (by decide) (by decide)

/-- C132, the constructor without an end: when some element at or after `first` satisfies the filter, it finds the first such
element. -/
theorem C132_null_partial (p : α → Bool) (xs ys : List α) (y : α) (hxs : ∀ x ∈ xs, p x = false) (hy : p y = true) (pre : List α) :
    makeNull p (pre ++ (xs ++ y :: ys)) pre.length = pure (pre.length + xs.length) := by
  unfold makeNull
  induction xs generalizing pre with
  | nil =>
    rw [findIfNull, rd_some (a := y) (by simp), pure_bind, if_pos hy]
    rfl
  | cons x xs ih =>
    rw [findIfNull, rd_some (a := x) (by simp), pure_bind, if_neg (by rw [hxs x (by simp)]; simp)]
    have := ih (fun z hz => hxs z (List.mem_cons_of_mem _ hz)) (pre ++ [x])
    simp only [List.append_assoc, List.cons_append, List.nil_append, List.length_append, List.length_cons, List.length_nil] at this
    rw [List.cons_append, this, List.length_cons]
    congr 1
    omega

/-- C132 fails for the constructor without an end: when nothing satisfies the filter the search runs out of the block. -/
theorem C132_null_violated (p : α → Bool) (xs : List α) (first : Nat) (h : ∀ x ∈ xs, p x = false) : makeNull p xs first = ub := by
  unfold makeNull
  generalize hn : xs.length - first = n
  induction n generalizing first with
  | zero => rw [findIfNull, rd_oob (by omega)]; rfl
  | succ n ih =>
    have hlt : first < xs.length := by omega
    rw [findIfNull, rd_some (List.getElem?_eq_getElem hlt), pure_bind, if_neg (by rw [h _ (List.getElem_mem hlt)]; simp)]
    exact ih (first + 1) (by omega)

example : makeNull (· > 2) [0, 1, 2, 7] 1 = pure 3 ∧ makeNull (· > 2) [0, 1, 2] 0 = ub :=
  ⟨C132_null_partial (· > 2) [1, 2] [] 7 (by decide) (by decide) [0], C132_null_violated _ _ _ (by decide)⟩

end Find

/-! ### Model of `find_one_of` and `find_one_iterator` -/

namespace FindOne

/-- `-std::size_t{ 1 }`, daw_algorithm.h 2115 and daw_find_one_iterator.h 56. -/
def npos : Nat := 2 ^ 64 - 1

/-- `( ( ++idx, preds( elem ) ) or ... )`, daw_algorithm.h 2117: whether a predicate holds, and `idx` afterwards. -/
def fold (x : α) : List (α → Bool) → Nat → Bool × Nat
  | [], idx => (false, idx)
  | p :: ps, idx =>
    let idx := (idx + 1) % 2 ^ 64
    if p x then (true, idx) else fold x ps idx

/-- `find_one_of`, daw_algorithm.h 2111-2124. -/
def findOneOf (preds : List (α → Bool)) (xs : List α) (first last : Nat) : Cxx (Nat × Nat) := do
  if first ≠ last then
    let elem ← rd xs first
    let (found, idx) := fold elem preds npos
    if found then pure (first, idx) else findOneOf preds xs (first + 1) last
  else pure (first, npos)
partial_fixpoint

/-- The constructor, daw_find_one_iterator.h 59-71: the result of the search is dropped.  The iterator is `m_first` and
`m_last_index`. -/
def make (preds : List (α → Bool)) (xs : List α) (first last : Nat) : Cxx (Nat × Nat) := do
  let _tmp ← findOneOf preds xs first last
  pure (first, npos)

/-- `operator++`, daw_find_one_iterator.h 81-90. -/
def incr (preds : List (α → Bool)) (xs : List α) (last : Nat) (it : Nat × Nat) : Cxx (Nat × Nat) := do
  let n ← goto xs.length (it.1 + 1 : Nat)
  findOneOf preds xs n.toNat last

/-- `for( auto e : find_one_iterator( first, last, filts... ) )` with `operator*`, 73-75, `end`, 102-106, and `operator!=`,
121-124, of daw_find_one_iterator.h: the values and the indices of the filters that the body sees. -/
def visit (preds : List (α → Bool)) (xs : List α) (last : Nat) (it : Nat × Nat) : Cxx (List (α × Nat)) := do
  if it.1 ≠ last then
    let x ← rd xs it.1
    let it' ← incr preds xs last it
    let rest ← visit preds xs last it'
    pure ((x, it.2) :: rest)
  else pure []
partial_fixpoint

/-- The elements that satisfy a filter, with the index of the first filter they satisfy.
(Specification, no line of the source.) -/
def wanted (preds : List (α → Bool)) (xs : List α) : List (α × Nat) :=
  xs.filterMap fun x => (preds.findIdx? fun p => p x).map fun i => (x, i)

theorem fold_spec (x : α) (preds : List (α → Bool)) (idx k : Nat) (hk : k + preds.length < 2 ^ 64) (hi : (idx + 1) % 2 ^ 64 = k) :
    match preds.findIdx? (fun p => p x) with
    | some i => fold x preds idx = (true, k + i)
    | none => (fold x preds idx).1 = false := by
  induction preds generalizing idx k with
  | nil => rfl
  | cons p ps ih =>
    rw [List.length_cons] at hk
    rw [List.findIdx?_cons]
    unfold fold
    dsimp only
    cases hp : p x with
    | true => simp only [if_true]; rw [hi]; rfl
    | false =>
      simp only [Bool.false_eq_true, if_false]
      have := ih ((idx + 1) % 2 ^ 64) (k + 1) (by omega) (by omega)
      cases hf : ps.findIdx? (fun p => p x) with
      | none => rw [hf] at this; exact this
      | some i =>
        rw [hf] at this
        simp only [Option.map_some]
        rw [this, show k + 1 + i = k + (i + 1) by omega]

theorem findOneOf_visit (preds : List (α → Bool)) (hp : preds.length < 2 ^ 64) (xs : List α) (first last : Nat) (hf : first ≤ last)
    (hl : last ≤ xs.length) :
    (findOneOf preds xs first last >>= visit preds xs last) = pure (wanted preds (slice xs first last)) := by
  generalize hn : last - first = n
  induction n generalizing first with
  | zero =>
    have e : first = last := by omega
    rw [e, Find.slice_nil, findOneOf, if_neg (by simp), pure_bind, visit, if_neg (by simp)]
    rfl
  | succ n ih =>
    have hlt : first < xs.length := by omega
    have hx := List.getElem?_eq_getElem hlt
    have ih := ih (first + 1) (by omega) (by omega)
    rw [Find.slice_cons (by omega) hx, findOneOf, if_pos (by omega), rd_some hx, pure_bind]
    have hfold := fold_spec xs[first] preds npos 0 (by omega) (by decide)
    unfold wanted at ih ⊢
    cases hi : preds.findIdx? (fun p => p xs[first]) with
    | none =>
      rw [hi] at hfold
      rw [List.filterMap_cons_none (by rw [hi]; rfl)]
      dsimp only at hfold ⊢
      rw [hfold]
      exact ih
    | some i =>
      rw [hi] at hfold
      rw [List.filterMap_cons_some (b := (xs[first], i)) (by rw [hi]; rfl)]
      dsimp only at hfold ⊢
      rw [hfold, Nat.zero_add]
      simp only [if_true]
      rw [pure_bind, visit, if_pos (show first ≠ last by omega), rd_some hx, pure_bind]
      unfold incr
      rw [goto_ok (by omega) (by omega), pure_bind, Int.toNat_natCast, ← bind_assoc, ih, pure_bind]

/-- C133, the search itself: `find_one_of` finds the first element of the range that satisfies a filter, and the index of the
first filter it satisfies; when there is none it returns the end. -/
theorem C133_find_partial (preds : List (α → Bool)) (hp : preds.length < 2 ^ 64) (xs : List α) (first last : Nat)
    (hf : first ≤ last) (hl : last ≤ xs.length) :
    ∃ r idx, findOneOf preds xs first last = pure (r, idx) ∧ first ≤ r ∧ r ≤ last ∧
      (∀ j x, first ≤ j → j < r → xs[j]? = some x → ∀ p ∈ preds, p x = false) ∧
      (r = last → idx = 2 ^ 64 - 1) ∧
      (r < last → ∃ x, xs[r]? = some x ∧ preds.findIdx? (fun p => p x) = some idx) := by
  generalize hn : last - first = n
  induction n generalizing first with
  | zero =>
    refine ⟨first, npos, ?_, by omega, hf, by intros; omega, fun _ => rfl, by omega⟩
    rw [findOneOf, if_neg (by omega)]
  | succ n ih =>
    have hlt : first < xs.length := by omega
    have hx := List.getElem?_eq_getElem hlt
    have hfold := fold_spec xs[first] preds npos 0 (by omega) (by decide)
    rw [findOneOf, if_pos (by omega), rd_some hx, pure_bind]
    cases hi : preds.findIdx? (fun p => p xs[first]) with
    | some i =>
      rw [hi] at hfold
      dsimp only at hfold ⊢
      rw [hfold, Nat.zero_add]
      exact ⟨first, i, rfl, by omega, by omega, by intros; omega, by omega, fun _ => ⟨_, hx, hi⟩⟩
    | none =>
      rw [hi] at hfold
      obtain ⟨r, idx, h1, h2, h3, h4, h5⟩ := ih (first + 1) (by omega) (by omega)
      dsimp only at hfold ⊢
      rw [hfold]
      refine ⟨r, idx, h1, by omega, h3, ?_, h5⟩
      intro j x hj hjr hjx p hpm
      by_cases e : j = first
      · rw [e, hx] at hjx
        injection hjx with hjx
        rw [← hjx]
        have := List.findIdx?_eq_none_iff.1 hi p hpm
        simpa using this
      · exact h4 j x (by omega) hjr hjx p hpm

/-- C133: a loop over a range that is not empty sees its first element whether or not it satisfies a filter, and with the
index `npos`; from the second element on it sees those that satisfy a filter with the index of the first one.
What is missing is the first element, see the violation. -/
theorem C133_visits_partial (preds : List (α → Bool)) (hp : preds.length < 2 ^ 64) (xs : List α) (first last : Nat) (x : α)
    (hf : first < last) (hl : last ≤ xs.length) (hx : xs[first]? = some x) :
    (make preds xs first last >>= visit preds xs last) = pure ((x, 2 ^ 64 - 1) :: wanted preds (slice xs (first + 1) last)) := by
  obtain ⟨r, idx, h, -⟩ := C133_find_partial preds hp xs first last (by omega) hl
  unfold make
  rw [h, pure_bind, pure_bind, visit, if_pos (show first ≠ last by omega), rd_some hx, pure_bind]
  unfold incr
  rw [goto_ok (by omega) (by omega), pure_bind, Int.toNat_natCast, ← bind_assoc,
    findOneOf_visit preds hp xs (first + 1) last (by omega) hl, pure_bind]
  rfl

/-- C133 fails on every range that is not empty: what the loop sees is never what it should see. -/
theorem C133_visits_violated (preds : List (α → Bool)) (hp : preds.length < 2 ^ 64) (xs : List α) (first last : Nat)
    (hf : first < last) (hl : last ≤ xs.length) :
    (make preds xs first last >>= visit preds xs last) ≠ pure (wanted preds (slice xs first last)) := by
  have hlt : first < xs.length := by omega
  rw [C133_visits_partial preds hp xs first last _ hf hl (List.getElem?_eq_getElem hlt)]
  intro h
  rw [pure_inj] at h
  have hmem : (xs[first], npos) ∈ wanted preds (slice xs first last) := by rw [← h]; exact List.mem_cons_self
  unfold wanted at hmem
  rw [List.mem_filterMap] at hmem
  obtain ⟨y, -, hy⟩ := hmem
  rw [Option.map_eq_some_iff] at hy
  obtain ⟨i, hi, e⟩ := hy
  injection e with e1 e2
  have hil : i < preds.length := (List.findIdx?_eq_some_iff_getElem.1 hi).1
  rw [e2] at hil
  unfold npos at hil
  omega

example : (make [(· > 5), (· % 2 == 0)] [1, 4, 3, 7] 0 4 >>= visit [(· > 5), (· % 2 == 0)] [1, 4, 3, 7] 4) =
    pure [(1, 2 ^ 64 - 1), (4, 1), (7, 0)] :=
  C133_visits_partial [(· > 5), (· % 2 == 0)] (by decide) [1, 4, 3, 7] 0 4 1 (by decide) (by decide) rfl

end FindOne

/-! ### Model of the sorted insert iterator -/

namespace SortedInsert

/-- `std::lower_bound`: the number of elements in front that are less than the value, undefined unless all of them stand in
front. (Rule of C++ or its library, no line of the source.) -/
def lowerBound (lt : α → α → Bool) (xs : List α) (v : α) : Cxx Nat :=
  if (xs.dropWhile fun x => lt x v).all (fun x => !lt x v) then pure (xs.takeWhile fun x => lt x v).length else ub

/-- `*it = value` for the vector, daw_sorted_insert_iterator.h 24-35, the deque, 37-48, and the list, 50-61, through
`operator=` of daw_function_iterator.h 37-44. -/
def assign (lt : α → α → Bool) (xs : List α) (v : α) : Cxx (List α) := do
  let pos ← lowerBound lt xs v
  pure (xs.take pos ++ v :: xs.drop pos)

/-- A copy of `vs` to the iterator: `*it++ = v` for every element, with `operator*` and `operator++` of
daw_function_iterator.h 46-56. -/
def copyTo (lt : α → α → Bool) : List α → List α → Cxx (List α)
  | xs, [] => pure xs
  | xs, v :: vs => do
    let xs ← assign lt xs v
    copyTo lt xs vs

/-- In order: no element is less than one in front of it. (Specification, no line of the source.) -/
def Sorted (lt : α → α → Bool) (xs : List α) : Prop := xs.Pairwise fun a b => lt b a = false

/-- Neither is less than the other. (Specification, no line of the source.) -/
def equiv (lt : α → α → Bool) (a b : α) : Bool := !lt a b && !lt b a

theorem dropWhile_sorted {lt : α → α → Bool} (h : StrictWeak lt) {xs : List α} (hs : Sorted lt xs) (v : α) :
    ∀ x ∈ xs.dropWhile (fun x => lt x v), lt x v = false := by
  induction xs with
  | nil => simp
  | cons a xs ih =>
    obtain ⟨h1, h2⟩ := List.pairwise_cons.1 hs
    rw [List.dropWhile_cons]
    split
    · exact ih h2
    · rename_i ha
      have ha : lt a v = false := by simpa using ha
      intro x hx
      rcases List.mem_cons.1 hx with e | hx
      · rw [e]; exact ha
      · exact h.incomp x a v (h1 x hx) ha

theorem take_takeWhile (q : α → Bool) (xs : List α) :
    xs.take (xs.takeWhile q).length = xs.takeWhile q ∧ xs.drop (xs.takeWhile q).length = xs.dropWhile q := by
  have h : xs = xs.takeWhile q ++ xs.dropWhile q := List.takeWhile_append_dropWhile.symm
  constructor
  · conv => lhs; rw [h]
    have : (List.takeWhile q (List.takeWhile q xs ++ List.dropWhile q xs)) = xs.takeWhile q := by rw [← h]
    rw [this, List.take_left']
    rfl
  · conv => lhs; rw [h]
    have : (List.takeWhile q (List.takeWhile q xs ++ List.dropWhile q xs)) = xs.takeWhile q := by rw [← h]
    rw [this, List.drop_left']
    rfl

theorem assign_eq {lt : α → α → Bool} (h : StrictWeak lt) {xs : List α} (hs : Sorted lt xs) (v : α) :
    assign lt xs v = pure (xs.takeWhile (fun x => lt x v) ++ v :: xs.dropWhile (fun x => lt x v)) := by
  unfold assign lowerBound
  rw [if_pos (by rw [List.all_eq_true]; intro x hx; rw [dropWhile_sorted h hs v x hx]; rfl), pure_bind, (take_takeWhile _ _).1, (take_takeWhile _ _).2]

theorem mem_takeWhile {q : α → Bool} {xs : List α} {x : α} (hx : x ∈ xs.takeWhile q) : q x = true ∧ x ∈ xs := by
  induction xs with
  | nil => cases hx
  | cons a xs ih =>
    rw [List.takeWhile_cons] at hx
    split at hx
    · rename_i hq
      rcases List.mem_cons.1 hx with e | hx
      · rw [e]; exact ⟨hq, List.mem_cons_self⟩
      · exact ⟨(ih hx).1, List.mem_cons_of_mem _ (ih hx).2⟩
    · cases hx

/-- One insertion into a sorted container: the result is sorted, has the same elements and the new one, and the new one stands
in front of the elements equivalent to it. -/
theorem assign_spec {lt : α → α → Bool} (h : StrictWeak lt) {xs : List α} (hs : Sorted lt xs) (v : α) :
    ∃ ys, assign lt xs v = pure ys ∧ Sorted lt ys ∧ ys.Perm (v :: xs) ∧
      ∀ w, ys.filter (equiv lt w) = (if equiv lt w v then [v] else []) ++ xs.filter (equiv lt w) := by
  refine ⟨_, assign_eq h hs v, ?_, ?_, ?_⟩
  · have hsplit : Sorted lt (xs.takeWhile (fun x => lt x v) ++ xs.dropWhile (fun x => lt x v)) := by
      rw [List.takeWhile_append_dropWhile]; exact hs
    obtain ⟨s1, s2, s3⟩ := List.pairwise_append.1 hsplit
    refine List.pairwise_append.2 ⟨s1, List.pairwise_cons.2 ⟨dropWhile_sorted h hs v, s2⟩, ?_⟩
    intro a ha b hb
    rcases List.mem_cons.1 hb with e | hb
    · rw [e]; exact h.asymm (mem_takeWhile ha).1
    · exact s3 a ha b hb
  · refine List.perm_middle.trans (List.Perm.cons _ ?_)
    rw [List.takeWhile_append_dropWhile]
  · intro w
    have hx : xs.filter (equiv lt w) =
        (xs.takeWhile (fun x => lt x v)).filter (equiv lt w) ++ (xs.dropWhile (fun x => lt x v)).filter (equiv lt w) := by
      rw [← List.filter_append, List.takeWhile_append_dropWhile]
    rw [List.filter_append, hx]
    by_cases hw : equiv lt w v = true
    · have hnil : (xs.takeWhile (fun x => lt x v)).filter (equiv lt w) = [] := by
        rw [List.filter_eq_nil_iff]
        intro a ha
        have hav := (mem_takeWhile ha).1
        unfold equiv at hw ⊢
        rw [Bool.and_eq_true, Bool.not_eq_true', Bool.not_eq_true'] at hw
        have : lt a w = true := h.lt_of_lt_of_le hav hw.1
        rw [this]
        simp
      rw [hnil, if_pos hw, List.filter_cons_of_pos hw]
      rfl
    · rw [if_neg hw, List.filter_cons_of_neg hw]
      rfl

/-- C134: writing any values through a sorted insert iterator into a sorted container keeps it sorted, loses and invents
nothing, and of equivalent elements the one written last comes first, in front of those that were there. -/
theorem C134_insert {lt : α → α → Bool} (h : StrictWeak lt) (xs : List α) (hs : Sorted lt xs) (vs : List α) :
    ∃ ys, copyTo lt xs vs = pure ys ∧ Sorted lt ys ∧ ys.Perm (vs ++ xs) ∧
      ∀ w, ys.filter (equiv lt w) = (vs.filter (equiv lt w)).reverse ++ xs.filter (equiv lt w) := by
  induction vs generalizing xs with
  | nil => exact ⟨xs, rfl, hs, .refl _, fun _ => rfl⟩
  | cons v vs ih =>
    obtain ⟨ys, hy, hys, hyp, hyf⟩ := assign_spec h hs v
    obtain ⟨zs, hz, hzs, hzp, hzf⟩ := ih ys hys
    refine ⟨zs, ?_, hzs, hzp.trans ?_, ?_⟩
    · unfold copyTo
      rw [hy, pure_bind, hz]
    · exact (List.Perm.append_left vs hyp).trans List.perm_middle
    · intro w
      rw [hzf, hyf]
      by_cases hw : equiv lt w v = true
      · rw [if_pos hw, List.filter_cons_of_pos hw, List.reverse_cons, List.append_assoc]
      · rw [if_neg hw, List.filter_cons_of_neg hw]
        rfl

example : copyTo (fun a b : Nat × Char => decide (a.1 < b.1)) [(1, 'a'), (3, 'b')] [(3, 'c'), (2, 'd'), (3, 'e')] =
    pure [(1, 'a'), (2, 'd'), (3, 'e'), (3, 'c'), (3, 'b')] := by decide +kernel

/-- The specification rules out keeping the order of writing among equivalent elements. -/
example : copyTo (fun a b : Nat × Char => decide (a.1 < b.1)) [] [(1, 'a'), (1, 'b')] = pure [(1, 'b'), (1, 'a')] := by
  decide +kernel

/-- A container that is not sorted to begin with can break the precondition of the search. -/
example : copyTo (fun a b : Nat => decide (a < b)) [3, 1] [2] = ub := by decide +kernel

end SortedInsert

end Verif.Iter
