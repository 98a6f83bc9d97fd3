import Verif.Algorithm.Search

/-
Further single-pass algorithms: include/daw/daw_algorithm.h and
include/daw/algorithms/daw_algorithm_{accumulate,adjacent_find,copy,copy_n,find_transform,partial_sum}.h.

Loops that write work on one block, so that the written range may overlap the one that is read.
-/

namespace Verif.Algorithm
open Cxx

variable {α β γ : Type}

/-! ### Runs of satisfying elements -/

theorem findLastOfLoop_total (p : α → Bool) (xs : List α) (last : Nat) (hlen : last ≤ xs.length) :
    ∀ n first prev, last - first = n → first ≤ last →
      ∃ e, first ≤ e ∧ e ≤ last ∧
        (∀ j a, first ≤ j → j < e → xs[j]? = some a → p a = true) ∧
        (e < last → ∃ a, xs[e]? = some a ∧ p a = false) ∧
        findLastOfLoop p xs last first prev = pure (if e = first then prev else e - 1) := by
  intro n
  induction n with
  | zero =>
    intro first prev hn hf
    have : first = last := by omega
    subst this
    refine ⟨first, Nat.le_refl _, Nat.le_refl _, by intros; omega, by intros; omega, ?_⟩
    rw [findLastOfLoop, if_neg (by simp), if_pos rfl]
  | succ n ih =>
    intro first prev hn hf
    obtain ⟨x, hx⟩ := getElem?_of_lt (xs := xs) (i := first) (by omega)
    rw [findLastOfLoop, if_pos (by omega), rd_some hx]
    simp only [pure_bind]
    by_cases hp : p x = true
    · obtain ⟨e, h1, h2, h3, h4, h5⟩ := ih (first + 1) first (by omega) (by omega)
      refine ⟨e, by omega, h2, ?_, h4, ?_⟩
      · intro j a hj he ha
        by_cases hjf : j = first
        · subst hjf; rw [hx] at ha; injection ha with ha; subst ha; exact hp
        · exact h3 j a (by omega) he ha
      · rw [if_neg (by simp [hp]), h5]
        by_cases he : e = first + 1
        · rw [if_pos he, if_neg (by omega), he]; rfl
        · rw [if_neg he, if_neg (by omega)]
    · refine ⟨first, Nat.le_refl _, hf, by intros; omega, fun _ => ⟨x, hx, by simpa using hp⟩, ?_⟩
      rw [if_pos hp, if_pos rfl]

/-- `e` is the end of the longest run of satisfying elements that starts at `first`. (Specification, no line of the source.) -/
def IsRunEnd (p : α → Bool) (xs : List α) (first last e : Nat) : Prop :=
  first ≤ e ∧ e ≤ last ∧
  (∀ j a, first ≤ j → j < e → xs[j]? = some a → p a = true) ∧
  (e < last → ∃ a, xs[e]? = some a ∧ p a = false)

/-- C76: `find_last_of` returns the last position of the run of satisfying elements at the start of the
range, and `last` if the first element does not satisfy the predicate (or there is none). -/
theorem C76_find_last_of (p : α → Bool) (xs : List α) (first last : Nat) (hf : first ≤ last) (hlen : last ≤ xs.length) :
    ∃ e, IsRunEnd p xs first last e ∧ findLastOf p xs first last = pure (if e = first then last else e - 1) := by
  obtain ⟨e, h1, h2, h3, h4, h5⟩ := findLastOfLoop_total p xs last hlen _ first last rfl hf
  exact ⟨e, ⟨h1, h2, h3, h4⟩, h5⟩

/-- C76: `find_first_range_of` returns the first maximal run of satisfying elements, and the empty range at `last` if
no element satisfies the predicate. -/
theorem C76_find_first_range_of (p : α → Bool) (xs : List α) (first last : Nat) (hf : first ≤ last)
    (hlen : last ≤ xs.length) :
    ∃ b e, findFirstRangeOf p xs first last = pure (b, e) ∧ IsFirst p xs first last b ∧ IsRunEnd p xs b last e ∧
      (b < last → b < e) := by
  obtain ⟨b, e1, hb⟩ := findIf_total p xs last hlen _ first rfl hf
  obtain ⟨e, h1, h2⟩ := C76_find_last_of p xs b last hb.2.1 hlen
  have hlt : b < last → b < e := by
    intro h
    obtain ⟨a, ha, hp⟩ := hb.2.2.2 h
    rcases Nat.lt_or_ge b e with h' | h'
    · exact h'
    · have : e = b := by have := h1.1; omega
      subst this
      obtain ⟨a', ha', hp'⟩ := h1.2.2.2 h
      rw [ha] at ha'; injection ha' with ha'; subst ha'
      rw [hp] at hp'; cases hp'
  refine ⟨b, e, ?_, hb, h1, hlt⟩
  unfold findFirstRangeOf
  rw [e1, pure_bind, h2, pure_bind]
  have hle := hb.2.1
  have := h1.2.1
  by_cases he : e = b
  · have : b = last := by
      rcases Nat.lt_or_ge b last with h | h
      · have := hlt h; omega
      · omega
    simp [he, this]
  · rw [if_neg he, if_pos (by have := h1.1; omega)]
    have : e - 1 + 1 = e := by have := h1.1; omega
    rw [this]

example : IsRunEnd (fun a : Nat => a % 2 == 0) [1, 4, 6, 3, 8] 1 5 3 := by
  refine ⟨by decide, by decide, ?_, fun _ => ⟨3, rfl, rfl⟩⟩
  intro j a h1 h2
  have : j = 1 ∨ j = 2 := by omega
  rcases this with rfl | rfl <;> simp <;> rintro rfl <;> rfl

/-! ### Further searches -/

theorem find_total [BEq α] (xs : List α) (v : α) (last : Nat) (hlen : last ≤ xs.length) :
    ∀ n first, last - first = n → first ≤ last →
      ∃ r, find xs first last v = pure r ∧ IsFirst (· == v) xs first last r := by
  intro n
  induction n with
  | zero =>
    intro first hn hf
    have : first = last := by omega
    subst this
    rw [find]
    exact ⟨first, by simp, Nat.le_refl _, Nat.le_refl _, by intros; omega, by intros; omega⟩
  | succ n ih =>
    intro first hn hf
    obtain ⟨x, hx⟩ := getElem?_of_lt (xs := xs) (i := first) (by omega)
    rw [find, if_pos (by omega), rd_some hx]
    simp only [pure_bind]
    by_cases hp : (x == v) = true
    · rw [if_pos hp]
      exact ⟨first, rfl, Nat.le_refl _, hf, by intros; omega, fun _ => ⟨x, hx, hp⟩⟩
    · rw [if_neg hp]
      obtain ⟨r, h0, h1, h2, h3, h4⟩ := ih (first + 1) (by omega) (by omega)
      refine ⟨r, h0, by omega, h2, ?_, h4⟩
      intro j a hj hr ha
      by_cases hjf : j = first
      · subst hjf; rw [hx] at ha; injection ha with ha; subst ha; simpa using hp
      · exact h3 j a (by omega) hr ha

/-- `find_index_if`, daw_algorithm.h 1963-1978 (`find_index`, 1980-1987, is the case of `== value`); the range as
the list of its elements. -/
def findIndexIf (p : α → Bool) (xs : List α) : Option Nat :=
  if xs.isEmpty then none else loop xs 0
where
  /-- The loop, lines 1970-1976. -/
  loop : List α → Nat → Option Nat
    | [], _ => none
    | x :: xs, idx => if p x then some idx else loop xs (idx + 1)

/-- `find_index_of_if`, daw_algorithm.h 2037-2045; `find_index_of`, 2027-2035, is the case of `== v`. -/
def findIndexOfIf (p : α → Bool) : List α → Nat
  | [] => 0
  | x :: xs => if ¬ p x then findIndexOfIf p xs + 1 else 0

/-- `contains_if`, daw_algorithm.h 2060-2068; `contains`, 2047-2057, is the case of `cmp( x, value )`. -/
def containsIf (p : α → Bool) : List α → Bool
  | [] => false
  | x :: xs => if p x then true else containsIf p xs

/-- `adjacent_find`, algorithms/daw_algorithm_adjacent_find.h 11-28. -/
def adjacentFind (p : α → α → Bool) (xs : List α) (first last : Nat) : Cxx Nat :=
  if first = last then pure last else loop (first + 1) first
where
  /-- The loop, lines 24-31. -/
  loop (next first : Nat) : Cxx Nat :=
    if next ≠ last then do
      let a ← rd xs first
      let b ← rd xs next
      if p a b then pure first else loop (next + 1) (first + 1)
    else pure last
  partial_fixpoint

/-- `find_transform`, algorithms/daw_algorithm_find_transform.h 29-47: the position and the transformed value. -/
def findTransform (f : α → β) (p : β → Bool) : List α → Nat → Nat × Option β
  | [], pos => (pos, none)
  | x :: xs, pos => if p (f x) then (pos, some (f x)) else findTransform f p xs (pos + 1)

/-- `find_some`, daw_algorithm.h 2089-2105; the predicates as a list. -/
def findSome (ps : List (α → Bool)) : List α → Nat → List Bool → Nat × List Bool
  | [], pos, results => (pos, results)
  | x :: xs, pos, _ =>
    let results := ps.map (· x)
    if containsIf (fun r => r == true) results then (pos, results) else findSome ps xs (pos + 1) results

/-- The fold `( ( ++idx, preds( elem ) ) or ... )` of `find_one_of`, daw_algorithm.h 2119: the final index and
whether one returned true. -/
def oneOf (x : α) : List (α → Bool) → Int → Int × Bool
  | [], idx => (idx, false)
  | p :: ps, idx => if p x then (idx + 1, true) else oneOf x ps (idx + 1)

/-- `find_one_of`, daw_algorithm.h 2113-2126; index `-1` stands for the largest `size_t`. -/
def findOneOf (ps : List (α → Bool)) : List α → Nat → Nat × Int
  | [], pos => (pos, -1)
  | x :: xs, pos =>
    match oneOf x ps (-1) with
    | (idx, true) => (pos, idx)
    | (_, false) => findOneOf ps xs (pos + 1)

/-- C77: `find` returns the first position with an equal element, or `last`. -/
theorem C77_find [BEq α] (xs : List α) (v : α) (first last : Nat) (hf : first ≤ last) (hlen : last ≤ xs.length) :
    ∃ r, find xs first last v = pure r ∧ IsFirst (· == v) xs first last r :=
  find_total xs v last hlen _ first rfl hf

example := C77_find [5, 2, 8, 3, 9] 8 1 4 (by decide) (by decide)

theorem findIndexIf_loop (p : α → Bool) : ∀ (xs : List α) (k : Nat),
    findIndexIf.loop p xs k = (xs.findIdx? p).map (· + k) := by
  intro xs
  induction xs with
  | nil => intro k; rfl
  | cons x xs ih =>
    intro k
    rw [findIndexIf.loop, List.findIdx?_cons]
    split
    · simp
    · rw [ih, Option.map_map]
      congr 1
      funext a
      simp only [Function.comp]
      omega

/-- C77: `find_index_if` returns the index of the first satisfying element, and nothing if there is none. -/
theorem C77_find_index_if (p : α → Bool) (xs : List α) :
    (∀ i, findIndexIf p xs = some i ↔ (∃ a, xs[i]? = some a ∧ p a = true) ∧
      ∀ j a, j < i → xs[j]? = some a → p a = false) ∧
    (findIndexIf p xs = none ↔ ∀ a ∈ xs, p a = false) := by
  have key : findIndexIf p xs = xs.findIdx? p := by
    unfold findIndexIf
    cases xs with
    | nil => rfl
    | cons x xs =>
      simp only [List.isEmpty_cons, Bool.false_eq_true, if_false]
      rw [findIndexIf_loop]
      simp
  rw [key]
  constructor
  · intro i
    rw [List.findIdx?_eq_some_iff_getElem]
    constructor
    · rintro ⟨h, h1, h2⟩
      refine ⟨⟨xs[i], List.getElem?_eq_getElem h, h1⟩, fun j a hj ha => ?_⟩
      obtain ⟨hl, rfl⟩ := List.getElem?_eq_some_iff.1 ha
      simpa using h2 j hj
    · rintro ⟨⟨a, ha, hp⟩, h2⟩
      obtain ⟨hl, rfl⟩ := List.getElem?_eq_some_iff.1 ha
      exact ⟨hl, hp, fun j hj => by simpa using h2 j _ hj (List.getElem?_eq_getElem (by omega))⟩
  · rw [List.findIdx?_eq_none_iff]

/-- C77: `find_index_of_if` returns the index of the first satisfying element, or the length. -/
theorem C77_find_index_of_if (p : α → Bool) : ∀ (xs : List α),
    IsFirst p xs 0 xs.length (findIndexOfIf p xs) := by
  intro xs
  induction xs with
  | nil => exact ⟨by simp, by simp [findIndexOfIf], by intros; simp [findIndexOfIf] at *, by simp⟩
  | cons x xs ih =>
    obtain ⟨_, h2, h3, h4⟩ := ih
    rw [findIndexOfIf]
    by_cases hp : p x = true
    · rw [if_neg (by simp [hp])]
      exact ⟨by simp, by simp, by intros; omega, fun _ => ⟨x, rfl, hp⟩⟩
    · rw [if_pos hp]
      refine ⟨by omega, by simp; omega, ?_, ?_⟩
      · intro j a _ hj ha
        cases j with
        | zero => simp at ha; subst ha; simpa using hp
        | succ j => exact h3 j a (by omega) (by omega) (by simpa using ha)
      · intro h
        simpa using h4 (by simpa using h)

/-- C77: `contains_if` decides whether an element satisfies the predicate. -/
theorem C77_contains_if (p : α → Bool) (xs : List α) : containsIf p xs = true ↔ ∃ a ∈ xs, p a = true := by
  induction xs with
  | nil => simp [containsIf]
  | cons x xs ih =>
    rw [containsIf]
    split
    · rename_i h; simp [h]
    · rename_i h; rw [ih]; simp [h]

theorem adjacentFind_loop_total (p : α → α → Bool) (xs : List α) (last : Nat) (hlen : last ≤ xs.length) :
    ∀ n first, last - (first + 1) = n → first + 1 ≤ last →
      ∃ r, adjacentFind.loop p xs last (first + 1) first = pure r ∧ first ≤ r ∧
        (∀ j a b, first ≤ j → j < r → j + 1 < last → xs[j]? = some a → xs[j + 1]? = some b → p a b = false) ∧
        ((r + 1 < last ∧ ∃ a b, xs[r]? = some a ∧ xs[r + 1]? = some b ∧ p a b = true) ∨ r = last) := by
  intro n
  induction n with
  | zero =>
    intro first hn hf
    rw [adjacentFind.loop, if_neg (by omega)]
    exact ⟨last, rfl, by omega, by intros; omega, .inr rfl⟩
  | succ n ih =>
    intro first hn hf
    obtain ⟨x, hx⟩ := getElem?_of_lt (xs := xs) (i := first) (by omega)
    obtain ⟨y, hy⟩ := getElem?_of_lt (xs := xs) (i := first + 1) (by omega)
    rw [adjacentFind.loop, if_pos (by omega), rd_some hx, rd_some hy]
    simp only [pure_bind]
    by_cases hp : p x y = true
    · rw [if_pos hp]
      exact ⟨first, rfl, Nat.le_refl _, by intros; omega, .inl ⟨by omega, x, y, hx, hy, hp⟩⟩
    · rw [if_neg hp]
      obtain ⟨r, h0, h1, h2, h3⟩ := ih (first + 1) (by omega) (by omega)
      refine ⟨r, h0, by omega, ?_, h3⟩
      intro j a b hj hr hjl ha hb
      by_cases hjf : j = first
      · subst hjf
        rw [hx] at ha; rw [hy] at hb
        injection ha with ha; injection hb with hb; subst ha hb; simpa using hp
      · exact h2 j a b (by omega) hr hjl ha hb

/-- C77: `adjacent_find` returns the first position whose element and successor are related, or `last`. -/
theorem C77_adjacent_find (p : α → α → Bool) (xs : List α) (first last : Nat) (hf : first ≤ last)
    (hlen : last ≤ xs.length) :
    ∃ r, adjacentFind p xs first last = pure r ∧ first ≤ r ∧
      (∀ j a b, first ≤ j → j < r → j + 1 < last → xs[j]? = some a → xs[j + 1]? = some b → p a b = false) ∧
      ((r + 1 < last ∧ ∃ a b, xs[r]? = some a ∧ xs[r + 1]? = some b ∧ p a b = true) ∨ r = last) := by
  unfold adjacentFind
  split
  · exact ⟨last, rfl, hf, by intros; omega, .inr rfl⟩
  · exact adjacentFind_loop_total p xs last hlen _ first rfl (by omega)

example : adjacentFind (fun a b : Nat => a == b) [1, 2, 2, 3, 3] 0 5 = pure 1 := by
  rw [adjacentFind, if_neg (by decide), adjacentFind.loop, if_pos (by decide)]
  simp only [rd, List.getElem?_cons_zero, List.getElem?_cons_succ, pure_bind]
  rw [if_neg (by decide), adjacentFind.loop, if_pos (by decide)]
  rfl

/-- C77: `find_transform` finds the first element whose transformed value satisfies the predicate, and returns
that value. -/
theorem C77_find_transform (f : α → β) (p : β → Bool) : ∀ (xs : List α) (pos : Nat),
    (∃ k a, xs[k]? = some a ∧ p (f a) = true ∧ (∀ j b, j < k → xs[j]? = some b → p (f b) = false) ∧
      findTransform f p xs pos = (pos + k, some (f a))) ∨
    ((∀ a ∈ xs, p (f a) = false) ∧ findTransform f p xs pos = (pos + xs.length, none)) := by
  intro xs
  induction xs with
  | nil => intro pos; exact .inr ⟨by simp, rfl⟩
  | cons x xs ih =>
    intro pos
    rw [findTransform]
    by_cases hp : p (f x) = true
    · rw [if_pos hp]
      exact .inl ⟨0, x, rfl, hp, by intros; omega, rfl⟩
    · rw [if_neg hp]
      rcases ih (pos + 1) with ⟨k, a, h1, h2, h3, h4⟩ | ⟨h1, h2⟩
      · refine .inl ⟨k + 1, a, by simpa using h1, h2, ?_, by rw [h4]; congr 1; omega⟩
        intro j b hj hb
        cases j with
        | zero => simp at hb; subst hb; simpa using hp
        | succ j => exact h3 j b (by omega) (by simpa using hb)
      · refine .inr ⟨?_, by rw [h2]; congr 1; simp; omega⟩
        intro a ha
        rcases List.mem_cons.1 ha with rfl | ha
        · simpa using hp
        · exact h1 a ha

/-- C77: `find_some` stops at the first element that satisfies one of the predicates and returns all their results
for it; if there is none, at the end, with no result true. -/
theorem C77_find_some (ps : List (α → Bool)) : ∀ (xs : List α) (pos : Nat) (r0 : List Bool), (∀ b ∈ r0, b = false) →
    (∃ k a, xs[k]? = some a ∧ (∃ p ∈ ps, p a = true) ∧
      (∀ j b, j < k → xs[j]? = some b → ∀ p ∈ ps, p b = false) ∧
      findSome ps xs pos r0 = (pos + k, ps.map (· a))) ∨
    ((∀ a ∈ xs, ∀ p ∈ ps, p a = false) ∧
      ∃ r, findSome ps xs pos r0 = (pos + xs.length, r) ∧ ∀ b ∈ r, b = false) := by
  intro xs
  induction xs with
  | nil => intro pos r0 h; exact .inr ⟨by simp, r0, rfl, h⟩
  | cons x xs ih =>
    intro pos r0 h
    rw [findSome]
    by_cases hp : containsIf (fun r => r == true) (ps.map (· x)) = true
    · rw [if_pos hp]
      obtain ⟨b, hb, hb2⟩ := (C77_contains_if _ _).1 hp
      obtain ⟨p, hp, rfl⟩ := List.mem_map.1 hb
      exact .inl ⟨0, x, rfl, ⟨p, hp, by simpa using hb2⟩, by intros; omega, rfl⟩
    · rw [if_neg hp]
      have hx : ∀ p ∈ ps, p x = false := by
        intro p hpm
        cases hpx : p x
        · rfl
        · exact absurd ((C77_contains_if _ _).2 ⟨true, List.mem_map.2 ⟨p, hpm, hpx⟩, rfl⟩) hp
      rcases ih (pos + 1) (ps.map (· x)) (by
        intro b hb
        obtain ⟨p, hpm, rfl⟩ := List.mem_map.1 hb
        exact hx p hpm) with ⟨k, a, h1, h2, h3, h4⟩ | ⟨h1, r, h2, h3⟩
      · refine .inl ⟨k + 1, a, by simpa using h1, h2, ?_, by rw [h4]; congr 1; omega⟩
        intro j b hj hb
        cases j with
        | zero => simp at hb; subst hb; exact hx
        | succ j => exact h3 j b (by omega) (by simpa using hb)
      · refine .inr ⟨?_, r, by rw [h2]; congr 1; simp; omega, h3⟩
        intro a ha
        rcases List.mem_cons.1 ha with rfl | ha
        · exact hx
        · exact h1 a ha

theorem oneOf_spec (x : α) : ∀ (ps : List (α → Bool)) (idx : Int),
    (∃ (i : Nat) (p : α → Bool), ps[i]? = some p ∧ p x = true ∧ (∀ j q, j < i → ps[j]? = some q → q x = false) ∧
      oneOf x ps idx = (idx + 1 + i, true)) ∨
    ((∀ p ∈ ps, p x = false) ∧ (oneOf x ps idx).2 = false) := by
  intro ps
  induction ps with
  | nil => intro idx; exact .inr ⟨by simp, rfl⟩
  | cons p ps ih =>
    intro idx
    rw [oneOf]
    by_cases hp : p x = true
    · rw [if_pos hp]
      exact .inl ⟨0, p, rfl, hp, by intros; omega, by simp⟩
    · rw [if_neg hp]
      rcases ih (idx + 1) with ⟨i, q, h1, h2, h3, h4⟩ | ⟨h1, h2⟩
      · refine .inl ⟨i + 1, q, by simpa using h1, h2, ?_, by rw [h4]; congr 1; push_cast; omega⟩
        intro j q' hj hq
        cases j with
        | zero => simp at hq; subst hq; simpa using hp
        | succ j => exact h3 j q' (by omega) (by simpa using hq)
      · refine .inr ⟨?_, h2⟩
        intro q hq
        rcases List.mem_cons.1 hq with rfl | hq
        · simpa using hp
        · exact h1 q hq

/-- C77: `find_one_of` returns the first element satisfying one of the predicates and the index of the first such
predicate; the end and `-1` if there is none. -/
theorem C77_find_one_of (ps : List (α → Bool)) : ∀ (xs : List α) (pos : Nat),
    (∃ (k : Nat) (a : α) (i : Nat) (p : α → Bool), xs[k]? = some a ∧ ps[i]? = some p ∧ p a = true ∧
      (∀ j q, j < i → ps[j]? = some q → q a = false) ∧
      (∀ j b, j < k → xs[j]? = some b → ∀ q ∈ ps, q b = false) ∧
      findOneOf ps xs pos = (pos + k, (i : Int))) ∨
    ((∀ a ∈ xs, ∀ p ∈ ps, p a = false) ∧ findOneOf ps xs pos = (pos + xs.length, -1)) := by
  intro xs
  induction xs with
  | nil => intro pos; exact .inr ⟨by simp, rfl⟩
  | cons x xs ih =>
    intro pos
    rw [findOneOf]
    rcases oneOf_spec x ps (-1) with ⟨i, p, h1, h2, h3, h4⟩ | ⟨h1, h2⟩
    · rw [h4]
      refine .inl ⟨0, x, i, p, rfl, h1, h2, h3, by intros; omega, ?_⟩
      simp
    · rcases hob : oneOf x ps (-1) with ⟨a, b⟩
      rw [hob] at h2
      simp only at h2
      subst h2
      simp only []
      rcases ih (pos + 1) with ⟨k, a, i, p, g1, g2, g3, g4, g5, g6⟩ | ⟨g1, g2⟩
      · refine .inl ⟨k + 1, a, i, p, by simpa using g1, g2, g3, g4, ?_, by rw [g6]; congr 1; omega⟩
        intro j b hj hb
        cases j with
        | zero => simp at hb; subst hb; exact h1
        | succ j => exact g5 j b (by omega) (by simpa using hb)
      · refine .inr ⟨?_, by rw [g2]; congr 1; simp; omega⟩
        intro a ha
        rcases List.mem_cons.1 ha with rfl | ha
        · exact h1
        · exact g1 a ha

/-! ### Loops that write -/

/-- The loop of `transform`, daw_algorithm.h 1066-1094, with input and output in one block; `copy`,
algorithms/daw_algorithm_copy.h 26-41, and `move`, daw_algorithm.h 1170-1186, are the case of the identity, `map`
1451-1468 is the same loop. -/
def transform (f : α → α) (xs : List α) (first last out : Nat) : Cxx (List α × Nat) :=
  if first ≠ last then do
    let x ← rd xs first
    let xs ← wr xs out (f x)
    transform f xs (first + 1) last (out + 1)
  else pure (xs, out)
partial_fixpoint

/-- The loop of `transform_n`, daw_algorithm.h 1016-1053 (for an operation with one argument); `copy_n`,
algorithms/daw_algorithm_copy_n.h 23-44, and `move_n`, daw_algorithm.h 1195-1216, are the case of the identity.
Result: also both iterators. -/
def transformN (f : α → α) (xs : List α) (first out : Nat) : Nat → Cxx (List α × Nat × Nat)
  | 0 => pure (xs, first, out)
  | n + 1 => do
    let x ← rd xs first
    let xs ← wr xs out (f x)
    transformN f xs (first + 1) (out + 1) n

/-- The loop of `transform_if`, daw_algorithm.h 976-1003; `copy_if`, 1138-1157, is the case of the identity. -/
def transformIf (p : α → Bool) (f : α → α) (xs : List α) (first last out : Nat) : Cxx (List α × Nat) :=
  if first ≠ last then do
    let x ← rd xs first
    if p x then do
      let xs ← wr xs out (f x)
      transformIf p f xs (first + 1) last (out + 1)
    else transformIf p f xs (first + 1) last out
  else pure (xs, out)
partial_fixpoint

/-- `fill_n`, daw_algorithm.h 1425-1436. -/
def fillN (v : α) (xs : List α) (first : Nat) : Nat → Cxx (List α × Nat)
  | 0 => pure (xs, first)
  | n + 1 => do
    let xs ← wr xs first v
    fillN v xs (first + 1) n

/-- `iota`, daw_algorithm.h 1732-1739; `succ` is `++start_value`.  `fill`, 1438-1447, is the case `succ = id`. -/
def iota (succ : α → α) (xs : List α) (first last : Nat) (v : α) : Cxx (List α) :=
  if first ≠ last then do
    let xs ← wr xs first v
    iota succ xs (first + 1) last (succ v)
  else pure xs
partial_fixpoint

/-- C78: `transform( first, last, out, f )`, and with the identity `copy` and `move`: the written range holds the images
of the original elements in order, also if the output overlaps the input from the front (`out <= first`); nothing else
changes. -/
theorem C78_transform (f : α → α) (last : Nat) : ∀ (n : Nat) (xs : List α) (first out : Nat), last - first = n →
    first ≤ last → last ≤ xs.length → out + (last - first) ≤ xs.length → (out ≤ first ∨ last ≤ out) →
    ∃ ys, transform f xs first last out = pure (ys, out + (last - first)) ∧ ys.length = xs.length ∧
      (∀ k, k < last - first → ys[out + k]? = xs[first + k]?.map f) ∧
      (∀ i, (i < out ∨ out + (last - first) ≤ i) → ys[i]? = xs[i]?) := by
  intro n
  induction n with
  | zero =>
    intro xs first out hn hf hl ho _
    have : first = last := by omega
    subst this
    rw [transform, if_neg (by simp)]
    exact ⟨xs, by simp, rfl, by intros; omega, fun _ _ => rfl⟩
  | succ n ih =>
    intro xs first out hn hf hl ho hov
    obtain ⟨x, hx⟩ := getElem?_of_lt (xs := xs) (i := first) (by omega)
    rw [transform, if_pos (by omega), rd_some hx]
    simp only [pure_bind]
    rw [wr_eq (by omega), pure_bind]
    obtain ⟨ys, e, h1, h2, h3⟩ := ih (xs.set out (f x)) (first + 1) (out + 1) (by omega) (by omega) (by simpa using hl)
      (by simp; omega) (by omega)
    refine ⟨ys, by rw [e]; congr 2; omega, by simpa using h1, ?_, ?_⟩
    · intro k hk
      cases k with
      | zero =>
        rw [Nat.add_zero, Nat.add_zero, h3 out (by omega), hx, List.getElem?_set_self (by omega)]
        rfl
      | succ k =>
        have := h2 k (by omega)
        rw [show out + 1 + k = out + (k + 1) by omega, show first + 1 + k = first + (k + 1) by omega,
          List.getElem?_set_ne (by omega)] at this
        exact this
    · intro i hi
      rw [h3 i (by omega), List.getElem?_set_ne (by omega)]

/-- C78: `transform_n`, and with the identity `copy_n` and `move_n`. -/
theorem C78_transform_n (f : α → α) : ∀ (n : Nat) (xs : List α) (first out : Nat),
    first + n ≤ xs.length → out + n ≤ xs.length → (out ≤ first ∨ first + n ≤ out) →
    ∃ ys, transformN f xs first out n = pure (ys, first + n, out + n) ∧ ys.length = xs.length ∧
      (∀ k, k < n → ys[out + k]? = xs[first + k]?.map f) ∧
      (∀ i, (i < out ∨ out + n ≤ i) → ys[i]? = xs[i]?) := by
  intro n
  induction n with
  | zero => intro xs first out _ _ _; exact ⟨xs, rfl, rfl, by intros; omega, fun _ _ => rfl⟩
  | succ n ih =>
    intro xs first out hl ho hov
    obtain ⟨x, hx⟩ := getElem?_of_lt (xs := xs) (i := first) (by omega)
    rw [transformN, rd_some hx]
    simp only [pure_bind]
    rw [wr_eq (by omega), pure_bind]
    obtain ⟨ys, e, h1, h2, h3⟩ := ih (xs.set out (f x)) (first + 1) (out + 1) (by simp; omega) (by simp; omega) (by omega)
    refine ⟨ys, by rw [e]; congr 2; congr 1 <;> omega, by simpa using h1, ?_, ?_⟩
    · intro k hk
      cases k with
      | zero =>
        rw [Nat.add_zero, Nat.add_zero, h3 out (by omega), hx, List.getElem?_set_self (by omega)]
        rfl
      | succ k =>
        have := h2 k (by omega)
        rw [show out + 1 + k = out + (k + 1) by omega, show first + 1 + k = first + (k + 1) by omega,
          List.getElem?_set_ne (by omega)] at this
        exact this
    · intro i hi
      rw [h3 i (by omega), List.getElem?_set_ne (by omega)]

theorem slice_cons_of_some {xs : List α} {first last : Nat} {x : α} (hx : xs[first]? = some x) (h : first < last) :
    slice xs first last = x :: slice xs (first + 1) last := by
  obtain ⟨hl, rfl⟩ := List.getElem?_eq_some_iff.1 hx
  unfold slice
  rw [List.drop_eq_getElem_cons (by simp; omega), List.getElem_take]

theorem slice_set_outside {xs : List α} {first last i : Nat} {x : α} (h : i < first ∨ last ≤ i) :
    slice (xs.set i x) first last = slice xs first last := by
  unfold slice
  apply List.ext_getElem?
  intro k
  by_cases hk : k < last - first
  · rw [List.getElem?_drop, List.getElem?_drop, List.getElem?_take_of_lt (by omega), List.getElem?_take_of_lt (by omega),
      List.getElem?_set_ne (by omega)]
  · rw [List.getElem?_eq_none (by simp; omega), List.getElem?_eq_none (by simp; omega)]

/-- C79: `transform_if`, and with the identity `copy_if`: the images of the satisfying elements are written in order,
nothing else changes; also in place. -/
theorem C79_transform_if (p : α → Bool) (f : α → α) (last : Nat) : ∀ (n : Nat) (xs : List α) (first out : Nat),
    last - first = n → first ≤ last → last ≤ xs.length →
    (out ≤ first ∨ (last ≤ out ∧ out + (last - first) ≤ xs.length)) →
    ∃ ys, transformIf p f xs first last out = pure (ys, out + ((slice xs first last).filter p).length) ∧
      ys.length = xs.length ∧
      slice ys out (out + ((slice xs first last).filter p).length) = ((slice xs first last).filter p).map f ∧
      (∀ i, (i < out ∨ out + ((slice xs first last).filter p).length ≤ i) → ys[i]? = xs[i]?) := by
  intro n
  induction n with
  | zero =>
    intro xs first out hn hf hl _
    have : first = last := by omega
    subst this
    have hs : slice xs first first = [] := by simp [slice]
    rw [transformIf, if_neg (by simp), hs]
    exact ⟨xs, by simp, rfl, by simp [slice], fun _ _ => rfl⟩
  | succ n ih =>
    intro xs first out hn hf hl ho
    obtain ⟨x, hx⟩ := getElem?_of_lt (xs := xs) (i := first) (by omega)
    rw [transformIf, if_pos (by omega), rd_some hx, slice_cons_of_some hx (by omega)]
    simp only [pure_bind]
    by_cases hp : p x = true
    · rw [if_pos hp, wr_eq (by omega), pure_bind]
      obtain ⟨ys, e, h1, h2, h3⟩ := ih (xs.set out (f x)) (first + 1) (out + 1) (by omega) (by omega) (by simpa using hl)
        (by simp; omega)
      rw [slice_set_outside (by omega)] at e h2 h3
      simp only [List.filter_cons_of_pos hp, List.length_cons, List.map_cons]
      refine ⟨ys, by rw [e]; congr 2; omega, by simpa using h1, ?_, ?_⟩
      · have hy : ys[out]? = some (f x) := by
          rw [h3 out (by omega), List.getElem?_set_self (by omega)]
        rw [slice_cons_of_some hy (by omega), ← h2]
        congr 2
        omega
      · intro i hi
        rw [h3 i (by omega), List.getElem?_set_ne (by omega)]
    · rw [if_neg hp]
      simp only [List.filter_cons_of_neg hp]
      exact ih xs (first + 1) out (by omega) (by omega) hl (by omega)

/-- C78: `fill_n`. -/
theorem C78_fill_n (v : α) : ∀ (n : Nat) (xs : List α) (first : Nat), first + n ≤ xs.length →
    ∃ ys, fillN v xs first n = pure (ys, first + n) ∧ ys.length = xs.length ∧
      (∀ k, k < n → ys[first + k]? = some v) ∧ (∀ i, (i < first ∨ first + n ≤ i) → ys[i]? = xs[i]?) := by
  intro n
  induction n with
  | zero => intro xs first _; exact ⟨xs, rfl, rfl, by intros; omega, fun _ _ => rfl⟩
  | succ n ih =>
    intro xs first hl
    rw [fillN, wr_eq (by omega), pure_bind]
    obtain ⟨ys, e, h1, h2, h3⟩ := ih (xs.set first v) (first + 1) (by simp; omega)
    refine ⟨ys, by rw [e]; congr 2; omega, by simpa using h1, ?_, ?_⟩
    · intro k hk
      cases k with
      | zero => rw [Nat.add_zero, h3 first (by omega), List.getElem?_set_self (by omega)]
      | succ k => rw [← h2 k (by omega)]; congr 1; omega
    · intro i hi
      rw [h3 i (by omega), List.getElem?_set_ne (by omega)]

/-- `++` applied `k` times. (Specification, no line of the source.) -/
def iter (succ : α → α) : Nat → α → α
  | 0, v => v
  | n + 1, v => iter succ n (succ v)

/-- C78: `iota` writes consecutive values, and with `succ = id` `fill` writes the value everywhere. -/
theorem C78_iota (succ : α → α) (last : Nat) : ∀ (n : Nat) (xs : List α) (first : Nat) (v : α), last - first = n →
    first ≤ last → last ≤ xs.length →
    ∃ ys, iota succ xs first last v = pure ys ∧ ys.length = xs.length ∧
      (∀ k, k < last - first → ys[first + k]? = some (iter succ k v)) ∧
      (∀ i, (i < first ∨ last ≤ i) → ys[i]? = xs[i]?) := by
  intro n
  induction n with
  | zero =>
    intro xs first v hn hf hl
    rw [iota, if_neg (by omega)]
    exact ⟨xs, rfl, rfl, by intros; omega, fun _ _ => rfl⟩
  | succ n ih =>
    intro xs first v hn hf hl
    rw [iota, if_pos (by omega), wr_eq (by omega), pure_bind]
    obtain ⟨ys, e, h1, h2, h3⟩ := ih (xs.set first v) (first + 1) (succ v) (by omega) (by omega) (by simpa using hl)
    refine ⟨ys, e, by simpa using h1, ?_, ?_⟩
    · intro k hk
      cases k with
      | zero => rw [Nat.add_zero, h3 first (by omega), List.getElem?_set_self (by omega)]; rfl
      | succ k =>
        rw [iter, ← h2 k (by omega)]; congr 1; omega
    · intro i hi
      rw [h3 i (by omega), List.getElem?_set_ne (by omega)]

/-- Overlapping from the front, and disjoint. -/
example : (1 ≤ 2 ∨ 5 ≤ 1) ∧ 1 + (5 - 2) ≤ ([1, 2, 3, 4, 5] : List Nat).length := by decide

/-! ### Folds -/

/-- The loop of `accumulate`, algorithms/daw_algorithm_accumulate.h 65-72; `reduce`, daw_algorithm.h 1514-1518. -/
def accumulate (op : β → α → β) : List α → β → β
  | [], init => init
  | x :: xs, init => accumulate op xs (op init x)

/-- `map_reduce`, daw_algorithm.h 1556-1562; reading past the second range is undefined behaviour. -/
def mapReduce (red : γ → β → γ) (mp : α → α → β) : List α → List α → γ → Cxx γ
  | [], _, init => pure init
  | _ :: _, [], _ => ub
  | x :: xs, y :: ys, init => mapReduce red mp xs ys (red init (mp x y))

/-- `partial_sum`, algorithms/daw_algorithm_partial_sum.h 19-42; the result is what is written. -/
def partialSum (op : α → α → α) : List α → List α
  | [] => []
  | x :: xs => x :: loop xs x
where
  /-- The loop, lines 34-40. -/
  loop : List α → α → List α
    | [], _ => []
    | x :: xs, sum => op sum x :: loop xs (op sum x)

/-- C80: `accumulate` over a concatenation is `accumulate` over the parts, one after the other, and over one element
applies the operation: the left fold. -/
theorem C80_accumulate (op : β → α → β) (xs ys : List α) (init : β) :
    accumulate op (xs ++ ys) init = accumulate op ys (accumulate op xs init) ∧
    accumulate op xs init = xs.foldl op init := by
  constructor
  · induction xs generalizing init with
    | nil => rfl
    | cons x xs ih => exact ih _
  · induction xs generalizing init with
    | nil => rfl
    | cons x xs ih => exact ih _

/-- C80: with an associative operation the order of grouping does not matter: `accumulate` is the operation applied to
the `accumulate`s of two parts. -/
theorem C80_accumulate_parts (op : α → α → α) (hop : ∀ a b c, op (op a b) c = op a (op b c)) (e : α)
    (he : ∀ a, op a e = a ∧ op e a = a) (xs ys : List α) :
    accumulate op (xs ++ ys) e = op (accumulate op xs e) (accumulate op ys e) := by
  have key : ∀ (ys : List α) (a b : α), accumulate op ys (op a b) = op a (accumulate op ys b) := by
    intro ys
    induction ys with
    | nil => intros; rfl
    | cons y ys ih => intro a b; rw [accumulate, hop, ih]; rfl
  rw [(C80_accumulate op xs ys e).1, ← (he (accumulate op xs e)).1, key ys, (he (accumulate op xs e)).1]

example : ∀ a b c : Nat, (a + b) + c = a + (b + c) := Nat.add_assoc

/-- C80: `map_reduce` folds the pairs; the second range has to be as long as the first. -/
theorem C80_map_reduce (red : γ → β → γ) (mp : α → α → β) : ∀ (xs ys : List α) (init : γ),
    (xs.length ≤ ys.length → mapReduce red mp xs ys init = pure ((List.zipWith mp xs ys).foldl red init)) ∧
    (ys.length < xs.length → mapReduce red mp xs ys init = ub) := by
  intro xs
  induction xs with
  | nil => intro ys init; exact ⟨fun _ => by simp [mapReduce], fun h => by simp at h⟩
  | cons x xs ih =>
    intro ys init
    cases ys with
    | nil => exact ⟨fun h => by simp at h, fun _ => rfl⟩
    | cons y ys =>
      rw [mapReduce]
      refine ⟨fun h => ?_, fun h => ?_⟩
      · rw [(ih ys _).1 (by simpa using h)]; rfl
      · exact (ih ys _).2 (by simpa using h)

theorem partialSum_loop (op : α → α → α) : ∀ (xs : List α) (s : α) (k : Nat), k < xs.length →
    (partialSum.loop op xs s)[k]? = some ((xs.take (k + 1)).foldl op s) := by
  intro xs
  induction xs with
  | nil => intro s k hk; simp at hk
  | cons x xs ih =>
    intro s k hk
    rw [partialSum.loop]
    cases k with
    | zero => simp
    | succ k =>
      rw [List.getElem?_cons_succ, ih _ _ (by simpa using hk), List.take_succ_cons, List.foldl_cons]

theorem partialSum_loop_length (op : α → α → α) : ∀ (xs : List α) (s : α),
    (partialSum.loop op xs s).length = xs.length := by
  intro xs
  induction xs with
  | nil => intro s; rfl
  | cons x xs ih => intro s; rw [partialSum.loop, List.length_cons, ih, List.length_cons]

/-- C80: `partial_sum` writes one element per input element, the `k`-th being the left fold of the first `k + 1`. -/
theorem C80_partial_sum (op : α → α → α) (x : α) (xs : List α) :
    (partialSum op (x :: xs)).length = xs.length + 1 ∧ partialSum op ([] : List α) = [] ∧
    ∀ k, k ≤ xs.length → (partialSum op (x :: xs))[k]? = some ((xs.take k).foldl op x) := by
  refine ⟨by rw [partialSum, List.length_cons, partialSum_loop_length], rfl, fun k hk => ?_⟩
  rw [partialSum]
  cases k with
  | zero => simp
  | succ k => rw [List.getElem?_cons_succ, partialSum_loop _ _ _ _ (by omega)]

example : partialSum (· + ·) [1, 2, 3, 4] = [1, 3, 6, 10] := by rfl

end Verif.Algorithm
