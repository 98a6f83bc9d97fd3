import Verif.Iter.Base

/-
`chunk_iterator`, include/daw/iterator/daw_chunk_iterator.h, and `repeat_n_char_iterator`,
include/daw/iterator/daw_repeat_n_char_iterator.h.

The products and sums of `ptrdiff_t` are unbounded integers here.
-/

namespace Verif.Iter
open Cxx

/-! ### Model of `chunk_iterator` -/

namespace Chunk

/-- `m_iterator` and `m_chunk_size`, daw_chunk_iterator.h 27-37. -/
structure It where
  pos : Int
  chunk : Int
  deriving DecidableEq, Repr

/-- `operator[]`, daw_chunk_iterator.h 55-57: the elements of the chunk, not the chunks. -/
def index {α : Type} (xs : List α) (a : It) (i : Nat) : Cxx α := readAt xs (a.pos + i)

/-- `operator++`, daw_chunk_iterator.h 63-66. -/
def incr (len : Nat) (a : It) : Cxx It := do
  let p ← goto len (a.pos + a.chunk)
  pure { a with pos := p }

/-- `operator--`, daw_chunk_iterator.h 74-77. -/
def decr (len : Nat) (a : It) : Cxx It := do
  let p ← goto len (a.pos - a.chunk)
  pure { a with pos := p }

/-- `operator+=`, daw_chunk_iterator.h 85-88. -/
def addAssign (len : Nat) (a : It) (n : Int) : Cxx It := do
  let p ← goto len (a.pos + n * a.chunk)
  pure { a with pos := p }

/-- `operator-=`, daw_chunk_iterator.h 90-93, adds as well. -/
def subAssign (len : Nat) (a : It) (n : Int) : Cxx It := do
  let p ← goto len (a.pos + n * a.chunk)
  pure { a with pos := p }

/-- `operator+( chunk_iterator, difference_type )`, daw_chunk_iterator.h 101-105. -/
def plus (len : Nat) (a : It) (n : Int) : Cxx It := addAssign len a n

/-- `operator-( chunk_iterator, difference_type )`, daw_chunk_iterator.h 113-117. -/
def minus (len : Nat) (a : It) (n : Int) : Cxx It := subAssign len a n

/-- `operator-( chunk_iterator const & )`, daw_chunk_iterator.h 119-122. -/
def diff (a b : It) : Int := a.pos - b.pos

/-- `operator!=`, daw_chunk_iterator.h 128-130. -/
def ne (a b : It) : Bool := decide (a.pos ≠ b.pos)

/-- A body that reads all elements of a chunk with `operator[]`, daw_chunk_iterator.h 55-57, as the example in
tests/daw_iterator_chunk_iterator_test.cpp does. -/
def body {α : Type} (xs : List α) (a : It) : Nat → Nat → Cxx (List α)
  | 0, _ => pure []
  | n + 1, i => do
    let x ← index xs a i
    let rest ← body xs a n (i + 1)
    pure (x :: rest)

/-- `while( it != last ) { body; ++it; }`. (The loop is the user's, with the operators above.) (Specification, no line of the
source.) -/
def visit {α : Type} (xs : List α) (a last : It) : Cxx (List (List α)) := do
  if ne a last then
    let c ← body xs a a.chunk.toNat 0
    let b ← incr xs.length a
    let rest ← visit xs b last
    pure (c :: rest)
  else pure []
partial_fixpoint

/-- `n` increments. (Specification, no line of the source.) -/
def incrN (len : Nat) : Nat → It → Cxx It
  | 0, a => pure a
  | n + 1, a => do let b ← incr len a; incrN len n b

theorem body_eq {α : Type} (xs : List α) (p : Nat) (c : Int) (n i : Nat) (h : p + i + n ≤ xs.length) :
    body xs ⟨p, c⟩ n i = pure ((xs.drop (p + i)).take n) := by
  induction n generalizing i with
  | zero => simp [body]
  | succ n ih =>
    have hlt : p + i < xs.length := by omega
    simp only [body, index]
    rw [show ((p : Int) + (i : Int)) = ((p + i : Nat) : Int) by push_cast; rfl,
      readAt_some (List.getElem?_eq_getElem hlt), pure_bind, ih (i + 1) (by omega), pure_bind]
    rw [List.drop_eq_getElem_cons hlt, List.take_succ_cons, ← Nat.add_assoc]

/-- C125: a loop that reads chunk after chunk sees every element once and in order, when the size of the chunks divides the
number of elements. -/
theorem C125_visits_partial {α : Type} (xs : List α) (k m p : Nat) (hk : 0 < k) (h : p + k * m = xs.length) :
    ∃ l, visit xs ⟨p, k⟩ ⟨xs.length, k⟩ = pure l ∧ l.flatten = xs.drop p ∧ ∀ c ∈ l, c.length = k := by
  induction m generalizing p with
  | zero =>
    rw [visit]
    rw [show ne ⟨(p : Int), (k : Int)⟩ ⟨(xs.length : Int), (k : Int)⟩ = false by
      simp only [ne, decide_eq_false_iff_not, Ne, Decidable.not_not]; omega]
    refine ⟨[], rfl, ?_, by simp⟩
    rw [List.drop_eq_nil_of_le (by omega)]
    rfl
  | succ m ih =>
    have hmul : k * (m + 1) = k * m + k := Nat.mul_succ k m
    rw [visit]
    rw [show ne ⟨(p : Int), (k : Int)⟩ ⟨(xs.length : Int), (k : Int)⟩ = true by
      simp only [ne, decide_eq_true_iff, Ne]; omega]
    simp only [if_true, Int.toNat_natCast]
    rw [body_eq xs p k k 0 (by omega), pure_bind]
    unfold incr
    rw [goto_ok (by dsimp only; omega) (by dsimp only; omega), pure_bind, pure_bind]
    obtain ⟨l, hl, hf, hc⟩ := ih (p + k) (by omega)
    rw [show ((p : Int) + (k : Int)) = ((p + k : Nat) : Int) by push_cast; rfl]
    dsimp only
    rw [hl, pure_bind]
    refine ⟨_, rfl, ?_, ?_⟩
    · rw [List.flatten_cons, hf, Nat.add_zero, ← List.drop_drop]
      exact List.take_append_drop k (xs.drop p)
    · intro c hc'
      rcases List.mem_cons.1 hc' with rfl | hc'
      · rw [List.length_take, List.length_drop]; omega
      · exact hc c hc'

example : ∃ l, visit [1, 2, 3, 4, 5, 6] ⟨0, 2⟩ ⟨6, 2⟩ = pure l ∧ l.flatten = [1, 2, 3, 4, 5, 6] ∧ ∀ c ∈ l, c.length = 2 :=
  C125_visits_partial [1, 2, 3, 4, 5, 6] 2 3 0 (by decide) (by decide)

/-- C125 fails when the size of the chunks does not divide the number of elements: the loop runs over the end, which is
undefined behaviour, for every block and every such size. -/
theorem C125_rest_violated {α : Type} (xs : List α) (k p : Nat) (hk : 0 < k) (hp : p ≤ xs.length)
    (h : (xs.length - p) % k ≠ 0) : visit xs ⟨p, k⟩ ⟨xs.length, k⟩ = ub := by
  generalize hd : xs.length - p = d at h
  induction d using Nat.strongRecOn generalizing p with
  | _ d ih =>
    have hd0 : 0 < d := Nat.pos_of_ne_zero (by rintro rfl; exact h (Nat.zero_mod k))
    rw [visit]
    rw [show ne ⟨(p : Int), (k : Int)⟩ ⟨(xs.length : Int), (k : Int)⟩ = true by
      simp only [ne, decide_eq_true_iff, Ne]; omega]
    simp only [if_true, Int.toNat_natCast]
    by_cases hle : p + k ≤ xs.length
    · rw [body_eq xs p k k 0 (by omega), pure_bind]
      unfold incr
      rw [goto_ok (by dsimp only; omega) (by dsimp only; omega), pure_bind, pure_bind]
      rw [show ((p : Int) + (k : Int)) = ((p + k : Nat) : Int) by push_cast; rfl]
      dsimp only
      rw [ih (d - k) (by omega) (p + k) hle (by omega) (by
        rw [show d = d - k + k by omega, Nat.add_mod_right] at h
        exact h)]
      rfl
    · have hub : ∀ n i, p + i ≤ xs.length → xs.length < p + i + n → body xs ⟨(p : Int), (k : Int)⟩ n i = ub := by
        intro n
        induction n with
        | zero => intro i h1 h2; omega
        | succ n ihn =>
          intro i h1 h2
          simp only [body, index]
          rw [show ((p : Int) + (i : Int)) = ((p + i : Nat) : Int) by push_cast; rfl]
          by_cases he : p + i < xs.length
          · rw [readAt_some (List.getElem?_eq_getElem he), pure_bind, ihn (i + 1) (by omega) (by omega)]
            rfl
          · rw [readAt_end (by omega)]
            rfl
      rw [hub k 0 (by omega) (by omega)]
      rfl

example : visit [1, 2, 3] ⟨0, 2⟩ ⟨3, 2⟩ = (ub : Cxx (List (List Nat))) := C125_rest_violated [1, 2, 3] 2 0 (by decide) (by decide) (by decide)

/-- C125, steps: `it + n` is what `n` increments give. -/
theorem C125_steps_partial (len : Nat) (a : It) (hc : 0 ≤ a.chunk) (n : Nat) (h0 : 0 ≤ a.pos)
    (h : a.pos + n * a.chunk ≤ len) : plus len a n = incrN len n a := by
  induction n generalizing a with
  | zero =>
    unfold plus addAssign
    rw [goto_ok (by simpa using h0) (by simpa using h)]
    cases a
    simp [incrN]
  | succ n ih =>
    have hm : (n : Int) * a.chunk ≥ 0 := Int.mul_nonneg (by omega) hc
    have he : ((n + 1 : Nat) : Int) * a.chunk = n * a.chunk + a.chunk := by push_cast; rw [Int.add_mul, Int.one_mul]
    rw [he] at h
    unfold plus addAssign
    rw [goto_ok (by rw [he]; omega) (by rw [he]; omega), pure_bind]
    simp only [incrN]
    unfold incr
    rw [goto_ok (by omega) (by omega), pure_bind, pure_bind]
    rw [← ih ⟨a.pos + a.chunk, a.chunk⟩ hc (by dsimp only; omega) (by dsimp only; omega)]
    unfold plus addAssign
    dsimp only
    rw [goto_ok (by omega) (by omega), pure_bind, he]
    congr 2
    omega

example : plus 12 ⟨0, 4⟩ 3 = pure ⟨12, 4⟩ ∧ incrN 12 3 ⟨0, 4⟩ = pure ⟨12, 4⟩ := by decide +kernel

/-- C125, `++` and `--` undo each other while the iterator stays inside the block. -/
theorem C125_undo_partial (len : Nat) (a : It) (h0 : 0 ≤ a.pos) (hl : a.pos ≤ len) (b : It) (h : incr len a = pure b) :
    decr len b = pure a := by
  unfold incr at h
  obtain ⟨q, hq, h⟩ := bind_eq_pure.1 h
  obtain ⟨rfl, -, -⟩ := goto_eq hq
  rw [pure_inj] at h
  rw [← h]
  unfold decr
  dsimp only
  rw [show a.pos + a.chunk - a.chunk = a.pos by omega, goto_ok h0 hl]
  rfl

example : incr 12 ⟨4, 4⟩ = pure ⟨8, 4⟩ ∧ decr 12 ⟨8, 4⟩ = pure ⟨4, 4⟩ := by decide +kernel

/-- C125 fails for `-=` and `it - n`, which move forward: they are `+=` and `it + n`. -/
theorem C125_minus_violated (len : Nat) (a : It) (n : Int) : minus len a n = plus len a n := rfl

/-- C125 fails: taking one back from the second chunk does not give the first one, and the last chunk has no predecessor. -/
theorem C125_minus_case_violated : minus 12 ⟨4, 4⟩ 1 = pure ⟨8, 4⟩ ∧ decr 12 ⟨4, 4⟩ = pure ⟨0, 4⟩ ∧
    minus 12 ⟨12, 4⟩ 1 = ub ∧ decr 12 ⟨12, 4⟩ = pure ⟨8, 4⟩ := by decide +kernel

/-- C125 fails for distances, which count elements and not chunks: `( it + n ) - it` is `n` times the size of a chunk, so it
is `n` only for chunks of one element. -/
theorem C125_distance_violated (len : Nat) (a b : It) (n : Int) (h : plus len a n = pure b) :
    diff b a = n * a.chunk ∧ (n ≠ 0 → (diff b a = n ↔ a.chunk = 1)) := by
  unfold plus addAssign at h
  obtain ⟨q, hq, h⟩ := bind_eq_pure.1 h
  obtain ⟨rfl, -, -⟩ := goto_eq hq
  rw [pure_inj] at h
  rw [← h]
  unfold diff
  dsimp only
  have e : a.pos + n * a.chunk - a.pos = n * a.chunk := by omega
  rw [e]
  refine ⟨rfl, fun hn => ⟨fun hh => ?_, fun hh => by rw [hh, Int.mul_one]⟩⟩
  exact Int.eq_of_mul_eq_mul_left hn (by omega)

example : plus 12 ⟨0, 4⟩ 3 = pure ⟨12, 4⟩ ∧ diff ⟨12, 4⟩ ⟨0, 4⟩ = 12 := by decide +kernel

end Chunk

/-! ### Model of `repeat_n_char_iterator` -/

namespace Repeat

/-- `m_value` and `m_position`, daw_repeat_n_char_iterator.h 17-34: the position is the number of characters to come. -/
structure It (α : Type) where
  value : α
  pos : Int
  deriving DecidableEq, Repr

variable {α : Type}

/-- `operator*`, daw_repeat_n_char_iterator.h 36-38. -/
def deref (a : It α) : α := a.value

/-- `operator++`, daw_repeat_n_char_iterator.h 44-47. -/
def incr (a : It α) : It α := { a with pos := a.pos - 1 }

/-- `operator--`, daw_repeat_n_char_iterator.h 55-58. -/
def decr (a : It α) : It α := { a with pos := a.pos + 1 }

/-- `equal`, daw_repeat_n_char_iterator.h 70-72. -/
def equal (a b : It α) : Bool := decide (a.pos = b.pos)

/-- `operator+=`, daw_repeat_n_char_iterator.h 74-77, and `operator+`, 84-88. -/
def plus (a : It α) (p : Int) : It α := { a with pos := a.pos + p }

/-- `operator-=`, daw_repeat_n_char_iterator.h 79-82, and `operator-`, 90-94. -/
def minus (a : It α) (p : Int) : It α := { a with pos := a.pos - p }

/-- `operator-( repeat_n_char_iterator const & )`, daw_repeat_n_char_iterator.h 96-99. -/
def diff (a b : It α) : Int := b.pos - a.pos

/-- `repeat_n_char_end`, daw_repeat_n_char_iterator.h 104-107. -/
def endIt (zero : α) : It α := ⟨zero, 0⟩

/-- `for( ; it != last; ++it )` with `operator!=`, daw_repeat_n_char_iterator.h 117-123: what the body sees. -/
def visit (a last : It α) : Cxx (List α) := do
  if !equal a last then
    let rest ← visit (incr a) last
    pure (deref a :: rest)
  else pure []
partial_fixpoint

/-- `n` increments. (Specification, no line of the source.) -/
def incrN : Nat → It α → It α
  | 0, a => a
  | n + 1, a => incrN n (incr a)

theorem incrN_eq (n : Nat) (a : It α) : incrN n a = ⟨a.value, a.pos - n⟩ := by
  induction n generalizing a with
  | zero => cases a; simp [incrN]
  | succ n ih => simp only [incrN]; rw [ih]; simp only [incr]; congr 1; push_cast; omega

/-- C126: `repeat_n_char_iterator( n, c )` up to `repeat_n_char_end( )` is exactly `n` times `c`, for every `n`. -/
theorem C126_visits_partial (n : Nat) (c zero : α) : visit ⟨c, n⟩ (endIt zero) = pure (List.replicate n c) := by
  induction n with
  | zero => rw [visit]; rfl
  | succ n ih =>
    rw [visit]
    rw [show (!equal (⟨c, ((n + 1 : Nat) : Int)⟩ : It α) (endIt zero)) = true by
      
      have : ¬ ((n + 1 : Nat) : Int) = 0 := by omega
      exact congrArg (!·) (decide_eq_false this)]
    simp only [if_true]
    rw [show incr (⟨c, ((n + 1 : Nat) : Int)⟩ : It α) = ⟨c, (n : Int)⟩ by simp only [incr]; congr 1; push_cast; omega, ih]
    rfl

/-- C126, distances: the iterator after `n` increments is `n` away. -/
theorem C126_distance_partial (n : Nat) (a : It α) : diff (incrN n a) a = n := by
  rw [incrN_eq]; unfold diff; dsimp only; omega

/-- C126: `++` and `--` undo each other. -/
theorem C126_undo_partial (a : It α) : decr (incr a) = a ∧ incr (decr a) = a := by
  unfold decr incr
  cases a
  constructor <;> (dsimp only; congr 1; omega)

/-- C126 fails for `+` and `-`, which move the wrong way: `it + n` is not what `n` increments give, `it - n` is, and
`( it + p ) - it` is `-p`. -/
theorem C126_plus_violated (n : Nat) (hn : n ≠ 0) (a : It α) (p : Int) :
    plus a n ≠ incrN n a ∧ minus a n = incrN n a ∧ diff (plus a p) a = -p := by
  rw [incrN_eq]
  refine ⟨?_, rfl, ?_⟩
  · unfold plus
    intro h
    injection h with h1 h2
    omega
  · unfold diff plus
    dsimp only
    omega

example : plus (⟨'a', 5⟩ : It Char) 2 = ⟨'a', 7⟩ ∧ incrN 2 (⟨'a', 5⟩ : It Char) = ⟨'a', 3⟩ := by decide

/-- C126 fails for a loop that skips with `+=`: after skipping two of five characters seven are left. -/
theorem C126_skip_violated (c zero : α) : visit (plus ⟨c, 5⟩ 2) (endIt zero) = pure (List.replicate 7 c) :=
  C126_visits_partial 7 c zero

end Repeat

end Verif.Iter
