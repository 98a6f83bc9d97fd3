import Verif.Base
import Verif.Containers.Lists
import Verif.Bits.IntCmp

/-
Moving iterators and measuring their distance, include/daw/cpp_17_iterator.h, ranges of integers, include/daw/iterator/daw_integer_iterator.h, and
vectors of references, include/daw/daw_reference.h.

Iterators into a sequence of `len` elements are their positions from 0 to `len`.
-/

namespace Verif.Iter.Cpp17
open Verif Verif.Cxx Verif.Bits

/-! ## Moving and measuring -/

/-- The categories of iterators. (Rule of C++ or its library, no line of the source.) -/
inductive Category
  | input | output | forward | bidirectional | random
  deriving DecidableEq

/-- `++first`, undefined at the end. (Rule of C++ or its library, no line of the source.) -/
def inc (len p : Nat) : Cxx Nat := if p < len then pure (p + 1) else ub

/-- `--first`, undefined at the beginning. (Rule of C++ or its library, no line of the source.) -/
def dec (p : Nat) : Cxx Nat := if 0 < p then pure (p - 1) else ub

/-- The smallest `ptrdiff_t`. (Rule of C++ or its library, no line of the source.) -/
def ptrMin : Int := -2 ^ 63

/-- `while( n-- > 0 ) { ++first; }`, cpp_17_iterator.h 43-45, 53-55 and 66-68.  Decrementing the smallest `ptrdiff_t` is undefined. -/
def loopUp (len : Nat) (n : Int) (p : Nat) : Cxx Nat :=
  if n = ptrMin then ub
  else if 0 < n then do
    let p' ← inc len p
    loopUp len (n - 1) p'
  else pure p
termination_by n.toNat

/-- `while( ++n < 0 ) { --first; }`, cpp_17_iterator.h 70-72. -/
def loopDown (n : Int) (p : Nat) : Cxx Nat :=
  if n + 1 < 0 then do
    let p' ← dec p
    loopDown (n + 1) p'
  else pure p
termination_by (-n).toNat

/-- `cpp_17_details::advance`, cpp_17_iterator.h 38-84.  A forward iterator is taken by the overload for input iterators. -/
def advanceImpl (c : Category) (len : Nat) (p : Nat) (n : Int) : Cxx Nat :=
  match c with
  | .input | .output | .forward => loopUp len n p
  | .bidirectional => if 0 ≤ n then loopUp len n p else loopDown n p
  | .random => if 0 ≤ (p : Int) + n ∧ (p : Int) + n ≤ len then pure ((p : Int) + n).toNat else ub

/-- `static_cast<ptrdiff_t>( n )`, cpp_17_iterator.h 113. -/
def toPtrdiff (n : Int) : Int := n.bmod (2 ^ 64)

/-- `advance`, cpp_17_iterator.h 110-115. -/
def advance (c : Category) (len : Nat) (p : Nat) (n : Int) : Cxx Nat := advanceImpl c len p (toPtrdiff n)

/-- `next`, cpp_17_iterator.h 123-130. -/
def next (c : Category) (len : Nat) (p : Nat) (n : Int) : Cxx Nat := advanceImpl c len p n

/-- `prev`, cpp_17_iterator.h 138-145.  The negation of the smallest `ptrdiff_t` is undefined. -/
def prev (c : Category) (len : Nat) (p : Nat) (n : Int) : Cxx Nat := if n = ptrMin then ub else advanceImpl c len p (-n)

/-- The loop of `distance_impl`, cpp_17_iterator.h 22-27, for iterators that are not random access iterators. -/
def distanceLoop (len last : Nat) (first : Nat) (count : Int) : Cxx Int :=
  if first ≠ last then
    if first < len then distanceLoop len last (first + 1) (count + 1) else ub
  else pure count
termination_by len - first

/-- `distance`, cpp_17_iterator.h 17-37 and 94-103. -/
def distance (c : Category) (len first last : Nat) : Cxx Int :=
  match c with
  | .random => pure ((last : Int) - first)
  | _ => distanceLoop len last first 0

/-! ### Proofs -/

theorem loopUp_nat (len n p : Nat) : loopUp len n p = if p + n ≤ len ∨ n = 0 then pure (p + n) else ub := by
  induction n generalizing p with
  | zero =>
    rw [loopUp, if_neg (by unfold ptrMin; omega), if_neg (by omega)]
    simp
  | succ n ih =>
    rw [loopUp, if_neg (by unfold ptrMin; omega), if_pos (by omega)]
    have he : ((n + 1 : Nat) : Int) - 1 = n := by omega
    rw [he]
    unfold inc
    by_cases hp : p < len
    · rw [if_pos hp, pure_bind, ih]
      by_cases h : p + (n + 1) ≤ len
      · rw [if_pos (.inl (by omega)), if_pos (.inl h)]
        congr 1
        omega
      · rw [if_neg (by omega), if_neg (by omega)]
    · rw [if_neg hp, ub_bind, if_neg (by omega)]

theorem loopDown_neg (n p : Nat) : loopDown (-((n : Int) + 1)) p = if n ≤ p then pure (p - n) else ub := by
  induction n generalizing p with
  | zero =>
    rw [loopDown, if_neg (by omega)]
    simp
  | succ n ih =>
    rw [loopDown, if_pos (by omega)]
    have he : -(((n + 1 : Nat) : Int) + 1) + 1 = -((n : Int) + 1) := by omega
    rw [he]
    unfold dec
    by_cases hp : 0 < p
    · rw [if_pos hp, pure_bind, ih]
      by_cases h : n + 1 ≤ p
      · rw [if_pos (by omega), if_pos h]
        congr 1
        omega
      · rw [if_neg (by omega), if_neg h]
    · rw [if_neg hp, ub_bind, if_neg (by omega)]

theorem distanceLoop_up (len last first : Nat) (count : Int) (hl : last ≤ len) (hf : first ≤ len) :
    distanceLoop len last first count = if first ≤ last then pure (count + ((last : Int) - first)) else ub := by
  induction hk : len - first generalizing first count with
  | zero =>
    rw [distanceLoop]
    by_cases h : first = last
    · rw [if_neg (by simp [h]), if_pos (by omega)]
      congr 1
      omega
    · rw [if_pos h, if_neg (by omega), if_neg (by omega)]
  | succ k ih =>
    rw [distanceLoop]
    by_cases h : first = last
    · rw [if_neg (by simp [h]), if_pos (by omega)]
      congr 1
      omega
    · rw [if_pos h, if_pos (by omega), ih (first + 1) (count + 1) (by omega) (by omega)]
      by_cases h2 : first ≤ last
      · rw [if_pos (by omega), if_pos h2]
        congr 1
        omega
      · rw [if_neg (by omega), if_neg h2]

/-- **C304.**  Moving forward by `n` goes `n` elements on with iterators of every category, and is undefined exactly if this leaves the sequence. -/
theorem C304_forward (c : Category) (len p n : Nat) (hp : p ≤ len) (hn : n < 2 ^ 63) :
    next c len p n = (if p + n ≤ len then pure (p + n) else ub) ∧ advance c len p n = next c len p n := by
  have hb : toPtrdiff n = n := by
    unfold toPtrdiff
    rw [Int.bmod_eq_of_le (by omega) (by omega)]
  constructor
  · have hu : loopUp len n p = if p + n ≤ len then pure (p + n) else ub := by
      rw [loopUp_nat]
      by_cases h : p + n ≤ len
      · rw [if_pos (.inl h), if_pos h]
      · rw [if_neg (by omega), if_neg h]
    cases c <;> simp only [next, advanceImpl, hu]
    · rw [if_pos (by omega)]
    · by_cases h : p + n ≤ len
      · rw [if_pos (by omega), if_pos h]
        congr 1
      · rw [if_neg (by omega), if_neg h]
  · unfold advance next
    rw [hb]

example : next .forward 5 1 3 = pure 4 ∧ next .random 5 1 7 = ub := by
  constructor
  · have := (C304_forward .forward 5 1 3 (by omega) (by omega)).1
    simpa using this
  · have := (C304_forward .random 5 1 7 (by omega) (by omega)).1
    simpa using this

/-- **C304.**  Moving back by `n` goes `n` elements back with random access iterators, and is undefined exactly if this leaves the sequence.  Missing:
bidirectional iterators, for which it is false. -/
theorem C304_backward_partial (len p n : Nat) (hp : p ≤ len) (hn : n < 2 ^ 63) :
    prev .random len p n = (if n ≤ p then pure (p - n) else ub) ∧ next .random len p (-n) = prev .random len p n ∧
      advance .random len p (-n) = prev .random len p n := by
  have hb : toPtrdiff (-(n : Int)) = -n := by
    unfold toPtrdiff
    rw [Int.bmod_eq_of_le (by omega) (by omega)]
  unfold advance next prev
  rw [hb, if_neg (by unfold ptrMin; omega)]
  refine ⟨?_, rfl, rfl⟩
  simp only [advanceImpl]
  by_cases h : n ≤ p
  · rw [if_pos (by omega), if_pos h]
    congr 1
    omega
  · rw [if_neg (by omega), if_neg h]

example : prev .random 5 3 2 = pure 1 := by
  have := (C304_backward_partial 5 3 2 (by omega) (by omega)).1
  simpa using this

/-- **C304** (finding).  With bidirectional iterators moving back by `n` goes only `n` - 1 elements back: `prev( it )` is `it`, `prev( it, n )` is one
element further on than it should be, and going back by one from the beginning is not even undefined. -/
theorem C304_prev_violated (len p n : Nat) (hn : 0 < n) (hn' : n < 2 ^ 63) :
    prev .bidirectional len p n = (if n - 1 ≤ p then pure (p - (n - 1)) else ub) ∧
    next .bidirectional len p (-n) = prev .bidirectional len p n ∧ advance .bidirectional len p (-n) = prev .bidirectional len p n ∧
    prev .bidirectional len p 1 = pure p := by
  have hb : toPtrdiff (-(n : Int)) = -n := by
    unfold toPtrdiff
    rw [Int.bmod_eq_of_le (by omega) (by omega)]
  have key : ∀ k : Nat, 0 < k → k < 2 ^ 63 → prev .bidirectional len p k = if k - 1 ≤ p then pure (p - (k - 1)) else ub := by
    intro k hk hk'
    obtain ⟨j, rfl⟩ : ∃ j, k = j + 1 := ⟨k - 1, by omega⟩
    unfold prev
    rw [if_neg (by unfold ptrMin; omega)]
    simp only [advanceImpl]
    rw [if_neg (by omega)]
    exact loopDown_neg j p
  refine ⟨key n hn hn', ?_, ?_, ?_⟩
  · unfold next prev
    rw [if_neg (by unfold ptrMin; omega)]
  · unfold advance prev
    rw [if_neg (by unfold ptrMin; omega), hb]
  · simpa using key 1 (by omega) (by omega)

example : prev .bidirectional 5 3 2 = pure 2 := by
  have := (C304_prev_violated 5 3 2 (by omega) (by omega)).1
  simpa using this

/-- **C304.**  The distance is the number of elements between two iterators of every category; if the second comes first, it is negative for random access
iterators and undefined for others. -/
theorem C304_distance (c : Category) (len first last : Nat) (hf : first ≤ len) (hl : last ≤ len) :
    distance c len first last = if first ≤ last ∨ c = .random then pure ((last : Int) - first) else ub := by
  cases c <;> simp only [distance, distanceLoop_up len last first 0 hl hf, reduceCtorEq, or_false, or_true, if_true, Int.zero_add]

/-- **C304.**  Moving forward by the distance reaches the second iterator. -/
theorem C304_round_trip (c : Category) (len first last : Nat) (hl : last ≤ len) (hf : first ≤ last) (hs : len < 2 ^ 63) :
    (do let n ← distance c len first last; next c len first n) = pure last := by
  rw [C304_distance c len first last (by omega) hl, if_pos (.inl hf), pure_bind]
  have := (C304_forward c len first (last - first) (by omega) (by omega)).1
  rw [if_pos (by omega)] at this
  have he : (last : Int) - first = ((last - first : Nat) : Int) := by omega
  rw [he, this]
  congr 1
  omega

example : (do let n ← distance .bidirectional 9 2 7; next .bidirectional 9 2 n) = pure 7 :=
  C304_round_trip .bidirectional 9 2 7 (by omega) (by omega) (by omega)

/-- **C304.**  Iterators that cannot go back stay where they are when moved by a negative number. -/
theorem C304_negative (c : Category) (hc : c = .input ∨ c = .output ∨ c = .forward) (len p : Nat) (n : Int) (hn : n < 0) (hm : n ≠ -2 ^ 63) :
    next c len p n = pure p := by
  have hu : loopUp len n p = pure p := by rw [loopUp, if_neg (show ¬n = ptrMin from hm), if_neg (by omega)]
  rcases hc with rfl | rfl | rfl <;> simp only [next, advanceImpl, hu]

example := C304_negative .forward (.inr (.inr rfl)) 5 3 (-2) (by decide) (by decide)

/-- C304, found: moving by the smallest `ptrdiff_t` is undefined: `prev` of all iterators, and `next` of those that cannot go back. -/
theorem C304_smallest_finding (c : Category) (len p : Nat) :
    prev c len p (-2 ^ 63) = ub ∧ (c = .input ∨ c = .output ∨ c = .forward → next c len p (-2 ^ 63) = ub) := by
  refine ⟨by unfold prev; rw [if_pos (show (-2 ^ 63 : Int) = ptrMin from rfl)], fun hc => ?_⟩
  have hu : loopUp len (-2 ^ 63) p = ub := by rw [loopUp, if_pos (show (-2 ^ 63 : Int) = ptrMin from rfl)]
  rcases hc with rfl | rfl | rfl <;> simp only [next, advanceImpl, hu]

example := (C304_smallest_finding .forward 5 3).2 (.inr (.inr rfl))

/-! ## Ranges of integers -/

/-- `++current_value`, daw_integer_iterator.h 38: narrow types are computed as `int` and converted back; the overflow of a signed type is undefined. -/
def succ (t : IntTy) (x : Int) : Cxx Int := if t.promote.signed = true ∧ t.promote.max < x + 1 then ub else pure (t.conv (x + 1))

/-- A loop over an `integer_range`, daw_integer_iterator.h 33-40, 54-58 and 66-76, from `x` on: the values visited. -/
def visit (t : IntTy) (last x : Int) (seen : List Int) : Cxx (List Int) :=
  if x ≠ last then do
    let x' ← succ t x
    visit t last x' (seen ++ [x])
  else pure seen
partial_fixpoint

/-- The numbers from `a` to before `b`. (Specification, no line of the source.) -/
def between (a b : Int) : List Int := (List.range (b - a).toNat).map fun i : Nat => a + i

theorem between_nil (a : Int) : between a a = [] := by simp [between]

theorem between_cons {a b : Int} (h : a < b) : between a b = a :: between (a + 1) b := by
  unfold between
  have : (b - a).toNat = (b - (a + 1)).toNat + 1 := by omega
  rw [this, List.range_succ_eq_map]
  simp only [List.map_cons, List.map_map, List.cons.injEq]
  refine ⟨by simp, List.map_congr_left fun i _ => ?_⟩
  simp only [Function.comp_apply]
  omega

theorem has_mid {t : IntTy} {a b x : Int} (ha : t.Has a) (hb : t.Has b) (h1 : a ≤ x) (h2 : x ≤ b) : t.Has x :=
  ⟨by have := ha.1; omega, by have := hb.2; omega⟩

theorem succ_has {t : IntTy} {x : Int} (h : t.Has (x + 1)) : succ t x = pure (x + 1) := by
  unfold succ
  rw [if_neg, IntTy.conv_of_has h]
  rintro ⟨_, h2⟩
  have := h.promote.2
  omega

/-- Counting up to a value of the type that is not smaller. -/
theorem visit_up (t : IntTy) (last mid : Int) (k : Nat) (x : Int) (seen : List Int) (hm : t.Has mid) (hx : t.Has x) (hk : mid = x + k)
    (hn : ∀ y, x ≤ y → y < mid → y ≠ last) : visit t last x seen = visit t last mid (seen ++ between x mid) := by
  induction k generalizing x seen with
  | zero =>
    obtain rfl : mid = x := by simpa using hk
    simp [between_nil]
  | succ k ih =>
    rw [visit, if_pos (hn x (by omega) (by omega)), succ_has (has_mid hx hm (by omega) (by omega)), pure_bind,
      ih (x + 1) (seen ++ [x]) (has_mid hx hm (by omega) (by omega)) (by omega) (fun y h1 h2 => hn y (by omega) h2),
      between_cons (a := x) (by omega)]
    simp

/-- **C305.**  A range from `f` to `l` visits `f`, `f` + 1, ..., `l` - 1 in this order, for every integer type and also up to its largest value.  Missing:
ranges whose end comes before the beginning, for which there is no such statement. -/
theorem C305_range_partial (t : IntTy) (f l : Int) (hf : t.Has f) (hl : t.Has l) (h : f ≤ l) : visit t l f [] = pure (between f l) := by
  rw [visit_up t l l (l - f).toNat f [] hl hf (by omega) (fun y _ h2 => by omega), visit, if_neg (by simp)]
  simp

example : visit .int 3 (-2) [] = pure [-2, -1, 0, 1, 2] := by
  rw [C305_range_partial .int (-2) 3 (by decide) (by decide) (by decide)]
  rfl

/-- **C305** (finding).  With the end before the beginning the range is not empty: signed types at least as wide as `int` overflow, which is undefined. -/
theorem C305_overflow_violated (t : IntTy) (f l : Int) (hs : t.signed = true) (hb : 32 ≤ t.bits) (hf : t.Has f) (h : l < f) :
    visit t l f [] = ub := by
  rw [visit_up t l t.max (t.max - f).toNat f [] t.has_max hf (by have := hf.2; omega) (fun y h1 h2 => by omega), visit,
    if_pos (by have := hf.2; omega)]
  have hp : t.promote = t := by unfold IntTy.promote; rw [if_neg (by omega)]
  unfold succ
  rw [if_pos (by rw [hp]; exact ⟨hs, by omega⟩), ub_bind]

example : visit .int 0 1 [] = ub := C305_overflow_violated .int 1 0 rfl (by decide) (by decide) (by decide)

theorem conv_wrap (t : IntTy) (h0 : 0 < t.bits) : t.conv (t.max + 1) = t.lowest := by
  unfold IntTy.conv IntTy.max IntTy.lowest
  cases t.signed with
  | true =>
    simp only [if_true]
    have h2 := two_pow_pred h0
    have hpos := two_pow_pos (t.bits - 1)
    have e : (2 : Int) ^ (t.bits - 1) - 1 + 1 = 2 ^ (t.bits - 1) := by omega
    rw [e]
    have hn : ((2 ^ t.bits : Nat) : Int) = 2 * 2 ^ (t.bits - 1) := by
      rw [← h2]; push_cast; rfl
    have h3 : Int.bmod (2 ^ (t.bits - 1)) (2 ^ t.bits) = Int.bmod (2 ^ (t.bits - 1) - ((2 ^ t.bits : Nat) : Int)) (2 ^ t.bits) := by
      rw [Int.sub_bmod_right]
    rw [h3, hn]
    have e2 : (2 : Int) ^ (t.bits - 1) - 2 * 2 ^ (t.bits - 1) = -2 ^ (t.bits - 1) := by omega
    rw [e2]
    apply Int.bmod_eq_of_le
    · rw [hn]; omega
    · rw [hn]; omega
  | false =>
    simp

/-- **C305** (finding).  With the end before the beginning, types without sign and narrow ones wrap: every value of the type outside the two ends is visited. -/
theorem C305_wraps_violated (t : IntTy) (f l : Int) (hs : t.signed = false ∧ 32 ≤ t.bits ∨ t.bits ≤ 16) (hf : t.Has f) (hl : t.Has l) (h : l < f) :
    visit t l f [] = pure (between f t.max ++ t.max :: between t.lowest l) := by
  rw [visit_up t l t.max (t.max - f).toNat f [] t.has_max hf (by have := hf.2; omega) (fun y h1 h2 => by omega), visit,
    if_pos (by have := hf.2; omega)]
  have hsucc : succ t t.max = pure t.lowest := by
    unfold succ
    rw [if_neg, conv_wrap t t.pos]
    rintro ⟨h1, h2⟩
    rcases hs with ⟨hu, hb⟩ | hb
    · have hp : t.promote = t := by unfold IntTy.promote; rw [if_neg (by omega)]
      rw [hp, hu] at h1
      cases h1
    · have hp : t.promote = .int := by unfold IntTy.promote; rw [if_pos (by omega)]
      rw [hp] at h2
      have h3 : t.max + 1 ≤ 2 ^ 16 := by
        unfold IntTy.max
        have h4 := two_pow_le hb
        have h5 := two_pow_le (show t.bits - 1 ≤ 16 by omega)
        split <;> omega
      have h6 : IntTy.int.max = 2147483647 := by decide
      omega
  rw [hsucc, pure_bind, visit_up t l l (l - t.lowest).toNat t.lowest _ hl t.has_lowest (by have := hl.1; omega) (fun y _ h2 => by omega), visit,
    if_neg (by simp)]
  simp

example : visit ⟨8, false, by decide⟩ 1 254 [] = pure [254, 255, 0] := by
  rw [C305_wraps_violated ⟨8, false, by decide⟩ 254 1 (.inr (by decide)) (by decide) (by decide) (by decide)]
  rfl

/-! ## Vectors of references -/

/-- `to_reference_vector`, daw_reference.h 80-90, of the elements from `first` to before `last`: the addresses of the references.  `room` is the number of
references for which there is memory, with more `push_back` throws. -/
def toReferenceVector (room first last : Nat) (result : List Nat) : Cxx (List Nat) :=
  if first ≠ last then
    if result.length < room then toReferenceVector room first last (result ++ [first]) else thrown
  else pure result
termination_by room - result.length

/-- The comparisons `==`, `!=`, `<`, `<=`, `>`, `>=` of two references, daw_reference.h 40-68, on the values at two addresses. -/
def compare {T : Type} (mem : List T) (op : T → T → Bool) (a b : Nat) : Cxx Bool := do
  let x ← rd mem a
  let y ← rd mem b
  pure (op x y)

theorem toReferenceVector_throws (room first last : Nat) (h : first ≠ last) (result : List Nat) : toReferenceVector room first last result = thrown := by
  induction hk : room - result.length generalizing result with
  | zero => rw [toReferenceVector, if_pos h, if_neg (by omega)]
  | succ k ih => rw [toReferenceVector, if_pos h, if_pos (by omega), ih (result ++ [first]) (by simp; omega)]

/-- **C306** (finding).  The loop never moves on: for every sequence that is not empty no vector is ever returned, references to the first element are added until
there is no memory left. -/
theorem C306_endless_violated (room first last : Nat) (h : first < last) : toReferenceVector room first last [] = thrown :=
  toReferenceVector_throws room first last (by omega) []

example : toReferenceVector 100 2 5 [] = thrown := C306_endless_violated 100 2 5 (by decide)

/-- **C306.**  An empty sequence gives an empty vector.  Missing: other sequences, for which it is false that the vector has a reference to each element. -/
theorem C306_empty_partial (room first : Nat) : toReferenceVector room first first [] = pure [] := by
  rw [toReferenceVector, if_neg (by simp)]

/-- **C306.**  References compare as what they refer to, in every order and wherever the elements are; two references to equal elements are equal. -/
theorem C306_compare {T : Type} (mem : List T) (op : T → T → Bool) (a b : Nat) (ha : a < mem.length) (hb : b < mem.length) :
    compare mem op a b = pure (op mem[a] mem[b]) := by
  unfold compare
  rw [rd_eq ha, rd_eq hb]
  rfl

example : compare [3, 5, 3] (fun x y : Nat => x == y) 0 2 = pure true := C306_compare _ _ 0 2 (by decide) (by decide)

end Verif.Iter.Cpp17
