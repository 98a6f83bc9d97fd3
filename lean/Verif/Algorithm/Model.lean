import Verif.Base

/-
Model of `/repo/include/daw/daw_algorithm.h` and
`/repo/include/daw/algorithms/daw_algorithm_find.h`.

A range is a `List α` (the block the iterators point into) and two indices
`first`, `last`; `*it` is `rd xs it`, which is undefined behaviour outside the
block.  `while( first != last )` loops are recursive functions with
`partial_fixpoint`; when `first > last` (an invalid C++ range) they run into
undefined behaviour or diverge, as the C++ does.
Simplification (all definitions): iterator traits checks and `noexcept`
specifications are dropped; element copies do not throw.
-/

namespace Verif.Algorithm
open Cxx

variable {α β : Type}

/-! ### Bounded iterator movement (daw_algorithm.h 103-129, 181-226) -/

/-- `PTRDIFF_MAX` on a 64-bit target. (Rule of C++ or its library, no line of the source.) -/
def ptrdiffMax : Int := 2 ^ 63 - 1

/-- `static_cast<ptrdiff_t>( n )` of a `size_t` (two's complement, daw_algorithm.h 187, 205, 224). -/
def toPtrdiff (n : Nat) : Int := if (n : Int) ≤ ptrdiffMax then n else (n : Int) - 2 ^ 64

/-- `safe_advance_impl` for random access iterators, daw_algorithm.h 103-129.
Iterators are integers so that every ordering of the three can be expressed.
`dist = -dist` (line 117) overflows for `PTRDIFF_MIN`: undefined behaviour. -/
def safeAdvanceRA (first it last dist : Int) : Cxx Int :=
  if dist < 0 then
    let distToFirst := it - first
    if distToFirst < 0 then pure first
    else if dist = -ptrdiffMax - 1 then ub
    else pure (it - min distToFirst (-dist))
  else
    let distToLast := last - it
    if distToLast < 0 then pure last
    else pure (it + min distToLast dist)

/-- `safe_advance_impl` for other iterators, first loop, daw_algorithm.h 97. -/
def safeAdvanceFwd (it last : Int) (dist : Int) : Cxx (Int × Int) :=
  if it ≠ last ∧ dist > 0 then safeAdvanceFwd (it + 1) last (dist - 1) else pure (it, dist)
partial_fixpoint

/-- `safe_advance_impl` for other iterators, second loop, daw_algorithm.h 100. -/
def safeAdvanceBwd (it first : Int) (dist : Int) : Cxx Int :=
  if it ≠ first ∧ dist < 0 then safeAdvanceBwd (it - 1) first (dist + 1) else pure it
partial_fixpoint

/-- `safe_advance_impl` for non random access iterators, daw_algorithm.h 88-101. -/
def safeAdvanceSeq (first it last dist : Int) : Cxx Int := do
  let (it, dist) ← safeAdvanceFwd it last dist
  safeAdvanceBwd it first dist

/-- `safe_next`, daw_algorithm.h 181-190: `first` is the iterator itself. -/
def safeNext (it last : Int) (n : Nat) : Cxx Int := safeAdvanceRA it it last (toPtrdiff n)

/-- `safe_prev`, daw_algorithm.h 199-208: `last` is the iterator itself; `-d`
overflows for `PTRDIFF_MIN`. -/
def safePrev (it first : Int) (n : Nat) : Cxx Int :=
  let d := toPtrdiff n
  if d = -ptrdiffMax - 1 then ub else safeAdvanceRA first it it (-d)

/-- `begin_at`, daw_algorithm.h 216-226 with `safe_advance` 139-151, on a container
of `size` elements. -/
def beginAt (size : Nat) (n : Nat) : Cxx Int := safeAdvanceRA 0 0 size (toPtrdiff n)

/-! ### Binary searches -/

/-- `lower_bound`, daw_algorithm.h 288-307.  `fuelled` argument `k` is a ghost counter of the
calls of `cmp`, returned next to the position. -/
def lowerBound (cmp : α → β → Bool) (xs : List α) (v : β) (first last : Nat) (k : Nat := 0) :
    Cxx (Nat × Nat) :=
  if first ≠ last then do
    let mid := first + (last - first) / 2
    let x ← rd xs mid
    if cmp x v then lowerBound cmp xs v (mid + 1) last (k + 1)
    else lowerBound cmp xs v first mid (k + 1)
  else pure (first, k)
partial_fixpoint

/-- Loop of `upper_bound`, daw_algorithm.h 1346-1359; `k` counts the calls of `comp`. -/
def upperBoundLoop (comp : β → α → Bool) (xs : List α) (v : β) (first count : Nat) (k : Nat) :
    Cxx (Nat × Nat) :=
  if count > 0 then do
    let step := count / 2
    let it := first + step
    let x ← rd xs it
    if ¬ comp v x then upperBoundLoop comp xs v (it + 1) (count - (step + 1)) (k + 1)
    else upperBoundLoop comp xs v first step (k + 1)
  else pure (first, k)
partial_fixpoint

/-- `upper_bound`, daw_algorithm.h 1335-1360. -/
def upperBound (comp : β → α → Bool) (xs : List α) (v : β) (first last : Nat) : Cxx (Nat × Nat) :=
  upperBoundLoop comp xs v first (last - first) 0

/-- Loop of `binary_search`, daw_algorithm.h 353-364.  `last` is the end of the
original range.  The precondition check inside `midpoint` (279-282) holds because the
loop condition is `first < it_last`. -/
def binarySearchLoop (lt : α → α → Bool) (xs : List α) (v : α) (last : Nat) (first itLast : Nat) :
    Cxx Nat :=
  if first < itLast then do
    let mid := first + (itLast - first) / 2
    let x ← rd xs mid
    if lt x v then binarySearchLoop lt xs v last (mid + 1) itLast
    else if lt v x then binarySearchLoop lt xs v last first mid
    else pure mid
  else pure last
partial_fixpoint

/-- `binary_search`, daw_algorithm.h 338-365.  `precondition_check` with the default
exception type calls `std::abort` (daw_exception.h 271-281). -/
def binarySearch (lt : α → α → Bool) (xs : List α) (v : α) (first last : Nat) : Cxx Nat :=
  if first < last then binarySearchLoop lt xs v last first last else abort

/-! ### Linear searches -/

/-- `find_if`, algorithms/daw_algorithm_find.h 53-71. -/
def findIf (p : α → Bool) (xs : List α) (first last : Nat) : Cxx Nat :=
  if first ≠ last then do
    let x ← rd xs first
    if p x then pure first else findIf p xs (first + 1) last
  else pure last
partial_fixpoint

/-- `find`, daw_algorithm.h 309-320. -/
def find [BEq α] (xs : List α) (first last : Nat) (v : α) : Cxx Nat :=
  if first ≠ last then do
    let x ← rd xs first
    if x == v then pure first else find xs (first + 1) last v
  else pure last
partial_fixpoint

/-- `find_if_not`, daw_algorithm.h 322-336. -/
def findIfNot (p : α → Bool) (xs : List α) (first last : Nat) : Cxx Nat :=
  if first ≠ last then do
    let x ← rd xs first
    if ¬ p x then pure first else findIfNot p xs (first + 1) last
  else pure last
partial_fixpoint

/-- `all_of`, daw_algorithm.h 1924-1927. -/
def allOf (p : α → Bool) (xs : List α) (first last : Nat) : Cxx Bool := do
  return (← findIfNot p xs first last) == last

/-- `any_of`, daw_algorithm.h 1929-1932. -/
def anyOf (p : α → Bool) (xs : List α) (first last : Nat) : Cxx Bool := do
  return (← findIf p xs first last) != last

/-- `none_of`, daw_algorithm.h 1933-1936. -/
def noneOf (p : α → Bool) (xs : List α) (first last : Nat) : Cxx Bool := do
  return (← findIf p xs first last) == last

/-- `find_last_of`, daw_algorithm.h 543-560; `prev` starts as `last`. -/
def findLastOfLoop (p : α → Bool) (xs : List α) (last : Nat) (first prev : Nat) : Cxx Nat :=
  if first ≠ last then do
    let x ← rd xs first
    if ¬ p x then pure prev else findLastOfLoop p xs last (first + 1) first
  else pure prev
partial_fixpoint

/-- `find_last_of`, daw_algorithm.h 543-560. -/
def findLastOf (p : α → Bool) (xs : List α) (first last : Nat) : Cxx Nat :=
  findLastOfLoop p xs last first last

/-- `find_first_range_of`, daw_algorithm.h 562-574. -/
def findFirstRangeOf (p : α → Bool) (xs : List α) (first last : Nat) : Cxx (Nat × Nat) := do
  let first ← findIf p xs first last
  let second ← findLastOf p xs first last
  return (first, if second ≠ last then second + 1 else second)

/-- `count_if`, daw_algorithm.h 2013-2025 (`ResultType` large enough not to overflow). -/
def countIf (p : α → Bool) (xs : List α) (first last : Nat) (result : Nat := 0) : Cxx Nat :=
  if first ≠ last then do
    let x ← rd xs first
    countIf p xs (first + 1) last (if p x then result + 1 else result)
  else pure result
partial_fixpoint

/-- Inner loop of `search`, daw_algorithm.h 1593-1603: `some r` is `return r`,
`none` is `break`. -/
def searchInner (comp : α → β → Bool) (xs : List α) (ys : List β) (first last sLast : Nat)
    (it sIt : Nat) : Cxx (Option Nat) :=
  if sIt = sLast then pure (some first)
  else if it = last then pure (some last)
  else do
    let x ← rd xs it
    let y ← rd ys sIt
    if ¬ comp x y then pure none
    else searchInner comp xs ys first last sLast (it + 1) (sIt + 1)
partial_fixpoint

/-- `search`, daw_algorithm.h 1565-1605. -/
def search (comp : α → β → Bool) (xs : List α) (ys : List β) (first last sFirst sLast : Nat) :
    Cxx Nat := do
  match ← searchInner comp xs ys first last sLast first sFirst with
  | some r => pure r
  | none => search comp xs ys (first + 1) last sFirst sLast
partial_fixpoint

/-! ### Minimum and maximum -/

/-- Loop of `max_element`, daw_algorithm.h 1616-1621. -/
def maxElementLoop (lt : α → α → Bool) (xs : List α) (last : Nat) (first largest : Nat) : Cxx Nat :=
  if first ≠ last then do
    let l ← rd xs largest
    let x ← rd xs first
    maxElementLoop lt xs last (first + 1) (if lt l x then first else largest)
  else pure largest
partial_fixpoint

/-- `max_element`, daw_algorithm.h 1607-1623. -/
def maxElement (lt : α → α → Bool) (xs : List α) (first last : Nat) : Cxx Nat :=
  if first = last then pure last else maxElementLoop lt xs last (first + 1) first

/-- Loop of `minmax_element`, daw_algorithm.h 1675-1703. -/
def minmaxLoop (lt : α → α → Bool) (xs : List α) (last : Nat) (first mn mx : Nat) :
    Cxx (Nat × Nat) :=
  if first ≠ last then do
    let i := first
    let first := first + 1
    let xi ← rd xs i
    let xmn ← rd xs mn
    let xmx ← rd xs mx
    if first = last then
      if lt xi xmn then pure (i, mx)
      else if ¬ lt xi xmx then pure (mn, i)
      else pure (mn, mx)
    else do
      let xf ← rd xs first
      if lt xf xi then
        minmaxLoop lt xs last (first + 1) (if lt xf xmn then first else mn)
          (if ¬ lt xi xmx then i else mx)
      else
        minmaxLoop lt xs last (first + 1) (if lt xi xmn then i else mn)
          (if ¬ lt xf xmx then first else mx)
  else pure (mn, mx)
partial_fixpoint

/-- `minmax_element`, daw_algorithm.h 1646-1705. -/
def minmaxElement (lt : α → α → Bool) (xs : List α) (first last : Nat) : Cxx (Nat × Nat) :=
  if first = last then pure (first, first)
  else if first + 1 = last then pure (first, first)
  else do
    let x1 ← rd xs (first + 1)
    let x0 ← rd xs first
    if lt x1 x0 then minmaxLoop lt xs last (first + 2) (first + 1) first
    else minmaxLoop lt xs last (first + 2) first (first + 1)

/-! ### Comparisons of two ranges

Input ranges are traversed once from the front; the iterator pair `(first, last)` is the
list of the elements not yet consumed. -/

/-- `equal` with two end iterators, daw_algorithm.h 1229-1246. -/
def equal (comp : α → β → Bool) : List α → List β → Bool
  | x :: xs, y :: ys => if comp x y then equal comp xs ys else false
  | xs, ys => xs.isEmpty && ys.isEmpty

/-- `not_equal` with two end iterators, daw_algorithm.h 1261-1278; `comp` is by
default `std::not_equal_to`. -/
def notEqual (comp : α → β → Bool) : List α → List β → Bool
  | x :: xs, y :: ys => if comp x y then notEqual comp xs ys else false
  | xs, ys => xs.isEmpty && ys.isEmpty

/-- `equal` with one end iterator, daw_algorithm.h 1289-1301.  Reading past the second
range is undefined behaviour. -/
def equal3 [BEq α] : List α → List α → Cxx Bool
  | [], _ => pure true
  | _ :: _, [] => ub
  | x :: xs, y :: ys => if x == y then equal3 xs ys else pure false

/-- `not_equal` with one end iterator, daw_algorithm.h 1312-1324. -/
def notEqual3 [BEq α] : List α → List α → Cxx Bool
  | [], _ => pure true
  | _ :: _, [] => ub
  | x :: xs, y :: ys => if x != y then notEqual3 xs ys else pure false

/-- `lexicographical_compare`, daw_algorithm.h 895-922. -/
def lexCompare (lt : α → α → Bool) : List α → List α → Bool
  | x :: xs, y :: ys =>
    if lt x y then true else if lt y x then false else lexCompare lt xs ys
  | xs, ys => xs.isEmpty && !ys.isEmpty

/-- `compare_range`, daw_algorithm.h 924-956. -/
def compareRange (lt : α → β → Bool) (eq : α → β → Bool) : List α → List β → Int
  | x :: xs, y :: ys => if ¬ eq x y then (if lt x y then -1 else 1) else compareRange lt eq xs ys
  | xs, ys => if xs.isEmpty && ys.isEmpty then 0 else if xs.isEmpty then -1 else 1

/-- `set_intersection`, daw_algorithm.h 1707-1730; the result is what was written
through `d_first`. -/
def setIntersection (lt : α → α → Bool) : List α → List α → List α
  | x :: xs, y :: ys =>
    if lt x y then setIntersection lt xs (y :: ys)
    else if ¬ lt y x then x :: setIntersection lt xs ys
    else setIntersection lt (x :: xs) ys
  | _, _ => []
termination_by xs ys => xs.length + ys.length

/-! ### Sortedness -/

/-- Loop of `is_sorted_until`, daw_algorithm.h 1384-1391 (the overload at 1394-1414
has the same loop). -/
def isSortedUntilLoop (lt : α → α → Bool) (xs : List α) (last : Nat) (first next : Nat) : Cxx Nat :=
  if next ≠ last then do
    let n ← rd xs next
    let f ← rd xs first
    if lt n f then pure next else isSortedUntilLoop lt xs last next (next + 1)
  else pure last
partial_fixpoint

/-- `is_sorted_until`, daw_algorithm.h 1371-1392. -/
def isSortedUntil (lt : α → α → Bool) (xs : List α) (first last : Nat) : Cxx Nat :=
  if first = last then pure last else isSortedUntilLoop lt xs last first (first + 1)

/-- `is_sorted`, daw_algorithm.h 1416-1423. -/
def isSorted (lt : α → α → Bool) (xs : List α) (first last : Nat) : Cxx Bool := do
  return (← isSortedUntil lt xs first last) == last

/-- `std::mismatch` as called by `find_unsorted` (adjacent elements). (Called at daw_algorithm.h 1989-2004.) -/
def mismatchLoop (lt : α → α → Bool) (xs : List α) (secondLast : Nat) (first : Nat) : Cxx Nat :=
  if first ≠ secondLast then do
    let a ← rd xs first
    let b ← rd xs (first + 1)
    if lt b a then pure first else mismatchLoop lt xs secondLast (first + 1)
  else pure first
partial_fixpoint

/-- `find_unsorted`, daw_algorithm.h 1989-2004.  `std::next( first )` and
`std::prev( last )` of an empty range leave the block: undefined behaviour. -/
def findUnsorted (lt : α → α → Bool) (xs : List α) (first last : Nat) : Cxx Nat :=
  if first = last then ub
  else do
    let result ← mismatchLoop lt xs (last - 1) first
    return if result = last - 1 then last else result

/-! ### Removal and reversal -/

/-- Loop of `remove_if`, daw_algorithm.h 1773-1778: `i` reads, `first` writes. -/
def removeIfLoop (p : α → Bool) (last : Nat) (xs : List α) (first i : Nat) : Cxx (List α × Nat) :=
  if i ≠ last then do
    let x ← rd xs i
    if ¬ p x then do
      let xs ← wr xs first x
      removeIfLoop p last xs (first + 1) (i + 1)
    else removeIfLoop p last xs first (i + 1)
  else pure (xs, first)
partial_fixpoint

/-- `remove_if`, daw_algorithm.h 1766-1781 (`remove`, 1751-1764, is the instance
`p x := x == value`).  The moved-from source keeps its value in the model. -/
def removeIf (p : α → Bool) (xs : List α) (first last : Nat) : Cxx (List α × Nat) := do
  let first ← findIf p xs first last
  if first ≠ last then removeIfLoop p last xs first (first + 1) else pure (xs, first)

/-- Loop of `reverse`, daw_algorithm.h 472-479. -/
def reverseLoop (xs : List α) (first last : Nat) : Cxx (List α) :=
  if first ≠ last then do
    let a ← rd xs first
    let b ← rd xs last
    let xs ← wr xs first b
    let xs ← wr xs last a
    let first := first + 1
    if first = last then pure xs else reverseLoop xs first (last - 1)
  else pure xs
partial_fixpoint

/-- `reverse( first, last )`, daw_algorithm.h 465-480. -/
def reverse (xs : List α) (first last : Nat) : Cxx (List α) :=
  if first = last then pure xs else reverseLoop xs first (last - 1)

/-! ### Splitting, variadic equality, partitioning -/

/-- Loop of `split`, daw_algorithm.h 585-592; `temp` is the segment being collected. -/
def splitLoop [BEq α] (v : α) : List α → List (List α) → List α → List (List α)
  | [], result, _ => result
  | x :: xs, result, temp =>
    if v == x then splitLoop v xs (result ++ [temp]) [] else splitLoop v xs result (temp ++ [x])

/-- `split`, daw_algorithm.h 576-594. -/
def split [BEq α] (xs : List α) (v : α) : List (List α) := splitLoop v xs [] []

/-- `are_equal`, daw_algorithm.h 482-495; the argument pack is a list (never empty). -/
def areEqual [BEq α] : List α → Bool
  | [] => true
  | [_] => true
  | [a, b] => a == b
  | a :: b :: others => a == b && areEqual others

/-- `all_equal`, daw_algorithm.h 1800-1815. -/
def allEqual (comp : α → α → Bool) : List α → Bool
  | [] => true
  | x :: rest => rest.all (fun y => comp x y)

/-- `view::pop_front( n )`, daw_view.h 195-203: (popped part, remaining view). -/
def viewPopFront (v : List α) (n : Nat) : List α × List α :=
  let n := if n > v.length then v.length else n
  (v.take n, v.drop n)

/-- Loop of `partition_range`, daw_algorithm.h 1950-1953. -/
def partitionLoop (sz : Nat) : Nat → List α → List (List α) → List (List α)
  | 0, v, result => result ++ [v]
  | count + 1, v, result =>
    let (part, rest) := viewPopFront v sz
    partitionLoop sz count rest (result ++ [part])

/-- `partition_range`, daw_algorithm.h 1938-1955.  Division by a zero `count` is
undefined behaviour. -/
def partitionRange (minSize : Nat) (xs : List α) (count : Nat) : Cxx (List (List α)) :=
  if count = 0 then ub
  else
    let sz := xs.length / count
    let sz := if sz < minSize then minSize else sz
    pure (partitionLoop sz (count - 1) xs [])

end Verif.Algorithm
