import Verif.Base

/-
Model of `/repo/include/daw/daw_sort_n.h`.

A range is a block `xs : List α` with two indices.  Reading or writing outside the
block and decrementing an iterator below index 0 are undefined behaviour.
Simplifications: `std::move` leaves the moved-from cell unchanged; the comparison is a
pure function that does not throw.
-/

namespace Verif.Sort
open Cxx

variable {α : Type}

/-- `--it` on an iterator into the block. (Rule of C++ or its library, no line of the source.) -/
def predIt (j : Nat) : Cxx Nat := if j = 0 then ub else pure (j - 1)

/-- `daw::cswap( *i, *j )`. (Used at daw_sort_n.h 25-53.) -/
def swapAt (xs : List α) (i j : Nat) : Cxx (List α) := do
  let a ← rd xs i
  let b ← rd xs j
  let xs ← wr xs i b
  wr xs j a

/-- `sort_n_details::swap_if`, daw_sort_n.h 37-46; `p`, `q` are the two positions. -/
def swapIf (lt : α → α → Bool) (xs : List α) (p q : Nat) : Cxx (List α) := do
  let f ← rd xs p
  let l ← rd xs q
  if ¬ lt f l then swapAt xs p q else pure xs

/-- `sort_n_details::swap_if2`, daw_sort_n.h 47-55. -/
def swapIf2 (lt : α → α → Bool) (xs : List α) (lhs rhs : Nat) : Cxx (List α × Nat) := do
  let r ← rd xs rhs
  let l ← rd xs lhs
  if lt r l then do
    let xs ← swapAt xs rhs lhs
    pure (xs, 1)
  else pure (xs, 0)

/-- A sequence of `swap_if<p, q>( first, comp )` calls. (`swap_if`, daw_sort_n.h 25-45.) -/
def runNet (lt : α → α → Bool) (first : Nat) : List (Nat × Nat) → List α → Cxx (List α)
  | [], xs => pure xs
  | (p, q) :: net, xs => do
    let xs ← swapIf lt xs (first + p) (first + q)
    runNet lt first net xs

/-- The comparators of `sort_3` in program order, daw_sort_n.h 338-344. -/
def net3 : List (Nat × Nat) :=
  [(1, 2), (0, 2), (0, 1)]

/-- The comparators of `sort_4` in program order, daw_sort_n.h 346-354. -/
def net4 : List (Nat × Nat) :=
  [(0, 1), (2, 3), (0, 2), (1, 3), (1, 2)]

/-- The comparators of `sort_5` in program order, daw_sort_n.h 356-368. -/
def net5 : List (Nat × Nat) :=
  [(0, 1), (3, 4), (2, 4), (2, 3), (0, 3), (0, 2), (1, 4), (1, 3), (1, 2)]

/-- The comparators of `sort_6` in program order, daw_sort_n.h 369-384. -/
def net6 : List (Nat × Nat) :=
  [(1, 2), (0, 2), (0, 1), (4, 5), (3, 5), (3, 4), (0, 3), (1, 4), (2, 5), (2, 4), (1, 3), (2,
   3)]

/-- The comparators of `sort_7` in program order, daw_sort_n.h 386-405. -/
def net7 : List (Nat × Nat) :=
  [(1, 2), (0, 2), (0, 1), (3, 4), (5, 6), (3, 5), (4, 6), (4, 5), (0, 4), (0, 3), (1, 5), (2,
   6), (2, 5), (1, 3), (2, 4), (2, 3)]

/-- The comparators of `sort_8` in program order, daw_sort_n.h 407-429. -/
def net8 : List (Nat × Nat) :=
  [(0, 1), (2, 3), (0, 2), (1, 3), (1, 2), (4, 5), (6, 7), (4, 6), (5, 7), (5, 6), (0, 4), (1,
   5), (1, 4), (2, 6), (3, 7), (3, 6), (2, 4), (3, 5), (3, 4)]

/-- The comparators of `sort_16` in program order, daw_sort_n.h 274-337. -/
def net16 : List (Nat × Nat) :=
  [(0, 1), (2, 3), (4, 5), (6, 7), (8, 9), (10, 11), (12, 13), (14, 15), (0, 2), (4, 6), (8,
   10), (12, 14), (1, 3), (5, 7), (9, 11), (13, 15), (0, 4), (8, 12), (1, 5), (9, 13), (2, 6),
   (10, 14), (3, 7), (11, 15), (0, 8), (1, 9), (2, 10), (3, 11), (4, 12), (5, 13), (6, 14), (7,
   15), (5, 10), (6, 9), (3, 12), (13, 14), (7, 11), (1, 2), (4, 8), (1, 4), (7, 13), (2, 8),
   (11, 14), (2, 4), (5, 6), (9, 10), (11, 13), (3, 8), (7, 12), (6, 8), (10, 12), (3, 5), (7,
   9), (3, 4), (5, 6), (7, 8), (9, 10), (11, 12), (6, 7), (8, 9)]

/-- The first 65 comparators of `sort_32` in program order, daw_sort_n.h 58-272. -/
def net32Low : List (Nat × Nat) :=
  [(0, 1), (2, 3), (0, 2), (1, 3), (1, 2), (4, 5), (6, 7), (4, 6), (5, 7), (5, 6), (0, 4), (1,
   5), (1, 4), (2, 6), (3, 7), (3, 6), (2, 4), (3, 5), (3, 4), (8, 9), (10, 11), (8, 10), (9,
   11), (9, 10), (12, 13), (14, 15), (12, 14), (13, 15), (13, 14), (8, 12), (9, 13), (9, 12),
   (10, 14), (11, 15), (11, 14), (10, 12), (11, 13), (11, 12), (0, 8), (1, 9), (1, 8), (2, 10),
   (3, 11), (3, 10), (2, 8), (3, 9), (3, 8), (4, 12), (5, 13), (5, 12), (6, 14), (7, 15), (7,
   14), (6, 12), (7, 13), (7, 12), (4, 8), (5, 9), (5, 8), (6, 10), (7, 11), (7, 10), (6, 8),
   (7, 9), (7, 8)]

/-- The next 65 comparators of `sort_32` in program order, daw_sort_n.h 58-272. -/
def net32High : List (Nat × Nat) :=
  [(16, 17), (18, 19), (16, 18), (17, 19), (17, 18), (20, 21), (22, 23), (20, 22), (21, 23),
   (21, 22), (16, 20), (17, 21), (17, 20), (18, 22), (19, 23), (19, 22), (18, 20), (19, 21),
   (19, 20), (24, 25), (26, 27), (24, 26), (25, 27), (25, 26), (28, 29), (30, 31), (28, 30),
   (29, 31), (29, 30), (24, 28), (25, 29), (25, 28), (26, 30), (27, 31), (27, 30), (26, 28),
   (27, 29), (27, 28), (16, 24), (17, 25), (17, 24), (18, 26), (19, 27), (19, 26), (18, 24),
   (19, 25), (19, 24), (20, 28), (21, 29), (21, 28), (22, 30), (23, 31), (23, 30), (22, 28),
   (23, 29), (23, 28), (20, 24), (21, 25), (21, 24), (22, 26), (23, 27), (23, 26), (22, 24),
   (23, 25), (23, 24)]

/-- The last 81 comparators of `sort_32` in program order, daw_sort_n.h 58-272. -/
def net32Merge : List (Nat × Nat) :=
  [(0, 16), (1, 17), (1, 16), (2, 18), (3, 19), (3, 18), (2, 16), (3, 17), (3, 16), (4, 20),
   (5, 21), (5, 20), (6, 22), (7, 23), (7, 22), (6, 20), (7, 21), (7, 20), (4, 16), (5, 17),
   (5, 16), (6, 18), (7, 19), (7, 18), (6, 16), (7, 17), (7, 16), (8, 24), (9, 25), (9, 24),
   (10, 26), (11, 27), (11, 26), (10, 24), (11, 25), (11, 24), (12, 28), (13, 29), (13, 28),
   (14, 30), (15, 31), (15, 30), (14, 28), (15, 29), (15, 28), (12, 24), (13, 25), (13, 24),
   (14, 26), (15, 27), (15, 26), (14, 24), (15, 25), (15, 24), (8, 16), (9, 17), (9, 16), (10,
   18), (11, 19), (11, 18), (10, 16), (11, 17), (11, 16), (12, 20), (13, 21), (13, 20), (14,
   22), (15, 23), (15, 22), (14, 20), (15, 21), (15, 20), (12, 16), (13, 17), (13, 16), (14,
   18), (15, 19), (15, 18), (14, 16), (15, 17), (15, 16)]

/-- The comparators of `sort_32` in program order, daw_sort_n.h 58-272. -/
def net32 : List (Nat × Nat) := net32Low ++ (net32High ++ net32Merge)

/-- A sequence of `result += swap_if2( it_p, it_q, comp )` statements; `pos` gives the iterators.
(`swap_if2`, daw_sort_n.h 47-56.) -/
def runNet2 (lt : α → α → Bool) (pos : Nat → Nat) :
    List (Nat × Nat) → List α × Nat → Cxx (List α × Nat)
  | [], s => pure s
  | (p, q) :: net, (xs, n) => do
    let (xs, k) ← swapIf2 lt xs (pos p) (pos q)
    runNet2 lt pos net (xs, n + k)

/-- The comparators of `sort_3_impl`, daw_sort_n.h 439-448. -/
def net3Impl : List (Nat × Nat) := [(1, 2), (0, 2), (0, 1)]

/-- The comparators of `sort_5_impl`, daw_sort_n.h 449-464. -/
def net5Impl : List (Nat × Nat) :=
  [(0, 1), (3, 4), (2, 4), (2, 3), (0, 3), (0, 2), (1, 4), (1, 3), (1, 2)]

/-- `sort_3_impl`, daw_sort_n.h 439-448: new block and number of swaps. -/
def sort3Impl (lt : α → α → Bool) (xs : List α) (a b c : Nat) : Cxx (List α × Nat) :=
  runNet2 lt (fun k => [a, b, c].getD k 0) net3Impl (xs, 0)

/-- `sort_5_impl`, daw_sort_n.h 449-464. -/
def sort5Impl (lt : α → α → Bool) (xs : List α) (a b c d e : Nat) : Cxx (List α × Nat) :=
  runNet2 lt (fun k => [a, b, c, d, e].getD k 0) net5Impl (xs, 0)

/-- The two-element case, daw_sort_n.h 476-480 and 583-587. -/
def sort2 (lt : α → α → Bool) (xs : List α) (first last : Nat) : Cxx (List α) := do
  let last ← predIt last
  let l ← rd xs last
  let f ← rd xs first
  if lt l f then swapAt xs last first else pure xs

/-- The `switch` on the length shared by `insertion_sort_incomplete` (daw_sort_n.h 472-505)
and `sort` (579-612); `none` is falling through to the code after it. -/
def smallSort (lt : α → α → Bool) (xs : List α) (first last : Nat) : Option (Cxx (List α)) :=
  match last - first with
  | 0 => some (pure xs)
  | 1 => some (pure xs)
  | 2 => some (sort2 lt xs first last)
  | 3 => some (runNet lt first net3 xs)
  | 4 => some (runNet lt first net4 xs)
  | 5 => some (runNet lt first net5 xs)
  | 6 => some (runNet lt first net6 xs)
  | 7 => some (runNet lt first net7 xs)
  | 8 => some (runNet lt first net8 xs)
  | 16 => some (runNet lt first net16 xs)
  | 32 => some (runNet lt first net32 xs)
  | _ => none

/-- The `do … while` of the insertion sorts, daw_sort_n.h 516-519 and 543-546: result is
the block and the final `j`. -/
def shiftLoop (lt : α → α → Bool) (t : α) (first : Nat) (xs : List α) (j k : Nat) :
    Cxx (List α × Nat) := do
  let x ← rd xs k
  let xs ← wr xs j x
  let j := k
  if j ≠ first then do
    let k ← predIt k
    let y ← rd xs k
    if lt t y then shiftLoop lt t first xs j k else pure (xs, j)
  else pure (xs, j)
partial_fixpoint

/-- One insertion, daw_sort_n.h 513-520 and 540-547 (without the test). -/
def insertAt (lt : α → α → Bool) (xs : List α) (first i j : Nat) : Cxx (List α) := do
  let t ← rd xs i
  let (xs, j) ← shiftLoop lt t first xs i j
  wr xs j t

/-- Loop of `insertion_sort_incomplete`, daw_sort_n.h 511-527, `count` insertions so far. -/
def insertionIncLoop (lt : α → α → Bool) (first last : Nat) (xs : List α) (i j count : Nat) :
    Cxx (List α × Bool) :=
  if i ≠ last then do
    let a ← rd xs i
    let b ← rd xs j
    if lt a b then do
      let xs ← insertAt lt xs first i j
      if count + 1 = 8 then pure (xs, i + 1 == last)
      else insertionIncLoop lt first last xs (i + 1) i (count + 1)
    else insertionIncLoop lt first last xs (i + 1) i count
  else pure (xs, true)
partial_fixpoint

/-- `insertion_sort_incomplete`, daw_sort_n.h 466-528. -/
def insertionSortIncomplete (lt : α → α → Bool) (xs : List α) (first last : Nat) :
    Cxx (List α × Bool) :=
  match smallSort lt xs first last with
  | some r => do let xs ← r; pure (xs, true)
  | none => do
    let j := first + 2
    let (xs, _) ← sort3Impl lt xs first (first + 1) j
    insertionIncLoop lt first last xs (j + 1) j 0

/-- Loop of `insertion_sort_3`, daw_sort_n.h 538-550. -/
def insertionLoop (lt : α → α → Bool) (first last : Nat) (xs : List α) (i j : Nat) :
    Cxx (List α) :=
  if i ≠ last then do
    let a ← rd xs i
    let b ← rd xs j
    if lt a b then do
      let xs ← insertAt lt xs first i j
      insertionLoop lt first last xs (i + 1) i
    else insertionLoop lt first last xs (i + 1) i
  else pure xs
partial_fixpoint

/-- `insertion_sort_3`, daw_sort_n.h 530-551. -/
def insertionSort3 (lt : α → α → Bool) (xs : List α) (first last : Nat) : Cxx (List α) := do
  let j := first + 2
  let xs ← runNet lt first net3 xs
  insertionLoop lt first last xs (j + 1) j

/-- `while( p( *i ) ) { ++i; }`, daw_sort_n.h 656-658 and 684-686. -/
def scanUp (p : α → Bool) (xs : List α) (i : Nat) : Cxx Nat := do
  let x ← rd xs i
  if p x then scanUp p xs (i + 1) else pure i
partial_fixpoint

/-- `while( p( *--j ) ) {}`, daw_sort_n.h 659 and 687. -/
def scanDown (p : α → Bool) (xs : List α) (j : Nat) : Cxx Nat := do
  let j ← predIt j
  let x ← rd xs j
  if p x then scanDown p xs j else pure j
partial_fixpoint

/-- How the code up to the partition loop ends. (See `eqScan` and its callers, daw_sort_n.h 639-650.) -/
inductive Guard (α : Type) where
  /-- `return` from `sort` -/
  | done (xs : List α)
  /-- `first = i` and restart of the outer loop -/
  | restart (xs : List α) (i : Nat)
  /-- go on with the partition loop with this `j` and `swap_count` -/
  | go (xs : List α) (j swaps : Nat)

/-- The inner scan of the branch where no element is less than `*first`,
daw_sort_n.h 639-650; `none` is `return`. -/
def eqScan (lt : α → α → Bool) (xs : List α) (first i j : Nat) : Cxx (Option (List α × Nat)) :=
  if i = j then pure none
  else do
    let f ← rd xs first
    let x ← rd xs i
    if lt f x then do
      let xs ← swapAt xs i j
      pure (some (xs, i + 1))
    else eqScan lt xs first (i + 1) j
partial_fixpoint

/-- The partition by equality with `*first`, daw_sort_n.h 655-666.
`*first` is read once per scan instead of once per comparison. -/
def eqPart (lt : α → α → Bool) (first : Nat) (xs : List α) (i j : Nat) : Cxx (List α × Nat) := do
  let f ← rd xs first
  let i ← scanUp (fun x => !lt f x) xs i
  let j ← scanDown (fun x => lt f x) xs j
  if i ≥ j then pure (xs, i)
  else do
    let xs ← swapAt xs i j
    eqPart lt first xs (i + 1) j
partial_fixpoint

/-- The branch `i == --j`, daw_sort_n.h 635-669. -/
def eqBranch (lt : α → α → Bool) (xs : List α) (first last : Nat) : Cxx (Guard α) := do
  let i := first + 1
  let j ← predIt last
  let f ← rd xs first
  let l ← rd xs j
  let r ← if ¬ lt f l then eqScan lt xs first i j else pure (some (xs, i))
  match r with
  | none => pure (.done xs)
  | some (xs, i) =>
    if i = j then pure (.done xs)
    else do
      let (xs, i) ← eqPart lt first xs i j
      pure (.restart xs i)

/-- The loop looking for an element less than the pivot, daw_sort_n.h 634-676. -/
def guardLoop (lt : α → α → Bool) (xs : List α) (first last m : Nat) (j swaps : Nat) :
    Cxx (Guard α) := do
  let j ← predIt j
  if first = j then eqBranch lt xs first last
  else do
    let a ← rd xs j
    let b ← rd xs m
    if lt a b then do
      let xs ← swapAt xs first j
      pure (.go xs j (swaps + 1))
    else guardLoop lt xs first last m j swaps
partial_fixpoint

/-- The code between the choice of the pivot and the partition loop, daw_sort_n.h 631-680. -/
def guard (lt : α → α → Bool) (xs : List α) (first last m swaps : Nat) : Cxx (Guard α) := do
  let a ← rd xs first
  let b ← rd xs m
  if ¬ lt a b then guardLoop lt xs first last m (last - 1) swaps
  else pure (.go xs (last - 1) swaps)

/-- The partition loop, daw_sort_n.h 683-698: result is the block, `i`, `m` and `swap_count`.
`*m` is read once per scan instead of once per comparison. -/
def partLoop (lt : α → α → Bool) (xs : List α) (i j m swaps : Nat) :
    Cxx (List α × Nat × Nat × Nat) := do
  let pv ← rd xs m
  let i ← scanUp (fun x => lt x pv) xs i
  let j ← scanDown (fun x => !lt x pv) xs j
  if i > j then pure (xs, i, m, swaps)
  else do
    let xs ← swapAt xs i j
    let m := if m = i then j else m
    partLoop lt xs (i + 1) j m (swaps + 1)
partial_fixpoint

/-- The partition step, daw_sort_n.h 681-703: result is the block, `i` and `swap_count`. -/
def partition (lt : α → α → Bool) (xs : List α) (i j m swaps : Nat) :
    Cxx (List α × Nat × Nat) := do
  let (xs, i, m, swaps) ←
    (if i < j then partLoop lt xs i j m swaps else pure (xs, i, m, swaps) :
      Cxx (List α × Nat × Nat × Nat))
  if i ≠ m then do
    let a ← rd xs m
    let b ← rd xs i
    if lt a b then do
      let xs ← swapAt xs i m
      pure (xs, i, swaps + 1)
    else pure (xs, i, swaps)
  else pure (xs, i, swaps)

mutual
/-- `daw::sort`, daw_sort_n.h 561-729.  `limit` is 30 or 6 depending on the element type
(lines 570-574).  Jumping back to the head of `while( true )` is a recursive call. -/
def sort (lt : α → α → Bool) (limit : Nat) (xs : List α) (first last : Nat) : Cxx (List α) :=
  match smallSort lt xs first last with
  | some r => r
  | none =>
    let len := last - first
    if len < limit then insertionSort3 lt xs first last
    else do
      let delta := len / 2
      let m := first + delta
      let lm1 := last - 1
      let (xs, swaps) ←
        (if len ≥ 1000 then
          sort5Impl lt xs first (first + delta / 2) m (m + delta / 2) lm1
        else sort3Impl lt xs first m lm1 : Cxx (List α × Nat))
      match ← guard lt xs first last m swaps with
      | .done xs => pure xs
      | .restart xs i => sort lt limit xs i last
      | .go xs j swaps => do
        let (xs, i, swaps) ← partition lt xs (first + 1) j m swaps
        if swaps = 0 then do
          let (xs, fs) ← insertionSortIncomplete lt xs first i
          let (xs, ss) ← insertionSortIncomplete lt xs (i + 1) last
          if ss then
            if fs then pure xs else sort lt limit xs first i
          else if fs then sort lt limit xs (i + 1) last
          else sortParts lt limit xs first i last
        else sortParts lt limit xs first i last
partial_fixpoint

/-- The end of the loop body of `sort`, daw_sort_n.h 721-727: the shorter part is sorted by a
recursive call, the longer one by the next round of the loop. -/
def sortParts (lt : α → α → Bool) (limit : Nat) (xs : List α) (first i last : Nat) :
    Cxx (List α) :=
  if i - first < last - i then do
    let xs ← sort lt limit xs first i
    sort lt limit xs (i + 1) last
  else do
    let xs ← sort lt limit xs (i + 1) last
    sort lt limit xs first i
partial_fixpoint
end

end Verif.Sort
