import Verif.Bits.Bitset

/-
`daw::basic_string_view`, include/daw/daw_string_view.h (all line numbers are of this file).

The searching members depend only on the characters of the view; they are functions of the list `xs` of these characters.
A `size_type` result is an `Option Nat`, `none` being `npos`.  A pointer that only moves forward through a range is the
list of the characters it has still to see; where the code indexes, reading outside the characters of the view is
undefined behaviour.
-/

namespace Verif.SV
open Cxx

variable {α : Type}

/-! ### Searching -/

/-- Outcome of comparing a needle with the characters from one place on. (Loops of daw_string_view.h 344-381.) -/
inductive Match (α : Type) where
  /-- the needle is exhausted -/
  | found
  /-- the haystack is exhausted first -/
  | atEnd
  /-- a difference, and the haystack pointer there -/
  | differ (rest : List α)

/-- The inner loop of `sv2_details::search`, lines 344-354 (also 371-381). -/
def matchFrom [DecidableEq α] : List α → List α → Match α
  | _, [] => .found
  | [], _ :: _ => .atEnd
  | x :: xs, y :: ys => if x ≠ y then .differ (x :: xs) else matchFrom xs ys

/-- `sv2_details::search`, lines 320-357; the result is the distance from `haystack`, `none` for `nullptr`.  For one
byte characters at run time the code calls `memmem`, which is assumed to do the same. -/
def search [DecidableEq α] (ys : List α) : List α → Nat → Cxx (Option Nat)
  | [], k =>
    match matchFrom [] ys with
    | .found => pure (some k)
    | .atEnd => pure none
    | .differ _ => ub
  | x :: xs, k =>
    match matchFrom (x :: xs) ys with
    | .found => pure (some k)
    | .atEnd => pure none
    | .differ _ => search ys xs (k + 1)

/-- The loop over the needles, lines 367-382: `it` is not put back to the start for the next needle. -/
def tryNeedles [DecidableEq α] : List α → List (List α) → Match α
  | it, [] => .differ it
  | it, y :: ys =>
    match matchFrom it y with
    | .found => .found
    | .atEnd => .atEnd
    | .differ it' => tryNeedles it' ys

/-- `sv2_details::search` with several needles, lines 359-385; `none` is the end. -/
def searchMany [DecidableEq α] (needles : List (List α)) : List α → Nat → Option Nat
  | [], _ => none
  | x :: xs, k =>
    match tryNeedles (x :: xs) needles with
    | .found => some k
    | .atEnd => none
    | .differ _ => searchMany needles xs (k + 1)

/-- `find_first_match` with several needles, lines 1971-1986. -/
def findFirstMatch [DecidableEq α] (xs : List α) (needles : List (List α)) (pos : Nat) : Cxx (Option Nat) :=
  if needles.any (·.isEmpty) then pure (some pos)
  else if pos ≤ xs.length then pure (searchMany needles (xs.drop pos) pos)
  else ub

/-- `find( v, pos )`, lines 2054-2071; `find_first_match( v, pos )`, 2101-2118, is the same.  A position beyond the end
makes a pointer outside the text. -/
def find [DecidableEq α] (xs ys : List α) (pos : Nat) : Cxx (Option Nat) :=
  if xs.length < ys.length then pure none
  else if ys.isEmpty then pure (some pos)
  else if pos ≤ xs.length then search ys (xs.drop pos) pos
  else ub

/-- The first satisfying element of a range, counted from `k`: the loop of `sv2_details::find_first_of_if`, lines
234-238. -/
def findIfFrom (p : α → Bool) : List α → Nat → Option Nat
  | [], _ => none
  | x :: xs, k => if p x then some k else findIfFrom p xs (k + 1)

/-- `find( c, pos )` at run time for one or two byte characters, lines 1996-2020: `memchr`/`wmemchr` from `first` on, and
the distance from `first`. -/
def findCharRun [DecidableEq α] (xs : List α) (c : α) (pos : Nat) : Cxx (Option Nat) :=
  if pos ≤ xs.length then pure (findIfFrom (· == c) (xs.drop pos) 0) else ub

/-- The loop of lines 2021-2026 and 2031-2036: `n` goes on from the given value, `fuel` is how often `n < sz` holds. -/
def findCharLoop [DecidableEq α] (ys : List α) (c : α) : Nat → Nat → Cxx (Option Nat)
  | 0, _ => pure none
  | fuel + 1, n => do
    let x ← rd ys n
    if x = c then pure (some n) else findCharLoop ys c fuel (n + 1)

/-- `find( c, pos )` in constant expressions and for four byte characters, lines 1993-1998, 2021-2036. -/
def findCharCx [DecidableEq α] (xs : List α) (c : α) (pos : Nat) : Cxx (Option Nat) :=
  if pos ≤ xs.length then findCharLoop (xs.drop pos) c ((xs.drop pos).length - pos) pos else ub

/-- `sv2_details::compare`, lines 293-306, as far as its result is compared with zero: the texts differ. -/
def differ [DecidableEq α] (xs : List α) (ys : List α) (pos : Nat) : Nat → Nat → Cxx Bool
  | 0, _ => pure false
  | n + 1, k => do
    let a ← rd xs (pos + k)
    let b ← rd ys k
    if a ≠ b then pure true else differ xs ys pos n (k + 1)

/-- The loop of `rfind`, lines 2134-2141; `pos-- > 0` after the test. -/
def rfindLoop [DecidableEq α] (xs ys : List α) : Nat → Cxx (Option Nat)
  | 0 => do
    if ← differ xs ys 0 ys.length 0 then pure none else pure (some 0)
  | pos + 1 => do
    if ← differ xs ys (pos + 1) ys.length 0 then rfindLoop xs ys pos else pure (some (pos + 1))

/-- `rfind( v, pos )`, lines 2125-2143; `none` as position is `npos`. -/
def rfind [DecidableEq α] (xs ys : List α) (pos : Option Nat) : Cxx (Option Nat) :=
  if xs.length < ys.length then pure none
  else
    let pos := match pos with
      | some p => min p (xs.length - ys.length)
      | none => xs.length - ys.length
    if ys.isEmpty then pure (some pos) else rfindLoop xs ys pos

/-- The inner loop of `find_first_of`, lines 208-215: one character against the needle. -/
def inNeedle (p : α → α → Bool) (x : α) : List α → Bool
  | [] => false
  | y :: ys => if p x y then true else inNeedle p x ys

/-- `find_first_of( v, pos )` for wider characters, lines 2182-2199 with 205-219. -/
def findFirstOf [DecidableEq α] (xs ys : List α) (pos : Nat) : Option Nat :=
  if pos ≥ xs.length ∨ ys.isEmpty then none
  else findIfFrom (fun x => inNeedle (fun a b => a == b) x ys) (xs.drop pos) pos

/-- The table of lines 190-196 and 2325-2328. -/
def needleTable (ys : List (BitVec 8)) : Cxx (Bits.Bitset 256) :=
  ys.foldlM (fun b y => b.set y.toNat) (Bits.Bitset.empty 256)

/-- The loop of lines 197-203. -/
def findInTable (tbl : Bits.Bitset 256) : List (BitVec 8) → Nat → Cxx (Option Nat)
  | [], _ => pure none
  | x :: xs, k => do
    if ← tbl.test x.toNat then pure (some k) else findInTable tbl xs (k + 1)

/-- `find_first_of( v, pos )` for one byte characters, lines 2182-2199 with 187-203. -/
def findFirstOf8 (xs ys : List (BitVec 8)) (pos : Nat) : Cxx (Option Nat) :=
  if pos ≥ xs.length ∨ ys.isEmpty then pure none
  else do
    let tbl ← needleTable ys
    findInTable tbl (xs.drop pos) pos

/-- `find_first_of_if`, lines 2253-2270. -/
def findFirstOfIf (p : α → Bool) (xs : List α) (pos : Nat) : Option Nat :=
  if pos ≥ xs.length then none else findIfFrom p (xs.drop pos) pos

/-- The loop of `sv2_details::find_first_not_of_if`, lines 255-259. -/
def findIfNotFrom (p : α → Bool) : List α → Nat → Option Nat
  | [], _ => none
  | x :: xs, k => if ¬ p x then some k else findIfNotFrom p xs (k + 1)

/-- `find_first_not_of_if`, lines 2272-2288. -/
def findFirstNotOfIf (p : α → Bool) (xs : List α) (pos : Nat) : Option Nat :=
  if pos ≥ xs.length then none else findIfNotFrom p (xs.drop pos) pos

/-- `find_first_not_of( v, pos )`, lines 2384-2406 with 264-291. -/
def findFirstNotOf [DecidableEq α] (xs ys : List α) (pos : Nat) : Option Nat :=
  if pos ≥ xs.length then none
  else if ys.isEmpty then some pos
  else findIfNotFrom (fun x => inNeedle (fun a b => a == b) x ys) (xs.drop pos) pos

/-- A loop that looks at `m_first[n - 1]` from `n` down to 1, lines 2329-2334. -/
def lastLoop (p : α → Cxx Bool) (xs : List α) : Nat → Cxx (Option Nat)
  | 0 => pure none
  | n + 1 => do
    let x ← rd xs n
    if ← p x then pure (some n) else lastLoop p xs n

/-- `find_last_of( s, pos )` for one byte characters, lines 2312-2335: the position only goes into the unused
`haystack`. -/
def findLastOf8 (xs ys : List (BitVec 8)) (_pos : Option Nat) : Cxx (Option Nat) :=
  if ys.isEmpty then pure none
  else do
    let tbl ← needleTable ys
    lastLoop (fun x => tbl.test x.toNat) xs xs.length

/-- `find_last_of( s, pos )` for wider characters, lines 2312-2323 and 2336-2341.  `reverse_distance( rbegin( ), iter )`
is the index of the character `iter` denotes; for `haystack.rend( )` it is one before the start of `haystack`, unless
that is `rend( )`. -/
def findLastOf [DecidableEq α] (xs ys : List α) (pos : Option Nat) : Cxx (Option Nat) :=
  if ys.isEmpty then pure none
  else
    let off := match pos with
      | some p => if p ≥ xs.length then 0 else xs.length - (p + 1)
      | none => 0
    let haystack := xs.drop off
    do
      match ← lastLoop (fun x => pure (inNeedle (fun a b => a == b) x ys)) haystack haystack.length with
      | some i => pure (some (off + i))
      | none => pure (if off = 0 then none else some (off - 1))

/-- `find_last_of_if( pred, pos )`, lines 2364-2375 (2377-2383 without position). -/
def findLastOfIf (p : α → Bool) (xs : List α) (pos : Option Nat) : Cxx (Option Nat) :=
  let haystack := match pos with
    | some n => xs.take n
    | none => xs
  lastLoop (fun x => pure (p x)) haystack haystack.length

/-- `find_last_not_of_if( pred, pos )`, lines 2452-2469 (2471-2477 without position). -/
def findLastNotOfIf (p : α → Bool) (xs : List α) (pos : Option Nat) : Cxx (Option Nat) :=
  if xs.isEmpty then pure none
  else
    let pos := match pos with
      | some n => if n > xs.length then xs.length - 1 else n
      | none => xs.length - 1
    lastLoop (fun x => pure (!p x)) xs (pos + 1)

/-- `find_last_not_of( v, pos )`, lines 2479-2496; `v.find( c )` is `find( c, 0 )`. -/
def findLastNotOf [DecidableEq α] (xs ys : List α) (pos : Option Nat) : Cxx (Option Nat) :=
  if xs.isEmpty then pure none
  else
    let pos := match pos with
      | some n => if n > xs.length then xs.length - 1 else n
      | none => xs.length - 1
    if ys.isEmpty then pure (some pos)
    else lastLoop (fun x => do return (← findCharRun ys x 0).isNone) xs (pos + 1)

/-- `search( v, pos )`, lines 2211-2225. -/
def searchM [DecidableEq α] (xs ys : List α) (pos : Nat) : Cxx (Option Nat) :=
  if pos + ys.length ≥ xs.length ∨ ys.isEmpty then pure none
  else search ys (xs.drop pos) pos

/-- The loop of `search_last`, lines 2239-2245. -/
def searchLastLoop [DecidableEq α] (xs ys : List α) (lastPos : Nat) (fpos : Option Nat) : Cxx Nat :=
  match fpos with
  | none => pure lastPos
  | some f => do
    let fpos ← searchM xs ys f
    if fpos = some f then pure f else searchLastLoop xs ys f fpos
partial_fixpoint

/-- `search_last( v, pos )`, lines 2232-2247. -/
def searchLast [DecidableEq α] (xs ys : List α) (pos : Nat) : Cxx (Option Nat) :=
  if pos + ys.length ≥ xs.length ∨ ys.isEmpty then pure none
  else do
    let fpos ← searchM xs ys pos
    return some (← searchLastLoop xs ys pos fpos)

/-! ### Comparing -/

/-- `str_compare`, lines 1886-1901. -/
def strCompare (lt : α → α → Bool) : Nat → List α → List α → Cxx Int
  | 0, _, _ => pure 0
  | n + 1, x :: xs, y :: ys => if lt x y then pure (-1) else if lt y x then pure 1 else strCompare lt n xs ys
  | _ + 1, _, _ => ub

/-- `compare( lhs, rhs, cmp )`, lines 1882-1916. -/
def compare (lt : α → α → Bool) (xs ys : List α) : Cxx Int := do
  let ret ← strCompare lt (min xs.length ys.length) xs ys
  if ret = 0 then
    if xs.length < ys.length then pure (-1) else if ys.length < xs.length then pure 1 else pure ret
  else pure ret

/-- `operator==`, lines 2583-2586. -/
def opEq (lt : α → α → Bool) (xs ys : List α) : Cxx Bool := do return (← compare lt xs ys) == 0

/-- `operator!=`, lines 2602-2605. -/
def opNe (lt : α → α → Bool) (xs ys : List α) : Cxx Bool := do return (← compare lt xs ys) != 0

/-- `operator<`, lines 2630-2633; with C++20 it is derived from `operator<=>`, 2623-2626, which is the same. -/
def opLt (lt : α → α → Bool) (xs ys : List α) : Cxx Bool := do return decide ((← compare lt xs ys) < 0)

/-- `operator<=`, lines 2649-2652. -/
def opLe (lt : α → α → Bool) (xs ys : List α) : Cxx Bool := do return decide ((← compare lt xs ys) ≤ 0)

/-- `operator>`, lines 2668-2671. -/
def opGt (lt : α → α → Bool) (xs ys : List α) : Cxx Bool := do return decide ((← compare lt xs ys) > 0)

/-- `operator>=`, lines 2687-2690. -/
def opGe (lt : α → α → Bool) (xs ys : List α) : Cxx Bool := do return decide ((← compare lt xs ys) ≥ 0)

/-- `starts_with( s )`, lines 2536-2551. -/
def startsWith [DecidableEq α] (xs ys : List α) : Cxx Bool :=
  if ys.length > xs.length then pure false else loop xs ys
where
  /-- The loop, lines 2541-2549. -/
  loop : List α → List α → Cxx Bool
    | _, [] => pure true
    | [], _ :: _ => ub
    | x :: xs, y :: ys => if x ≠ y then pure false else loop xs ys

/-- `ends_with( s )`, lines 2564-2577. -/
def endsWith [DecidableEq α] (xs ys : List α) : Cxx Bool :=
  if ys.length > xs.length then pure false else loop ys.length 0
where
  /-- The loop, lines 2569-2575: `n` characters of `s` are left, `lhs` has moved `k` times. -/
  loop : Nat → Nat → Cxx Bool
    | 0, _ => pure true
    | n + 1, k => do
      let a ← rd xs (xs.length - 1 - k)
      let b ← rd ys n
      if a ≠ b then pure false else loop n (k + 1)

/-- `contains( v )`, lines 2074-2076. -/
def contains [DecidableEq α] (xs ys : List α) : Cxx Bool := do
  return (← find xs ys 0).isSome

/-- `contains( s, pos, count )`, lines 2085-2088: the position is converted to `bool`, so only position zero gives
false. -/
def containsPtr [DecidableEq α] (xs ys : List α) (pos : Nat) : Cxx Bool := do
  return (← find xs ys pos) != some 0

/-! ### Views -/

/-- A view: `m_first` as an offset into the text it was made from, `size( )`, and the zero terminated flag.  How the code
keeps size and flag in `m_last` is in `Packed.lean`.  Simplification: the default constructed view, which has a null
pointer, is an empty view. (daw_string_view.h 575-652.) -/
structure View where
  off : Nat
  len : Nat
  zt : Bool
  deriving DecidableEq

namespace View

/-- The default constructed view. (daw_string_view.h 665.) -/
def null : View := ⟨0, 0, false⟩

/-- The characters of a view. (Specification, no line of the source.) -/
def text (m : List α) (v : View) : List α := (m.drop v.off).take v.len

/-- `(std::min)( { n, size( ) } )`; `none` is `npos`, which exceeds every size.
(Rule of C++ or its library, no line of the source.) -/
def clip (v : View) : Option Nat → Nat
  | some n => min n v.len
  | none => v.len

/-- `remove_prefix( n )`, lines 1056-1060, with `dec_front`, 632-635. -/
def removePrefix (v : View) (n : Option Nat) : View := ⟨v.off + v.clip n, v.len - v.clip n, v.zt⟩

/-- `remove_suffix( n )`, lines 1093-1097, with `dec_back`, 637-640. -/
def removeSuffix (v : View) (n : Option Nat) : View := ⟨v.off, v.len - v.clip n, false⟩

/-- `clear`, lines 1042-1044. -/
def clear (v : View) : View := ⟨v.off, 0, false⟩

/-- `resize( n )`, lines 1783-1789; enlarging violates its precondition. -/
def resize (v : View) (n : Nat) : Cxx View :=
  if n ≠ v.len then (if n ≤ v.len then pure ⟨v.off, n, false⟩ else ub) else pure v

/-- `expand_prefix( n )`, lines 2799-2803, with `inc_front`, 642-645; its precondition is that there are `n` characters
in front of the view. -/
def expandPrefix (v : View) (n : Nat) : Cxx View :=
  if n ≤ v.off then pure ⟨v.off - n, v.len + n, v.zt⟩ else ub

/-- `expand_suffix( n )`, lines 2815-2819, with `inc_back`, 647-650; its precondition is that there are `n` characters
behind the view. -/
def expandSuffix (m : List α) (v : View) (n : Nat) : Cxx View :=
  if v.off + v.len + n ≤ m.length then pure ⟨v.off, v.len + n, false⟩ else ub

/-- `substr( pos, count )`, lines 1823-1830; `pos > size( )` violates its precondition. -/
def substr (v : View) (pos : Nat) (count : Option Nat) : Cxx View :=
  if pos ≤ v.len then
    pure ⟨v.off + pos, match count with
      | some n => min n (v.len - pos)
      | none => v.len - pos, false⟩
  else ub

/-- `substr_unsafe( pos, count )`, lines 1838-1849; leaving the view violates its precondition. -/
def substrUnsafe (v : View) (pos count : Nat) : Cxx View :=
  if pos + count ≤ v.len then pure ⟨v.off + pos, count, decide (pos + count = v.len)⟩ else ub

/-- `substr( )`, lines 1852-1855. -/
def substrAll (v : View) : Cxx View := v.substrUnsafe 0 v.len

/-- `pop_front( count )`, lines 1148-1153: the rest and the result. -/
def popFront (v : View) (count : Option Nat) : Cxx (View × View) := do
  let result ← v.substr 0 count
  pure (v.removePrefix count, result)

/-- `pop_front_unsafe( count )`, lines 1160-1168, with 1874-1879. -/
def popFrontUnsafe (v : View) (count : Nat) : Cxx (View × View) :=
  if count ≤ v.len then do
    let result ← v.substrUnsafe 0 v.len
    pure (v.removePrefix (some count), result)
  else ub

/-- `pop_back( count )`, lines 1331-1337. -/
def popBack (v : View) (count : Option Nat) : Cxx (View × View) := do
  let count := v.clip count
  let result ← v.substr (v.len - count) none
  pure (v.removeSuffix (some count), result)

/-- `pop_back_unsafe( count )`, lines 1344-1352. -/
def popBackUnsafe (v : View) (count : Nat) : Cxx (View × View) :=
  if count ≤ v.len then do
    let result ← v.substrUnsafe (v.len - count) count
    pure (v.removeSuffix (some count), result)
  else ub

/-- `pop_front( )`, lines 1127-1131: the rest and the character. -/
def popFrontChar (m : List α) (v : View) : Cxx (View × α) := do
  let c ← rd (v.text m) 0
  pure (v.removePrefix (some 1), c)

/-- `pop_back( )`, lines 1310-1314; the character before an empty view is outside it. -/
def popBackChar (m : List α) (v : View) : Cxx (View × α) := do
  if v.len = 0 then ub
  else
    let c ← rd (v.text m) (v.len - 1)
    pure (v.removeSuffix (some 1), c)

variable [DecidableEq α]

/-- `pop_front_until( where, nodiscard )`, lines 1177-1183. -/
def popFrontUntilKeep (m : List α) (v : View) (w : List α) : Cxx (View × View) := do
  v.popFront (← find (v.text m) w 0)

/-- `pop_front_until( where )`, lines 1222-1228. -/
def popFrontUntil (m : List α) (v : View) (w : List α) : Cxx (View × View) := do
  let (v, result) ← v.popFront (← find (v.text m) w 0)
  pure (v.removePrefix (some w.length), result)

/-- `pop_front_until( c, nodiscard )`, lines 1189-1194; `find( c )` as at run time, at compile time it is
`findCharCx`. -/
def popFrontUntilCharKeep (m : List α) (v : View) (c : α) : Cxx (View × View) := do
  v.popFront (← findCharRun (v.text m) c 0)

/-- `pop_front_until( c )`, lines 1234-1240. -/
def popFrontUntilChar (m : List α) (v : View) (c : α) : Cxx (View × View) := do
  let (v, result) ← v.popFront (← findCharRun (v.text m) c 0)
  pure (v.removePrefix (some 1), result)

/-- `pop_front_while( c )`, lines 1200-1205, and `pop_front_while( where )`, 1211-1216. -/
def popFrontWhileIn (m : List α) (v : View) (w : List α) : Cxx (View × View) :=
  v.popFront (findFirstNotOf (v.text m) w 0)

omit [DecidableEq α] in
/-- `pop_front_until( pred, nodiscard )`, lines 1253-1260. -/
def popFrontUntilIfKeep (m : List α) (v : View) (p : α → Bool) : Cxx (View × View) :=
  v.popFront (findFirstOfIf p (v.text m) 0)

omit [DecidableEq α] in
/-- `pop_front_while( pred )`, lines 1274-1281. -/
def popFrontWhileIf (m : List α) (v : View) (p : α → Bool) : Cxx (View × View) :=
  v.popFront (findFirstNotOfIf p (v.text m) 0)

omit [DecidableEq α] in
/-- `pop_front_until( pred )`, lines 1294-1302; `find_predicate_result_size` is 1. -/
def popFrontUntilIf (m : List α) (v : View) (p : α → Bool) : Cxx (View × View) := do
  let (v, result) ← popFrontUntilIfKeep m v p
  pure (v.removePrefix (some 1), result)

/-- `pop_back_until( where )`, lines 1394-1405. -/
def popBackUntil (m : List α) (v : View) (w : List α) : Cxx (View × View) := do
  match ← rfind (v.text m) w none with
  | none => pure (v.removePrefix none, v)
  | some pos =>
    let result ← v.substr (pos + w.length) none
    pure (v.removeSuffix (some (v.len - pos)), result)

/-- `pop_back_until( where, nodiscard )`, lines 1358-1370: the same statements as without `nodiscard`. -/
def popBackUntilKeep (m : List α) (v : View) (w : List α) : Cxx (View × View) := do
  match ← rfind (v.text m) w none with
  | none => pure (v.removePrefix none, v)
  | some pos =>
    let result ← v.substr (pos + w.length) none
    pure (v.removeSuffix (some (v.len - pos)), result)

/-- `pop_back_until( c )`, lines 1412-1423. -/
def popBackUntilChar (m : List α) (v : View) (c : α) : Cxx (View × View) := do
  match ← rfind (v.text m) [c] none with
  | none => pure (v.removePrefix none, v)
  | some pos =>
    let result ← v.substr (pos + 1) none
    pure (v.removeSuffix (some (v.len - pos)), result)

omit [DecidableEq α] in
/-- `pop_back_until( pred )`, lines 1433-1448. -/
def popBackUntilIf (m : List α) (v : View) (p : α → Bool) : Cxx (View × View) := do
  match ← findLastOfIf p (v.text m) none with
  | none => pure (v.removePrefix none, v)
  | some pos =>
    let result ← v.substr (pos + 1) none
    pure (v.removeSuffix (some (v.len - pos)), result)

omit [DecidableEq α] in
/-- `pop_back_until( pred, nodiscard )`, lines 1458-1472. -/
def popBackUntilIfKeep (m : List α) (v : View) (p : α → Bool) : Cxx (View × View) := do
  match ← findLastOfIf p (v.text m) none with
  | none => pure (v.removePrefix none, v)
  | some pos =>
    let result ← v.substr pos none
    pure (v.removeSuffix (some (v.len - pos)), result)

/-- `try_pop_front_until( where )`, lines 1479-1488. -/
def tryPopFrontUntil (m : List α) (v : View) (w : List α) : Cxx (View × View) := do
  match ← find (v.text m) w 0 with
  | none => pure (v, null)
  | some pos =>
    let (v, result) ← v.popFront (some pos)
    pure (v.removePrefix (some w.length), result)

/-- `try_pop_front_until( where, nodiscard )`, lines 1498-1507. -/
def tryPopFrontUntilKeep (m : List α) (v : View) (w : List α) : Cxx (View × View) := do
  match ← find (v.text m) w 0 with
  | none => pure (v, null)
  | some pos => v.popFront (some pos)

/-- `try_pop_front_until( c )`, lines 1529-1538. -/
def tryPopFrontUntilChar (m : List α) (v : View) (c : α) : Cxx (View × View) := do
  match ← findCharRun (v.text m) c 0 with
  | none => pure (v, null)
  | some pos =>
    let (v, result) ← v.popFront (some pos)
    pure (v.removePrefix (some 1), result)

omit [DecidableEq α] in
/-- `try_pop_front_until( pred, nodiscard )`, lines 1552-1563. -/
def tryPopFrontUntilIfKeep (m : List α) (v : View) (p : α → Bool) : Cxx (View × View) := do
  match findFirstOfIf p (v.text m) 0 with
  | none => pure (v, null)
  | some pos => v.popFront (some pos)

omit [DecidableEq α] in
/-- `try_pop_front_until( pred )`, lines 1577-1585: the delimiter is removed whether it was found or not. -/
def tryPopFrontUntilIf (m : List α) (v : View) (p : α → Bool) : Cxx (View × View) := do
  let (v, result) ← tryPopFrontUntilIfKeep m v p
  pure (v.removePrefix (some 1), result)

/-- `try_pop_back_until( where )`, lines 1593-1602. -/
def tryPopBackUntil (m : List α) (v : View) (w : List α) : Cxx (View × View) := do
  match ← rfind (v.text m) w none with
  | none => pure (v, null)
  | some pos =>
    let result ← v.substr (pos + w.length) none
    pure (v.removeSuffix (some (v.len - pos)), result)

/-- `try_pop_back_until( where, nodiscard )`, lines 1609-1619: the same statements as without `nodiscard`. -/
def tryPopBackUntilKeep (m : List α) (v : View) (w : List α) : Cxx (View × View) := do
  match ← rfind (v.text m) w none with
  | none => pure (v, null)
  | some pos =>
    let result ← v.substr (pos + w.length) none
    pure (v.removeSuffix (some (v.len - pos)), result)

omit [DecidableEq α] in
/-- `try_pop_back_until( pred )`, lines 1665-1674. -/
def tryPopBackUntilIf (m : List α) (v : View) (p : α → Bool) : Cxx (View × View) := do
  match ← findLastOfIf p (v.text m) none with
  | none => pure (v, null)
  | some pos =>
    let result ← v.substr pos none
    pure (v.removeSuffix (some (v.len - pos)), result)

omit [DecidableEq α] in
/-- `try_pop_back_until( pred, nodiscard )`, lines 1687-1697. -/
def tryPopBackUntilIfKeep (m : List α) (v : View) (p : α → Bool) : Cxx (View × View) := do
  match ← findLastOfIf p (v.text m) none with
  | none => pure (v, null)
  | some pos =>
    let result ← v.substr pos none
    pure (v.removeSuffix (some (v.len - pos - 1)), result)

/-- `try_pop_back_until( c )`, lines 1642-1651. -/
def tryPopBackUntilChar (m : List α) (v : View) (c : α) : Cxx (View × View) := do
  match ← rfind (v.text m) [c] none with
  | none => pure (v, null)
  | some pos =>
    let result ← v.substr pos none
    pure (v.removeSuffix (some (v.len - pos)), result)

/-- `try_pop_back_until( c, nodiscard )`, lines 1626-1635. -/
def tryPopBackUntilCharKeep (m : List α) (v : View) (c : α) : Cxx (View × View) := do
  match ← rfind (v.text m) [c] none with
  | none => pure (v, null)
  | some pos =>
    let result ← v.substr pos none
    pure (v.removeSuffix (some (v.len - pos - 1)), result)

/-- `remove_prefix_until( where )`, lines 1728-1734. -/
def removePrefixUntil (m : List α) (v : View) (w : List α) : Cxx View := do
  pure ((v.removePrefix (← find (v.text m) w 0)).removePrefix (some w.length))

/-- `remove_prefix_until( where, nodiscard )`, lines 1741-1746. -/
def removePrefixUntilKeep (m : List α) (v : View) (w : List α) : Cxx View := do
  pure (v.removePrefix (← find (v.text m) w 0))

/-- `remove_prefix_until( c )`, lines 1704-1710. -/
def removePrefixUntilChar (m : List α) (v : View) (c : α) : Cxx View := do
  pure ((v.removePrefix (← findCharRun (v.text m) c 0)).removePrefix (some 1))

/-- `remove_prefix_until( c, nodiscard )`, lines 1716-1721. -/
def removePrefixUntilCharKeep (m : List α) (v : View) (c : α) : Cxx View := do
  pure (v.removePrefix (← findCharRun (v.text m) c 0))

omit [DecidableEq α] in
/-- `remove_prefix_until( pred )`, lines 1756-1762; `find_predicate_result_size` is 1. -/
def removePrefixUntilIf (m : List α) (v : View) (p : α → Bool) : View :=
  (v.removePrefix (findFirstOfIf p (v.text m) 0)).removePrefix (some 1)

omit [DecidableEq α] in
/-- `remove_prefix_while( pred )`, lines 2721-2728. -/
def removePrefixWhile (m : List α) (v : View) (p : α → Bool) : View :=
  v.removePrefix (findFirstNotOfIf p (v.text m) 0)

omit [DecidableEq α] in
/-- `remove_suffix_while( pred )`, lines 2749-2756; `npos + 1` is 0. -/
def removeSuffixWhile (m : List α) (v : View) (p : α → Bool) : Cxx View := do
  match ← findLastNotOfIf p (v.text m) none with
  | none => v.resize 0
  | some pos => v.resize (pos + 1)

omit [DecidableEq α] in
/-- `trim`, lines 2777-2780, for any notion of white space. -/
def trimIf (m : List α) (v : View) (p : α → Bool) : Cxx View :=
  removeSuffixWhile m (removePrefixWhile m v p) p

end View

/-- `is_space`, lines 2708-2718. -/
def isSpace (c : BitVec 8) : Bool :=
  c == 32#8 || c == 9#8 || c == 10#8 || c == 11#8 || c == 12#8 || c == 13#8

/-- `trim`, lines 2777-2780, with 2737-2740 and 2765-2768. -/
def View.trim (m : List (BitVec 8)) (v : View) : Cxx View := View.trimIf m v isSpace

end Verif.SV
