import Verif.Iter.Base

/-
Three iterators that check or hide the block they walk through: `arg_iterator_t`,
include/daw/iterator/daw_argument_iterator.h, `indexed_iterator`, include/daw/iterator/daw_indexed_iterator.h, and
`checked_iterator_proxy_t`, include/daw/iterator/daw_checked_iterator_proxy.h.
-/

namespace Verif.Iter
open Cxx

/-! ### Model of `arg_iterator_t` -/

namespace Arg

/-- `m_argc`, `m_pos` and `m_argv`, daw_argument_iterator.h 19-22.  The pointer is the number of an array of arguments, or
`none` for a null pointer. -/
structure It where
  argc : Int := 0
  pos : Int := 0
  argv : Option Nat := none
  deriving DecidableEq, Repr

variable {σ : Type}

/-- Reading `argv[p]` as a string.  The array holds `argc` strings and a null pointer, which is no string.
(Rule of C++ or its library, no line of the source.) -/
def str (args : Nat → List σ) (argv : Option Nat) (p : Int) : Cxx σ :=
  match argv with
  | some k => readAt (args k) p
  | none => ub

/-- `operator*`, daw_argument_iterator.h 37-39. -/
def deref (args : Nat → List σ) (a : It) : Cxx σ := str args a.argv a.pos

/-- `operator++`, daw_argument_iterator.h 41-44; `int` does not overflow here. -/
def incr (a : It) : It := { a with pos := a.pos + 1 }

/-- `operator+( difference_type )`, daw_argument_iterator.h 63-67, for distances that are values of `int`. -/
def plus (a : It) (n : Int) : It := { a with pos := a.pos + n }

/-- `operator-( arg_iterator_t const & )`, daw_argument_iterator.h 85-88. -/
def diff (a b : It) : Int := a.pos - b.pos

/-- `operator[]`, daw_argument_iterator.h 95-98. -/
def index (args : Nat → List σ) (a : It) (n : Int) : Cxx σ := str args a.argv (a.pos + n)

/-- `at`, daw_argument_iterator.h 100-107. -/
def at' (args : Nat → List σ) (a : It) (n : Int) : Cxx σ :=
  let pos := a.pos + n
  if 0 < pos ∧ pos < a.argc then str args a.argv pos else thrown

/-- `at_end`, daw_argument_iterator.h 109-111. -/
def atEnd (a : It) : Bool := a.argv == none || decide (a.pos ≥ a.argc)

/-- `operator==`, daw_argument_iterator.h 113-118. -/
def eq (a b : It) : Bool := if a.argv = b.argv then decide (a.pos = b.pos) else atEnd a && atEnd b

/-- `operator!=`, daw_argument_iterator.h 120-125. -/
def ne (a b : It) : Bool := if a.argv = b.argv then decide (a.pos ≠ b.pos) else !(atEnd a && atEnd b)

/-- `operator<`, daw_argument_iterator.h 127-132, compares the numbers of arguments. -/
def lt (a b : It) : Bool := if a.argv = b.argv then decide (a.argc < b.argc) else !atEnd a && atEnd b

/-- `operator<=`, daw_argument_iterator.h 134-139. -/
def le (a b : It) : Bool := if a.argv = b.argv then decide (a.argc ≤ b.argc) else atEnd b

/-- `operator>`, daw_argument_iterator.h 141-146. -/
def gt (a b : It) : Bool := if a.argv = b.argv then decide (a.argc > b.argc) else atEnd a

/-- `operator>=`, daw_argument_iterator.h 148-153. -/
def ge (a b : It) : Bool := if a.argv = b.argv then decide (a.argc ≤ b.argc) else atEnd a

/-- `end( )`, daw_argument_iterator.h 167-169. -/
def endIt : It := {}

/-- `for( auto arg : it )` with `begin( )` and `end( )`, daw_argument_iterator.h 163-169: what the body sees. -/
def visit (args : Nat → List σ) (a : It) : Cxx (List σ) := do
  if ne a endIt then
    let x ← deref args a
    let rest ← visit args (incr a)
    pure (x :: rest)
  else pure []
partial_fixpoint

/-- C129: the loop over an argument iterator sees the remaining arguments in order and then ends, for every number of
arguments, none included. -/
theorem C129_visits_partial (args : Nat → List σ) (k : Nat) (p : Nat) (hp : p ≤ (args k).length) :
    visit args ⟨(args k).length, p, some k⟩ = pure ((args k).drop p) := by
  generalize hd : (args k).length - p = d
  induction d generalizing p with
  | zero =>
    rw [visit]
    have : ne ⟨(args k).length, p, some k⟩ endIt = false := by
      simp [ne, endIt, atEnd]; omega
    rw [this, List.drop_eq_nil_of_le (by omega)]
    rfl
  | succ d ih =>
    have hlt : p < (args k).length := by omega
    rw [visit]
    have : ne ⟨(args k).length, p, some k⟩ endIt = true := by
      simp [ne, endIt, atEnd]; omega
    rw [this]
    simp only [if_true, deref, str]
    rw [readAt_some (List.getElem?_eq_getElem hlt), pure_bind]
    have := ih (p + 1) (by omega) (by omega)
    unfold incr
    dsimp only
    push_cast at this
    rw [this, pure_bind, List.drop_eq_getElem_cons hlt]

/-- C129: an iterator made from no arguments and a null pointer gives an empty loop. -/
theorem C129_null_partial (args : Nat → List σ) : visit args ⟨0, 0, none⟩ = pure [] := by
  rw [visit]; rfl

/-- C129: equality of iterators into the same arguments is equality of the positions, and `!=` is its negation always. -/
theorem C129_equal_partial (a b : It) : (a.argv = b.argv → (eq a b = true ↔ a.pos = b.pos)) ∧ ne a b = !eq a b := by
  constructor
  · intro h; simp [eq, h]
  · unfold ne eq
    split
    · simp
    · rfl

/-- C129, `at`: it never reads outside the arguments, and returns the argument for every position but the first one. -/
theorem C129_at_partial (args : Nat → List σ) (k : Nat) (pos n : Int) :
    (0 < pos + n → ∀ x, (args k)[(pos + n).toNat]? = some x → at' args ⟨(args k).length, pos, some k⟩ n = pure x) ∧
    (pos + n < 0 ∨ (args k).length ≤ pos + n → at' args ⟨(args k).length, pos, some k⟩ n = thrown) ∧
    at' args ⟨(args k).length, pos, some k⟩ n ≠ ub := by
  have h1 : 0 < pos + n → ∀ x, (args k)[(pos + n).toNat]? = some x → at' args ⟨(args k).length, pos, some k⟩ n = pure x := by
    intro h0 x hx
    obtain ⟨hl, -⟩ := List.getElem?_eq_some_iff.1 hx
    unfold at'
    rw [if_pos (by dsimp only; omega)]
    simp only [str]
    rw [show pos + n = ((pos + n).toNat : Int) by omega]
    exact readAt_some hx
  refine ⟨h1, ?_, ?_⟩
  · intro h
    unfold at'
    rw [if_neg (by dsimp only; omega)]
  · by_cases h0 : 0 < pos + n ∧ pos + n < (args k).length
    · rw [h1 h0.1 _ (List.getElem?_eq_getElem (show (pos + n).toNat < (args k).length by omega))]
      exact fun h => ub_ne_pure _ h.symm
    · unfold at'
      rw [if_neg h0]
      exact thrown_ne_ub

example : at' (fun _ => ["prog", "-v", "in"]) ⟨3, 1, some 0⟩ 1 = pure "in" ∧
    visit (fun _ => ["prog", "-v", "in"]) ⟨3, 1, some 0⟩ = pure ["-v", "in"] :=
  ⟨by decide +kernel, C129_visits_partial (fun _ => ["prog", "-v", "in"]) 0 1 (by decide)⟩

/-- `n` increments. (Specification, no line of the source.) -/
def incrN : Nat → It → It
  | 0, a => a
  | n + 1, a => incrN n (incr a)

/-- C129, steps: `it + n` is what `n` increments give, it is `n` away, and `it[n]` reads what it points to. -/
theorem C129_steps_partial (args : Nat → List σ) (a : It) (n : Nat) (m : Int) :
    plus a n = incrN n a ∧ diff (plus a m) a = m ∧ index args a m = deref args (plus a m) := by
  refine ⟨?_, ?_, rfl⟩
  · induction n generalizing a with
    | zero => unfold plus incrN; simp
    | succ n ih =>
      unfold incrN
      rw [← ih]
      unfold plus incr
      dsimp only
      congr 1
      push_cast
      omega
  · unfold diff plus
    dsimp only
    omega

/-- C129 fails for `at`: argument zero, the name of the program, is refused. -/
theorem C129_at_violated (args : Nat → List σ) (k : Nat) (pos : Int) :
    at' args ⟨(args k).length, pos, some k⟩ (-pos) = thrown := by
  unfold at'
  rw [if_neg (by dsimp only; omega)]

/-- C129 fails for the order: between two iterators into the same arguments `<` and `>` never hold and `<=` and `>=` always
do, whatever the positions are. -/
theorem C129_order_violated (a b : It) (h : a.argv = b.argv) (hc : a.argc = b.argc) :
    lt a b = false ∧ gt a b = false ∧ le a b = true ∧ ge a b = true := by
  simp [lt, gt, le, ge, h, hc]

example : lt ⟨3, 0, some 0⟩ ⟨3, 2, some 0⟩ = false ∧ le ⟨3, 2, some 0⟩ ⟨3, 0, some 0⟩ = true := by decide

end Arg

/-! ### Model of `indexed_iterator` -/

namespace Indexed

variable {α : Type}

/-- `dbg_precondition_check` of daw_exception.h 294-302, in a build that has it. -/
def check (b : Bool) : Cxx Unit := if b then pure () else abort

/-- `static_cast<size_type>( p ) <= size( )`: a negative number becomes one above every size.
(Rule of C++ or its library, no line of the source.) -/
def sizeLe (p : Int) (len : Nat) : Bool := decide (0 ≤ p) && decide (p ≤ len)

/-- The constructor, daw_indexed_iterator.h 37-43, and `ibegin` / `iend`, 207-214 and 225-233.  An iterator into a container
is its `m_position`. -/
def make (len pos : Nat) : Cxx Int := do
  check (decide (pos ≤ len))
  pure pos

/-- `operator+=`, daw_indexed_iterator.h 45-51. -/
def addAssign (len : Nat) (p n : Int) : Cxx Int := do
  check (sizeLe (p + n) len)
  pure (p + n)

/-- `operator-=`, daw_indexed_iterator.h 53-58. -/
def subAssign (p n : Int) : Cxx Int := do
  check (decide (p - n ≥ 0))
  pure (p - n)

/-- `operator*`, daw_indexed_iterator.h 60-66. -/
def deref (xs : List α) (p : Int) : Cxx α := do
  check (decide (p ≥ 0))
  check (sizeLe p xs.length)
  rd xs p.toNat

/-- `operator++`, daw_indexed_iterator.h 92-98. -/
def incr (len : Nat) (p : Int) : Cxx Int := do
  check (sizeLe p len)
  pure (p + 1)

/-- `operator--`, daw_indexed_iterator.h 109-114. -/
def decr (p : Int) : Cxx Int := do
  check (decide (p ≥ 0))
  pure (p - 1)

/-- `operator+`, daw_indexed_iterator.h 124-132, `next`, 134-143, and `advance`, 145-152. -/
def plus (len : Nat) (p n : Int) : Cxx Int := do
  check (decide (p + n ≥ 0) && decide (p + n < len))
  pure (p + n)

/-- `operator-( difference_type )`, daw_indexed_iterator.h 154-163, and `prev`, 165-174. -/
def minus (len : Nat) (p n : Int) : Cxx Int := do
  check (decide (p - n ≥ 0) && decide (p - n < len))
  pure (p - n)

/-- `compare`, daw_indexed_iterator.h 176-192, for iterators into the same container. -/
def compare (p q : Int) : Cxx Int := do
  check (decide (p ≥ 0))
  check (decide (q ≥ 0))
  let result := p - q
  if result < 0 then pure (-1)
  else if result > 0 then pure 1
  else pure result

/-- `operator-`, daw_indexed_iterator.h 194-204, for iterators into the same container. -/
def diff (p q : Int) : Cxx Int := do
  check (decide (p ≥ 0))
  check (decide (q ≥ 0))
  check (decide (p ≥ q))
  pure (p - q)

/-- `for( auto it = ibegin( c ); it != iend( c ); ++it )` with `operator!=`, daw_indexed_iterator.h 300-304: what the body
reads. -/
def visit (xs : List α) (p last : Int) : Cxx (List α) := do
  let c ← compare p last
  if c ≠ 0 then
    let x ← deref xs p
    let q ← incr xs.length p
    let rest ← visit xs q last
    pure (x :: rest)
  else pure []
partial_fixpoint

theorem check_true {b : Bool} (h : b = true) : check b = pure () := by rw [h]; rfl

theorem check_false {b : Bool} (h : b = false) : check b = abort := by rw [h]; rfl

theorem sizeLe_iff {p : Int} {len : Nat} : sizeLe p len = true ↔ 0 ≤ p ∧ p ≤ len := by simp [sizeLe]

theorem compare_eq {p q : Int} (hp : 0 ≤ p) (hq : 0 ≤ q) :
    compare p q = pure (if p < q then -1 else if p > q then 1 else 0) := by
  unfold compare
  rw [check_true (decide_eq_true hp), check_true (decide_eq_true hq), pure_bind, pure_bind]
  by_cases h1 : p < q
  · rw [if_pos (by omega), if_pos h1]
  · by_cases h2 : p > q
    · rw [if_neg (by omega), if_pos (by omega), if_neg h1, if_pos h2]
    · rw [if_neg (by omega), if_neg (by omega), if_neg h1, if_neg h2, show p - q = 0 by omega]

/-- C130: the loop over a container by index sees all elements in order and passes all checks. -/
theorem C130_visits_partial (xs : List α) (p : Nat) (hp : p ≤ xs.length) : visit xs p xs.length = pure (xs.drop p) := by
  generalize hd : xs.length - p = d
  induction d generalizing p with
  | zero =>
    rw [visit, compare_eq (by omega) (by omega), pure_bind, if_neg (show ¬ (p : Int) < xs.length by omega),
      if_neg (show ¬ (p : Int) > xs.length by omega), List.drop_eq_nil_of_le (by omega)]
    rfl
  | succ d ih =>
    have hlt : p < xs.length := by omega
    rw [visit, compare_eq (by omega) (by omega), pure_bind, if_pos (show (p : Int) < xs.length by omega)]
    rw [if_pos (by decide)]
    unfold deref incr
    rw [check_true (decide_eq_true (show (p : Int) ≥ 0 by omega)), check_true (sizeLe_iff.2 (show 0 ≤ (p : Int) ∧ (p : Int) ≤ xs.length by omega))]
    simp only [pure_bind, Int.toNat_natCast]
    rw [rd_eq hlt, pure_bind]
    have := ih (p + 1) (by omega) (by omega)
    push_cast at this
    rw [this, pure_bind, List.drop_eq_getElem_cons hlt]

/-- C130: from `ibegin` to `iend`, that is all elements. -/
theorem C130_range_partial (xs : List α) : (do
    let first ← make xs.length 0
    let last ← make xs.length xs.length
    visit xs first last) = pure xs := by
  unfold make
  rw [check_true (decide_eq_true (Nat.zero_le _)), check_true (decide_eq_true (Nat.le_refl _))]
  simp only [pure_bind]
  exact C130_visits_partial xs 0 (by omega)

/-- C130: an iterator cannot be made behind the end. -/
theorem C130_make_partial (len pos : Nat) (h : len < pos) : make len pos = abort := by
  unfold make
  rw [check_false (decide_eq_false (by omega))]
  rfl

example : visit [4, 5, 6] 0 3 = pure [4, 5, 6] := C130_visits_partial [4, 5, 6] 0 (by decide)

/-- C130: `it + n`, `it - n`, `next`, `prev` and `advance` either give an iterator to an element of the container or abort,
and reading through the result is always defined. -/
theorem C130_plus_partial (xs : List α) (p n q : Int) (h : plus xs.length p n = pure q ∨ minus xs.length p n = pure q) :
    0 ≤ q ∧ q < xs.length ∧ ∃ x, deref xs q = pure x := by
  have key : ∀ r : Int, (do check (decide (r ≥ 0) && decide (r < xs.length)); pure r : Cxx Int) = pure q →
      0 ≤ q ∧ q < xs.length ∧ ∃ x, deref xs q = pure x := by
    intro r hr
    obtain ⟨u, hu, hr⟩ := bind_eq_pure.1 hr
    rw [pure_inj] at hr
    unfold check at hu
    split at hu
    · rename_i hc
      rw [Bool.and_eq_true, decide_eq_true_iff, decide_eq_true_iff] at hc
      rw [hr] at hc
      refine ⟨hc.1, hc.2, ?_⟩
      unfold deref
      rw [check_true (decide_eq_true hc.1), check_true (sizeLe_iff.2 ⟨hc.1, by omega⟩), pure_bind, pure_bind]
      exact ⟨_, rd_eq (show q.toNat < xs.length by omega)⟩
    · exact absurd hu (abort_ne_pure _)
  rcases h with h | h
  · exact key _ h
  · exact key _ h

example : plus 3 1 1 = pure 2 ∧ deref [4, 5, 6] 2 = pure 6 := by decide +kernel

/-- C130, order and distances: comparisons agree with the positions, and the distance to an earlier iterator is the
difference of the positions. -/
theorem C130_order_partial (p q : Int) (hp : 0 ≤ p) (hq : 0 ≤ q) :
    (∃ c, compare p q = pure c ∧ (c = 0 ↔ p = q) ∧ (c < 0 ↔ p < q) ∧ (c > 0 ↔ p > q)) ∧
    (q ≤ p → diff p q = pure (p - q)) := by
  constructor
  · by_cases h1 : p < q
    · exact ⟨-1, by rw [compare_eq hp hq, if_pos h1], by omega, by omega, by omega⟩
    · by_cases h2 : p > q
      · exact ⟨1, by rw [compare_eq hp hq, if_neg h1, if_pos h2], by omega, by omega, by omega⟩
      · exact ⟨0, by rw [compare_eq hp hq, if_neg h1, if_neg h2], by omega, by omega, by omega⟩
  · intro h
    unfold diff
    rw [check_true (decide_eq_true hp), check_true (decide_eq_true hq), check_true (decide_eq_true h)]
    rfl

example := C130_order_partial 7 3 (by decide) (by decide)

/-- C130 fails: the checks let a read at the end of the container pass, which is undefined behaviour. -/
theorem C130_deref_end_violated (xs : List α) : deref xs xs.length = ub := by
  unfold deref
  rw [check_true (decide_eq_true (by omega)), check_true (sizeLe_iff.2 ⟨by omega, by omega⟩), pure_bind, pure_bind]
  exact rd_oob (by omega)

/-- C130 fails: `++` at the end, `--` at the beginning and `-=` of a negative number leave the container unnoticed. -/
theorem C130_moves_violated (len : Nat) (n : Nat) : incr len len = pure (len + 1) ∧ decr 0 = pure (-1) ∧
    subAssign len (-(n : Int)) = pure (len + n) := by
  refine ⟨?_, rfl, ?_⟩
  · unfold incr
    rw [check_true (sizeLe_iff.2 ⟨by omega, by omega⟩)]
    rfl
  · unfold subAssign
    rw [check_true (decide_eq_true (by omega)), pure_bind]
    congr 1
    omega

/-- C130 fails: the valid step to the end of the container aborts with `+`, though `+=` makes it. -/
theorem C130_plus_end_violated (len : Nat) (p : Int) :
    plus len p (len - p) = abort ∧ addAssign len p (len - p) = pure (len : Int) := by
  constructor
  · unfold plus
    rw [check_false (by simp; omega)]
    rfl
  · unfold addAssign
    rw [check_true (sizeLe_iff.2 ⟨by omega, by omega⟩), pure_bind]
    congr 1
    omega

/-- C130 fails: the distance from a later iterator to an earlier one, which is negative, aborts. -/
theorem C130_distance_violated (p q : Int) (hp : 0 ≤ p) (h : p < q) : diff p q = abort := by
  unfold diff
  rw [check_true (decide_eq_true hp), check_true (decide_eq_true (show q ≥ 0 by omega)), check_false (decide_eq_false (by omega))]
  rfl

example : diff 0 3 = abort := C130_distance_violated 0 3 (by decide) (by decide)

end Indexed

/-! ### Model of `checked_iterator_proxy_t` -/

namespace Checked

variable {α : Type}

/-- `current`, `first`, `last` and `flags`, daw_checked_iterator_proxy.h 24-32, for iterators into one block. -/
structure It where
  current : Int
  first : Int
  last : Int
  flags : Nat
  deriving DecidableEq, Repr

/-- `flag_t`, daw_checked_iterator_proxy.h 24-28. -/
def checkIncrement : Nat := 1
/-- `flag_t`, daw_checked_iterator_proxy.h 24-28. -/
def checkDecrement : Nat := 2
/-- `flag_t`, daw_checked_iterator_proxy.h 24-28. -/
def checkDereference : Nat := 4

/-- `is_flag_set`, daw_checked_iterator_proxy.h 34-36. -/
def isSet (a : It) (flag : Nat) : Bool := a.flags &&& flag != 0

/-- `nsc_or`, daw_logic.h 22-26, of a number and a boolean. -/
def nscOr (n : Nat) (b : Bool) : Bool := n != 0 || b

/-- `get_flag_value`, daw_checked_iterator_proxy.h 38-48. -/
def flagValue (inc dec der : Bool) : Nat :=
  let result := if inc then checkIncrement else 0
  let result := if nscOr result dec then checkDecrement else 0
  let result := if nscOr result der then checkDereference else 0
  result

/-- The constructor, daw_checked_iterator_proxy.h 51-59. -/
def make (first last : Int) (inc dec der : Bool) : It := ⟨first, first, last, flagValue inc dec der⟩

/-- `operator++`, daw_checked_iterator_proxy.h 70-77. -/
def incr (len : Nat) (a : It) : Cxx It := do
  if isSet a checkIncrement && decide (a.current = a.last) then thrown
  else
    let p ← goto len (a.current + 1)
    pure { a with current := p }

/-- `operator++( int )`, daw_checked_iterator_proxy.h 79-83: the iterator itself and the result. -/
def postIncr (len : Nat) (a : It) : Cxx (It × It) := do
  let result ← incr len a
  pure (a, result)

/-- `operator--`, daw_checked_iterator_proxy.h 85-93. -/
def decr (len : Nat) (a : It) : Cxx It := do
  if isSet a checkDecrement && decide (a.current = a.first) then thrown
  else
    let p ← goto len (a.current - 1)
    pure { a with current := p }

/-- `operator*`, daw_checked_iterator_proxy.h 101-108. -/
def deref (xs : List α) (a : It) : Cxx α :=
  if isSet a checkDereference && decide (a.current = a.last) then thrown else readAt xs a.current

/-- An iterator that went through any number of moves. (Specification, no line of the source.) -/
inductive Reach (len : Nat) (a : It) : It → Prop
  | refl : Reach len a a
  | incr {b c : It} : Reach len a b → Checked.incr len b = pure c → Reach len a c
  | decr {b c : It} : Reach len a b → Checked.decr len b = pure c → Reach len a c

/-- C131 fails: whatever checks are asked for, the flags never ask for a check of `++` or `--`; there is a check of `*` when
any of the three was asked for. -/
theorem C131_flags_violated (inc dec der : Bool) : flagValue inc dec der = if inc || dec || der then checkDereference else 0 := by
  cases inc <;> cases dec <;> cases der <;> rfl

theorem reach_const {len : Nat} {a b : It} (h : Reach len a b) : b.first = a.first ∧ b.last = a.last ∧ b.flags = a.flags := by
  induction h with
  | refl => exact ⟨rfl, rfl, rfl⟩
  | incr _ hi ih =>
    unfold Checked.incr at hi
    split at hi
    · exact absurd hi (thrown_ne_pure _)
    · obtain ⟨p, -, hi⟩ := bind_eq_pure.1 hi
      rw [pure_inj] at hi
      rw [← hi]
      exact ih
  | decr _ hi ih =>
    unfold Checked.decr at hi
    split at hi
    · exact absurd hi (thrown_ne_pure _)
    · obtain ⟨p, -, hi⟩ := bind_eq_pure.1 hi
      rw [pure_inj] at hi
      rw [← hi]
      exact ih

/-- C131 fails: with all checks asked for, an iterator over the whole block that reached its end is moved further by `++`, and
one at the beginning further back by `--`: undefined behaviour and no exception. -/
theorem C131_moves_violated (len : Nat) (inc dec der : Bool) (a : It) (h : Reach len (make 0 len inc dec der) a) :
    (a.current = a.last → incr len a = ub) ∧ (a.current = a.first → decr len a = ub) := by
  obtain ⟨h1, h2, h3⟩ := reach_const h
  have hf : a.flags = flagValue inc dec der := h3
  rw [C131_flags_violated] at hf
  have hi : isSet a checkIncrement = false := by unfold isSet; rw [hf]; split <;> rfl
  have hd : isSet a checkDecrement = false := by unfold isSet; rw [hf]; split <;> rfl
  have hl : a.last = len := h2
  have h0 : a.first = 0 := h1
  constructor
  · intro he
    unfold incr
    rw [hi]
    simp only [Bool.false_and, Bool.false_eq_true, if_false]
    rw [goto_gt (by omega)]
    rfl
  · intro he
    unfold decr
    rw [hd]
    simp only [Bool.false_and, Bool.false_eq_true, if_false]
    rw [goto_lt (by omega)]
    rfl

example : Reach 1 (make 0 1 true true true) ⟨1, 0, 1, 4⟩ ∧ incr 1 ⟨1, 0, 1, 4⟩ = ub :=
  ⟨.incr .refl (by decide +kernel), by decide +kernel⟩

/-- C131 fails: with a part of the block, `++` walks over the given end into the elements behind it, and reading there is
not noticed any more. -/
theorem C131_part_violated : ∃ a b, Reach 3 (make 0 1 true true true) a ∧ a.current = a.last ∧ incr 3 a = pure b ∧
    deref [7, 8, 9] b = pure 9 :=
  ⟨⟨1, 0, 1, 4⟩, ⟨2, 0, 1, 4⟩, .incr .refl (by decide +kernel), rfl, by decide +kernel, by decide +kernel⟩

/-- C131 fails for the postfix operators: they do not move the iterator, and return the moved one. -/
theorem C131_postfix_violated (len : Nat) (a b c : It) (h : postIncr len a = pure (b, c)) : b = a ∧ incr len a = pure c := by
  unfold postIncr at h
  obtain ⟨d, hd, h⟩ := bind_eq_pure.1 h
  rw [pure_inj] at h
  injection h with h1 h2
  exact ⟨h1.symm, by rw [hd, h2]⟩

example : postIncr 3 (make 0 3 true true true) = pure (⟨0, 0, 3, 4⟩, ⟨1, 0, 3, 4⟩) := by decide +kernel

/-- C131, the part that holds: with any check asked for, reading at the end throws, and reading anywhere between `first` and
`last` gives the element. Missing: the checks of `++` and `--`. -/
theorem C131_deref_partial (xs : List α) (first last : Int) (inc dec der : Bool) (hany : (inc || dec || der) = true) (a : It)
    (h : Reach xs.length (make first last inc dec der) a) :
    (a.current = last → deref xs a = thrown) ∧
    (∀ x, 0 ≤ a.current → a.current ≠ last → xs[a.current.toNat]? = some x → deref xs a = pure x) := by
  obtain ⟨h1, h2, h3⟩ := reach_const h
  have hf : a.flags = flagValue inc dec der := h3
  rw [C131_flags_violated, hany, if_pos rfl] at hf
  have hd : isSet a checkDereference = true := by unfold isSet; rw [hf]; rfl
  have hl : a.last = last := h2
  constructor
  · intro he
    unfold deref
    rw [hd, he, hl]
    simp
  · intro x h0 hne hx
    unfold deref
    rw [hd, decide_eq_false (by rw [hl]; exact hne)]
    simp only [Bool.and_false, Bool.false_eq_true, if_false]
    rw [show a.current = (a.current.toNat : Int) by omega]
    exact readAt_some hx

example : deref [7, 8] (make 2 2 true true true) = thrown ∧ deref [7, 8] (make 1 2 false true false) = pure 8 := by
  decide +kernel

end Checked

end Verif.Iter
