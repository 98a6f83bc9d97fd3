import Verif.Algorithm.More
import Verif.Containers.Lists
import Verif.Own.Base
import Mathlib.Data.List.Basic
import Mathlib.Data.List.Perm.Basic

/-
More of daw_algorithm.h: `satisfies_one`, `satisfies_all`, `gather`, `map` of two ranges, `cartesian_product`, `transform_it`,
`for_each_if`, `convert_copy` and the functions that move nodes between associative containers.  A range that is only read is the
list of its elements.
-/

namespace Verif.Algorithm.Extra
open Cxx

variable {α β γ : Type}

/-! ### satisfies_one, satisfies_all -/

/-- `satisfies_one( value, funcs... )`, daw_algorithm.h 600-623; the functions as a list, which is not empty. -/
def satOne (x : α) : List (α → Cxx Bool) → Cxx Bool
  | [] => pure false
  | [f] => f x
  | f :: fs => do
    let b ← f x
    if b then pure true else satOne x fs

/-- `satisfies_all( value, funcs... )`, daw_algorithm.h 660-683; the functions as a list, which is not empty. -/
def satAll (x : α) : List (α → Cxx Bool) → Cxx Bool
  | [] => pure true
  | [f] => f x
  | f :: fs => do
    let b ← f x
    if b then satAll x fs else pure false

/-- `satisfies_one( first, last, funcs... )`, daw_algorithm.h 632-654. -/
def satOneRange (fs : List (α → Cxx Bool)) : List α → Cxx Bool
  | [] => pure false
  | x :: xs => do
    let b ← satOne x fs
    if b then pure true else satOneRange fs xs

/-- `satisfies_all( first, last, funcs... )`, daw_algorithm.h 693-714. -/
def satAllRange (fs : List (α → Cxx Bool)) : List α → Cxx Bool
  | [] => pure true
  | x :: xs => do
    let b ← satAll x fs
    if !b then pure false else satAllRange fs xs

theorem satOne_cons (x : α) (f : α → Cxx Bool) (fs : List (α → Cxx Bool)) :
    satOne x (f :: fs) = f x >>= fun b => if b then pure true else satOne x fs := by
  cases fs with
  | nil =>
    simp only [satOne]
    have : (fun b : Bool => if b = true then (pure true : Cxx Bool) else pure false) = pure := by
      funext b; cases b <;> rfl
    rw [this, bind_pure]
  | cons => rfl

theorem satAll_cons (x : α) (f : α → Cxx Bool) (fs : List (α → Cxx Bool)) :
    satAll x (f :: fs) = f x >>= fun b => if b then satAll x fs else pure false := by
  cases fs with
  | nil =>
    simp only [satAll]
    have : (fun b : Bool => if b = true then (pure true : Cxx Bool) else pure false) = pure := by
      funext b; cases b <;> rfl
    rw [this, bind_pure]
  | cons => rfl

/-- The tests in the order in which they are made. (Specification, no line of the source.) -/
def tests (fs : List (α → Cxx Bool)) (xs : List α) : List (Cxx Bool) := xs.flatMap fun x => fs.map fun f => f x

theorem satOne_tests (x : α) (fs : List (α → Cxx Bool)) :
    (∀ (ts u : List (Cxx Bool)), fs.map (fun f => f x) = ts ++ pure true :: u → (∀ t ∈ ts, t = pure false) → satOne x fs = pure true) ∧
    ((∀ f ∈ fs, f x = pure false) → satOne x fs = pure false) := by
  induction fs with
  | nil =>
    refine ⟨fun ts u h _ => ?_, fun _ => rfl⟩
    cases ts <;> cases h
  | cons f fs ih =>
    rw [satOne_cons]
    constructor
    · intro ts u h hts
      cases ts with
      | nil =>
        rw [List.map_cons, List.nil_append] at h
        injection h with h1 h2
        rw [h1]; rfl
      | cons t ts =>
        rw [List.map_cons, List.cons_append] at h
        injection h with h1 h2
        rw [h1, hts t (by simp)]
        show satOne x fs = _
        exact ih.1 ts u h2 fun t' ht' => hts t' (by simp [ht'])
    · intro h
      rw [h f (by simp)]
      show satOne x fs = _
      exact ih.2 fun f' hf' => h f' (by simp [hf'])

theorem satAll_tests (x : α) (fs : List (α → Cxx Bool)) :
    (∀ (ts u : List (Cxx Bool)), fs.map (fun f => f x) = ts ++ pure false :: u → (∀ t ∈ ts, t = pure true) → satAll x fs = pure false) ∧
    ((∀ f ∈ fs, f x = pure true) → satAll x fs = pure true) := by
  induction fs with
  | nil =>
    refine ⟨fun ts u h _ => ?_, fun _ => rfl⟩
    cases ts <;> cases h
  | cons f fs ih =>
    rw [satAll_cons]
    constructor
    · intro ts u h hts
      cases ts with
      | nil =>
        rw [List.map_cons, List.nil_append] at h
        injection h with h1 h2
        rw [h1]; rfl
      | cons t ts =>
        rw [List.map_cons, List.cons_append] at h
        injection h with h1 h2
        rw [h1, hts t (by simp)]
        show satAll x fs = _
        exact ih.1 ts u h2 fun t' ht' => hts t' (by simp [ht'])
    · intro h
      rw [h f (by simp)]
      show satAll x fs = _
      exact ih.2 fun f' hf' => h f' (by simp [hf'])

/-- C207, `satisfies_one`: the predicates are called in order on the elements in order up to the first that is true, whatever the later
ones would do; the result is true if there is such a call and false if all are false. -/
theorem C207_satisfies_one (fs : List (α → Cxx Bool)) (xs : List α) :
    (∀ (ts u : List (Cxx Bool)), tests fs xs = ts ++ pure true :: u → (∀ t ∈ ts, t = pure false) → satOneRange fs xs = pure true) ∧
    ((∀ x ∈ xs, ∀ f ∈ fs, f x = pure false) → satOneRange fs xs = pure false) := by
  induction xs with
  | nil =>
    refine ⟨fun ts u h _ => ?_, fun _ => rfl⟩
    simp only [tests, List.flatMap_nil] at h
    cases ts <;> cases h
  | cons x xs ih =>
    simp only [satOneRange]
    constructor
    · intro ts u h hts
      have h' : fs.map (fun f => f x) ++ tests fs xs = ts ++ pure true :: u := h
      rcases List.append_eq_append_iff.1 h' with ⟨as, h1, h2⟩ | ⟨bs, h1, h2⟩
      · have hx : satOne x fs = pure false := (satOne_tests x fs).2 fun f hf =>
          hts _ (by rw [h1]; exact List.mem_append_left _ (List.mem_map.2 ⟨f, hf, rfl⟩))
        rw [hx]
        show satOneRange fs xs = _
        exact ih.1 as u h2 fun t ht => hts t (by rw [h1]; exact List.mem_append_right _ ht)
      · cases bs with
        | nil =>
          rw [List.append_nil] at h1
          have hx : satOne x fs = pure false := (satOne_tests x fs).2 fun f hf =>
            hts _ (by rw [← h1]; exact List.mem_map.2 ⟨f, hf, rfl⟩)
          rw [hx]
          show satOneRange fs xs = _
          exact ih.1 [] u h2.symm (fun t ht => by cases ht)
        | cons b bs =>
          rw [List.cons_append] at h2
          injection h2 with h3 h4
          rw [← h3] at h1
          rw [(satOne_tests x fs).1 ts bs h1 hts]
          rfl
    · intro h
      rw [(satOne_tests x fs).2 (h x (by simp))]
      show satOneRange fs xs = _
      exact ih.2 fun y hy => h y (by simp [hy])

/-- C207, `satisfies_all`: the predicates are called in order on the elements in order up to the first that is false, whatever the later
ones would do; the result is false if there is such a call and true if all are true. -/
theorem C207_satisfies_all (fs : List (α → Cxx Bool)) (xs : List α) :
    (∀ (ts u : List (Cxx Bool)), tests fs xs = ts ++ pure false :: u → (∀ t ∈ ts, t = pure true) → satAllRange fs xs = pure false) ∧
    ((∀ x ∈ xs, ∀ f ∈ fs, f x = pure true) → satAllRange fs xs = pure true) := by
  induction xs with
  | nil =>
    refine ⟨fun ts u h _ => ?_, fun _ => rfl⟩
    simp only [tests, List.flatMap_nil] at h
    cases ts <;> cases h
  | cons x xs ih =>
    simp only [satAllRange]
    constructor
    · intro ts u h hts
      have h' : fs.map (fun f => f x) ++ tests fs xs = ts ++ pure false :: u := h
      rcases List.append_eq_append_iff.1 h' with ⟨as, h1, h2⟩ | ⟨bs, h1, h2⟩
      · have hx : satAll x fs = pure true := (satAll_tests x fs).2 fun f hf =>
          hts _ (by rw [h1]; exact List.mem_append_left _ (List.mem_map.2 ⟨f, hf, rfl⟩))
        rw [hx]
        show satAllRange fs xs = _
        exact ih.1 as u h2 fun t ht => hts t (by rw [h1]; exact List.mem_append_right _ ht)
      · cases bs with
        | nil =>
          rw [List.append_nil] at h1
          have hx : satAll x fs = pure true := (satAll_tests x fs).2 fun f hf =>
            hts _ (by rw [← h1]; exact List.mem_map.2 ⟨f, hf, rfl⟩)
          rw [hx]
          show satAllRange fs xs = _
          exact ih.1 [] u h2.symm (fun t ht => by cases ht)
        | cons b bs =>
          rw [List.cons_append] at h2
          injection h2 with h3 h4
          rw [← h3] at h1
          rw [(satAll_tests x fs).1 ts bs h1 hts]
          rfl
    · intro h
      rw [(satAll_tests x fs).2 (h x (by simp))]
      show satAllRange fs xs = _
      exact ih.2 fun y hy => h y (by simp [hy])

/-- A predicate that may not be called is not reached. -/
example : satOneRange [fun x : Nat => pure (x == 2), fun x => if x = 3 then ub else pure false] [1, 2, 3] = pure true :=
  (C207_satisfies_one _ _).1 [pure false, pure false] [pure false, pure false, ub] rfl (by simp)
example : satAllRange [fun x : Nat => pure (x != 2), fun x => if x = 2 then ub else pure true] [1, 2, 3] = pure false :=
  (C207_satisfies_all _ _).1 [pure true, pure true] [ub, pure true, pure true] rfl (by simp)

/-- C207, with predicates that are just functions: disjunction and conjunction. -/
theorem C207_satisfies (ps : List (α → Bool)) (xs : List α) :
    satOneRange (ps.map fun p x => pure (p x)) xs = pure (xs.any fun x => ps.any fun p => p x) ∧
    satAllRange (ps.map fun p x => pure (p x)) xs = pure (xs.all fun x => ps.all fun p => p x) := by
  have h1 : ∀ x, satOne x (ps.map fun p x => pure (p x)) = pure (ps.any fun p => p x) := by
    intro x
    induction ps with
    | nil => rfl
    | cons p ps ih =>
      rw [List.map_cons, satOne_cons, pure_bind, ih, List.any_cons]
      cases p x <;> rfl
  have h2 : ∀ x, satAll x (ps.map fun p x => pure (p x)) = pure (ps.all fun p => p x) := by
    intro x
    clear h1
    induction ps with
    | nil => rfl
    | cons p ps ih =>
      rw [List.map_cons, satAll_cons, pure_bind, ih, List.all_cons]
      cases p x <;> rfl
  constructor
  · induction xs with
    | nil => rfl
    | cons x xs ih =>
      simp only [satOneRange]
      rw [h1, pure_bind, ih, List.any_cons]
      cases (ps.any fun p => p x) <;> rfl
  · induction xs with
    | nil => rfl
    | cons x xs ih =>
      simp only [satAllRange]
      rw [h2, pure_bind, ih, List.all_cons]
      cases (ps.all fun p => p x) <;> rfl

/-! ### Predicates made from values -/

open Verif.Own (live live_of)

/-- An argument for a forwarding reference: the variable `i`, or a value about to expire.
(Rule of C++ or its library, no line of the source.) -/
inductive Arg (α : Type) where
  | lvalue (i : Nat)
  | rvalue (v : α)
deriving DecidableEq

/-- The member `m_value`, daw_algorithm.h 719-720 and 739: for a variable the deduced type `Value` is a reference, so the member refers
to the variable; otherwise it is the value. -/
inductive Member (α : Type) where
  | ref (i : Nat)
  | val (v : α)
deriving DecidableEq

/-- Initialisation of the member with the forwarded argument, daw_algorithm.h 724-726 and 744-745. -/
def Arg.member : Arg α → Member α
  | .lvalue i => .ref i
  | .rvalue v => .val v

/-- The value read through the member.
(Rule of C++ or its library, no line of the source.) -/
def Member.read (vars : List (Option α)) : Member α → Cxx α
  | .ref i => live vars i
  | .val v => pure v

/-- The value of an argument after it has been forwarded into the member: an expiring value has been moved from.
(Rule of C++ or its library, no line of the source.) -/
def Arg.after (moved : α → α) (vars : List (Option α)) : Arg α → Cxx α
  | .lvalue i => live vars i
  | .rvalue v => pure (moved v)

/-- The value of an argument. (Specification, no line of the source.) -/
def Arg.value (vars : List (Option α)) : Arg α → Cxx α
  | .lvalue i => live vars i
  | .rvalue v => pure v

/-- `in_range( lower, upper )`, daw_algorithm.h 723-729 and 824-828: the members are initialised first, then the arguments compared. -/
def inRange (le : α → α → Bool) (moved : α → α) (vars : List (Option α)) (lower upper : Arg α) : Cxx (Member α × Member α) := do
  let l ← lower.after moved vars
  let u ← upper.after moved vars
  if le l u then pure (lower.member, upper.member) else thrown

/-- `operator( )` of `in_range`, daw_algorithm.h 731-734. -/
def inRangeCall (le : α → α → Bool) (vars : List (Option α)) (r : Member α × Member α) (x : α) : Cxx Bool := do
  let l ← r.1.read vars
  if le l x then do
    let u ← r.2.read vars
    pure (le x u)
  else pure false

/-- Which class: `equal_to`, `less_than`, `greater_than`, `greater_than_or_equal_to`, `less_than_or_equal_to`, daw_algorithm.h 737-815. -/
inductive Rel where
  | eq
  | lt
  | gt
  | ge
  | le
deriving DecidableEq

/-- `operator( )` of these classes, daw_algorithm.h 747-750, 763-766, 779-782, 795-798 and 811-814; the order is that of integers. -/
def relCall (r : Rel) (vars : List (Option Int)) (m : Member Int) (x : Int) : Cxx Bool := do
  let v ← m.read vars
  match r with
  | .eq => pure (decide (x = v))
  | .lt => pure (decide (x < v))
  | .gt => pure (decide (x > v))
  | .ge => pure (decide (x ≥ v))
  | .le => pure (decide (x ≤ v))

theorem member_read (a : Arg α) (vars : List (Option α)) : a.member.read vars = a.value vars := by cases a <;> rfl

/-- C212, `in_range` for arguments that moving does not change: an exception exactly if the bounds are in the wrong order, and otherwise a
test for the closed interval, as long as variables used as bounds keep their values.  Missing: bounds that are moved from and bounds that
change, see `C212_in_range_violated` and `C212_reference_violated`. -/
theorem C212_in_range_partial (le : α → α → Bool) (moved : α → α) (vars vars' : List (Option α)) (lower upper : Arg α) (l u : α)
    (hl : lower.value vars = pure l) (hu : upper.value vars = pure u) (hl' : lower.value vars' = pure l) (hu' : upper.value vars' = pure u)
    (hm : moved l = l ∧ moved u = u) :
    (le l u = false → inRange le moved vars lower upper = thrown) ∧
    (le l u = true → ∃ r, inRange le moved vars lower upper = pure r ∧ ∀ x, inRangeCall le vars' r x = pure (le l x && le x u)) := by
  have h1 : lower.after moved vars = pure l := by
    cases lower with
    | lvalue i => exact hl
    | rvalue v => cases Cxx.pure_inj.mp hl; exact congrArg pure hm.1
  have h2 : upper.after moved vars = pure u := by
    cases upper with
    | lvalue i => exact hu
    | rvalue v => cases Cxx.pure_inj.mp hu; exact congrArg pure hm.2
  have h3 : inRange le moved vars lower upper = if le l u then pure (lower.member, upper.member) else thrown := by
    unfold inRange
    rw [h1, pure_bind, h2, pure_bind]
  rw [h3]
  constructor
  · intro h; rw [h]; rfl
  · intro h
    rw [h]
    refine ⟨_, rfl, fun x => ?_⟩
    unfold inRangeCall
    rw [member_read, hl', pure_bind, member_read, hu', pure_bind]
    cases le l x <;> rfl

/-- A variable as lower bound and a literal as upper bound. -/
example : ∃ r, inRange (fun a b : Nat => decide (a ≤ b)) id [some 3] (.lvalue 0) (.rvalue 7) = pure r ∧
    ∀ x, inRangeCall (fun a b : Nat => decide (a ≤ b)) [some 3] r x = pure (decide (3 ≤ x) && decide (x ≤ 7)) :=
  (C212_in_range_partial _ id [some 3] [some 3] (.lvalue 0) (.rvalue 7) 3 7 (live_of rfl) rfl (live_of rfl) rfl ⟨rfl, rfl⟩).2 rfl

/-- C212 does not hold for arguments that moving empties (strings, whose smallest value is what is left after a move): bounds that are
in the right order are rejected if only the upper one is moved, and bounds in the wrong order are accepted if the lower one is. -/
theorem C212_in_range_violated (le : α → α → Bool) (empty : α) (hmin : ∀ x, le empty x = true) (l u : α) :
    (le l empty = false → inRange le (fun _ => empty) [some l] (.lvalue 0) (.rvalue u) = thrown) ∧
    inRange le (fun _ => empty) [] (.rvalue l) (.rvalue u) = pure (.val l, .val u) := by
  constructor
  · intro h
    unfold inRange
    show (live [some l] 0 >>= _) = _
    rw [live_of (a := l) rfl, pure_bind]
    show (if le l empty then _ else thrown) = _
    rw [h]; rfl
  · unfold inRange
    show (if le empty empty then _ else thrown) = _
    rw [hmin]; rfl

/-- Strings as numbers by length: "a" to "bb" is rejected. -/
example : inRange (fun a b : Nat => decide (a ≤ b)) (fun _ => 0) [some 1] (.lvalue 0) (.rvalue 2) = thrown :=
  (C212_in_range_violated _ 0 (by simp) 1 2).1 rfl
example : inRange (fun a b : Nat => decide (a ≤ b)) (fun _ => 0) [] (.rvalue 2) (.rvalue 1) = pure (.val 2, .val 1) :=
  (C212_in_range_violated _ 0 (by simp) 2 1).2

/-- C212, the other classes: the test compares the value handed in with the value at the time of the call of what the predicate was made
from. -/
theorem C212_compare (r : Rel) (vars : List (Option Int)) (a : Arg Int) (v x : Int) (h : a.value vars = pure v) :
    ∃ b, relCall r vars a.member x = pure b ∧
      (b = true ↔ match r with | .eq => x = v | .lt => x < v | .gt => v < x | .ge => v ≤ x | .le => x ≤ v) := by
  unfold relCall
  rw [member_read, h, pure_bind]
  cases r <;> exact ⟨_, rfl, decide_eq_true_iff⟩

example : ∃ b, relCall .ge [some 5] (Arg.lvalue 0).member 4 = pure b ∧ (b = true ↔ (5 : Int) ≤ 4) :=
  C212_compare .ge [some 5] (.lvalue 0) 5 4 (live_of rfl)

/-- C212 does not hold for predicates made from variables ("the value constructed with"): the predicate does not keep the value, so an
assignment to the variable changes the predicate, and after the end of the variable calling it is undefined behaviour. -/
theorem C212_reference_violated (v w : Int) (h : v ≠ w) :
    relCall .eq [some v] (Arg.lvalue 0).member v = pure true ∧ relCall .eq [some w] (Arg.lvalue 0).member v = pure false ∧
    relCall .eq [none] (Arg.lvalue 0).member v = ub := by
  refine ⟨?_, ?_, rfl⟩
  · unfold relCall
    rw [member_read]
    show (live [some v] 0 >>= _) = _
    rw [live_of (a := v) rfl, pure_bind]
    exact congrArg pure (decide_eq_true rfl)
  · unfold relCall
    rw [member_read]
    show (live [some w] 0 >>= _) = _
    rw [live_of (a := w) rfl, pure_bind]
    exact congrArg pure (decide_eq_false h)

example : relCall .eq [some 2] (Arg.lvalue 0).member 1 = pure false := (C212_reference_violated 1 2 (by decide)).2.1

/-! ### gather -/

/-- `std::stable_partition` of a part: the elements that satisfy the predicate first, both groups in their order, and the position of
the second group.
(Rule of C++ or its library, no line of the source.) -/
def stablePartition (p : α → Bool) (xs : List α) : List α × Nat := (xs.filter p ++ xs.filter (fun x => !p x), (xs.filter p).length)

/-- `gather`, daw_algorithm.h 497-513: the range afterwards and the two positions; `target` is the position of `target`. -/
def gather (p : α → Bool) (xs : List α) (target : Nat) : Cxx (List α × Nat × Nat) :=
  if target ≤ xs.length then
    let (a, start) := stablePartition (fun x => !p x) (xs.take target)
    let (b, finish) := stablePartition p (xs.drop target)
    pure (a ++ b, start, target + finish)
  else ub

/-- C208: `gather` brings all elements that satisfy the predicate together around the target: they are exactly those between the two
positions, in their order; the target is between the positions; the others keep their order, and those before the target stay before it. -/
theorem C208_gather (p : α → Bool) (xs : List α) (target : Nat) (ht : target ≤ xs.length) :
    ∃ ys start finish, gather p xs target = pure (ys, start, finish) ∧ ys.Perm xs ∧
      start ≤ target ∧ target ≤ finish ∧ finish ≤ ys.length ∧
      (ys.take finish).drop start = xs.filter p ∧
      ys.take start = (xs.take target).filter (fun x => !p x) ∧ ys.drop finish = (xs.drop target).filter (fun x => !p x) := by
  have hneg : (fun x => !!p x) = p := by funext x; exact Bool.not_not _
  obtain ⟨A, hA⟩ : ∃ A, xs.take target = A := ⟨_, rfl⟩
  obtain ⟨B, hB⟩ : ∃ B, xs.drop target = B := ⟨_, rfl⟩
  have hxs : xs = A ++ B := by rw [← hA, ← hB, List.take_append_drop]
  have hlA : A.length = target := by rw [← hA, List.length_take]; omega
  have hfA := List.length_eq_length_filter_add (l := A) p
  refine ⟨(A.filter (fun x => !p x) ++ A.filter p) ++ (B.filter p ++ B.filter (fun x => !p x)), (A.filter fun x => !p x).length,
    target + (B.filter p).length, ?_, ?_, ?_, by omega, ?_, ?_, ?_, ?_⟩
  · unfold gather stablePartition
    rw [if_pos ht, hA, hB, hneg]
  · rw [hxs]
    refine List.Perm.append ?_ ?_
    · exact (List.perm_append_comm).trans (List.filter_append_perm p A)
    · exact List.filter_append_perm p B
  · rw [← hlA]; exact List.length_filter_le _ _
  · have hfB := List.length_eq_length_filter_add (l := B) p
    simp only [List.length_append]
    omega
  · rw [hxs, List.filter_append]
    have hl : (A.filter (fun x => !p x) ++ A.filter p ++ B.filter p).length = target + (B.filter p).length := by
      simp only [List.length_append]; omega
    rw [← List.append_assoc, List.take_append_of_le_length (by omega), List.take_of_length_le (by omega), List.append_assoc,
      List.drop_append_of_le_length (Nat.le_refl _), List.drop_length, List.nil_append]
  · rw [List.append_assoc, List.take_append_of_le_length (Nat.le_refl _), List.take_length, hA]
  · have hl : (A.filter (fun x => !p x) ++ A.filter p ++ B.filter p).length = target + (B.filter p).length := by
      simp only [List.length_append]; omega
    rw [← List.append_assoc, List.drop_append_of_le_length (by omega), ← hl, List.drop_length, List.nil_append, hB]

example : gather (fun n : Nat => n % 2 == 0) [1, 2, 3, 4, 5, 6, 7, 8] 4 = pure ([1, 3, 2, 4, 6, 8, 5, 7], 2, 6) := by decide +kernel

/-! ### map of two ranges, cartesian_product, transform_it, for_each_if -/

/-- `map` of two ranges, daw_algorithm.h 1469-1492: the output and the position returned.  The second range is read without an end of
its own. -/
def map2 (op : α → β → γ) : List α → List β → List γ → Nat → Cxx (List γ × Nat)
  | [], _, out, o => pure (out, o)
  | x :: xs, ys, out, o => do
    let y ← rd ys 0
    let out ← wr out o (op x y)
    map2 op xs (ys.drop 1) out (o + 1)

/-- `cartesian_product_map` and `transform_many`, daw_algorithm.h 1817-1841, with one more range; `advance_many` moves all of them. -/
def cartesianMap (op : α → β → γ) : List α → List β → List γ → Nat → Cxx (List γ × Nat)
  | [], _, out, o => pure (out, o)
  | x :: xs, ys, out, o => do
    let y ← rd ys 0
    let out ← wr out o (op x y)
    cartesianMap op xs (ys.drop 1) out (o + 1)

/-- `cartesian_product`, daw_algorithm.h 1876-1890, with one more range: the pairs the function is called with. -/
def cartesian : List α → List β → Cxx (List (α × β))
  | [], _ => pure []
  | x :: xs, ys => do
    let y ← rd ys 0
    let rest ← cartesian xs (ys.drop 1)
    pure ((x, y) :: rest)

/-- `transform_it`, daw_algorithm.h 1108-1125; the output is a list and a position that the operation may move. -/
def transformIt (op : α → List γ → Nat → Cxx (List γ × Nat)) : List α → List γ → Nat → Cxx (List γ × Nat)
  | [], out, o => pure (out, o)
  | x :: xs, out, o => do
    let (out, o) ← op x out o
    transformIt op xs out o

/-- `for_each_if`, daw_algorithm.h 2072-2081: the elements that `onEach` is called with. -/
def forEachIf (p : α → Bool) : List α → List α
  | [] => []
  | x :: xs => if p x then x :: forEachIf p xs else forEachIf p xs

/-- `tuple_functor<N>::run`, daw_algorithm.h 524-541: the element the function is called with. -/
def tupleRun : Nat → Nat → List α → Option α
  | 0, _, _ => none
  | n + 1, i, tp => if i = n then tp[n]? else tupleRun n i tp

/-- `iota` with a setter, daw_algorithm.h 1741-1749; `succ` is `++start_value`, and the setter gives the new value of the element. -/
def iotaSet (succ : β → β) (setter : α → β → α) : List α → β → List α
  | [], _ => []
  | x :: xs, v => setter x v :: iotaSet succ setter xs (succ v)

theorem map2_spec (op : α → β → γ) : ∀ (xs : List α) (ys : List β) (out : List γ) (o : Nat), o + xs.length ≤ out.length →
    (xs.length ≤ ys.length → map2 op xs ys out o = pure (out.take o ++ List.zipWith op xs ys ++ out.drop (o + xs.length), o + xs.length)) ∧
    (ys.length < xs.length → map2 op xs ys out o = ub) := by
  intro xs
  induction xs with
  | nil =>
    intro ys out o h
    refine ⟨fun _ => ?_, fun h => by simp at h⟩
    simp [map2]
  | cons x xs ih =>
    intro ys out o h
    rw [List.length_cons] at h
    cases ys with
    | nil =>
      refine ⟨fun h => by simp at h, fun _ => ?_⟩
      simp only [map2]
      rw [rd_oob (by simp)]
      rfl
    | cons y ys =>
      obtain ⟨h1, h2⟩ := ih ys (out.set o (op x y)) (o + 1) (by rw [List.length_set]; omega)
      have hstep : map2 op (x :: xs) (y :: ys) out o = map2 op xs ys (out.set o (op x y)) (o + 1) := by
        simp only [map2]
        rw [rd_some (a := y) rfl]
        simp only [pure_bind]
        rw [wr_eq (by omega)]
        rfl
      rw [hstep]
      constructor
      · intro hl
        rw [h1 (by simpa using hl)]
        rw [List.take_set, List.drop_set, if_pos (by omega), List.zipWith_cons_cons, List.length_cons,
          show o + 1 + xs.length = o + (xs.length + 1) by omega]
        congr 2
        rw [List.take_add_one, List.set_append_right _ _ (by rw [List.length_take]; omega), List.length_take, Nat.min_eq_left (by omega),
          Nat.sub_self, List.getElem?_eq_getElem (by omega), Option.toList_some, List.set_cons_zero, List.append_assoc, List.append_assoc,
          List.append_assoc]
        rfl
      · intro hl
        exact h2 (by simpa using hl)

/-- C209, `map` of two ranges: the output from the position on is the operation applied place by place, everything else is as before;
a second range that is too short is undefined behaviour. -/
theorem C209_map (op : α → β → γ) (xs : List α) (ys : List β) (out : List γ) (o : Nat) (ho : o + xs.length ≤ out.length) :
    (xs.length ≤ ys.length → map2 op xs ys out o = pure (out.take o ++ List.zipWith op xs ys ++ out.drop (o + xs.length), o + xs.length)) ∧
    (ys.length < xs.length → map2 op xs ys out o = ub) := map2_spec op xs ys out o ho

example : map2 (fun a b : Nat => a + b) [1, 2] [10, 20, 30] [0, 0, 0, 9] 1 = pure ([0, 11, 22, 9], 3) := by decide +kernel

/-- C209, `for_each_if`: the function is called with the elements that satisfy the predicate, in order. -/
theorem C209_for_each_if (p : α → Bool) (xs : List α) : forEachIf p xs = xs.filter p := by
  induction xs with
  | nil => rfl
  | cons x xs ih => rw [forEachIf, List.filter_cons, ih]

/-- C209, `transform_it`: if the operation appends to what it has written, the output is all that was appended, in order. -/
theorem C209_transform_it (f : α → List γ) (op : α → List γ → Nat → Cxx (List γ × Nat)) (base : List γ)
    (hop : ∀ x w, op x (base ++ w) (base ++ w).length = pure (base ++ w ++ f x, (base ++ w ++ f x).length)) (xs : List α) :
    transformIt op xs base base.length = pure (base ++ xs.flatMap f, (base ++ xs.flatMap f).length) := by
  have key : ∀ (xs : List α) (w : List γ),
      transformIt op xs (base ++ w) (base ++ w).length = pure (base ++ w ++ xs.flatMap f, (base ++ w ++ xs.flatMap f).length) := by
    intro xs
    induction xs with
    | nil => intro w; simp [transformIt]
    | cons x xs ih =>
      intro w
      simp only [transformIt]
      rw [hop x w]
      simp only [pure_bind]
      have := ih (w ++ f x)
      rw [← List.append_assoc] at this
      rw [this, List.flatMap_cons, ← List.append_assoc]
  have := key xs []
  rwa [List.append_nil] at this

/-- An operation that writes each number twice. -/
example : transformIt (fun x out o => pure (out ++ [x, x], o + 2)) [1, 2] [7] 1 = pure (([7, 1, 1, 2, 2] : List Nat), 5) := by decide +kernel

/-- C209, `iota` with a setter: the element at `i` is set with the start value incremented `i` times. -/
theorem C209_iota_setter (succ : β → β) (setter : α → β → α) (xs : List α) (v : β) (i : Nat) :
    (iotaSet succ setter xs v)[i]? = xs[i]?.map fun x => setter x (Nat.repeat succ i v) := by
  induction xs generalizing v i with
  | nil => rfl
  | cons x xs ih =>
    cases i with
    | zero => rfl
    | succ i =>
      show (iotaSet succ setter xs (succ v))[i]? = _
      rw [ih]
      show _ = xs[i]?.map _
      have : ∀ i v, Nat.repeat succ i (succ v) = succ (Nat.repeat succ i v) := by
        intro i v
        induction i with
        | zero => rfl
        | succ i ih => exact congrArg succ ih
      rw [this]
      rfl

example : iotaSet (· + 1) (fun (x v : Nat) => x + 10 * v) [1, 2, 3] 5 = [51, 62, 73] := rfl

/-- C209, `tuple_functor`: the function is called with the element of the index, and not at all for an index that is too large. -/
theorem C209_tuple_functor (tp : List α) (i : Nat) : tupleRun tp.length i tp = tp[i]? := by
  have key : ∀ n, n ≤ tp.length → tupleRun n i tp = if i < n then tp[i]? else none := by
    intro n hn
    induction n with
    | zero => rfl
    | succ n ih =>
      rw [tupleRun]
      by_cases h : i = n
      · subst h
        rw [if_pos rfl, if_pos (by omega)]
      · rw [if_neg h, ih (by omega)]
        by_cases h2 : i < n
        · rw [if_pos h2, if_pos (by omega)]
        · rw [if_neg h2, if_neg (by omega)]
  rw [key _ (Nat.le_refl _)]
  by_cases h : i < tp.length
  · rw [if_pos h]
  · rw [if_neg h, List.getElem?_eq_none (by omega)]

example : tupleRun 3 1 [5, 6, 7] = some 6 := C209_tuple_functor [5, 6, 7] 1

/-- C209 does not hold for `cartesian_product` and `cartesian_product_map`: they do not go over all pairs, but over the ranges in
parallel; for ranges of the same length with more than one element most pairs are missing. -/
theorem C209_cartesian_violated (xs : List α) (ys : List β) (h : xs.length = ys.length) (h2 : 2 ≤ xs.length) :
    cartesian xs ys = pure (xs.zip ys) ∧ (xs.zip ys).length < (xs.flatMap fun x => ys.map fun y => (x, y)).length := by
  constructor
  · clear h2
    induction xs generalizing ys with
    | nil => rfl
    | cons x xs ih =>
      cases ys with
      | nil => simp at h
      | cons y ys =>
        simp only [cartesian]
        rw [rd_some (a := y) rfl]
        simp only [pure_bind]
        rw [List.drop_one, List.tail_cons, ih ys (by simpa using h)]
        rfl
  · have : (xs.flatMap fun x => ys.map fun y => (x, y)).length = xs.length * ys.length := by
      clear h h2
      induction xs with
      | nil => simp
      | cons x xs ih => rw [List.flatMap_cons, List.length_append, ih, List.length_map, List.length_cons, Nat.succ_mul, Nat.add_comm]
    rw [this, List.length_zip, ← h, Nat.min_self]
    calc xs.length < xs.length * 2 := by omega
      _ ≤ xs.length * xs.length := Nat.mul_le_mul_left _ h2

example : cartesian [1, 2] [3, 4] = pure ([(1, 3), (2, 4)] : List (Nat × Nat)) := by decide +kernel

/-- C209, what `cartesian_product_map` does: the same as `map` of the ranges, if the first is not longer; a single element is combined
with the first of the other range.  Missing: all other pairs, see `C209_cartesian_violated`. -/
theorem C209_cartesian_partial (op : α → β → γ) (xs : List α) (ys : List β) (out : List γ) (o : Nat) (ho : o + xs.length ≤ out.length)
    (hl : xs.length ≤ ys.length) :
    cartesianMap op xs ys out o = pure (out.take o ++ List.zipWith op xs ys ++ out.drop (o + xs.length), o + xs.length) := by
  have : ∀ (xs : List α) (ys : List β) (out : List γ) (o : Nat), cartesianMap op xs ys out o = map2 op xs ys out o := by
    intro xs
    induction xs with
    | nil => intro ys out o; rfl
    | cons x xs ih =>
      intro ys out o
      simp only [cartesianMap, map2]
      congr 1
      funext y
      congr 1
      funext out'
      exact ih _ _ _
  rw [this]
  exact (map2_spec op xs ys out o ho).1 hl

example : cartesianMap (fun a b : Nat => a * b) [2, 3] [5, 7, 9] [0, 0] 0 = pure ([10, 21], 2) := by decide +kernel

/-! ### convert_copy -/

/-- The loop of `convert_copy`, daw_algorithm.h 2130-2134. -/
def convertLoop (conv : α → γ) : List α → List γ → Nat → Cxx (List γ × Nat)
  | [], out, o => pure (out, o)
  | x :: xs, out, o => do
    let out ← wr out o (conv x)
    convertLoop conv xs out (o + 1)

/-- `convert_copy`, daw_algorithm.h 2126-2135 (2137-2146 is the same with a count): the end of the function is reached without a `return`. -/
def convertCopy (conv : α → γ) (xs : List α) (out : List γ) (o : Nat) : Cxx (List γ × Nat) := do
  let _ ← convertLoop conv xs out o
  ub

/-- C210 does not hold: `convert_copy` should copy the converted elements and return the end of the output, but every call that does
not fail before is undefined behaviour. -/
theorem C210_convert_copy_violated (conv : α → γ) (xs : List α) (out : List γ) (o : Nat) : convertCopy conv xs out o = ub := by
  unfold convertCopy
  induction xs generalizing out o with
  | nil => rfl
  | cons x xs ih =>
    simp only [convertLoop]
    by_cases h : o < out.length
    · rw [wr_eq h]
      simp only [pure_bind]
      exact ih _ _
    · rw [wr_oob (by omega)]
      rfl

/-- C210, what is done before: the elements are converted in order.  Missing: the return, see `C210_convert_copy_violated`. -/
theorem C210_convert_loop_partial (conv : α → γ) (xs : List α) (out : List γ) (o : Nat) (ho : o + xs.length ≤ out.length) :
    convertLoop conv xs out o = pure (out.take o ++ xs.map conv ++ out.drop (o + xs.length), o + xs.length) := by
  have h := (map2_spec (fun (x : α) (_ : Unit) => conv x) xs (List.replicate xs.length ()) out o ho).1 (by simp)
  have hz : List.zipWith (fun (x : α) (_ : Unit) => conv x) xs (List.replicate xs.length ()) = xs.map conv := by
    clear h ho
    induction xs with
    | nil => rfl
    | cons x xs ih => rw [List.length_cons, List.replicate_succ, List.zipWith_cons_cons, ih, List.map_cons]
  rw [hz] at h
  rw [← h]
  clear h hz ho
  induction xs generalizing out o with
  | nil => rfl
  | cons x xs ih =>
    rw [List.length_cons, List.replicate_succ]
    simp only [convertLoop, map2]
    rw [rd_some (a := ()) rfl]
    simp only [pure_bind]
    congr 1
    funext out'
    exact ih _ _

example : convertLoop (fun n : Nat => n % 256) [300, 5] [0, 0, 0] 1 = pure ([0, 44, 5], 3) := by decide +kernel

/-! ### Moving nodes between containers -/

/-- `insert( node )`: `unique` containers keep the element they have, and the node handed in is destroyed with the discarded result;
the elements in any order.
(Rule of C++ or its library, no line of the source.) -/
def insertNode [DecidableEq α] (unique : Bool) (dst : List α) (x : α) : List α := if unique && dst.contains x then dst else dst ++ [x]

/-- `extract_to` with a key, daw_algorithm.h 1892-1897: `extract( key )` takes out an element equal to the key, if there is one, and gives
an empty node if there is none; the container is one of keys. -/
def extractTo [DecidableEq α] (unique : Bool) (k : α) (src dst : List α) : List α × List α :=
  if _h : k ∈ src then extractTo unique k (src.erase k) (insertNode unique dst k) else (src, dst)
  termination_by src.length
  decreasing_by
    have := List.length_erase_of_mem (by assumption : k ∈ src)
    have := List.length_pos_of_mem (by assumption : k ∈ src)
    omega

/-- `extract_all`, daw_algorithm.h 1899-1904. -/
def extractAll [DecidableEq α] (unique : Bool) : List α → List α → List α × List α
  | [], dst => ([], dst)
  | x :: src, dst => extractAll unique src (insertNode unique dst x)

/-- `extract_matching`, daw_algorithm.h 1906-1922: `extract_to` is called with the iterator, extracts the element and calls `extract`
again with the iterator, which is not valid any more. -/
def extractMatching (p : α → Bool) : List α → Cxx Unit
  | [] => pure ()
  | x :: src => if p x then ub else extractMatching p src

theorem extractTo_step [DecidableEq α] (unique : Bool) (k : α) (src dst : List α) :
    extractTo unique k src dst = if k ∈ src then extractTo unique k (src.erase k) (insertNode unique dst k) else (src, dst) := by
  rw [extractTo]
  by_cases h : k ∈ src
  · rw [dif_pos h, if_pos h]
  · rw [dif_neg h, if_neg h]

/-- C211, `extract_to` between containers that may hold equal elements: all elements equal to the key are moved and nothing else. -/
theorem C211_extract_to [DecidableEq α] (k : α) (src dst : List α) :
    (extractTo false k src dst).1 = src.filter (fun x => x ≠ k) ∧
    (extractTo false k src dst).2 = dst ++ List.replicate (src.count k) k := by
  induction hn : src.length using Nat.strongRecOn generalizing src dst with
  | _ n ih =>
    rw [extractTo_step]
    by_cases h : k ∈ src
    · rw [if_pos h]
      have hl := List.length_erase_of_mem h
      have hp := List.length_pos_of_mem h
      obtain ⟨h1, h2⟩ := ih (src.erase k).length (by omega) (src.erase k) (insertNode false dst k) rfl
      refine ⟨?_, ?_⟩
      · rw [h1]
        clear ih h1 h2 hl hp hn h
        induction src with
        | nil => rfl
        | cons x src ih =>
          by_cases hx : x = k
          · subst hx
            rw [List.erase_cons_head]
            simp
          · rw [List.erase_cons_tail (by simpa using hx)]
            rw [List.filter_cons, List.filter_cons, ih]
      · rw [h2]
        have hc : 0 < src.count k := List.count_pos_iff.2 h
        show dst ++ [k] ++ _ = _
        rw [List.append_assoc, List.count_erase_self]
        congr 1
        obtain ⟨m, hm⟩ : ∃ m, src.count k = m + 1 := ⟨src.count k - 1, by omega⟩
        rw [hm]
        rfl
    · rw [if_neg h]
      refine ⟨?_, ?_⟩
      · symm
        show src.filter _ = src
        rw [List.filter_eq_self]
        intro x hx
        simp only [ne_eq, decide_not, Bool.not_eq_true', decide_eq_false_iff_not]
        rintro rfl
        exact h hx
      · rw [List.count_eq_zero.2 h]; simp

example : extractTo false 2 [1, 2, 3, 2] [7] = ([1, 3], [7, 2, 2]) := by
  have h := C211_extract_to 2 [1, 2, 3, 2] [7]
  exact Prod.ext h.1 h.2

/-- C211, `extract_all`: the source is empty afterwards and, between containers that may hold equal elements, everything has arrived;
for a target with unique elements, if no element is lost by being there already. -/
theorem C211_extract_all_partial [DecidableEq α] (unique : Bool) (src dst : List α) :
    (extractAll unique src dst).1 = [] ∧
    ((unique = true → (dst ++ src).Nodup) → (extractAll unique src dst).2 = dst ++ src) := by
  induction src generalizing dst with
  | nil => simp [extractAll]
  | cons x src ih =>
    simp only [extractAll]
    refine ⟨(ih _).1, fun h => ?_⟩
    have hins : insertNode unique dst x = dst ++ [x] := by
      unfold insertNode
      rw [if_neg]
      intro hc
      rw [Bool.and_eq_true, List.contains_iff_mem] at hc
      have := h hc.1
      rw [List.nodup_append] at this
      exact this.2.2 x hc.2 x (by simp) rfl
    rw [hins, (ih _).2 (fun hu => by rw [List.append_assoc]; exact h hu), List.append_assoc]
    rfl

/-- C211 does not hold for targets with unique elements: an element that the target has already is in neither container
afterwards, so one of the two equal elements is destroyed. -/
theorem C211_extract_all_violated [DecidableEq α] (x : α) (src dst : List α) (h : x ∈ dst) :
    extractAll true (x :: src) dst = extractAll true src dst ∧
    (extractAll true [x] dst).1.length + (extractAll true [x] dst).2.length < [x].length + dst.length := by
  have hins : insertNode true dst x = dst := by
    unfold insertNode
    rw [if_pos (by simpa using h)]
  constructor
  · simp only [extractAll]
    rw [hins]
  · simp only [extractAll]
    rw [hins]
    simp

example : extractAll true [1, 2] [2, 3] = ([], [2, 3, 1]) := by decide

/-- C211 does not hold for `extract_to` either, if the target has unique elements: the elements equal to the key are taken out and, if
the target has one already, do not arrive. -/
theorem C211_extract_to_violated [DecidableEq α] (k : α) (src dst : List α) (h : k ∈ dst) (hs : k ∈ src) :
    extractTo true k src dst = (src.filter (fun x => x ≠ k), dst) ∧ (src.filter (fun x => x ≠ k)).length < src.length := by
  have hins : insertNode true dst k = dst := by
    unfold insertNode
    rw [if_pos (by simpa using h)]
  constructor
  · have key : ∀ src : List α, extractTo true k src dst = ((extractTo false k src []).1, dst) := by
      intro src
      have gen : ∀ d, extractTo true k src dst = ((extractTo false k src d).1, dst) := by
        induction hn : src.length using Nat.strongRecOn generalizing src with
        | _ n ih =>
          intro d
          rw [extractTo_step, extractTo_step false]
          by_cases hm : k ∈ src
          · rw [if_pos hm, if_pos hm, hins]
            have hl := List.length_erase_of_mem hm
            have hp := List.length_pos_of_mem hm
            exact ih _ (by omega) _ rfl _
          · rw [if_neg hm, if_neg hm]
      exact gen []
    rw [key, (C211_extract_to k src []).1]
  · rcases Nat.lt_or_ge (src.filter (fun x => x ≠ k)).length src.length with hlt | hge
    · exact hlt
    · have he : src.filter (fun x => x ≠ k) = src := List.Sublist.eq_of_length_le List.filter_sublist hge
      have := (List.filter_eq_self.1 he) k hs
      simp at this

example : (2 : Nat) ∈ [2, 5] ∧ (2 : Nat) ∈ [1, 2] := by decide

/-- C211 does not hold for `extract_matching`: if an element matches, the behaviour is undefined.  (If none does, nothing happens.) -/
theorem C211_extract_matching_violated (p : α → Bool) (src : List α) :
    ((∃ x ∈ src, p x = true) → extractMatching p src = ub) ∧ ((∀ x ∈ src, p x = false) → extractMatching p src = pure ()) := by
  induction src with
  | nil => exact ⟨(fun ⟨x, hx, _⟩ => absurd hx (by simp)), fun _ => rfl⟩
  | cons x src ih =>
    simp only [extractMatching]
    constructor
    · rintro ⟨y, hy, hp⟩
      by_cases hx : p x
      · rw [if_pos hx]
      · rw [if_neg hx]
        rcases List.mem_cons.1 hy with rfl | hy
        · exact absurd hp hx
        · exact ih.1 ⟨y, hy, hp⟩
    · intro h
      rw [if_neg (by rw [h x (by simp)]; decide)]
      exact ih.2 fun y hy => h y (by simp [hy])

example : ∃ x ∈ [1, 2, 3], (x % 2 == 0) = true := ⟨2, by decide, rfl⟩

end Verif.Algorithm.Extra
