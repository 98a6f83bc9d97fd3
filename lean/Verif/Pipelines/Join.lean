import Verif.Pipelines.Chunk

/-
include/daw/daw_string_concat.h.
-/

namespace Verif.Pipe
open Cxx

/-! ## string_join_iterator -/

/-- A pointer into the characters of one of the strings: which string, and which character; `none` is null, daw_string_concat.h 32. -/
abbrev JoinPtr := Option (Nat × Nat)

/-- `string_join_iterator`, daw_string_concat.h 31-33, for any number of strings; characters are numbers. -/
structure JoinIt where
  strings : List (List Nat)
  first : JoinPtr
  idx : Nat
  deriving DecidableEq

/-- The constructor from strings, daw_string_concat.h 45-48. -/
def JoinIt.make (strings : List (List Nat)) : JoinIt := ⟨strings, some (0, 0), 0⟩

/-- `empty`, daw_string_concat.h 35-37. -/
def JoinIt.empty (it : JoinIt) : Bool := it.idx ≥ it.strings.length

/-- The comparison of a loop with the default constructed end, daw_string_concat.h 40 and 139-141. -/
def JoinIt.more (it : JoinIt) : Bool := it.first ≠ none

/-- `operator*`, daw_string_concat.h 50-52. The characters of a `std::string` are followed by a `'\0'` that may be read. -/
def JoinIt.deref (it : JoinIt) : Cxx (Nat × JoinIt) :=
  match it.first with
  | none => ub
  | some (k, p) => do
    let s ← rd it.strings k
    let c ← rd (s ++ [0]) p
    pure (c, it)

/-- `operator++`, daw_string_concat.h 58-71. A pointer may get past the `'\0'` but not further. -/
def JoinIt.next (it : JoinIt) : Cxx JoinIt :=
  match it.first with
  | none => ub
  | some (k, p) => do
    let s ← rd it.strings k
    if p + 1 > s.length + 1 then ub
    else do
      let cur ← rd it.strings it.idx
      if some (k, p + 1) ≠ some (it.idx, cur.length) then pure { it with first := some (k, p + 1) }
      else
        let idx := it.idx + 1
        if idx ≥ it.strings.length then pure { it with first := none, idx := idx }
        else pure { it with first := some (idx, 0), idx := idx }

/-- `operator-( string_join_iterator )`, daw_string_concat.h 123-133, for lengths below the range of `size_t`. -/
def JoinIt.minus (it rhs : JoinIt) : Cxx Nat :=
  if ¬ it.empty then abort else pure ((rhs.strings.map List.length).sum)

/-- The default constructed iterator, daw_string_concat.h 31-33 and 40. -/
def JoinIt.end_ (n : Nat) : JoinIt := ⟨List.replicate n [], none, n⟩

/-- What a loop over the strings sees. (Specification, no line of the source.) -/
def joined (it : JoinIt) : Cxx (List Nat) := collect JoinIt.more JoinIt.deref JoinIt.next it

theorem joined_from (strings : List (List Nat)) (k p : Nat) {s : List Nat} (hs : strings[k]? = some s) (hp : p < s.length)
    (e : Cxx (List Nat)) (rest : List Nat → List Nat)
    (hrest : joined (if k + 1 ≥ strings.length then ⟨strings, none, k + 1⟩ else ⟨strings, some (k + 1, 0), k + 1⟩) = e)
    (hr : rest = fun l => s.drop p ++ l) : joined ⟨strings, some (k, p), k⟩ = (do let l ← e; pure (rest l)) := by
  induction hn : s.length - p generalizing p rest with
  | zero => omega
  | succ n ih =>
    have hd : JoinIt.deref ⟨strings, some (k, p), k⟩ = pure (s[p], ⟨strings, some (k, p), k⟩) := by
      unfold JoinIt.deref
      simp only [rd_some hs, pure_bind]
      rw [rd_some (a := s[p]) (by rw [List.getElem?_append_left hp, List.getElem?_eq_getElem hp])]
      rfl
    unfold joined
    rw [collect, if_pos (show JoinIt.more _ = true from rfl), hd]
    simp only [pure_bind]
    by_cases hl : p + 1 = s.length
    · have hnx : JoinIt.next ⟨strings, some (k, p), k⟩ =
          if k + 1 ≥ strings.length then pure ⟨strings, none, k + 1⟩ else pure ⟨strings, some (k + 1, 0), k + 1⟩ := by
        unfold JoinIt.next
        simp only [rd_some hs, pure_bind]
        rw [if_neg (by omega), if_neg (by rw [hl]; simp)]
      rw [hnx]
      subst hr
      have hdrop : s.drop p = [s[p]] := by
        rw [List.drop_eq_getElem_cons hp, hl, List.drop_length]
      have : (if k + 1 ≥ strings.length then (pure ⟨strings, none, k + 1⟩ : Cxx JoinIt)
          else pure ⟨strings, some (k + 1, 0), k + 1⟩) =
          pure (if k + 1 ≥ strings.length then ⟨strings, none, k + 1⟩ else ⟨strings, some (k + 1, 0), k + 1⟩) := by
        split <;> rfl
      rw [this, pure_bind]
      unfold joined at hrest
      rw [hrest, hdrop]
      rfl
    · have hnx : JoinIt.next ⟨strings, some (k, p), k⟩ = pure ⟨strings, some (k, p + 1), k⟩ := by
        unfold JoinIt.next
        simp only [rd_some hs, pure_bind]
        rw [if_neg (by omega), if_pos (by simp; omega)]
      rw [hnx]
      have h2 := ih (p + 1) (by omega) (fun l => s.drop (p + 1) ++ l) rfl (by omega)
      unfold joined at h2
      rw [pure_bind, h2, bind_assoc]
      subst hr
      congr 1
      funext l
      rw [pure_bind, List.drop_eq_getElem_cons hp]
      rfl

theorem joined_ok (strings : List (List Nat)) (hne : ∀ s ∈ strings, s ≠ []) (k : Nat) (hk : k < strings.length) :
    joined ⟨strings, some (k, 0), k⟩ = pure (strings.drop k).flatten := by
  induction hn : strings.length - k generalizing k with
  | zero => omega
  | succ n ih =>
    have hs : strings[k]? = some strings[k] := List.getElem?_eq_getElem hk
    have hpos : 0 < strings[k].length := List.length_pos_iff.mpr (hne _ (List.getElem_mem hk))
    rw [joined_from strings k 0 hs hpos (pure (strings.drop (k + 1)).flatten) _ ?_ rfl]
    · rw [pure_bind, List.drop_eq_getElem_cons hk]; rfl
    · split
      · rename_i h
        rw [List.drop_eq_nil_of_le h]
        exact collect_nil rfl
      · exact ih (k + 1) (by omega) (by omega)

/-- An iterator at an empty string: the loop reads the `'\0'` and then what is behind it. -/
theorem joined_empty (strings : List (List Nat)) (k : Nat) (hs : strings[k]? = some []) : joined ⟨strings, some (k, 0), k⟩ = ub := by
  refine collect_step (b := 0) (s' := ⟨strings, some (k, 0), k⟩) (s'' := ⟨strings, some (k, 1), k⟩) rfl ?_ ?_ ?_ rfl
  · unfold JoinIt.deref; simp only [rd_some hs, pure_bind]; rfl
  · unfold JoinIt.next
    simp only [rd_some hs, pure_bind]
    rw [if_neg (by simp), if_pos (by simp)]
  · refine collect_deref_ub rfl ?_
    unfold JoinIt.deref; simp only [rd_some hs, pure_bind]; rfl

/-- If no string is empty, a loop sees the characters of the strings, one string after the other, and the distance of end and begin is their number. -/
theorem C161_join_partial (strings : List (List Nat)) (h0 : strings ≠ []) (hne : ∀ s ∈ strings, s ≠ []) :
    joined (.make strings) = pure strings.flatten ∧
    (JoinIt.end_ strings.length).minus (.make strings) = pure strings.flatten.length := by
  constructor
  · exact joined_ok strings hne 0 (List.length_pos_iff.mpr h0)
  · unfold JoinIt.minus
    rw [if_neg (by simp [JoinIt.empty, JoinIt.end_])]
    rw [List.length_flatten]
    rfl

example : joined (.make [[97, 98], [99]]) = pure [97, 98, 99] := (C161_join_partial [[97, 98], [99]] (by decide) (by decide)).1

/-- With an empty string anywhere among them, the loop reads outside of it. -/
theorem C161_empty_violated (pre post : List (List Nat)) (hpre : ∀ s ∈ pre, s ≠ []) : joined (.make (pre ++ [] :: post)) = ub := by
  have key : ∀ n k, k + n = pre.length → joined ⟨pre ++ [] :: post, some (k, 0), k⟩ = ub := by
    intro n
    induction n with
    | zero =>
      intro k hk
      exact joined_empty _ k (by rw [List.getElem?_append_right (by omega)]; simp [show k - pre.length = 0 by omega])
    | succ n ih =>
      intro k hk
      have hkl : k < pre.length := by omega
      have hs : (pre ++ [] :: post)[k]? = some pre[k] := by
        rw [List.getElem?_append_left hkl, List.getElem?_eq_getElem hkl]
      rw [joined_from _ k 0 hs (List.length_pos_iff.mpr (hpre _ (List.getElem_mem hkl))) ub _ ?_ rfl]
      · rfl
      · rw [if_neg (by simp; omega)]
        exact ih (k + 1) (by omega)
  exact key pre.length 0 (by omega)

example : joined (.make [[1, 2], [], [3]]) = ub := C161_empty_violated [[1, 2]] [[3]] (by decide)

/-- The distance to the end does not change when the iterator moves. -/
theorem C161_distance_violated : ∃ it it' : JoinIt, JoinIt.next it = pure it' ∧
    (JoinIt.end_ 1).minus it = pure 3 ∧ (JoinIt.end_ 1).minus it' = pure 3 ∧ joined it = pure [1, 2, 3] ∧ joined it' = pure [2, 3] := by
  refine ⟨.make [[1, 2, 3]], ⟨[[1, 2, 3]], some (0, 1), 0⟩, by decide +kernel, by decide +kernel, by decide +kernel, ?_, ?_⟩
  · exact (C161_join_partial [[1, 2, 3]] (by decide) (by decide)).1
  · have := joined_from [[1, 2, 3]] 0 1 (s := [1, 2, 3]) rfl (by decide) (pure []) _ (collect_nil rfl) rfl
    exact this

/-- A difference is only computed from an iterator at the end; from any other the program ends, whatever the right one is. -/
theorem C161_minus_inside (it rhs : JoinIt) (h : it.empty = false) : it.minus rhs = abort := by
  unfold JoinIt.minus
  rw [if_pos (by simp [h])]

example := C161_minus_inside (.make [[1, 2, 3]]) (.make [[1, 2, 3]]) (by decide +kernel)

/-! ## string_concat -/

/-- `string_concat`, daw_string_concat.h 149-157: the operands of the `+` of the fold are evaluated in an order that the language leaves
open; `order` is the one the compiler took, a permutation of the numbers of the arguments. -/
def stringConcat (arg : List Nat) (strings : List (List Nat)) (order : List Nat) : List Nat :=
  order.foldl (fun acc k => acc ++ strings.getD k []) arg

theorem foldl_append (arg : List Nat) (f : Nat → List Nat) (order : List Nat) :
    order.foldl (fun acc k => acc ++ f k) arg = arg ++ (order.map f).flatten := by
  induction order generalizing arg with
  | nil => simp
  | cons k order ih => simp [ih]

/-- In whatever order: the result starts with the first argument, has all the characters of the others, and if the compiler goes from
left to right, or there is only one other argument, it is the concatenation. -/
theorem C162_concat_partial (arg : List Nat) (strings : List (List Nat)) (order : List Nat) (h : order.Perm (List.range strings.length)) :
    (∃ rest, stringConcat arg strings order = arg ++ rest ∧ rest.Perm strings.flatten) ∧
    (order = List.range strings.length ∨ strings.length ≤ 1 → stringConcat arg strings order = arg ++ strings.flatten) := by
  have hall : ((List.range strings.length).map fun k => strings.getD k []) = strings := by
    apply List.ext_getElem
    · simp
    · intro i h1 h2
      simp only [List.getElem_map, List.getElem_range]
      simp only [List.length_map, List.length_range] at h1
      simp [h1]
  constructor
  · refine ⟨_, foldl_append arg _ order, ?_⟩
    have := (h.map fun k => strings.getD k []).flatten
    rwa [hall] at this
  · intro ho
    have ho : order = List.range strings.length := by
      rcases ho with ho | ho
      · exact ho
      · rcases Nat.lt_or_ge 0 strings.length with hl | hl
        · have : strings.length = 1 := by omega
          rw [this] at h ⊢
          exact List.perm_singleton.mp h
        · have : strings.length = 0 := by omega
          rw [this] at h ⊢
          exact List.perm_nil.mp h
    subst ho
    unfold stringConcat
    rw [foldl_append, hall]

example : [1, 0].Perm (List.range [[97], [98]].length) := by decide

/-- The order is up to the compiler: one that evaluates the right operand of `+` first puts the strings in the reverse order. -/
theorem C162_concat_violated : ∃ (arg : List Nat) (strings : List (List Nat)) (order : List Nat),
    order.Perm (List.range strings.length) ∧ stringConcat arg strings order ≠ arg ++ strings.flatten :=
  ⟨[1], [[2], [3]], [1, 0], by decide, by decide⟩

end Verif.Pipe
