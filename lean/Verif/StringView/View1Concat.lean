import Verif.Base

/-!
`operator+` of the first string view with strings, pointers and arrays, include/daw/deprecated/daw_string_view1.h 1440-1513.
-/

namespace Verif.StringView.View1Concat
open Verif Verif.Cxx

/-- `strlen`, impl/daw_string_impl.h 69-78, from position `pos` of the characters that may be read on (none: a null pointer). -/
def strlenFrom (m : List Nat) (pos : Nat) : Cxx Nat := do
  let c ← rd m pos
  if c ≠ 0 then strlenFrom m (pos + 1) else pure pos
partial_fixpoint

/-- `strlen`, impl/daw_string_impl.h 69-78. -/
def strlen : Option (List Nat) → Cxx Nat
  | none => pure 0
  | some m => strlenFrom m 0

/-- `copy_n`, algorithms/daw_algorithm_copy_n.h 25-44, to a `back_inserter`: `pos` is where `first` is. -/
def copyN (m : List Nat) (pos : Nat) : Nat → List Nat → Cxx (List Nat)
  | 0, out => pure out
  | n + 1, out => do
    let c ← rd m pos
    copyN m (pos + 1) n (out ++ [c])

/-- `copy`, algorithms/daw_algorithm_copy.h 25-41, of the characters of a view or string to a `back_inserter`. -/
def copyAll : List Nat → List Nat → List Nat
  | [], out => out
  | c :: cs, out => copyAll cs (out ++ [c])

/-- The other operand: a string, a pointer to characters that may be read (none: null), or an array of `N` characters that is not constant. (Overloads of
deprecated/daw_string_view1.h 1443-1513.) -/
inductive Operand
  | string (s : List Nat)
  | pointer (m : Option (List Nat))
  | array (m : List Nat)

/-- `lhs + view`, deprecated/daw_string_view1.h 1440-1450, 1452-1462 and 1464-1475.  A literal is taken by the overload for pointers, as the type of the characters of
an array and of the view must be the same. -/
def before (o : Operand) (v : List Nat) : Cxx (List Nat) :=
  match o with
  | .string s => pure (copyAll v s)
  | .pointer m => do
    let n ← strlen m
    let r ← copyN (m.getD []) 0 n []
    pure (copyAll v r)
  | .array m => do
    let r ← copyN m 0 (m.length - 1) []
    pure (copyAll v r)

/-- `view + rhs`, deprecated/daw_string_view1.h 1477-1488, 1490-1501 and 1503-1514. -/
def after (v : List Nat) (o : Operand) : Cxx (List Nat) :=
  match o with
  | .string s => pure (copyAll v [] ++ s)
  | .pointer m => do
    let n ← strlen m
    copyN (m.getD []) 0 n (copyAll v [])
  | .array m => copyN m 0 (m.length - 1) (copyAll v [])

/-- The text an operand stands for: that of a pointer or array ends before the first zero; none if there is no zero. (Specification, no line of the source.) -/
def text : Operand → Option (List Nat)
  | .string s => some s
  | .pointer none => some []
  | .pointer (some m) => if 0 ∈ m then some (m.takeWhile (· ≠ 0)) else none
  | .array m => if 0 ∈ m then some (m.takeWhile (· ≠ 0)) else none

theorem copyAll_eq : ∀ (v out : List Nat), copyAll v out = out ++ v
  | [], out => by simp [copyAll]
  | c :: v, out => by rw [copyAll, copyAll_eq v]; simp

theorem copyN_eq (m : List Nat) : ∀ (n pos : Nat) (out : List Nat), pos + n ≤ m.length → copyN m pos n out = pure (out ++ (m.drop pos).take n)
  | 0, pos, out, _ => by simp [copyN]
  | n + 1, pos, out, h => by
    rw [copyN, rd_eq (by omega), pure_bind, copyN_eq m n (pos + 1) _ (by omega), List.drop_eq_getElem_cons (by omega : pos < m.length), List.take_succ_cons, List.append_assoc, List.singleton_append]

theorem strlenFrom_eq (a b : List Nat) : ∀ (n pos : Nat), a.length = pos + n → (∀ c ∈ a, c ≠ 0) → strlenFrom (a ++ 0 :: b) pos = pure a.length
  | 0, pos, h, _ => by
    rw [strlenFrom, rd_some (show (a ++ 0 :: b)[pos]? = some 0 by rw [List.getElem?_append_right (by omega)]; simp [show pos - a.length = 0 by omega]), pure_bind]
    simp [h]
  | n + 1, pos, h, ha => by
    have hlt : pos < a.length := by omega
    rw [strlenFrom, rd_some (show (a ++ 0 :: b)[pos]? = some a[pos] by rw [List.getElem?_append_left hlt, List.getElem?_eq_getElem hlt]), pure_bind,
      if_pos (ha _ (List.getElem_mem hlt)), strlenFrom_eq a b n (pos + 1) (by omega) ha]

theorem strlenFrom_ub (m : List Nat) (h : ∀ c ∈ m, c ≠ 0) : ∀ (n pos : Nat), m.length = pos + n → strlenFrom m pos = ub
  | 0, pos, e => by rw [strlenFrom, rd_oob (by omega)]; rfl
  | n + 1, pos, e => by
    have hlt : pos < m.length := by omega
    rw [strlenFrom, rd_eq hlt, pure_bind, if_pos (h _ (List.getElem_mem hlt)), strlenFrom_ub m h n (pos + 1) (by omega)]

theorem split_zero (m : List Nat) (h : 0 ∈ m) : ∃ b, m = m.takeWhile (· ≠ 0) ++ 0 :: b ∧ ∀ c ∈ m.takeWhile (· ≠ 0), c ≠ 0 := by
  induction m with
  | nil => simp at h
  | cons c m ih =>
    by_cases hc : c = 0
    · subst hc; exact ⟨m, by simp, by simp⟩
    · obtain ⟨b, e, hb⟩ := ih (by rcases List.mem_cons.1 h with h | h; exact absurd h.symm hc; exact h)
      refine ⟨b, ?_, ?_⟩
      · simp only [ne_eq, hc, not_false_eq_true, decide_true, List.takeWhile_cons_of_pos, List.cons_append]
        exact congrArg _ e
      · intro x hx
        simp only [ne_eq, hc, not_false_eq_true, decide_true, List.takeWhile_cons_of_pos, List.mem_cons] at hx
        rcases hx with rfl | hx
        · exact hc
        · exact hb x (by simpa using hx)

/-- **C372 (part).**  A view put behind or before a string, a null pointer, characters that end with a zero or an array whose only zero is its last character gives
the text of the one followed by that of the other.  Missing: other arrays, `C372_array_violated`. -/
theorem C372_concat_partial (v t : List Nat) (o : Operand) (ht : text o = some t) (ha : ∀ m, o = .array m → t.length + 1 = m.length) :
    before o v = pure (t ++ v) ∧ after v o = pure (v ++ t) := by
  unfold before after
  cases o with
  | string s =>
    have : s = t := Option.some.inj ht
    subst this
    simp [copyAll_eq]
  | pointer m =>
    cases m with
    | none =>
      have : [] = t := Option.some.inj ht
      subst this
      simp [strlen, copyN, copyAll_eq]
    | some m =>
      simp only [text] at ht
      by_cases h0 : 0 ∈ m
      · rw [if_pos h0] at ht
        have ht := Option.some.inj ht
        obtain ⟨b, e, hb⟩ := split_zero m h0
        rw [ht] at e hb
        have hs : strlen (some m) = pure t.length := by
          unfold strlen; rw [e]; exact strlenFrom_eq t b t.length 0 (by omega) hb
        have hl : t.length ≤ m.length := by rw [e]; simp
        have hk : (m.drop 0).take t.length = t := by rw [e]; simp
        simp only [hs, pure_bind, Option.getD_some]
        rw [copyN_eq m _ _ _ (by omega), copyN_eq m _ _ _ (by omega), pure_bind, hk]
        simp [copyAll_eq]
      · rw [if_neg h0] at ht; cases ht
  | array m =>
    have hl := ha m rfl
    simp only [text] at ht
    by_cases h0 : 0 ∈ m
    · rw [if_pos h0] at ht
      have ht := Option.some.inj ht
      obtain ⟨b, e, hb⟩ := split_zero m h0
      rw [ht] at e
      have hk : (m.drop 0).take (m.length - 1) = t := by rw [← hl, Nat.add_sub_cancel, e]; simp
      simp only []
      rw [copyN_eq m _ _ _ (by omega), copyN_eq m _ _ _ (by omega), pure_bind, hk]
      simp [copyAll_eq]
    · rw [if_neg h0] at ht; cases ht

example : before (.pointer (some [97, 98, 0, 99])) [100] = pure [97, 98, 100] ∧ text (.array [97, 0]) = some [97] :=
  ⟨(C372_concat_partial [100] [97, 98] (.pointer (some [97, 98, 0, 99])) rfl (by simp)).1, rfl⟩

/-- **C372 (without an end).**  For characters without a zero the pointer is read beyond them. -/
theorem C372_unterminated (v m : List Nat) (h : ∀ c ∈ m, c ≠ 0) : before (.pointer (some m)) v = ub ∧ after v (.pointer (some m)) = ub := by
  have hs : strlen (some m) = ub := strlenFrom_ub m h m.length 0 (by omega)
  unfold before after
  simp only [hs]
  exact ⟨rfl, rfl⟩

example : before (.pointer (some [97, 98])) [99] = ub := (C372_unterminated [99] [97, 98] (by decide)).1

/-- **C372 (violated: arrays).**  All characters of an array but the last are taken, whatever they are: those behind the text in a buffer that is larger than it, and
not the last one of an array without a zero. -/
theorem C372_array_violated (v m : List Nat) (h : m ≠ []) : before (.array m) v = pure (m.dropLast ++ v) ∧ after v (.array m) = pure (v ++ m.dropLast) := by
  have hl : 0 < m.length := List.length_pos_iff.2 h
  unfold before after
  simp only []
  rw [copyN_eq m _ _ _ (by omega), copyN_eq m _ _ _ (by omega), pure_bind]
  simp [copyAll_eq, List.dropLast_eq_take]

/-- A buffer of four characters with the text `a`. -/
example : text (.array [97, 0, 0, 0]) = some [97] ∧ before (.array [97, 0, 0, 0]) [98] = pure [97, 0, 0, 98] :=
  ⟨rfl, (C372_array_violated [98] [97, 0, 0, 0] (by simp)).1⟩

end Verif.StringView.View1Concat
