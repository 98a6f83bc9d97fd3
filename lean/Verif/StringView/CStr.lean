import Verif.StringView.History

/-
Zero terminated texts of string views, `get_c_str` and `c_str_proxy`: include/daw/daw_string_view.h.
-/

namespace Verif.SV.CStr
open Verif Verif.Cxx Verif.SV

variable {α : Type}

/-- What a function for C strings reads from a pointer: the characters before the first zero; past the end of the memory it is undefined.
(Rule of C++ or its library, no line of the source.) -/
def readC [DecidableEq α] (zero : α) : List α → Cxx (List α)
  | [] => ub
  | x :: xs => if x = zero then pure [] else do
    let r ← readC zero xs
    pure (x :: r)

/-- `strlen`, daw_string_view.h 308-319, of a pointer that is not null. -/
def strlen [DecidableEq α] (zero : α) : List α → Cxx Nat
  | [] => ub
  | x :: xs => if x ≠ zero then do
      let n ← strlen zero xs
      pure (n + 1)
    else pure 0

/-- `c_str_proxy`, daw_string_view.h 476-489: a pointer with a size, or a `std::basic_string`. -/
inductive Proxy (α : Type) where
  | buff (off len : Nat)
  | str (chars : List α)
  deriving DecidableEq

/-- The constructor for zero terminated texts, daw_string_view.h 494-500; `dbg`: builds where `daw_dbg_ensure` checks. -/
def ofZero [DecidableEq α] (dbg : Bool) (zero : α) (m : List α) (off len : Nat) : Cxx (Proxy α) :=
  if dbg then do
    let n ← strlen zero (m.drop off)
    if len = n then pure (.buff off len) else abort
  else pure (.buff off len)

/-- The constructor for other texts, daw_string_view.h 502-508: the characters are copied and followed by zero. -/
def ofText [DecidableEq α] (dbg : Bool) (zero : α) (m : List α) (off len : Nat) : Cxx (Proxy α) :=
  if off + len ≤ m.length then
    let s := (m.drop off).take len
    if dbg then do
      let n ← strlen zero (s ++ [zero])
      if len = n then pure (.str s) else abort
    else pure (.str s)
  else ub

/-- `get_c_str`, daw_string_view.h 2821-2826. -/
def getCStr [DecidableEq α] (dbg : Bool) (zero : α) (m : List α) (v : View) : Cxx (Proxy α) :=
  if v.zt then ofZero dbg zero m v.off v.len else ofText dbg zero m v.off v.len

/-- The memory from the pointer that `c_str`, `data` and the conversion to a pointer give, daw_string_view.h 527-539. -/
def Proxy.data (zero : α) (m : List α) : Proxy α → List α
  | .buff off _ => m.drop off
  | .str s => s ++ [zero]

/-- `size`, daw_string_view.h 541-545. -/
def Proxy.size : Proxy α → Nat
  | .buff _ len => len
  | .str s => s.length

/-- `string`, by `private_to_string`, daw_string_view.h 510-518 and 554-568. -/
def Proxy.string (m : List α) : Proxy α → Cxx (List α)
  | .buff off len => if off + len ≤ m.length then pure ((m.drop off).take len) else ub
  | .str s => pure s

theorem readC_append [DecidableEq α] (zero : α) (xs ys : List α) (h : zero ∉ xs) : readC zero (xs ++ zero :: ys) = pure xs := by
  induction xs with
  | nil => simp [readC]
  | cons x xs ih =>
    simp only [List.mem_cons, not_or] at h
    simp only [List.cons_append, readC]
    rw [if_neg (fun e => h.1 e.symm), ih h.2]
    rfl

theorem readC_mem [DecidableEq α] (zero : α) (xs ys : List α) (h : zero ∈ xs) : readC zero (xs ++ ys) = pure (xs.takeWhile fun x => decide (x ≠ zero)) := by
  induction xs with
  | nil => cases h
  | cons x xs ih =>
    simp only [List.cons_append, readC, List.takeWhile_cons]
    by_cases e : x = zero
    · rw [if_pos e, if_neg (by simpa using e)]
    · rw [if_neg e, if_pos (by simpa using e), ih (by rcases List.mem_cons.1 h with h | h; exact absurd h.symm e; exact h)]
      rfl

theorem strlen_readC [DecidableEq α] (zero : α) (xs r : List α) (h : readC zero xs = pure r) : strlen zero xs = pure r.length := by
  induction xs generalizing r with
  | nil => exact absurd h (ub_ne_pure _)
  | cons x xs ih =>
    unfold readC at h
    unfold strlen
    by_cases e : x = zero
    · rw [if_pos e] at h
      rw [if_neg (by simpa using e), ← pure_inj.1 h]
      rfl
    · rw [if_neg e] at h
      rw [if_pos e]
      obtain ⟨r', hr, h⟩ := bind_eq_pure.1 h
      rw [ih r' hr, ← pure_inj.1 h]
      rfl

theorem drop_split {m : List α} {zero : α} {off len : Nat} (hz : m[off + len]? = some zero) :
    ∃ ys, m.drop off = (m.drop off).take len ++ zero :: ys := by
  refine ⟨m.drop (off + len + 1), ?_⟩
  have hl : off + len < m.length := by
    obtain ⟨h, -⟩ := List.getElem?_eq_some_iff.1 hz
    exact h
  have e : m.drop (off + len) = zero :: m.drop (off + len + 1) := by
    rw [List.drop_eq_getElem_cons hl]
    congr 1
    obtain ⟨_, h⟩ := List.getElem?_eq_some_iff.1 hz
    exact h
  rw [← e, ← List.drop_drop, List.take_append_drop]

/-- C363: a view of characters other than zero, with a flag that says the truth, gives a zero terminated text of exactly its characters, with and without the checks of
debug builds; `size( )` and `string( )` agree with it. -/
theorem C363_text_partial [DecidableEq α] (dbg : Bool) (zero : α) (m : List α) (v : View) (hin : v.off + v.len ≤ m.length)
    (hzt : v.zt = true → m[v.off + v.len]? = some zero) (h0 : zero ∉ (m.drop v.off).take v.len) :
    ∃ p, getCStr dbg zero m v = pure p ∧ readC zero (p.data zero m) = pure ((m.drop v.off).take v.len) ∧ p.size = v.len ∧
      p.string m = pure ((m.drop v.off).take v.len) := by
  have hl : ((m.drop v.off).take v.len).length = v.len := by rw [List.length_take, List.length_drop]; omega
  cases hz : v.zt with
  | true =>
    obtain ⟨ys, e⟩ := drop_split (hzt hz)
    have hr : readC zero (m.drop v.off) = pure ((m.drop v.off).take v.len) := by
      rw [e, readC_append zero _ ys h0]
      congr 1
      rw [← e]
    refine ⟨.buff v.off v.len, ?_, hr, rfl, if_pos hin⟩
    unfold getCStr ofZero
    rw [hz, if_pos rfl, strlen_readC zero _ _ hr, hl]
    cases dbg <;> simp
  | false =>
    have hr : readC zero ((m.drop v.off).take v.len ++ [zero]) = pure ((m.drop v.off).take v.len) := readC_append zero _ [] h0
    refine ⟨.str ((m.drop v.off).take v.len), ?_, hr, hl, rfl⟩
    unfold getCStr ofText
    rw [hz, if_neg (by decide), if_pos hin]
    simp only [strlen_readC zero _ _ hr, hl]
    cases dbg <;> simp

example : ∃ p, getCStr true 0 [1, 2, 3, 0] ⟨1, 2, true⟩ = pure p ∧ readC 0 (p.data 0 [1, 2, 3, 0]) = pure [2, 3] :=
  let ⟨p, h1, h2, _⟩ := C363_text_partial true 0 [1, 2, 3, 0] ⟨1, 2, true⟩ (by decide) (fun _ => rfl) (by decide)
  ⟨p, h1, h2⟩

/-- C363, all views that the members make without `substr_unsafe` and the like from a view with a flag that says the truth. -/
theorem C363_history_partial [DecidableEq α] (dbg : Bool) (zero : α) (m : List α) (v w : View) (hv : v.zt = true → m[v.off + v.len]? = some zero)
    (h : View.ReachSafe m v w) (hin : w.off + w.len ≤ m.length) (h0 : zero ∉ (m.drop w.off).take w.len) :
    ∃ p, getCStr dbg zero m w = pure p ∧ readC zero (p.data zero m) = pure ((m.drop w.off).take w.len) := by
  obtain ⟨p, h1, h2, -, -⟩ := C363_text_partial dbg zero m w hin (View.C19_zero_terminated_partial m zero v w hv h) h0
  exact ⟨p, h1, h2⟩

example : View.ReachSafe [1, 2, 3, 0] ⟨0, 3, true⟩ ⟨1, 2, true⟩ ∧ (0 : Nat) ∉ ([1, 2, 3, 0].drop 1).take 2 :=
  ⟨.rest (.removePrefix (some 1)) rfl .refl rfl, by decide⟩

/-- C363 does not hold for views with zeros inside: debug builds end the program, and in others the text ends at the first zero, before `size( )` characters, while
`string( )` has all of them. -/
theorem C363_zero_violated [DecidableEq α] (zero : α) (m : List α) (v : View) (hin : v.off + v.len ≤ m.length) (h0 : zero ∈ (m.drop v.off).take v.len) :
    getCStr true zero m v = abort ∧ ∃ p, getCStr false zero m v = pure p ∧ ∃ r, readC zero (p.data zero m) = pure r ∧ r.length < p.size ∧
      r = ((m.drop v.off).take v.len).takeWhile (fun x => decide (x ≠ zero)) ∧ p.string m = pure ((m.drop v.off).take v.len) := by
  have hl : ((m.drop v.off).take v.len).length = v.len := by rw [List.length_take, List.length_drop]; omega
  generalize hs : (m.drop v.off).take v.len = s at h0 hl ⊢
  have hlt : (s.takeWhile fun x => decide (x ≠ zero)).length < v.len := by
    rw [← hl]
    clear hs hl
    induction s with
    | nil => cases h0
    | cons x xs ih =>
      rw [List.takeWhile_cons]
      by_cases e : x = zero
      · rw [if_neg (by simpa using e)]
        exact Nat.succ_pos _
      · rw [if_pos (by simpa using e)]
        have := ih (by rcases List.mem_cons.1 h0 with h | h; exact absurd h.symm e; exact h)
        simp only [List.length_cons]
        omega
  have hm : readC zero (m.drop v.off) = pure (s.takeWhile fun x => decide (x ≠ zero)) := by
    rw [← List.take_append_drop v.len (m.drop v.off), hs]
    exact readC_mem zero s _ h0
  have hc : readC zero (s ++ [zero]) = pure (s.takeWhile fun x => decide (x ≠ zero)) := readC_mem zero s _ h0
  have hne : ¬ v.len = (s.takeWhile fun x => decide (x ≠ zero)).length := by omega
  cases hz : v.zt with
  | true =>
    refine ⟨?_, .buff v.off v.len, ?_, _, hm, hlt, rfl, ?_⟩
    · unfold getCStr ofZero
      rw [hz, if_pos rfl, if_pos rfl, strlen_readC zero _ _ hm]
      exact if_neg hne
    · unfold getCStr ofZero
      rw [hz, if_pos rfl, if_neg (by decide)]
    · rw [← hs]
      exact if_pos hin
  | false =>
    refine ⟨?_, .str s, ?_, _, hc, by rw [show (Proxy.str s).size = s.length from rfl, hl]; exact hlt, rfl, rfl⟩
    · unfold getCStr ofText
      rw [hz, if_neg (by decide), if_pos hin]
      simp only [hs, strlen_readC zero _ _ hc]
      exact if_neg hne
    · unfold getCStr ofText
      rw [hz, if_neg (by decide), if_pos hin]
      simp only [hs]
      rfl

example : (0 : Nat) ∈ ([1, 0, 2, 0].drop 0).take 3 ∧ getCStr true 0 [1, 0, 2, 0] ⟨0, 3, true⟩ = abort := ⟨by decide, rfl⟩

/-- C363 does not hold for views whose flag is wrong, as `substr_unsafe( 0, 2 )` of the first two of `1, 2, 3, 0` makes them: the text has the character past the end too, and
without any zero in the memory the read goes past its end, even in the check of debug builds. -/
theorem C363_flag_violated : ∃ w, (⟨0, 2, false⟩ : View).substrUnsafe 0 2 = pure w ∧
    (∃ p, getCStr false 0 [1, 2, 3, 0] w = pure p ∧ readC 0 (p.data 0 [1, 2, 3, 0]) = pure [1, 2, 3] ∧ p.size = 2) ∧ getCStr true 0 [1, 2, 3, 0] w = abort ∧
    (∃ p, getCStr false 0 [1, 2] w = pure p ∧ readC 0 (p.data 0 [1, 2]) = ub) ∧ getCStr true 0 [1, 2] w = ub :=
  ⟨⟨0, 2, true⟩, rfl, ⟨.buff 0 2, rfl, rfl, rfl⟩, rfl, ⟨.buff 0 2, rfl, rfl⟩, rfl⟩

/-- C363: whether the text follows later changes of the characters depends on the flag: without it the text is a copy, with it the text is in the memory of the view. -/
theorem C363_change [DecidableEq α] (dbg : Bool) (zero : α) (m m' : List α) (v : View) (p : Proxy α) (h : getCStr dbg zero m v = pure p)
    (hlen : m'.length = m.length) :
    (v.zt = false → p.data zero m' = (m.drop v.off).take v.len ++ [zero] ∧ p.string m' = pure ((m.drop v.off).take v.len)) ∧
    (v.zt = true → p.data zero m' = m'.drop v.off ∧ (v.off + v.len ≤ m.length → p.string m' = pure ((m'.drop v.off).take v.len))) := by
  constructor
  · intro hz
    unfold getCStr ofText at h
    rw [hz, if_neg (by decide)] at h
    split at h
    · have : p = .str ((m.drop v.off).take v.len) := by
        cases dbg with
        | false => exact (pure_inj.1 h).symm
        | true =>
          simp only [if_true] at h
          obtain ⟨n, -, h⟩ := bind_eq_pure.1 h
          split at h
          · exact (pure_inj.1 h).symm
          · exact absurd h (by intro h; cases h)
      rw [this]
      exact ⟨rfl, rfl⟩
    · exact absurd h (ub_ne_pure _)
  · intro hz
    unfold getCStr ofZero at h
    rw [hz, if_pos rfl] at h
    have : p = .buff v.off v.len := by
      cases dbg with
      | false => exact (pure_inj.1 h).symm
      | true =>
        simp only [if_true] at h
        obtain ⟨n, -, h⟩ := bind_eq_pure.1 h
        split at h
        · exact (pure_inj.1 h).symm
        · exact absurd h (by intro h; cases h)
    rw [this]
    refine ⟨rfl, fun hin => ?_⟩
    exact if_pos (by rw [hlen]; exact hin)

example : getCStr true 0 [1, 2, 0] ⟨0, 2, true⟩ = pure (.buff 0 2) ∧ (Proxy.buff 0 2).string [7, 2, 0] = pure [7, 2] := ⟨rfl, rfl⟩

end Verif.SV.CStr
