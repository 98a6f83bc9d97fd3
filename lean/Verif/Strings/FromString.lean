import Verif.Base
import Verif.Containers.Lists
import Verif.Bits.IntCmp

/-
Numbers from text, include/daw/daw_from_string.h.  The conversion to strings, 50-58, which copies the text, is left out.
-/

namespace Verif.Strings.FromString
open Verif Verif.Cxx Verif.Bits

/-- The value of digits, most significant first. (Rule of C++ or its library, no line of the source.) -/
def digitsValue (ds : List Nat) : Nat := ds.foldl (fun v d => 10 * v + d) 0

/-- The digit of a character. (Rule of C++ or its library, no line of the source.) -/
def digit? (c : Char) : Option Nat := if '0' ≤ c ∧ c ≤ '9' then some (c.toNat - 48) else none

/-- The digits at the beginning of a text and the text after them. (Rule of C++ or its library, no line of the source.) -/
def leading : List Char → List Nat × List Char
  | [] => ([], [])
  | c :: cs =>
    match digit? c with
    | none => ([], c :: cs)
    | some d => (d :: (leading cs).1, (leading cs).2)

/-- `std::from_chars` for an integer type with base 10: the value and the rest of the text; nothing for a text that does not begin with a number or a number that is not
a value of the type.  A minus sign is recognised for signed types only. (Rule of C++ or its library, no line of the source.) -/
def fromChars (t : IntTy) (text : List Char) : Option (Int × List Char) :=
  let (minus, rest) := match text with
    | '-' :: cs => if t.signed then (true, cs) else (false, text)
    | _ => (false, text)
  let (ds, after) := leading rest
  if ds = [] then none
  else
    let v : Int := if minus then -digitsValue ds else digitsValue ds
    if t.Has v then some (v, after) else none

/-- `from_string_t<I>::operator( )`, daw_from_string.h 28-39: the rest of the text is not looked at. -/
def fromString (t : IntTy) (text : List Char) : Option Int := (fromChars t text).map Prod.fst

/-! ## Proofs -/

/-- The decimal digits of a number, most significant first. (Specification, no line of the source.) -/
def decimal (n : Nat) : List Nat := if n < 10 then [n] else decimal (n / 10) ++ [n % 10]

/-- The text of digits. (Specification, no line of the source.) -/
def text (ds : List Nat) : List Char := ds.map fun d => Char.ofNat (d + 48)

/-- The text of an integer. (Specification, no line of the source.) -/
def render (x : Int) : List Char := if x < 0 then '-' :: text (decimal x.natAbs) else text (decimal x.natAbs)

theorem digitsValue_append (ds : List Nat) (d : Nat) : digitsValue (ds ++ [d]) = 10 * digitsValue ds + d := by
  simp [digitsValue]

theorem decimal_value (n : Nat) : digitsValue (decimal n) = n := by
  induction n using Nat.strongRecOn with
  | ind n ih =>
    rw [decimal]
    split
    · simp [digitsValue]
    · rw [digitsValue_append, ih (n / 10) (by omega)]
      omega

theorem decimal_lt (n : Nat) : ∀ d ∈ decimal n, d < 10 := by
  induction n using Nat.strongRecOn with
  | ind n ih =>
    rw [decimal]
    split
    · intro d hd
      simp only [List.mem_cons, List.not_mem_nil, or_false] at hd
      omega
    · intro d hd
      rw [List.mem_append] at hd
      rcases hd with hd | hd
      · exact ih (n / 10) (by omega) d hd
      · simp only [List.mem_cons, List.not_mem_nil, or_false] at hd
        omega

theorem decimal_ne (n : Nat) : decimal n ≠ [] := by
  rw [decimal]
  split <;> simp

theorem digit_text (d : Nat) (h : d < 10) : digit? (Char.ofNat (d + 48)) = some d := by
  have : d = 0 ∨ d = 1 ∨ d = 2 ∨ d = 3 ∨ d = 4 ∨ d = 5 ∨ d = 6 ∨ d = 7 ∨ d = 8 ∨ d = 9 := by omega
  rcases this with rfl | rfl | rfl | rfl | rfl | rfl | rfl | rfl | rfl | rfl <;> decide

/-- The text does not begin with a digit. (Specification, no line of the source.) -/
def NoDigit (rest : List Char) : Prop := ∀ c cs, rest = c :: cs → digit? c = none

theorem leading_text (ds : List Nat) (hd : ∀ d ∈ ds, d < 10) (rest : List Char) (hr : NoDigit rest) : leading (text ds ++ rest) = (ds, rest) := by
  induction ds with
  | nil =>
    cases rest with
    | nil => rfl
    | cons c cs =>
      simp only [text, List.map_nil, List.nil_append, leading, hr c cs rfl]
  | cons d ds ih =>
    have := ih fun e he => hd e (by simp [he])
    simp only [text, List.map_cons, List.cons_append, leading, digit_text d (hd d (by simp))] at this ⊢
    rw [this]

theorem text_cons_ne {ds : List Nat} (hd : ∀ d ∈ ds, d < 10) (rest cs : List Char) (hn : ds ≠ []) : text ds ++ rest ≠ '-' :: cs := by
  cases ds with
  | nil => exact absurd rfl hn
  | cons d ds =>
    intro h
    simp only [text, List.map_cons, List.cons_append, List.cons.injEq] at h
    have h1 := digit_text d (hd d (by simp))
    rw [h.1, show digit? '-' = none by decide] at h1
    cases h1

/-- **C309.**  The text of a value of an integer type, whatever text that does not begin with a digit follows, is read as the value. -/
theorem C309_round_trip (t : IntTy) (x : Int) (h : t.Has x) (rest : List Char) (hr : NoDigit rest) : fromString t (render x ++ rest) = some x := by
  unfold fromString fromChars render
  have hl := leading_text (decimal x.natAbs) (decimal_lt _) rest hr
  by_cases hx : x < 0
  · have hs : t.signed = true := by
      cases hts : t.signed with
      | true => rfl
      | false =>
        have := h.nonneg hts
        omega
    simp only [hx, if_true, List.cons_append, hs, hl, decimal_ne, if_false, decimal_value]
    have e : -((x.natAbs : Nat) : Int) = x := by omega
    rw [e, if_pos h]
    rfl
  · simp only [hx, if_false]
    have hm : (match text (decimal x.natAbs) ++ rest with
      | '-' :: cs => if t.signed = true then (true, cs) else (false, text (decimal x.natAbs) ++ rest)
      | _ => (false, text (decimal x.natAbs) ++ rest)) = (false, text (decimal x.natAbs) ++ rest) := by
      split
      · rename_i cs he
        exact absurd he (text_cons_ne (decimal_lt _) rest cs (decimal_ne _))
      · rfl
    rw [hm]
    simp only [hl, decimal_ne, if_false, decimal_value, Bool.false_eq_true]
    have e : ((x.natAbs : Nat) : Int) = x := by omega
    rw [e, if_pos h]
    rfl

example : fromString .int ['-', '4', '2'] = some (-42) := by decide

/-- **C309.**  A number that is not a value of the type is refused.
Missing: text after the number, see `C309_rest_violated`. -/
theorem C309_range_partial (t : IntTy) (n : Nat) (h : ¬ t.Has n) (rest : List Char) (hr : NoDigit rest) : fromString t (text (decimal n) ++ rest) = none := by
  unfold fromString fromChars
  have hl := leading_text (decimal n) (decimal_lt _) rest hr
  have hm : (match text (decimal n) ++ rest with
    | '-' :: cs => if t.signed = true then (true, cs) else (false, text (decimal n) ++ rest)
    | _ => (false, text (decimal n) ++ rest)) = (false, text (decimal n) ++ rest) := by
    split
    · rename_i cs he
      exact absurd he (text_cons_ne (decimal_lt _) rest cs (decimal_ne _))
    · rfl
  simp only [hm, hl, decimal_ne, if_false, decimal_value, Bool.false_eq_true, if_neg h, Option.map_none]

example : fromString ⟨8, false, by decide⟩ ['2', '5', '6'] = none := by decide

/-- **C309** (finding).  A text that is not a number but begins with one is taken for the number. -/
theorem C309_rest_violated (t : IntTy) (x : Int) (h : t.Has x) (c : Char) (cs : List Char) (hc : digit? c = none) :
    fromString t (render x ++ c :: cs) = fromString t (render x) ∧ fromString t (render x) = some x := by
  have h1 := C309_round_trip t x h (c :: cs) fun d ds e => by
    obtain ⟨rfl, _⟩ : c = d ∧ cs = ds := by simpa using e
    exact hc
  have h2 := C309_round_trip t x h [] fun _ _ e => by cases e
  rw [List.append_nil] at h2
  exact ⟨by rw [h1, h2], h2⟩

example : fromString .int ['1', '2', 'k', 'm'] = some 12 := by decide

end Verif.Strings.FromString
