import Verif.Containers.Lists

/-
Characters and quoted texts in include/daw/daw_parse_to.h.  A text is the list of its character codes, 34 is the quote and
92 the backslash.  A view may be a part of a longer text: `rest` are the characters that follow it.
-/

namespace Verif.Parse
namespace Quoted
open Cxx

/-- `parse_to_value` for `char`, daw_parse_to.h 36-40. -/
def parseChar (xs : List Nat) : Cxx Nat := if xs.isEmpty then thrown else rd xs 0

/-- `parse_to_value` for `unquoted_string_view`, daw_parse_to.h 111-117, and for `unquoted_string`, 151-155. -/
def parseUnquoted (xs : List Nat) : Cxx (List Nat) := if xs.isEmpty then thrown else pure xs

/-- `is_quote`, daw_parse_to.h 103-105. -/
def isQuote (last c : Nat) : Bool := last != 92 && c == 34

/-- The loop over the characters, daw_parse_to.h 135-138: those passed and those left. -/
def loop : Nat → List Nat → List Nat × List Nat
  | _, [] => ([], [])
  | last, c :: cs => if isQuote last c then ([], c :: cs) else (c :: (loop c cs).1, (loop c cs).2)

/-- `parse_to_value` for `daw::string_view`, daw_parse_to.h 119-143, and for `std::string`, 145-149.  `front` of an empty view
is the character behind it (daw_string_view.h 1019-1024). -/
def parse (xs rest : List Nat) : Cxx (List Nat) :=
  if xs.isEmpty then thrown
  else if xs.length ≤ 2 then thrown
  else do
    let q ← rd xs 0
    if q ≠ 34 then thrown
    else do
      let first ← rd xs 1
      let r := loop first (xs.drop 2)
      let c ← rd (r.2 ++ rest) 0
      if c = 34 then pure (first :: r.1) else thrown

/-- Each quote behind the first character follows a backslash. (Specification, no line of the source.) -/
def Escaped (s : List Nat) : Prop := ∀ i : Nat, s[i + 1]? = some 34 → s[i]? = some 92

theorem loop_append : ∀ (s : List Nat) (last : Nat) (t : List Nat), Escaped (last :: s) → (last :: s).getLast (by simp) ≠ 92 →
    loop last (s ++ 34 :: t) = (s, 34 :: t) := by
  intro s
  induction s with
  | nil =>
    intro last t _ hl
    have hl : last ≠ 92 := hl
    simp [loop, isQuote, hl]
  | cons c s ih =>
    intro last t he hl
    have hq : isQuote last c = false := by
      unfold isQuote
      by_cases hc : c = 34
      · have := he 0 (by simp [hc])
        simp only [List.getElem?_cons_zero, Option.some.injEq] at this
        simp [this]
      · simp [hc]
    have := ih c t (fun i hi => by simpa using he (i + 1) (by simpa using hi)) (by simpa using hl)
    rw [List.cons_append, loop, hq, this]
    rfl

theorem loop_end : ∀ (s : List Nat) (last : Nat), Escaped (last :: s) → loop last s = (s, []) := by
  intro s
  induction s with
  | nil => intro last _; rfl
  | cons c s ih =>
    intro last he
    have hq : isQuote last c = false := by
      unfold isQuote
      by_cases hc : c = 34
      · have := he 0 (by simp [hc])
        simp only [List.getElem?_cons_zero, Option.some.injEq] at this
        simp [this]
      · simp [hc]
    rw [loop, hq, ih c (fun i hi => by simpa using he (i + 1) (by simpa using hi))]
    rfl

theorem loop_spec : ∀ (s : List Nat) (last : Nat), (loop last s).1 ++ (loop last s).2 = s ∧ Escaped (last :: (loop last s).1) ∧
    ((loop last s).2 = [] ∨ ∃ t, (loop last s).2 = 34 :: t) := by
  intro s
  induction s with
  | nil => intro last; exact ⟨rfl, fun i hi => by simp [loop] at hi, Or.inl rfl⟩
  | cons c s ih =>
    intro last
    obtain ⟨h1, h2, h3⟩ := ih c
    rw [loop]
    by_cases hq : isQuote last c = true
    · rw [if_pos hq]
      have hc : c = 34 := by
        unfold isQuote at hq
        simp at hq
        exact hq.2
      exact ⟨rfl, fun i hi => by simp at hi, Or.inr ⟨s, by rw [hc]⟩⟩
    · rw [if_neg hq]
      refine ⟨by rw [List.cons_append, h1], fun i hi => ?_, h3⟩
      cases i with
      | zero =>
        simp only [List.getElem?_cons_succ, List.getElem?_cons_zero, Option.some.injEq] at hi
        unfold isQuote at hq
        simp [hi] at hq
        simp [hq]
      | succ i => exact h2 i hi

/-- C223: a text in quotes is parsed to what is between them, whatever follows, if it is not empty and does not
end with a backslash, and each quote in it behind the first character follows a backslash.  Missing: the empty text and texts that end with a
backslash that is itself escaped. -/
theorem C223_quoted_partial (s t rest : List Nat) (hs : s ≠ []) (he : Escaped s) (hl : s.getLast hs ≠ 92) :
    parse (34 :: (s ++ 34 :: t)) rest = pure s := by
  obtain ⟨f, s, rfl⟩ := List.exists_cons_of_ne_nil hs
  unfold parse
  rw [if_neg (by simp), if_neg (by simp), rd_some (a := 34) rfl, pure_bind, if_neg (by simp), rd_some (a := f) rfl, pure_bind]
  have hd : (34 :: (f :: s ++ 34 :: t)).drop 2 = s ++ 34 :: t := rfl
  rw [hd, loop_append s f t he hl]
  rfl

/-- A text with its quotes escaped. (Specification, no line of the source.) -/
def escape (w : List Nat) : List Nat := w.flatMap fun c => if c = 34 then [92, 34] else [c]

theorem escape_escaped (w : List Nat) : ∀ i : Nat, (escape w)[i]? = some 34 → ∃ j, i = j + 1 ∧ (escape w)[j]? = some 92 := by
  induction w with
  | nil => intro i hi; simp [escape] at hi
  | cons c w ih =>
    intro i hi
    have e : escape (c :: w) = (if c = 34 then [92, 34] else [c]) ++ escape w := by simp [escape]
    rw [e] at hi ⊢
    by_cases hc : c = 34
    · rw [if_pos hc] at hi ⊢
      match i with
      | 0 => simp at hi
      | 1 => exact ⟨0, rfl, rfl⟩
      | i + 2 =>
        obtain ⟨j, rfl, hj⟩ := ih i (by simpa using hi)
        exact ⟨j + 2, rfl, by simpa using hj⟩
    · rw [if_neg hc] at hi ⊢
      match i with
      | 0 => simp at hi; exact absurd hi hc
      | i + 1 =>
        obtain ⟨j, rfl, hj⟩ := ih i (by simpa using hi)
        exact ⟨j + 1, rfl, by simpa using hj⟩

theorem escape_last (w : List Nat) (h : 92 ∉ w) (hne : escape w ≠ []) : (escape w).getLast hne ≠ 92 := by
  induction w with
  | nil => simp [escape] at hne
  | cons c w ih =>
    have e : escape (c :: w) = (if c = 34 then [92, 34] else [c]) ++ escape w := by simp [escape]
    by_cases hw : escape w = []
    · simp only [e, hw, List.append_nil]
      by_cases hc : c = 34
      · simp [hc]
      · simp only [if_neg hc, List.getLast_singleton]
        exact fun hh => h (by simp [hh])
    · have : (escape (c :: w)).getLast hne = (escape w).getLast hw := by
        simp only [e]
        rw [List.getLast_append_of_ne_nil]
      rw [this]
      exact ih (fun hm => h (List.mem_cons_of_mem _ hm)) hw

/-- C223: a text without backslashes that is not empty is found again when its quotes are escaped and it is put in quotes.
Missing: see `C223_quoted_partial`. -/
theorem C223_round_trip_partial (w t rest : List Nat) (hw : w ≠ []) (hb : 92 ∉ w) :
    parse (34 :: (escape w ++ 34 :: t)) rest = pure (escape w) := by
  have hne : escape w ≠ [] := by
    obtain ⟨c, w, rfl⟩ := List.exists_cons_of_ne_nil hw
    simp [escape]
    split <;> simp
  refine C223_quoted_partial _ t rest hne (fun i hi => ?_) (escape_last w hb hne)
  obtain ⟨j, hj, h⟩ := escape_escaped w _ hi
  rw [show i = j by omega]
  exact h

example : escape [97, 34, 98] = [97, 92, 34, 98] ∧ parse [34, 97, 92, 34, 98, 34, 44] [] = pure [97, 92, 34, 98] :=
  ⟨rfl, rfl⟩

/-- **C223**, what is accepted: the text starts with a quote, and the result ends at a quote, in the text or just behind it. -/
theorem C223_accepted (xs rest s : List Nat) (h : parse xs rest = pure s) :
    s ≠ [] ∧ Escaped s ∧ ((∃ t, xs = 34 :: (s ++ 34 :: t)) ∨ (xs = 34 :: s ∧ rest.head? = some 34)) := by
  unfold parse at h
  match xs, h with
  | [], h => cases h
  | [_], h => cases h
  | [_, _], h => cases h
  | q :: f :: x :: xs, h =>
    rw [if_neg (by simp), if_neg (by simp), rd_some (a := q) rfl, pure_bind] at h
    by_cases hq : q = 34
    · rw [if_neg (by simp [hq]), rd_some (a := f) rfl, pure_bind] at h
      have hd : (q :: f :: x :: xs).drop 2 = x :: xs := rfl
      rw [hd] at h
      obtain ⟨h1, h2, h3⟩ := loop_spec (x :: xs) f
      simp only at h
      obtain ⟨c, hc, h⟩ := bind_eq_pure.1 h
      by_cases h34 : c = 34
      · rw [if_pos h34] at h
        have hs := pure_inj.1 h
        subst hs
        refine ⟨by simp, h2, ?_⟩
        rcases h3 with h3 | ⟨t, h3⟩
        · right
          rw [h3, List.append_nil] at h1
          rw [h3, List.nil_append] at hc
          refine ⟨by rw [h1, hq], ?_⟩
          cases rest with
          | nil => exact absurd hc (ub_ne_pure _)
          | cons r rest =>
            have := pure_inj.1 hc
            rw [List.head?_cons, this, h34]
        · left
          rw [h3] at h1
          exact ⟨t, by rw [List.cons_append, h1, hq]⟩
      · rw [if_neg h34] at h
        exact absurd h (thrown_ne_pure _)
    · rw [if_pos hq] at h
      exact absurd h (thrown_ne_pure _)

example := C223_accepted [34, 65, 66, 34, 67] [] [65, 66] (by decide +kernel)

/-- C223 does not hold without the closing quote: the character behind the text is read; at the end of the memory that is
undefined, and a quote that does not belong to the text is accepted. -/
theorem C223_unclosed_violated (s rest : List Nat) (hs : 2 ≤ s.length) (he : Escaped s) :
    parse (34 :: s) [] = ub ∧ parse (34 :: s) (34 :: rest) = pure s := by
  match s, hs with
  | f :: x :: s, _ =>
    have key : ∀ rest, parse (34 :: f :: x :: s) rest = (do
        let c ← rd rest 0
        if c = 34 then pure (f :: x :: s) else thrown) := by
      intro rest
      unfold parse
      rw [if_neg (by simp), if_neg (by simp), rd_some (a := 34) rfl, pure_bind, if_neg (by simp), rd_some (a := f) rfl, pure_bind]
      have hd : (34 :: f :: x :: s).drop 2 = x :: s := rfl
      rw [hd, loop_end (x :: s) f he]
      rfl
    exact ⟨by rw [key]; rfl, by rw [key]; rfl⟩

example := C223_unclosed_violated [65, 66] [44] (by decide) (fun i h => by rcases i with _ | _ | i <;> simp at h)

/-- C223 does not hold for the empty text, nor for a backslash that is itself escaped before the closing quote, where the
text runs on to the next quote. -/
theorem C223_special_violated (rest : List Nat) :
    parse [34, 34] rest = thrown ∧ parse [34, 34, 97, 34] rest = pure [34, 97] ∧ parse [34, 97, 92, 92, 34] [] = ub ∧
    parse [34, 97, 92, 92, 34, 44, 98, 34] rest = pure [97, 92, 92, 34, 44, 98] :=
  ⟨rfl, rfl, rfl, rfl⟩

/-- **C223**: a text that does not start with a quote, as the empty one, is refused by an exception, whatever is behind it in memory. -/
theorem C223_refused (xs rest : List Nat) (h : ∀ t, xs ≠ 34 :: t) : parse xs rest = thrown := by
  unfold parse
  by_cases h0 : xs.isEmpty
  · rw [if_pos h0]
  · rw [if_neg h0]
    by_cases h2 : xs.length ≤ 2
    · rw [if_pos h2]
    · rw [if_neg h2]
      obtain ⟨q, t, rfl⟩ := List.exists_cons_of_ne_nil (show xs ≠ [] by simpa using h0)
      have hq : q ≠ 34 := fun e => h t (by rw [e])
      rw [show rd (q :: t) 0 = pure q from rfl, pure_bind, if_pos hq]

example := C223_refused [65, 34, 66, 34] [] (by simp)

/-- **C223**, single characters and texts without quotes: the empty text throws; only the first character counts. -/
theorem C223_plain (x : Nat) (xs : List Nat) :
    parseChar [] = thrown ∧ parseUnquoted [] = thrown ∧ parseChar (x :: xs) = pure x ∧ parseUnquoted (x :: xs) = pure (x :: xs) :=
  ⟨rfl, rfl, rfl, rfl⟩

end Quoted
end Verif.Parse
