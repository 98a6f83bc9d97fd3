import Verif.Strings.Trim

/-
`daw::string::fmt` of deprecated/daw_string.h.  The arguments are given as the texts that `unknowns_to_string` makes of them.
-/

namespace Verif.Strings
open Cxx Verif.Containers

/-- `\d` of a regular expression. (Rule of C++ or its library, no line of the source.) -/
def isDigit (c : Nat) : Bool := decide (48 ≤ c) && decide (c ≤ 57)

/-- `(:\d)*\}` of the regular expression, deprecated/daw_string.h 241: what is before the brace, and what is behind it. -/
def matchTail : List Nat → Option (List Nat × List Nat)
  | 125 :: s => some ([], s)
  | 58 :: d :: s => if isDigit d then (matchTail s).map fun r => (58 :: d :: r.1, r.2) else none
  | _ => none

/-- `(\d+(:\d)*)\}` of the regular expression, deprecated/daw_string.h 241, behind a first digit. -/
def matchDigits : List Nat → Option (List Nat × List Nat)
  | [] => none
  | c :: s => if isDigit c then (matchDigits s).map fun r => (c :: r.1, r.2) else matchTail (c :: s)

/-- The regular expression, deprecated/daw_string.h 241, at one place: `sm[1]` and the suffix.  No part of it can end in two ways. -/
def matchAt : List Nat → Option (List Nat × List Nat)
  | 123 :: d :: s => if isDigit d then (matchDigits s).map fun r => (d :: r.1, r.2) else none
  | _ => none

/-- `std::regex_search`: the prefix, `sm[1]` and the suffix of the first match. (Rule of C++ or its library, no line of the source.) -/
def search : List Nat → Option (List Nat × List Nat × List Nat)
  | [] => none
  | c :: s =>
    match matchAt (c :: s) with
    | some r => some ([], r)
    | none => (search s).map fun r => (c :: r.1, r.2)

/-- A `size_t` read from a stream of digits: the largest one if it is too large. (Rule of C++ or its library, no line of the source.) -/
def readSize (ds : List Nat) : Nat :=
  let v := ds.foldl (fun r c => r * 10 + (c - 48)) 0
  if v < 2 ^ 64 then v else 2 ^ 64 - 1

/-- The loop of `fmt`, deprecated/daw_string.h 246-275.  `fixed` is what the stream writes for the double that is read from a text,
with a number of decimals. -/
def fmtLoop (fixed : List Nat → Nat → List Nat) (args : List (List Nat)) (ss format : List Nat) : Cxx (List Nat) := do
  match search format with
  | none => pure (ss ++ format)
  | some (pre, body, suffix) =>
    if endsWith pre [123] then fmtLoop fixed args (ss ++ pre ++ ([123] ++ body ++ [125])) suffix
    else
      let delims ← splitChar body 58
      if 1 ≥ delims.length then
        let a ← rd args (readSize body)
        fmtLoop fixed args (ss ++ pre ++ a) suffix
      else if 2 = delims.length then
        let d0 ← rd delims 0
        let d1 ← rd delims 1
        let a ← rd args (readSize d0)
        fmtLoop fixed args (ss ++ pre ++ fixed a (readSize d1)) suffix
      else thrown
partial_fixpoint

/-- `fmt( format_, arg, args... )`, deprecated/daw_string.h 240-277. -/
def fmt (fixed : List Nat → Nat → List Nat) (format : List Nat) (args : List (List Nat)) : Cxx (List Nat) :=
  fmtLoop fixed args [] format

/-! ### Fields -/

/-- A field of a format: the digits of the index, and the digit of the precision if there is one. (Specification, no line of the source.) -/
structure Field where
  index : List Nat
  precision : Option Nat

/-- The text between the braces. (Specification, no line of the source.) -/
def Field.body (f : Field) : List Nat :=
  match f.precision with
  | none => f.index
  | some d => f.index ++ [58, d]

/-- The field is written with digits. (Specification, no line of the source.) -/
structure Field.Ok (f : Field) : Prop where
  some_digit : f.index ≠ []
  digits : ∀ c ∈ f.index, isDigit c = true
  digit : ∀ d, f.precision = some d → isDigit d = true

/-- What the field stands for, if its argument is `a`. (Specification, no line of the source.) -/
def Field.show' (fixed : List Nat → Nat → List Nat) (f : Field) (a : List Nat) : List Nat :=
  match f.precision with
  | none => a
  | some d => fixed a (d - 48)

/-- A format with texts before the fields and behind them. (Specification, no line of the source.) -/
def formatOf : List (List Nat × Field) → List Nat → List Nat
  | [], last => last
  | (t, f) :: items, last => t ++ 123 :: (f.body ++ 125 :: formatOf items last)

/-- The number that digits say. (Specification, no line of the source.) -/
def number (ds : List Nat) : Nat := ds.foldl (fun r c => r * 10 + (c - 48)) 0

/-- What a format says. (Specification, no line of the source.) -/
def meaning (fixed : List Nat → Nat → List Nat) (args : List (List Nat)) : List (List Nat × Field) → List Nat → List Nat
  | [], last => last
  | (t, f) :: items, last => t ++ f.show' fixed ((args[number f.index]?).getD []) ++ meaning fixed args items last

theorem matchTail_brace (s : List Nat) : matchTail (125 :: s) = some ([], s) := by
  rw [matchTail]

theorem matchDigits_brace (s : List Nat) : matchDigits (125 :: s) = some ([], s) := by
  rw [matchDigits, if_neg (by decide), matchTail_brace]

theorem matchDigits_digits (s b r : List Nat) (hs : matchDigits s = some (b, r)) :
    ∀ ds : List Nat, (∀ c ∈ ds, isDigit c = true) → matchDigits (ds ++ s) = some (ds ++ b, r)
  | [], _ => hs
  | d :: ds, h => by
    rw [List.cons_append, matchDigits, if_pos (h d (List.mem_cons_self ..)),
      matchDigits_digits s b r hs ds fun c hc => h c (List.mem_cons_of_mem _ hc)]
    rfl

theorem matchAt_field (f : Field) (hf : f.Ok) (s : List Nat) : matchAt (123 :: (f.body ++ 125 :: s)) = some (f.body, s) := by
  obtain ⟨h1, h2, h3⟩ := hf
  obtain ⟨ix, pr⟩ := f
  cases ix with
  | nil => exact absurd rfl h1
  | cons d ds =>
    have hd : isDigit d = true := h2 d (List.mem_cons_self ..)
    have hds : ∀ c ∈ ds, isDigit c = true := fun c hc => h2 c (List.mem_cons_of_mem _ hc)
    cases pr with
    | none =>
      show matchAt (123 :: d :: (ds ++ 125 :: s)) = _
      rw [matchAt, if_pos hd, matchDigits_digits _ _ _ (matchDigits_brace s) ds hds]
      simp [Field.body]
    | some e =>
      have he : isDigit e = true := h3 e rfl
      have : matchDigits (58 :: e :: 125 :: s) = some ([58, e], s) := by
        rw [matchDigits, if_neg (by decide), matchTail, if_pos he, matchTail_brace]
        rfl
      show matchAt (123 :: d :: ((ds ++ [58, e]) ++ 125 :: s)) = _
      have e2 : (ds ++ [58, e]) ++ 125 :: s = ds ++ (58 :: e :: 125 :: s) := by simp
      rw [matchAt, if_pos hd, e2, matchDigits_digits _ _ _ this ds hds]
      simp [Field.body]

theorem matchAt_other (c : Nat) (hc : c ≠ 123) (s : List Nat) : matchAt (c :: s) = none := by
  unfold matchAt
  split
  · rename_i h
    injection h with h
    exact absurd h hc
  · rfl

theorem search_field (f : Field) (hf : f.Ok) (s : List Nat) :
    ∀ t : List Nat, 123 ∉ t → search (t ++ 123 :: (f.body ++ 125 :: s)) = some (t, f.body, s)
  | [], _ => by
    rw [List.nil_append, search, matchAt_field f hf s]
  | c :: t, h => by
    have hc : c ≠ 123 := fun e => h (e ▸ List.mem_cons_self ..)
    rw [List.cons_append, search, matchAt_other c hc, search_field f hf s t fun e => h (List.mem_cons_of_mem _ e)]
    rfl

theorem search_none : ∀ t : List Nat, 123 ∉ t → search t = none
  | [], _ => rfl
  | c :: t, h => by
    have hc : c ≠ 123 := fun e => h (e ▸ List.mem_cons_self ..)
    rw [search, matchAt_other c hc, search_none t fun e => h (List.mem_cons_of_mem _ e)]
    rfl

theorem endsWith_brace (t : List Nat) (h : 123 ∉ t) : endsWith t [123] = false := by
  have : t.reverse.findIdx? (fun c => decide (c ∈ [123])) = none := by
    rw [List.findIdx?_eq_none_iff]
    intro x hx
    simp only [List.mem_singleton, decide_eq_false_iff_not]
    intro e
    exact h (e ▸ List.mem_reverse.mp hx)
  rw [endsWith, findLastOf, this]
  rfl

theorem digit_ne (c : Nat) (h : isDigit c = true) : c ≠ 58 := by
  simp [isDigit] at h
  omega

theorem split_body (f : Field) (hf : f.Ok) : splitChar f.body 58 =
    pure (match f.precision with
      | none => [f.index]
      | some d => [f.index, [d]]) := by
  obtain ⟨_, h2, h3⟩ := hf
  obtain ⟨ix, pr⟩ := f
  cases pr with
  | none =>
    refine splitLoop_weave _ _ (fun _ => rfl) [ix] [] [] rfl (by simp) ?_
    intro x hx c hc
    rw [List.mem_singleton.mp hx] at hc
    exact decide_eq_false (digit_ne c (h2 c hc))
  | some d =>
    refine splitLoop_weave _ _ (fun _ => rfl) [ix, [d]] [58] [] rfl (by simp) ?_
    intro x hx c hc
    have hd := h3 d rfl
    simp only [List.mem_cons, List.not_mem_nil, or_false] at hx
    rcases hx with e | e
    · rw [e] at hc
      exact decide_eq_false (digit_ne c (h2 c hc))
    · rw [e, List.mem_singleton] at hc
      exact decide_eq_false (digit_ne c (hc ▸ hd))

theorem readSize_eq (ds : List Nat) (h : number ds < 2 ^ 64) : readSize ds = number ds := by
  unfold readSize
  exact if_pos h

theorem readSize_digit (d : Nat) (h : isDigit d = true) : readSize [d] = d - 48 := by
  simp [isDigit] at h
  simp [readSize]
  omega

/-- One field. -/
theorem fmtLoop_field (fixed : List Nat → Nat → List Nat) (args : List (List Nat)) (ss t : List Nat) (f : Field) (hf : f.Ok)
    (s : List Nat) (ht : 123 ∉ t) (hn : number f.index < 2 ^ 64) : fmtLoop fixed args ss (t ++ 123 :: (f.body ++ 125 :: s)) = (do
      let a ← rd args (number f.index)
      fmtLoop fixed args (ss ++ t ++ f.show' fixed a) s) := by
  rw [fmtLoop, search_field f hf s t ht]
  simp only
  rw [endsWith_brace t ht, if_neg (by simp), split_body f hf, pure_bind]
  have h3 := hf.digit
  obtain ⟨ix, pr⟩ := f
  cases pr with
  | none =>
    simp only
    rw [if_pos (by simp)]
    show (do let a ← rd args (readSize ix); _) = _
    rw [readSize_eq ix hn]
    rfl
  | some d =>
    simp only
    rw [if_neg (by simp), if_pos (by simp)]
    show (do let a ← rd args (readSize ix); fmtLoop fixed args (ss ++ t ++ fixed a (readSize [d])) s) = _
    rw [readSize_eq ix hn, readSize_digit d (h3 d rfl)]
    rfl

/-- C244: `fmt` replaces every field by its argument, or by the number in its argument with the precision of the field, and leaves the
rest, if all indices are those of arguments and there are no other opening braces. -/
theorem C244_fmt_partial (fixed : List Nat → Nat → List Nat) (args : List (List Nat)) (ha : args.length < 2 ^ 64)
    (items : List (List Nat × Field)) (last : List Nat) (hi : ∀ i ∈ items, 123 ∉ i.1 ∧ i.2.Ok ∧ number i.2.index < args.length)
    (hl : 123 ∉ last) : fmt fixed (formatOf items last) args = pure (meaning fixed args items last) := by
  have aux : ∀ (items : List (List Nat × Field)) (ss : List Nat),
      (∀ i ∈ items, 123 ∉ i.1 ∧ i.2.Ok ∧ number i.2.index < args.length) →
      fmtLoop fixed args ss (formatOf items last) = pure (ss ++ meaning fixed args items last) := by
    intro items
    induction items with
    | nil =>
      intro ss _
      rw [fmtLoop, formatOf, search_none last hl]
      rfl
    | cons i items ih =>
      intro ss h
      obtain ⟨t, f⟩ := i
      obtain ⟨h1, h2, h3⟩ := h (t, f) (List.mem_cons_self ..)
      rw [formatOf, fmtLoop_field fixed args ss t f h2 _ h1 (Nat.lt_trans h3 ha), rd_eq h3, pure_bind,
        ih _ fun e he => h e (List.mem_cons_of_mem _ he)]
      rw [meaning, List.getElem?_eq_getElem h3]
      simp
  exact aux items [] hi

example : fmt (fun a _ => a) [65, 123, 49, 125, 66, 123, 48, 125] [[120], [121]] = pure [65, 121, 66, 120] :=
  C244_fmt_partial _ [[120], [121]] (by decide) [([65], ⟨[49], none⟩), ([66], ⟨[48], none⟩)] []
    (by
      intro i hi
      simp only [List.mem_cons, List.not_mem_nil, or_false] at hi
      rcases hi with e | e <;> subst e
      · exact ⟨by decide, ⟨by decide, by decide, by simp⟩, by decide⟩
      · exact ⟨by decide, ⟨by decide, by decide, by simp⟩, by decide⟩) (by decide)

/-- C244 is violated by a field without an argument: it is read behind the arguments, without a check. -/
theorem C244_index_violated (fixed : List Nat → Nat → List Nat) (args : List (List Nat)) (t last : List Nat) (f : Field) (hf : f.Ok)
    (ht : 123 ∉ t) (hn : args.length ≤ number f.index) (hs : number f.index < 2 ^ 64) :
    fmt fixed (formatOf [(t, f)] last) args = ub := by
  rw [fmt, formatOf, fmtLoop_field fixed args [] t f hf _ ht hs, rd_oob hn]
  rfl

example : fmt (fun a _ => a) [65, 123, 51, 125] [[120], [121]] = ub :=
  C244_index_violated _ [[120], [121]] [65] [] ⟨[51], none⟩ ⟨by decide, by decide, by simp⟩ (by decide) (by decide) (by decide)

theorem search_brace (f : Field) (hf : f.Ok) (s : List Nat) :
    ∀ t : List Nat, 123 ∉ t → search (t ++ 123 :: 123 :: (f.body ++ 125 :: s)) = some (t ++ [123], f.body, s)
  | [], _ => by
    have h1 : matchAt (123 :: 123 :: (f.body ++ 125 :: s)) = none := by
      rw [matchAt, if_neg (by decide)]
    rw [List.nil_append, search, h1, search, matchAt_field f hf s]
    rfl
  | c :: t, h => by
    have hc : c ≠ 123 := fun e => h (e ▸ List.mem_cons_self ..)
    rw [List.cons_append, search, matchAt_other c hc, search_brace f hf s t fun e => h (List.mem_cons_of_mem _ e)]
    rfl

/-- C244 is violated by fields behind an opening brace, which should protect them: they are left, but the brace that protects them is
left too, so that no format says `{0}`. -/
theorem C244_escape_violated (fixed : List Nat → Nat → List Nat) (args : List (List Nat)) (t last : List Nat) (f : Field) (hf : f.Ok)
    (ht : 123 ∉ t) (hlen : t.length + 1 < npos) (hl : 123 ∉ last) :
    fmt fixed (t ++ 123 :: 123 :: (f.body ++ 125 :: last)) args = pure (t ++ 123 :: 123 :: (f.body ++ 125 :: last)) := by
  rw [fmt, fmtLoop, search_brace f hf last t ht]
  simp only
  rw [endsWith_last t [123] 123 hlen, if_pos (by simp), fmtLoop, search_none last hl]
  simp

/-- C244: a field with more than two parts is refused by an exception, whatever the arguments are. -/
theorem C244_parts (fixed : List Nat → Nat → List Nat) (args : List (List Nat)) (a b c : Nat) (ha : isDigit a = true) (hb : isDigit b = true)
    (hc : isDigit c = true) (s : List Nat) : fmt fixed (123 :: a :: 58 :: b :: 58 :: c :: 125 :: s) args = thrown := by
  have hn : ∀ d, isDigit d = true → 58 ≠ d := by
    intro d hd e
    rw [← e] at hd
    exact absurd hd (by decide)
  have h : splitChar [a, 58, b, 58, c] 58 = pure [[a], [b], [c]] := by
    refine C238_split_combine_partial [[a], [b], [c]] 58 (by simp) (fun x hx => ?_)
    simp only [List.mem_cons, List.not_mem_nil, or_false] at hx
    rcases hx with rfl | rfl | rfl
    · simpa using hn a ha
    · simpa using hn b hb
    · simpa using hn c hc
  have hs : search (123 :: a :: 58 :: b :: 58 :: c :: 125 :: s) = some ([], [a, 58, b, 58, c], s) := by
    rw [search, matchAt, if_pos ha, matchDigits, if_neg (by decide), matchTail, if_pos hb, matchTail, if_pos hc, matchTail]
    rfl
  rw [fmt, fmtLoop, hs]
  simp only
  rw [if_neg (by decide), h, pure_bind, if_neg (by simp), if_neg (by simp)]

example : fmt (fun a _ => a) [123, 48, 58, 49, 58, 50, 125, 65] [[120]] = thrown := C244_parts _ _ 48 49 50 rfl rfl rfl [65]

end Verif.Strings
