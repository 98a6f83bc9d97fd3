import Verif.Containers.Lists

/-
The formatting of texts with numbered fields, `daw::string_fmt::v1` and `v2` of deprecated/daw_string_fmt.h, with
`parse_unsigned_int` of daw_parser_addons.h.

Characters are numbers below 256 (`{` is 123, `}` is 125, `\` is 92); the arguments are given as the texts that `to_string`, or the
branch of `parse_token` for their type, makes of them.
-/

namespace Verif.Parse.Format
open Cxx

/-- `from_num_char`, daw_parser_addons.h 42-47, for an unsigned type with values below `m`: no check that it is a digit. -/
def fromNumChar (m c : Nat) : Nat := (c + 2 ^ 32 - 48) % 2 ^ 32 % m

/-- The loop of `parse_unsigned_int` and the check after it, daw_parser_addons.h 59-66: at most `count` characters. -/
def digitsLoop (m count : Nat) : List Nat → Nat → Cxx Nat
  | [], r => pure r
  | c :: cs, r => if count = 0 then thrown else digitsLoop m (count - 1) cs ((r * 10 % m + fromNumChar m c) % m)

/-- `parse_unsigned_int<Int>( sv )`, daw_parser_helper_sv.h 66-72 and daw_parser_addons.h 49-67: `k` is `digits10`.  Simplified: the
first character of an empty text, which is read too, is taken to be no `-`; in the calls here it is the `}` behind the text. -/
def parseUnsigned (k m : Nat) (s : List Nat) : Cxx Nat :=
  if s.head? = some 45 then thrown else digitsLoop m k s 0

/-- `pop_front_until( c )`, daw_string_view.h 1234-1240: what is before the character, and what is left behind it. -/
def popUntil (c : Nat) (s : List Nat) : List Nat × List Nat :=
  (s.takeWhile (· != c), (s.dropWhile (· != c)).drop 1)

theorem popUntil_lt (c : Nat) (s : List Nat) (h : s ≠ []) : (popUntil c s).2.length < s.length := by
  have h1 : (s.dropWhile (· != c)).length ≤ s.length := by
    have := congrArg List.length (List.takeWhile_append_dropWhile (p := (· != c)) (l := s))
    rw [List.length_append] at this
    omega
  have : s.length ≠ 0 := by simpa using h
  simp only [popUntil, List.length_drop]
  omega

/-! ### Version 1 -/

/-- `get_arg`, deprecated/daw_string_fmt.h 60-86. -/
def getArg (args : List (List Nat)) (i : Nat) : Cxx (List Nat) :=
  match args[i]? with
  | some a => pure a
  | none => thrown

/-- The loop of `fmt_t::operator( )`, deprecated/daw_string_fmt.h 110-116; an index is a `uint8_t`, which has 2 decimal digits. -/
def fmtLoop (args : List (List Nat)) (sv result : List Nat) : Cxx (List Nat) :=
  if _h : sv = [] then pure result
  else do
    let i ← parseUnsigned 2 256 (popUntil 125 sv).1
    let a ← getArg args i
    fmtLoop args (popUntil 123 (popUntil 125 sv).2).2 (result ++ a ++ (popUntil 123 (popUntil 125 sv).2).1)
termination_by sv.length
decreasing_by
  have h1 := popUntil_lt 125 sv _h
  by_cases h2 : (popUntil 125 sv).2 = []
  · rw [h2] at h1 ⊢
    simpa [popUntil] using h1
  · have := popUntil_lt 123 _ h2
    omega

/-- `fmt_t::operator( )`, deprecated/daw_string_fmt.h 103-118, and `fmt`, 121-124. -/
def fmt1 (s : List Nat) (args : List (List Nat)) : Cxx (List Nat) :=
  fmtLoop args (popUntil 123 s).2 (popUntil 123 s).1

/-! ### Version 2 -/

/-- `parse_token`, deprecated/daw_string_fmt.h 135-148. -/
inductive Tok where
  | text (s : List Nat)
  | char (c : Nat)
  | arg (n : Nat)
  deriving DecidableEq

/-- `bounded_vector_t::emplace_back`, daw_bounded_vector.h 260-266, on a vector that nothing was removed from: without room the write
is outside the array. -/
def emplace (cap : Nat) (ts : List Tok) (t : Tok) : Cxx (List Tok) :=
  if ts.length < cap then pure (ts ++ [t]) else ub

/-- The text before a special character becomes a token, deprecated/daw_string_fmt.h 237-241 and 247-251. -/
def flush (cap : Nat) (msg : List Nat) (sz : Nat) (ts : List Tok) : Cxx (List Tok) :=
  if 0 < sz then emplace cap ts (.text (msg.take sz)) else pure ts

/-- The loop of `parse_tokens` and what follows, deprecated/daw_string_fmt.h 233-268: `cap` is the capacity; a failed `assert` ends the
program. -/
def parseTokens (cap : Nat) (msg : List Nat) (sz : Nat) (ts : List Tok) : Cxx (List Tok) :=
  if _h : sz < msg.length then
    if cap ≤ ts.length then abort
    else if msg[sz] = 92 then do
      let ts ← flush cap msg sz ts
      let ts ← emplace cap ts (.char 92)
      parseTokens cap (msg.drop (sz + 1)) 0 ts
    else if msg[sz] = 123 then do
      let ts ← flush cap msg sz ts
      if _h2 : msg.drop (sz + 1) = [] then abort
      else do
        let d ← parseUnsigned 19 (2 ^ 64) (popUntil 125 (msg.drop (sz + 1))).1
        let ts ← emplace cap ts (.arg d)
        parseTokens cap (popUntil 125 (msg.drop (sz + 1))).2 0 ts
    else parseTokens cap msg (sz + 1) ts
  else if 0 < sz then
    if cap ≤ ts.length then abort else emplace cap ts (.text msg)
  else pure ts
termination_by msg.length - sz
decreasing_by
  · rw [List.length_drop]; omega
  · have := popUntil_lt 125 _ _h2
    rw [List.length_drop] at this
    omega
  · omega

/-- A token is written, deprecated/daw_string_fmt.h 150-204, with `pack_apply`, daw_utility.h 891-916: for an index that is no argument
nothing is. -/
def Tok.out (args : List (List Nat)) : Tok → List Nat
  | .text s => s
  | .char c => [c]
  | .arg n => (args[n]?).getD []

/-- `fmt_t( fmt_string )` and its `operator( )`, deprecated/daw_string_fmt.h 272-273 and 281-292, and `fmt`, 297-301: the literal has
`N` characters with the zero at its end, and there is room for `N / 2` tokens. -/
def fmt2 (s : List Nat) (args : List (List Nat)) : Cxx (List Nat) := do
  let ts ← parseTokens ((s.length + 1) / 2) s 0 []
  pure (ts.flatMap (Tok.out args))

/-- `fmt<fmt_string>( … )`, deprecated/daw_string_fmt.h 303-311 and 275-278: here `N` does not count the zero. -/
def fmt2Static (s : List Nat) (args : List (List Nat)) : Cxx (List Nat) := do
  let ts ← parseTokens (s.length / 2) s 0 []
  pure (ts.flatMap (Tok.out args))

/-! ### What is meant -/

/-- A text with fields: texts each followed by the digits of a field, and a last text. (Specification, no line of the source.) -/
structure Template where
  segs : List (List Nat × List Nat)
  tail : List Nat

/-- The text as it is written. (Specification, no line of the source.) -/
def write : List (List Nat × List Nat) → List Nat → List Nat
  | [], tail => tail
  | (t, d) :: segs, tail => t ++ 123 :: (d ++ 125 :: write segs tail)

/-- The number that digits say. (Specification, no line of the source.) -/
def value (ds : List Nat) : Nat := ds.foldl (fun a c => 10 * a + (c - 48)) 0

/-- The text with the arguments in the place of the fields. (Specification, no line of the source.) -/
def filled (args : List (List Nat)) : List (List Nat × List Nat) → List Nat → List Nat
  | [], tail => tail
  | (t, d) :: segs, tail => t ++ (args[value d]?).getD [] ++ filled args segs tail

/-- The texts do not contain the characters given, and fields have at least one and at most `k` digits.
(Specification, no line of the source.) -/
def Template.Ok (special : List Nat) (k : Nat) (t : Template) : Prop :=
  (∀ p ∈ t.segs, (∀ c ∈ p.1, c ∉ special) ∧ (∀ c ∈ p.2, 48 ≤ c ∧ c ≤ 57) ∧ 0 < p.2.length ∧ p.2.length ≤ k) ∧
  ∀ c ∈ t.tail, c ∉ special

/-! ### Numbers -/

theorem fold_lt : ∀ (ds : List Nat) (a : Nat), (∀ c ∈ ds, 48 ≤ c ∧ c ≤ 57) →
    ds.foldl (fun a c => 10 * a + (c - 48)) a < (a + 1) * 10 ^ ds.length := by
  intro ds
  induction ds with
  | nil => intro a _; simp
  | cons d ds ih =>
    intro a h
    have h1 := h d List.mem_cons_self
    have := ih (10 * a + (d - 48)) (fun c hc => h c (List.mem_cons_of_mem _ hc))
    rw [List.foldl_cons, List.length_cons, Nat.pow_succ, Nat.mul_comm (10 ^ _) 10, ← Nat.mul_assoc]
    exact Nat.lt_of_lt_of_le this (Nat.mul_le_mul_right _ (by omega))

theorem value_lt {ds : List Nat} (h : ∀ c ∈ ds, 48 ≤ c ∧ c ≤ 57) : value ds < 10 ^ ds.length := by
  have := fold_lt ds 0 h
  simpa [value] using this

theorem fold_le : ∀ (ds : List Nat) (a : Nat), a ≤ ds.foldl (fun a c => 10 * a + (c - 48)) a := by
  intro ds
  induction ds with
  | nil => intro a; exact Nat.le_refl _
  | cons d ds ih => intro a; have := ih (10 * a + (d - 48)); rw [List.foldl_cons]; omega

theorem fromNumChar_digit {m d : Nat} (hm : 256 ≤ m) (h1 : 48 ≤ d) (h2 : d ≤ 57) : fromNumChar m d = d - 48 := by
  unfold fromNumChar
  have e0 : (d + 2 ^ 32 - 48) % 2 ^ 32 = d - 48 := by omega
  rw [e0, Nat.mod_eq_of_lt (by omega)]

theorem digitsLoop_eq (m : Nat) (hm : 256 ≤ m) : ∀ (ds : List Nat) (k r : Nat), (∀ c ∈ ds, 48 ≤ c ∧ c ≤ 57) → ds.length ≤ k →
    ds.foldl (fun a c => 10 * a + (c - 48)) r < m → digitsLoop m k ds r = pure (ds.foldl (fun a c => 10 * a + (c - 48)) r) := by
  intro ds
  induction ds with
  | nil => intro k r _ _ _; rfl
  | cons d ds ih =>
    intro k r h hk hlt
    have h1 := h d List.mem_cons_self
    cases k with
    | zero => simp at hk
    | succ k =>
      rw [List.foldl_cons] at hlt ⊢
      have hle := fold_le ds (10 * r + (d - 48))
      have e : (r * 10 % m + fromNumChar m d) % m = 10 * r + (d - 48) := by
        rw [fromNumChar_digit hm h1.1 h1.2]
        generalize ds.foldl (fun a c => 10 * a + (c - 48)) (10 * r + (d - 48)) = z at hlt hle
        rw [Nat.mod_eq_of_lt (a := r * 10) (by omega), Nat.mod_eq_of_lt (by omega)]
        omega
      rw [digitsLoop, if_neg (by omega), e, Nat.add_sub_cancel]
      exact ih k _ (fun c hc => h c (List.mem_cons_of_mem _ hc)) (by simpa using hk) hlt

theorem parseUnsigned_eq {k m : Nat} (hm : 256 ≤ m) (hkm : 10 ^ k ≤ m) {ds : List Nat} (h : ∀ c ∈ ds, 48 ≤ c ∧ c ≤ 57)
    (hk : ds.length ≤ k) : parseUnsigned k m ds = pure (value ds) := by
  unfold parseUnsigned
  rw [if_neg]
  · apply digitsLoop_eq m hm ds k 0 h hk
    exact Nat.lt_of_lt_of_le (value_lt h) (Nat.le_trans (Nat.pow_le_pow_right (by omega) hk) hkm)
  · intro hh
    have := h 45 (List.mem_of_mem_head? hh)
    omega

/-! ### Version 1 -/

theorem popUntil_found {c : Nat} {t : List Nat} (h : c ∉ t) (r : List Nat) : popUntil c (t ++ c :: r) = (t, r) := by
  have hp : ∀ x ∈ t, (x != c) = true := by
    intro x hx
    simp only [bne_iff_ne, ne_eq]
    rintro rfl
    exact h hx
  unfold popUntil
  rw [List.takeWhile_append_of_pos hp, List.dropWhile_append_of_pos hp]
  simp

theorem popUntil_end {c : Nat} {t : List Nat} (h : c ∉ t) : popUntil c t = (t, []) := by
  have hp : ∀ x ∈ t, (x != c) = true := by
    intro x hx
    simp only [bne_iff_ne, ne_eq]
    rintro rfl
    exact h hx
  unfold popUntil
  have h1 := List.takeWhile_append_of_pos (l₂ := []) hp
  have h2 := List.dropWhile_append_of_pos (l₂ := []) hp
  simp only [List.append_nil, List.takeWhile_nil, List.dropWhile_nil] at h1 h2
  rw [h1, h2]
  rfl

theorem digits_no_brace {d : List Nat} (h : ∀ c ∈ d, 48 ≤ c ∧ c ≤ 57) : 125 ∉ d := by
  intro hh
  have := h 125 hh
  omega

theorem fmt1_spec (args : List (List Nat)) (tail : List Nat) (ht : 123 ∉ tail) : ∀ (segs : List (List Nat × List Nat)) (acc : List Nat),
    (∀ p ∈ segs, 123 ∉ p.1 ∧ (∀ c ∈ p.2, 48 ≤ c ∧ c ≤ 57) ∧ p.2.length ≤ 2) →
    fmtLoop args (popUntil 123 (write segs tail)).2 (acc ++ (popUntil 123 (write segs tail)).1) =
      if ∀ p ∈ segs, value p.2 < args.length then pure (acc ++ filled args segs tail) else thrown := by
  intro segs
  induction segs with
  | nil =>
    intro acc _
    rw [if_pos (by simp), write, popUntil_end ht, fmtLoop, dif_pos rfl]
    rfl
  | cons p segs ih =>
    intro acc h
    obtain ⟨t, d⟩ := p
    obtain ⟨h1, h2, h3⟩ := h (t, d) List.mem_cons_self
    dsimp only at h1 h2 h3
    have ih := ih (acc ++ t ++ (args[value d]?).getD []) (fun p hp => h p (List.mem_cons_of_mem _ hp))
    rw [write, popUntil_found h1, fmtLoop, dif_neg (by simp)]
    rw [popUntil_found (digits_no_brace h2), parseUnsigned_eq (by omega) (by omega) h2 h3, pure_bind, getArg]
    by_cases hv : value d < args.length
    · rw [List.getElem?_eq_getElem hv] at ih ⊢
      dsimp only
      rw [pure_bind]
      simp only [Option.getD_some] at ih
      rw [ih]
      by_cases hall : ∀ p ∈ segs, value p.2 < args.length
      · rw [if_pos hall, if_pos (by simpa [hv] using hall), filled, List.getElem?_eq_getElem hv]
        simp
      · rw [if_neg hall, if_neg (by simpa [hv] using hall)]
    · rw [List.getElem?_eq_none (by omega), if_neg (by intro hh; exact hv (hh (t, d) List.mem_cons_self))]
      rfl

/-- **C228 (part).**  Version 1 puts the arguments in the place of the fields of a text, if fields have one or two digits, and throws
if a field has the number of no argument.  Texts before and behind fields are any texts without `{`. -/
theorem C228_fields_partial (t : Template) (args : List (List Nat)) (h : t.Ok [123] 2) :
    fmt1 (write t.segs t.tail) args =
      if ∀ p ∈ t.segs, value p.2 < args.length then pure (filled args t.segs t.tail) else thrown := by
  have := fmt1_spec args t.tail (fun hh => h.2 123 hh (by simp)) t.segs [] (fun p hp => by
    obtain ⟨h1, h2, -, h3⟩ := h.1 p hp
    exact ⟨fun hh => h1 123 hh (by simp), h2, h3⟩)
  simpa [fmt1] using this

-- "a{1}b}{0}" with "x" and "yz"
example : (⟨[([97], [49]), ([98, 125], [48])], []⟩ : Template).Ok [123] 2 := by
  refine ⟨?_, by simp⟩
  intro p hp
  simp only [List.mem_cons, List.not_mem_nil, or_false] at hp
  rcases hp with rfl | rfl <;> simp
example : write [([97], [49]), ([98, 125], [48])] [] = [97, 123, 49, 125, 98, 125, 123, 48, 125] ∧
    filled [[120], [121, 122]] [([97], [49]), ([98, 125], [48])] [] = [97, 121, 122, 98, 125, 120] := by decide

/-- **C228 (violated).**  A field with three digits is refused, although there can be as many arguments. -/
theorem C228_hundred_violated (args : List (List Nat)) : fmt1 [123, 49, 48, 48, 125] args = thrown := by
  unfold fmt1
  rw [show popUntil 123 [123, 49, 48, 48, 125] = ([], [49, 48, 48, 125]) by rfl, fmtLoop, dif_neg (by simp),
    show popUntil 125 [49, 48, 48, 125] = ([49, 48, 48], []) by rfl, parseUnsigned, if_neg (by simp), digitsLoop, if_neg (by omega),
    digitsLoop, if_neg (by omega), digitsLoop, if_pos (by omega)]
  rfl

/-- **C228 (violated).**  What is in a field is not checked: the empty field is field 0, and a field with one character from `:` on is
the field of a number from 10 on. -/
theorem C228_digits_violated (a : List Nat) (args : List (List Nat)) :
    fmt1 [123, 125] (a :: args) = pure a ∧
    ∀ c, 58 ≤ c → c < 256 → c ≠ 123 → c ≠ 125 → ∀ b, (a :: args)[c - 48]? = some b → fmt1 [123, c, 125] (a :: args) = pure b := by
  constructor
  · unfold fmt1
    rw [show popUntil 123 [123, 125] = ([], [125]) by rfl, fmtLoop, dif_neg (by simp),
      show popUntil 125 [125] = ([], []) by rfl, show popUntil 123 [] = ([], []) by rfl]
    rw [show parseUnsigned 2 256 [] = pure 0 by rfl, pure_bind, getArg]
    simp [fmtLoop]
  · intro c h1 h2 h3 h4 b hb
    unfold fmt1
    have e1 : popUntil 123 [123, c, 125] = ([], [c, 125]) := by simp [popUntil]
    have e2 : popUntil 125 [c, 125] = ([c], []) := by simp [popUntil, h4]
    rw [e1, fmtLoop, dif_neg (by simp), e2, show popUntil 123 [] = ([], []) by rfl]
    have e3 : parseUnsigned 2 256 [c] = pure (c - 48) := by
      unfold parseUnsigned
      rw [if_neg (by simp; omega), digitsLoop, if_neg (by omega), digitsLoop]
      have e4 : (0 * 10 % 256 + fromNumChar 256 c) % 256 = c - 48 := by
        unfold fromNumChar
        omega
      rw [e4]
    rw [e3, pure_bind, getArg, hb]
    simp [fmtLoop]

/-- **C228 (violated).**  A `{` at the end of a text is dropped, and a field without `}` is taken as one that ends with the text. -/
theorem C228_open_violated (t a : List Nat) (args : List (List Nat)) (ht : 123 ∉ t) :
    fmt1 (t ++ [123]) args = pure t ∧ fmt1 (t ++ [123, 48]) (a :: args) = pure (t ++ a) := by
  constructor
  · unfold fmt1
    rw [popUntil_found ht, fmtLoop, dif_pos rfl]
  · unfold fmt1
    rw [popUntil_found ht, fmtLoop, dif_neg (by simp), show popUntil 125 [48] = ([48], []) by rfl,
      show popUntil 123 [] = ([], []) by rfl, show parseUnsigned 2 256 [48] = pure 0 by simp [parseUnsigned, digitsLoop, fromNumChar], pure_bind, getArg]
    simp [fmtLoop]

/-- **C228.**  A field that starts with `-` is refused by an exception. -/
theorem C228_negative (t s : List Nat) (args : List (List Nat)) (ht : 123 ∉ t) : fmt1 (t ++ 123 :: 45 :: s) args = thrown := by
  unfold fmt1
  rw [popUntil_found ht, fmtLoop, dif_neg (by simp)]
  have e : (popUntil 125 (45 :: s)).1.head? = some 45 := by simp [popUntil]
  rw [parseUnsigned, if_pos e]
  rfl

example := C228_negative [65, 66] [49, 125] [[67]] (by decide)

example := C228_open_violated [65, 66] [67] [] (by decide)

/-! ### Version 2 -/

/-- The tokens of a text with fields. (Specification, no line of the source.) -/
def tokens : List (List Nat × List Nat) → List Nat → List Tok
  | [], tail => if tail = [] then [] else [.text tail]
  | (t, d) :: segs, tail => (if t = [] then [] else [.text t]) ++ .arg (value d) :: tokens segs tail

theorem parseTokens_skip (cap : Nat) (ts : List Tok) (hc : ts.length < cap) (r : List Nat) : ∀ (u t : List Nat),
    (∀ c ∈ u, c ≠ 123 ∧ c ≠ 92) → parseTokens cap (t ++ u ++ r) t.length ts = parseTokens cap (t ++ u ++ r) (t.length + u.length) ts := by
  intro u
  induction u with
  | nil => intro t _; rfl
  | cons c u ih =>
    intro t h
    have hc' := h c List.mem_cons_self
    have := ih (t ++ [c]) (fun c hc => h c (List.mem_cons_of_mem _ hc))
    rw [parseTokens, dif_pos (by simp), if_neg (by omega)]
    have e : (t ++ c :: u ++ r)[t.length]'(by simp) = c := by simp
    rw [e, if_neg hc'.2, if_neg hc'.1]
    simp only [List.append_assoc, List.length_append, List.length_cons, List.length_nil, Nat.zero_add, List.cons_append,
      List.nil_append] at this ⊢
    rw [this]
    congr 1
    omega

theorem tokens_length (segs : List (List Nat × List Nat)) (tail : List Nat) (h : ∀ p ∈ segs, 0 < p.2.length) :
    2 * (tokens segs tail).length ≤ (write segs tail).length + 1 := by
  induction segs with
  | nil =>
    cases tail with
    | nil => simp [tokens, write]
    | cons c l => simp [tokens, write]
  | cons p segs ih =>
    obtain ⟨t, d⟩ := p
    have := ih (fun p hp => h p (List.mem_cons_of_mem _ hp))
    have hd := h (t, d) List.mem_cons_self
    dsimp only at hd
    rw [tokens, write]
    simp only [List.length_append, List.length_cons]
    split
    · simp; omega
    · rename_i ht
      have : t.length ≠ 0 := by simpa using ht
      simp
      omega

theorem parseTokens_spec (cap : Nat) (tail : List Nat) (ht : ∀ c ∈ tail, c ≠ 123 ∧ c ≠ 92) :
    ∀ (segs : List (List Nat × List Nat)) (ts : List Tok),
    (∀ p ∈ segs, (∀ c ∈ p.1, c ≠ 123 ∧ c ≠ 92) ∧ (∀ c ∈ p.2, 48 ≤ c ∧ c ≤ 57) ∧ p.2.length ≤ 19) →
    ts.length + (tokens segs tail).length ≤ cap → parseTokens cap (write segs tail) 0 ts = pure (ts ++ tokens segs tail) := by
  intro segs
  induction segs with
  | nil =>
    intro ts _ hc
    rw [write]
    by_cases h0 : tail = []
    · subst h0
      rw [parseTokens, dif_neg (by simp), if_neg (by omega)]
      simp [tokens]
    · have hl : tail.length ≠ 0 := by simpa using h0
      rw [tokens, if_neg h0, List.length_singleton] at hc
      have := parseTokens_skip cap ts (by omega) [] tail [] ht
      simp only [List.nil_append, List.append_nil, List.length_nil, Nat.zero_add] at this
      rw [this, parseTokens, dif_neg (by omega), if_pos (by omega), if_neg (by omega), emplace, if_pos (by omega), tokens, if_neg h0]
  | cons p segs ih =>
    intro ts h hc
    obtain ⟨t, d⟩ := p
    obtain ⟨h1, h2, h3⟩ := h (t, d) List.mem_cons_self
    dsimp only at h1 h2 h3
    rw [tokens, List.length_append, List.length_cons] at hc
    rw [write]
    have := parseTokens_skip cap ts (by omega) (123 :: (d ++ 125 :: write segs tail)) t [] h1
    simp only [List.nil_append, List.length_nil, Nat.zero_add] at this
    rw [this, parseTokens, dif_pos (by simp), if_neg (by omega)]
    have e : (t ++ 123 :: (d ++ 125 :: write segs tail))[t.length]'(by simp) = 123 := by simp
    have e2 : (t ++ 123 :: (d ++ 125 :: write segs tail)).drop (t.length + 1) = d ++ 125 :: write segs tail := by
      rw [← List.drop_drop, List.drop_left]
      rfl
    have e3 : flush cap (t ++ 123 :: (d ++ 125 :: write segs tail)) t.length ts = pure (ts ++ if t = [] then [] else [.text t]) := by
      unfold flush
      by_cases h0 : t = []
      · subst h0
        simp
      · have hl : t.length ≠ 0 := by simpa using h0
        rw [if_pos (by omega), emplace, if_pos (by omega), List.take_left, if_neg h0]
    have hlen : (ts ++ if t = [] then [] else [Tok.text t]).length < cap := by rw [List.length_append]; omega
    have ih := ih ((ts ++ if t = [] then [] else [Tok.text t]) ++ [.arg (value d)]) (fun p hp => h p (List.mem_cons_of_mem _ hp)) (by
      rw [List.length_append, List.length_append, List.length_singleton]; omega)
    rw [e, if_neg (by omega), if_pos rfl, e3, pure_bind, dif_neg (by rw [e2]; simp)]
    rw [e2, popUntil_found (digits_no_brace h2), parseUnsigned_eq (by omega) (by omega) h2 h3, pure_bind, emplace, if_pos hlen, pure_bind, ih,
      tokens]
    simp

theorem tokens_out (args : List (List Nat)) (tail : List Nat) : ∀ segs : List (List Nat × List Nat),
    (tokens segs tail).flatMap (Tok.out args) = filled args segs tail := by
  intro segs
  induction segs with
  | nil => rw [tokens, filled]; split <;> simp_all [Tok.out]
  | cons p segs ih =>
    obtain ⟨t, d⟩ := p
    rw [tokens, filled, List.flatMap_append, List.flatMap_cons, ih]
    split <;> simp_all [Tok.out]

/-- **C229 (part).**  Version 2 puts the arguments in the place of the fields of a text; fields have up to 19 digits, and a field with the
number of no argument gives nothing.  The room for tokens is enough for all such texts.  Texts before and behind fields are any
texts without `{` and `\`. -/
theorem C229_fields_partial (t : Template) (args : List (List Nat)) (h : t.Ok [123, 92] 19) :
    fmt2 (write t.segs t.tail) args = pure (filled args t.segs t.tail) := by
  have hl := tokens_length t.segs t.tail (fun p hp => (h.1 p hp).2.2.1)
  unfold fmt2
  rw [parseTokens_spec _ t.tail (fun c hc => by have := h.2 c hc; simpa using this) t.segs [] (fun p hp => by
    obtain ⟨h1, h2, -, h3⟩ := h.1 p hp
    exact ⟨fun c hc => by have := h1 c hc; simpa using this, h2, h3⟩) (by rw [List.length_nil]; omega), pure_bind, List.nil_append,
    tokens_out]

example : (⟨[([97], [49]), ([98, 125], [48])], [99]⟩ : Template).Ok [123, 92] 19 := by
  refine ⟨?_, by simp⟩
  intro p hp
  simp only [List.mem_cons, List.not_mem_nil, or_false] at hp
  rcases hp with rfl | rfl <;> simp

/-- **C229 (violated).**  A backslash before a `{` is kept, and the field is a field all the same: there is no way to write a `{`. -/
theorem C229_escape_violated (a : List Nat) (args : List (List Nat)) :
    fmt2 [92, 123, 48, 125] (a :: args) = pure (92 :: a) := by
  unfold fmt2
  rw [parseTokens, dif_pos (by simp), if_neg (by simp), if_pos (by simp)]
  rw [show flush ((([92, 123, 48, 125] : List Nat).length + 1) / 2) [92, 123, 48, 125] 0 [] = pure [] by rfl, pure_bind,
    emplace, if_pos (by simp), pure_bind]
  have := parseTokens_spec ((([92, 123, 48, 125] : List Nat).length + 1) / 2) [] (by simp) [([], [48])] [.char 92] (by simp) (by
    simp [tokens])
  have e : write [([], [48])] [] = List.drop (0 + 1) [92, 123, 48, 125] := rfl
  rw [e] at this
  rw [List.nil_append, this]
  simp [tokens, Tok.out, value]

/-- **C229.**  A text that ends with the begin of a field ends the program, whatever the arguments are. -/
theorem C229_open_end (t : List Nat) (ht : ∀ c ∈ t, c ≠ 123 ∧ c ≠ 92) (args : List (List Nat)) : fmt2 (t ++ [123]) args = abort := by
  unfold fmt2
  have hl : (t ++ [123]).length = t.length + 1 := by simp
  have := parseTokens_skip (((t ++ [123]).length + 1) / 2) [] (by rw [hl, List.length_nil]; omega) [123] t [] ht
  simp only [List.nil_append, List.length_nil, Nat.zero_add] at this
  rw [this, parseTokens, dif_pos (by omega), if_neg (by rw [hl, List.length_nil]; omega)]
  have hc : (t ++ [123])[t.length]'(by omega) = 123 := by simp
  rw [if_neg (by rw [hc]; decide), if_pos hc]
  have hf : ∃ ts, flush (((t ++ [123]).length + 1) / 2) (t ++ [123]) t.length [] = pure ts := by
    unfold flush emplace
    by_cases h0 : 0 < t.length
    · rw [if_pos h0, if_pos (by rw [hl, List.length_nil]; omega)]; exact ⟨_, rfl⟩
    · rw [if_neg h0]; exact ⟨_, rfl⟩
  obtain ⟨ts, hf⟩ := hf
  rw [hf, pure_bind, dif_pos (by simp)]
  rfl

example : fmt2 ([97, 98] ++ [123]) [[99]] = abort := C229_open_end [97, 98] (by decide) [[99]]

/-- **C229 (violated).**  The field without digits is field 0, but there is not enough room for the tokens of texts with such fields. -/
theorem C229_empty_violated (args : List (List Nat)) :
    fmt2 [97, 123, 125, 97, 123, 125, 97] args = abort := by
  simp [fmt2, parseTokens, flush, emplace, popUntil, parseUnsigned, digitsLoop]
  rfl

/-- **C229 (violated).**  Backslashes need one token each, and there is only room for half as many. -/
theorem C229_backslashes_violated (args : List (List Nat)) (n : Nat) (hn : 2 ≤ n) : fmt2 (List.replicate n 92) args = abort := by
  have key : ∀ (m : Nat) (ts : List Tok), (n + 1) / 2 < ts.length + m → ts.length ≤ (n + 1) / 2 →
      parseTokens ((n + 1) / 2) (List.replicate m 92) 0 ts = abort := by
    intro m
    induction m with
    | zero => intro ts h1 h2; omega
    | succ m ih =>
      intro ts h1 h2
      rw [parseTokens, dif_pos (by simp)]
      by_cases hc : (n + 1) / 2 ≤ ts.length
      · rw [if_pos hc]
      · rw [if_neg hc, if_pos (by simp), flush, if_neg (by omega), pure_bind, emplace, if_pos (by omega), pure_bind]
        have := ih (ts ++ [.char 92]) (by simp; omega) (by simp; omega)
        rw [List.replicate_succ]
        exact this
  unfold fmt2
  rw [List.length_replicate, key n [] (by simp; omega) (by simp)]
  rfl

example := C229_backslashes_violated [[65]] 3 (by decide)

/-- **C229 (part).**  The version with the text as a template argument does the same, if there are at least twice as many characters as
texts and fields. -/
theorem C229_static_partial (t : Template) (args : List (List Nat)) (h : t.Ok [123, 92] 19)
    (hr : 2 * ((t.segs.filter (fun p => p.1 ≠ [])).length + t.segs.length + 1) ≤ (write t.segs t.tail).length) :
    fmt2Static (write t.segs t.tail) args = pure (filled args t.segs t.tail) := by
  have hl : ∀ segs : List (List Nat × List Nat),
      (tokens segs t.tail).length ≤ (segs.filter (fun p => p.1 ≠ [])).length + segs.length + 1 := by
    intro segs
    induction segs with
    | nil => rw [tokens]; split <;> simp
    | cons p segs ih =>
      obtain ⟨u, d⟩ := p
      rw [tokens, List.length_append, List.length_cons, List.filter_cons]
      by_cases hu : u = []
      · rw [if_pos hu, if_neg (by simp [hu])]
        simp only [List.length_nil, List.length_cons]
        omega
      · rw [if_neg hu, if_pos (by simp [hu])]
        simp only [List.length_nil, List.length_cons]
        omega
  have hl := hl t.segs
  unfold fmt2Static
  rw [parseTokens_spec _ t.tail (fun c hc => by have := h.2 c hc; simpa using this) t.segs [] (fun p hp => by
    obtain ⟨h1, h2, -, h3⟩ := h.1 p hp
    exact ⟨fun c hc => by have := h1 c hc; simpa using this, h2, h3⟩) (by rw [List.length_nil]; omega), pure_bind, List.nil_append,
    tokens_out]

/-- **C229 (violated).**  That version has no room for the last token of some texts: a single character, or a field between two
characters. -/
theorem C229_static_violated (c d : Nat) (args : List (List Nat)) (hc : c ≠ 123 ∧ c ≠ 92) :
    fmt2Static [c] args = abort ∧ fmt2Static [c, 123, 48, 125, d] args = abort := by
  constructor
  · simp [fmt2Static, parseTokens]
    rfl
  · simp [fmt2Static, parseTokens, flush, emplace, popUntil, parseUnsigned, digitsLoop, hc]
    rfl


example := C229_static_violated 65 66 [[67]] (by decide)

end Verif.Parse.Format
