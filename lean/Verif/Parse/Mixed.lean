import Verif.Bits.IntCmp
import Verif.Parse.Helper

/-
The tests for characters of daw_parser_helper.h with values of different types, and its matcher.  A value of an integer type is the
integer it denotes, with its type beside it (`IntTy`, Bits/IntCmp.lean).  `char` is a parameter: eight bits, signed or not.
-/

namespace Verif.Parse.Mixed
open Verif Verif.Cxx Verif.Bits

/-- `max_sizeof<First, Second>::type`, daw_traits.h 53-58. -/
def maxSizeof (t u : IntTy) : IntTy := if u.bits ≤ t.bits then t else u

/-- `max_sizeof<First, Second, Third>::type`, daw_traits.h 60-66. -/
def maxSizeof3 (t u v : IntTy) : IntTy := maxSizeof t (maxSizeof u v)

/-- `is_a( value, tst )`, daw_parser_helper.h 148-154: both are converted to the larger type, the type of the value if none is larger.  The
comparison of two values of one type then compares the numbers. -/
def isA (t : IntTy) (x : Int) (tst : IntTy × Int) : Bool :=
  decide ((maxSizeof t tst.1).conv x = (maxSizeof t tst.1).conv tst.2)

/-- `is_a( value, tst, tsts... )`, daw_parser_helper.h 156-160. -/
def isAny (t : IntTy) (x : Int) : List (IntTy × Int) → Bool
  | [] => false
  | [a] => isA t x a
  | a :: as => isA t x a || isAny t x as

/-- `expect`, daw_parser_helper.h 260-266. -/
def expect (t : IntTy) (x : Int) (checks : List (IntTy × Int)) : Cxx Unit := if isAny t x checks then pure () else thrown

/-- `in_range`, daw_parser_helper.h 289-296. -/
def inRange (t mn mx : IntTy) (x lo hi : Int) : Bool :=
  let v := maxSizeof3 t mn mx
  decide (v.conv lo ≤ v.conv x) && decide (v.conv x ≤ v.conv hi)

/-- `is_number`, daw_parser_helper.h 298-301. -/
def isNumber (char t : IntTy) (x : Int) : Bool := inRange t char char x 48 57

/-- `is_hex`, daw_parser_helper.h 303-307. -/
def isHex (char t : IntTy) (x : Int) : Bool :=
  inRange t char char x 48 57 || inRange t char char x 97 102 || inRange t char char x 65 70

/-- `is_alpha`, daw_parser_helper.h 278-287.  `T` is deduced as a reference for an lvalue; a reference to a constant gives the same numbers,
one to a variable does not compile. -/
def isAlpha (char t : IntTy) (x : Int) : Bool :=
  let v := maxSizeof t char
  (decide (v.conv 97 ≤ v.conv x) && decide (v.conv x ≤ v.conv 122)) || (decide (v.conv 65 ≤ v.conv x) && decide (v.conv x ≤ v.conv 90))

/-- `is_alphanumeric`, daw_parser_helper.h 309-312. -/
def isAlphanumeric (char t : IntTy) (x : Int) : Bool := isAlpha char t x || isNumber char t x

/-- `is_cr`, daw_parser_helper.h 429-432: a line feed. -/
def isCr (char t : IntTy) (x : Int) : Bool := isA t x (char, 10)

/-- `is_space`, daw_parser_helper.h 529-532. -/
def isSpace (char t : IntTy) (x : Int) : Bool := isA t x (char, 32)

/-- The cases of the switch, daw_parser_helper.h 437-461. -/
def spaces : List Int :=
  [0x9, 0xA, 0xB, 0xC, 0xD, 0x20, 0x85, 0xA0, 0x1680, 0x2000, 0x2001, 0x2002, 0x2003, 0x2004, 0x2005, 0x2006, 0x2007, 0x2008, 0x2009, 0x200A,
   0x2028, 0x2029, 0x202F, 0x205F, 0x3000]

/-- `is_unicode_whitespace`, daw_parser_helper.h 434-466. -/
def isUnicodeWhitespace (x : Int) : Bool := spaces.contains (IntTy.uint.conv x)

/-- `is_escape`, daw_parser_helper.h 468-471. -/
def isEscape (char : IntTy) (x : Int) : Bool := cppEq char .uint 92 (IntTy.uint.conv x)

/-- `is_quote`, daw_parser_helper.h 473-476. -/
def isQuote (char : IntTy) (x : Int) : Bool := cppEq char .uint 34 (IntTy.uint.conv x)

/-- `in_t::operator( )`, daw_parser_helper.h 213-228, with `value_in`, 196-204: `std::find_if(…) == std::end`. -/
def inT (char : IntTy) (s : List Int) (t : IntTy) (x : Int) : Bool :=
  s.findIdx (fun v => isA t x (char, v)) == s.length

/-! ## The matcher -/

/-- `std::search` with the comparison of `is_a`: the first place where the whole pattern fits, else the end.
(Rule of C++ or its library, no line of the source.) -/
def search (t u : IntTy) (pat : List Int) : List Int → Nat → Nat
  | [], i => i
  | x :: xs, i =>
    if pat.length ≤ (x :: xs).length ∧ ((x :: xs).zip pat).all (fun p => isA t p.1 (u, p.2)) then i else search t u pat xs (i + 1)

/-- `matcher_t::operator( )`, daw_parser_helper.h 610-626, on the values `xs` between the iterators: found, and where. -/
def matchIn (t u : IntTy) (pat xs : List Int) : Bool × Nat :=
  let pos := search t u pat xs 0
  if pos ≠ xs.length then (true, pos) else (false, xs.length)

/-- `matcher( container )`, daw_parser_helper.h 629-636: the values to be found. -/
def matcher (container : List Int) : List Int := container

/-- `matcher( T ( & )[N] )`, daw_parser_helper.h 638-644, for a string literal: the array has the terminating zero as its last value. -/
def matcherLiteral (text : List Int) : List Int := text ++ [0]

/-! ## Proofs -/

theorem conv_eq_iff (t : IntTy) (x y : Int) : t.conv x = t.conv y ↔ (2 ^ t.bits : Int) ∣ x - y := by
  have e : ((2 ^ t.bits : Nat) : Int) = 2 ^ t.bits := by norm_cast
  have hd : x % 2 ^ t.bits = y % 2 ^ t.bits ↔ (2 ^ t.bits : Int) ∣ x - y := by
    rw [Int.emod_eq_emod_iff_emod_sub_eq_zero]
    exact ⟨Int.dvd_of_emod_eq_zero, Int.emod_eq_zero_of_dvd⟩
  rw [← hd]
  unfold IntTy.conv
  split
  · constructor
    · intro h
      have h2 := congrArg (fun a : Int => a % ((2 ^ t.bits : Nat) : Int)) h
      simp only [Int.bmod_emod] at h2
      rwa [e] at h2
    · intro h
      rw [← e] at h
      rw [← Int.emod_bmod (x := x), h, Int.emod_bmod]
  · exact Iff.rfl

theorem isA_iff (t u : IntTy) (x y : Int) : isA t x (u, y) = true ↔ (2 ^ (max t.bits u.bits) : Int) ∣ x - y := by
  unfold isA
  rw [decide_eq_true_iff, conv_eq_iff]
  have : (maxSizeof t u).bits = max t.bits u.bits := by
    unfold maxSizeof
    split <;> omega
  show (2 ^ (maxSizeof t u).bits : Int) ∣ x - y ↔ _
  rw [this]

theorem isAny_iff (t : IntTy) (x : Int) (l : List (IntTy × Int)) : isAny t x l = true ↔ ∃ a ∈ l, isA t x a = true := by
  induction l with
  | nil => simp [isAny]
  | cons a as ih =>
    cases as with
    | nil => simp [isAny]
    | cons b bs =>
      rw [isAny, Bool.or_eq_true, ih]
      · simp
      · simp

/-- The larger type has both values: they are compared as numbers. -/
theorem isA_exact (t u : IntTy) (x y : Int) (hx : (maxSizeof t u).Has x) (hy : (maxSizeof t u).Has y) : isA t x (u, y) = decide (x = y) := by
  unfold isA
  show decide ((maxSizeof t u).conv x = (maxSizeof t u).conv y) = _
  rw [IntTy.conv_of_has hx, IntTy.conv_of_has hy]

theorem has_max (t u : IntTy) (x y : Int) (hx : t.Has x) (hy : u.Has y) (h : t.signed = u.signed) :
    (maxSizeof t u).Has x ∧ (maxSizeof t u).Has y := by
  unfold maxSizeof
  split
  · exact ⟨hx, hy.widen h.symm (by assumption)⟩
  · exact ⟨hx.widen h (by omega), hy⟩

/-- C289, `is_a` as far as it holds: with values whose types are all signed or all unsigned it says whether the value is one of the others, and
`expect` throws if not.  Missing: mixed types, see `C289_is_a_violated`. -/
theorem C289_is_a_partial (t : IntTy) (x : Int) (l : List (IntTy × Int)) (hx : t.Has x)
    (hl : ∀ a ∈ l, a.1.Has a.2 ∧ a.1.signed = t.signed) :
    (isAny t x l = true ↔ ∃ a ∈ l, a.2 = x) ∧
    ((∃ a ∈ l, a.2 = x) → expect t x l = pure ()) ∧ ((∀ a ∈ l, a.2 ≠ x) → expect t x l = thrown) := by
  have key : isAny t x l = true ↔ ∃ a ∈ l, a.2 = x := by
    rw [isAny_iff]
    constructor
    · rintro ⟨a, ha, h⟩
      obtain ⟨h1, h2⟩ := has_max t a.1 x a.2 hx (hl a ha).1 (hl a ha).2.symm
      rw [isA_exact t a.1 x a.2 h1 h2, decide_eq_true_iff] at h
      exact ⟨a, ha, h.symm⟩
    · rintro ⟨a, ha, h⟩
      obtain ⟨h1, h2⟩ := has_max t a.1 x a.2 hx (hl a ha).1 (hl a ha).2.symm
      exact ⟨a, ha, by rw [isA_exact t a.1 x a.2 h1 h2, decide_eq_true_iff]; exact h.symm⟩
  refine ⟨key, fun h => ?_, fun h => ?_⟩
  · unfold expect
    rw [if_pos (key.2 h)]
  · unfold expect
    rw [if_neg fun h2 => by obtain ⟨a, ha, e⟩ := key.1 h2; exact h a ha e]

example : isAny .int 44 [(⟨8, true, by decide⟩, 59), (⟨8, true, by decide⟩, 44)] = true :=
  (C289_is_a_partial .int 44 _ (by decide) (by decide)).1.2 ⟨_, List.mem_cons_of_mem _ (List.mem_cons_self ..), rfl⟩

/-- C289, for all types: `is_a` says whether the numbers agree in the bits of the larger type. -/
theorem C289_is_a_exact (t : IntTy) (x : Int) (l : List (IntTy × Int)) :
    isAny t x l = true ↔ ∃ a ∈ l, (2 ^ (max t.bits a.1.bits) : Int) ∣ x - a.2 := by
  rw [isAny_iff]
  constructor
  · rintro ⟨a, ha, h⟩
    exact ⟨a, ha, (isA_iff t a.1 x a.2).1 h⟩
  · rintro ⟨a, ha, h⟩
    exact ⟨a, ha, (isA_iff t a.1 x a.2).2 h⟩

example : isAny .uint 5 [(.int, 6), (⟨64, true, by decide⟩, 5)] = true :=
  (C289_is_a_exact .uint 5 _).2 ⟨(⟨64, true, by decide⟩, 5), by decide, by decide⟩

/-- C289 does not hold for mixed types: the byte 255 of an `unsigned char` is taken for the `char` -1, the end of a file for the largest
`unsigned`. -/
theorem C289_is_a_violated :
    isAny ⟨8, false, by decide⟩ 255 [(⟨8, true, by decide⟩, -1)] = true ∧ expect .int (-1) [(.uint, 4294967295)] = pure () := by
  decide +kernel

theorem conv_small (t : IntTy) (h : 8 ≤ t.bits) (n : Int) (h0 : 0 ≤ n) (hn : n ≤ 127) : t.Has n := by
  have h2 : (2 : Int) ^ 7 ≤ 2 ^ (t.bits - 1) := two_pow_le (by omega)
  have h3 : (2 : Int) ^ 8 ≤ 2 ^ t.bits := two_pow_le (by omega)
  unfold IntTy.Has IntTy.lowest IntTy.max
  have e7 : (2 : Int) ^ 7 = 128 := by decide
  have e8 : (2 : Int) ^ 8 = 256 := by decide
  rw [e7] at h2
  rw [e8] at h3
  split <;> omega

/-- C289, the classes of ASCII characters: exact for values of every type of at least eight bits and both kinds of `char`. -/
theorem C289_classes (char t : IntTy) (hc : char.bits = 8) (ht : 8 ≤ t.bits) (x : Int) (hx : t.Has x) :
    (isNumber char t x = true ↔ 48 ≤ x ∧ x ≤ 57) ∧
    (isHex char t x = true ↔ (48 ≤ x ∧ x ≤ 57) ∨ (97 ≤ x ∧ x ≤ 102) ∨ (65 ≤ x ∧ x ≤ 70)) ∧
    (isAlpha char t x = true ↔ (97 ≤ x ∧ x ≤ 122) ∨ (65 ≤ x ∧ x ≤ 90)) ∧
    (isAlphanumeric char t x = true ↔ (97 ≤ x ∧ x ≤ 122) ∨ (65 ≤ x ∧ x ≤ 90) ∨ (48 ≤ x ∧ x ≤ 57)) ∧
    (isCr char t x = true ↔ x = 10) ∧ (isSpace char t x = true ↔ x = 32) := by
  have hm : maxSizeof t char = t := by unfold maxSizeof; rw [if_pos (by omega)]
  have hm3 : maxSizeof3 t char char = t := by
    unfold maxSizeof3
    rw [show maxSizeof char char = char by unfold maxSizeof; simp, hm]
  have hr : ∀ lo hi : Int, 0 ≤ lo → lo ≤ 127 → 0 ≤ hi → hi ≤ 127 → (inRange t char char x lo hi = true ↔ lo ≤ x ∧ x ≤ hi) := by
    intro lo hi h1 h2 h3 h4
    unfold inRange
    rw [hm3]
    simp only [IntTy.conv_of_has hx, IntTy.conv_of_has (conv_small t ht lo h1 h2), IntTy.conv_of_has (conv_small t ht hi h3 h4),
      Bool.and_eq_true, decide_eq_true_iff]
  have ha : isAlpha char t x = true ↔ (97 ≤ x ∧ x ≤ 122) ∨ (65 ≤ x ∧ x ≤ 90) := by
    unfold isAlpha
    rw [hm]
    simp only [IntTy.conv_of_has hx, IntTy.conv_of_has (conv_small t ht 97 (by decide) (by decide)),
      IntTy.conv_of_has (conv_small t ht 122 (by decide) (by decide)), IntTy.conv_of_has (conv_small t ht 65 (by decide) (by decide)),
      IntTy.conv_of_has (conv_small t ht 90 (by decide) (by decide)), Bool.and_eq_true, Bool.or_eq_true, decide_eq_true_iff]
  have he : ∀ y : Int, 0 ≤ y → y ≤ 127 → (isA t x (char, y) = true ↔ x = y) := by
    intro y h1 h2
    rw [isA_exact t char x y (by rw [hm]; exact hx) (by rw [hm]; exact conv_small t ht y h1 h2), decide_eq_true_iff]
  refine ⟨hr 48 57 (by decide) (by decide) (by decide) (by decide), ?_, ha, ?_, he 10 (by decide) (by decide), he 32 (by decide) (by decide)⟩
  · unfold isHex
    rw [Bool.or_eq_true, Bool.or_eq_true, hr 48 57 (by decide) (by decide) (by decide) (by decide),
      hr 97 102 (by decide) (by decide) (by decide) (by decide), hr 65 70 (by decide) (by decide) (by decide) (by decide), or_assoc]
  · unfold isAlphanumeric isNumber
    rw [Bool.or_eq_true, ha, hr 48 57 (by decide) (by decide) (by decide) (by decide), or_assoc]

example : isHex ⟨8, true, by decide⟩ ⟨64, false, by decide⟩ 70 = true :=
  (C289_classes ⟨8, true, by decide⟩ ⟨64, false, by decide⟩ rfl (by decide) 70 (by decide)).2.1.2 (by omega)

/-- C289, `in_range` as far as it holds: with types that are all signed or all unsigned, or values the largest type has, it is the closed range.
Missing: mixed types, see `C289_in_range_violated`. -/
theorem C289_in_range_partial (t mn mx : IntTy) (x lo hi : Int) (hx : (maxSizeof3 t mn mx).Has x) (hlo : (maxSizeof3 t mn mx).Has lo)
    (hhi : (maxSizeof3 t mn mx).Has hi) : inRange t mn mx x lo hi = true ↔ lo ≤ x ∧ x ≤ hi := by
  unfold inRange
  simp only [IntTy.conv_of_has hx, IntTy.conv_of_has hlo, IntTy.conv_of_has hhi, Bool.and_eq_true, decide_eq_true_iff]

example : inRange .int .int .int 5 (-3) 5 = true := (C289_in_range_partial _ _ _ _ _ _ (by decide) (by decide) (by decide)).2 (by decide)

/-- C289 does not hold for mixed types: 5u is not found between -1 and 10, while -1 is between 0u and 4294967295u. -/
theorem C289_in_range_violated : inRange .uint .int .int 5 (-1) 10 = false ∧ inRange .int .uint .uint (-1) 0 4294967295 = false ∧
    inRange .uint .uint .int 4294967295 0 (-1) = true := by
  decide +kernel

/-- C289, white space, escape and quote as far as they hold: exact for numbers of 32 bits that are not negative.  Missing: all others, see
`C289_space_violated`. -/
theorem C289_space_partial (char : IntTy) (hc : char.bits = 8) (x : Int) (h0 : 0 ≤ x) (hx : x < 4294967296) :
    (isUnicodeWhitespace x = true ↔
      (9 ≤ x ∧ x ≤ 13) ∨ x = 32 ∨ x = 133 ∨ x = 160 ∨ x = 5760 ∨ (8192 ≤ x ∧ x ≤ 8202) ∨ x = 8232 ∨ x = 8233 ∨ x = 8239 ∨ x = 8287 ∨ x = 12288) ∧
    (isEscape char x = true ↔ x = 92) ∧ (isQuote char x = true ↔ x = 34) := by
  have hu : IntTy.uint.conv x = x := IntTy.conv_of_has ⟨h0, show x ≤ 2 ^ 32 - 1 by omega⟩
  have hcom : char.common .uint = .uint := by
    have hp : char.promote = .int := by unfold IntTy.promote; rw [if_pos (by omega)]
    unfold IntTy.common
    rw [hp]
    decide
  have hq : ∀ n : Int, 0 ≤ n → n ≤ 127 → (cppEq char .uint n (IntTy.uint.conv x) = true ↔ x = n) := by
    intro n h1 h2
    unfold cppEq
    rw [hcom, hu, hu, IntTy.conv_of_has (conv_small .uint (by decide) n h1 h2), decide_eq_true_iff]
    exact eq_comm
  refine ⟨?_, hq 92 (by decide) (by decide), hq 34 (by decide) (by decide)⟩
  unfold isUnicodeWhitespace spaces
  rw [hu]
  simp only [List.contains_eq_mem, List.mem_cons, List.not_mem_nil, or_false, decide_eq_true_iff]
  clear hu hq
  constructor <;> intro h <;> omega

example : isUnicodeWhitespace 8195 = true := (C289_space_partial ⟨8, true, by decide⟩ rfl 8195 (by decide) (by decide)).1.2 (by omega)

/-- C289 does not hold for all numbers: a 64 bit number is cut to 32 bits, and then seen as a space, an escape or a quote. -/
theorem C289_space_violated (char : IntTy) (hc : char.bits = 8) (k : Int) :
    isUnicodeWhitespace (32 + k * 4294967296) = true ∧ isEscape char (92 + k * 4294967296) = true ∧ isQuote char (34 + k * 4294967296) = true := by
  have hcut : ∀ n : Int, 0 ≤ n → n ≤ 127 → IntTy.uint.conv (n + k * 4294967296) = IntTy.uint.conv n := by
    intro n h1 h2
    show (n + k * 4294967296) % 2 ^ 32 = n % 2 ^ 32
    omega
  have h1 := C289_space_partial char hc 32 (by decide) (by decide)
  have h2 := C289_space_partial char hc 92 (by decide) (by decide)
  have h3 := C289_space_partial char hc 34 (by decide) (by decide)
  refine ⟨?_, ?_, ?_⟩
  · unfold isUnicodeWhitespace
    rw [hcut 32 (by decide) (by decide)]
    exact h1.1.2 (by omega)
  · unfold isEscape
    rw [hcut 92 (by decide) (by decide)]
    exact h2.2.1.2 rfl
  · unfold isQuote
    rw [hcut 34 (by decide) (by decide)]
    exact h3.2.2.2 rfl

example : isQuote ⟨8, false, by decide⟩ 4294967330 = true := (C289_space_violated ⟨8, false, by decide⟩ rfl 1).2.2

/-- C289 does not hold for `in( text )`: the predicate is true for the values that are not in the text. -/
theorem C289_in_violated (char t : IntTy) (s : List Int) (x : Int) (h : t.signed = char.signed) (hx : t.Has x) (hs : ∀ v ∈ s, char.Has v) :
    inT char s t x = true ↔ x ∉ s := by
  unfold inT
  rw [beq_iff_eq, List.findIdx_eq_length]
  constructor
  · intro hh hxs
    have := hh x hxs
    obtain ⟨h1, h2⟩ := has_max t char x x hx (hs x hxs) h
    rw [isA_exact t char x x h1 h2] at this
    simp at this
  · intro hh v hv
    obtain ⟨h1, h2⟩ := has_max t char x v hx (hs v hv) h
    rw [isA_exact t char x v h1 h2]
    simp only [decide_eq_false_iff_not]
    rintro rfl
    exact hh hv

example : inT ⟨8, true, by decide⟩ [97, 98] ⟨8, true, by decide⟩ 97 = false := by
  have := C289_in_violated ⟨8, true, by decide⟩ ⟨8, true, by decide⟩ [97, 98] 97 rfl (by decide) (by decide)
  cases h : inT ⟨8, true, by decide⟩ [97, 98] ⟨8, true, by decide⟩ 97
  · rfl
  · exact absurd (this.1 h) (by decide)

/-! ### The matcher -/

/-- The pattern stands at the place `i`. (Specification, no line of the source.) -/
def At (pat xs : List Int) (i : Nat) : Prop := ∃ pre post, xs = pre ++ pat ++ post ∧ pre.length = i

theorem all_zip_eq (t u : IntTy) (h : t.signed = u.signed) (pat : List Int) : ∀ (xs : List Int), (∀ x ∈ xs, t.Has x) → (∀ y ∈ pat, u.Has y) →
    (pat.length ≤ xs.length ∧ (xs.zip pat).all (fun p => isA t p.1 (u, p.2)) = true ↔ pat <+: xs) := by
  induction pat with
  | nil => intro xs _ _; simp
  | cons y ys ih =>
    intro xs hx hy
    cases xs with
    | nil => simp
    | cons x xs =>
      obtain ⟨h1, h2⟩ := has_max t u x y (hx x (List.mem_cons_self ..)) (hy y (List.mem_cons_self ..)) h
      have := ih xs (fun z hz => hx z (List.mem_cons_of_mem _ hz)) (fun z hz => hy z (List.mem_cons_of_mem _ hz))
      rw [List.cons_prefix_cons, ← this]
      simp only [List.length_cons, Nat.add_le_add_iff_right, List.zip_cons_cons, List.all_cons, Bool.and_eq_true,
        isA_exact t u x y h1 h2, decide_eq_true_iff]
      constructor
      · rintro ⟨a, b, c⟩; exact ⟨b.symm, a, c⟩
      · rintro ⟨b, a, c⟩; exact ⟨a, b.symm, c⟩

theorem at_cons {pat : List Int} {x : Int} {xs : List Int} {j : Nat} : At pat (x :: xs) (j + 1) ↔ At pat xs j := by
  constructor
  · rintro ⟨pre, post, h, hl⟩
    cases pre with
    | nil => simp at hl
    | cons a pre => exact ⟨pre, post, by simpa using (List.cons.inj h).2, by simpa using hl⟩
  · rintro ⟨pre, post, h, hl⟩
    exact ⟨x :: pre, post, by simp [h], by simp [hl]⟩

theorem at_zero {pat xs : List Int} : At pat xs 0 ↔ pat <+: xs := by
  constructor
  · rintro ⟨pre, post, h, hl⟩
    have := List.eq_nil_of_length_eq_zero hl
    subst this
    exact ⟨post, by simpa using h.symm⟩
  · rintro ⟨post, h⟩
    exact ⟨[], post, by simpa using h.symm, rfl⟩

theorem search_spec (t u : IntTy) (h : t.signed = u.signed) (pat : List Int) (hy : ∀ y ∈ pat, u.Has y) : ∀ (xs : List Int) (i : Nat),
    (∀ x ∈ xs, t.Has x) →
    (∃ j, search t u pat xs i = i + j ∧ j < xs.length ∧ At pat xs j ∧ ∀ k < j, ¬ At pat xs k) ∨
    (search t u pat xs i = i + xs.length ∧ ∀ k < xs.length, ¬ At pat xs k) := by
  intro xs
  induction xs with
  | nil => intro i _; exact Or.inr ⟨rfl, fun k hk => absurd hk (by simp)⟩
  | cons x xs ih =>
    intro i hx
    have hz := all_zip_eq t u h pat (x :: xs) hx hy
    rw [search]
    by_cases hp : pat <+: x :: xs
    · rw [if_pos (hz.2 hp)]
      exact Or.inl ⟨0, rfl, by simp, at_zero.2 hp, fun k hk => absurd hk (by omega)⟩
    · rw [if_neg (fun hh => hp (hz.1 hh))]
      have h0 : ¬ At pat (x :: xs) 0 := fun hh => hp (at_zero.1 hh)
      rcases ih (i + 1) (fun z hz => hx z (List.mem_cons_of_mem _ hz)) with ⟨j, h1, h2, h3, h4⟩ | ⟨h1, h2⟩
      · refine Or.inl ⟨j + 1, by rw [h1]; omega, by simp; omega, at_cons.2 h3, ?_⟩
        intro k hk
        cases k with
        | zero => exact h0
        | succ k => exact fun hh => h4 k (by omega) (at_cons.1 hh)
      · refine Or.inr ⟨by rw [h1]; simp; omega, ?_⟩
        intro k hk
        cases k with
        | zero => exact h0
        | succ k => exact fun hh => h2 k (by simpa using hk) (at_cons.1 hh)

/-- C290, as far as it holds: the matcher of a container that is not empty finds the first place where the values of the container stand
in the text, and nothing if there is none; for types of one signedness.  Missing: string literals, see `C290_literal_violated`, the
empty pattern, see `C290_empty_violated`. -/
theorem C290_matcher_partial (t u : IntTy) (h : t.signed = u.signed) (container xs : List Int) (hx : ∀ x ∈ xs, t.Has x)
    (hy : ∀ y ∈ container, u.Has y) (hne : container ≠ []) :
    (∀ i, At container xs i → (∀ k < i, ¬ At container xs k) → matchIn t u (matcher container) xs = (true, i)) ∧
    ((∀ i, ¬ At container xs i) → matchIn t u (matcher container) xs = (false, xs.length)) := by
  have hlt : ∀ i, At container xs i → i < xs.length := by
    rintro i ⟨pre, post, e, hl⟩
    have : 0 < container.length := List.length_pos_iff.2 hne
    rw [e]
    simp
    omega
  unfold matchIn matcher
  rcases search_spec t u h container hy xs 0 hx with ⟨j, h1, h2, h3, h4⟩ | ⟨h1, h2⟩
  · refine ⟨fun i hi hmin => ?_, fun hno => absurd h3 (hno j)⟩
    have : i = j := by
      rcases Nat.lt_trichotomy i j with hl | rfl | hl
      · exact absurd hi (h4 i hl)
      · rfl
      · exact absurd h3 (hmin j hl)
    subst this
    show (if search t u container xs 0 ≠ xs.length then (true, search t u container xs 0) else (false, xs.length)) = _
    rw [h1, if_pos (by omega)]
    simp
  · refine ⟨fun i hi _ => absurd hi (h2 i (hlt i hi)), fun _ => ?_⟩
    show (if search t u container xs 0 ≠ xs.length then (true, search t u container xs 0) else (false, xs.length)) = _
    rw [h1, if_neg (by simp)]

example : matchIn .int .int (matcher [1, 2]) [1, 1, 2, 3, 1, 2] = (true, 1) :=
  (C290_matcher_partial .int .int rfl [1, 2] [1, 1, 2, 3, 1, 2] (by decide) (by decide) (by decide)).1 1 ⟨[1], [3, 1, 2], rfl, rfl⟩
    (fun k hk => by
      obtain rfl : k = 0 := by omega
      rw [at_zero]
      decide)

/-- C290 does not hold for string literals: the terminating zero of the literal has to be found as well, so nothing is found in a text
without a zero, although the text of the literal stands in it. -/
theorem C290_literal_violated (t u : IntTy) (h : t.signed = u.signed) (pre text post : List Int)
    (hx : ∀ x ∈ pre ++ text ++ post, t.Has x) (hy : ∀ y ∈ text ++ [0], u.Has y) (h0 : (0 : Int) ∉ pre ++ text ++ post) :
    matchIn t u (matcherLiteral text) (pre ++ text ++ post) = (false, (pre ++ text ++ post).length) := by
  refine (C290_matcher_partial t u h (text ++ [0]) (pre ++ text ++ post) hx hy (by simp)).2 ?_
  rintro i ⟨p, q, e, _⟩
  exact h0 (by rw [e]; simp)

example : matchIn .int .int (matcherLiteral [97, 98]) ([99] ++ [97, 98] ++ [99]) = (false, 4) :=
  C290_literal_violated .int .int rfl [99] [97, 98] [99] (by decide) (by decide) (by decide)

/-- C290 does not hold for the empty pattern: it is found at the start of every text except the empty one. -/
theorem C290_empty_violated (t u : IntTy) (x : Int) (xs : List Int) :
    matchIn t u (matcher []) (x :: xs) = (true, 0) ∧ matchIn t u (matcher []) [] = (false, 0) := by
  constructor
  · unfold matchIn matcher
    have : search t u [] (x :: xs) 0 = 0 := by
      rw [search, if_pos (by simp)]
    rw [this]
    simp
  · rfl

example : matchIn .int .int (matcher []) [7] = (true, 0) := (C290_empty_violated .int .int 7 []).1

end Verif.Parse.Mixed
