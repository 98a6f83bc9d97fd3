import Verif.Base
import Verif.Containers.Lists

/-
Formatting of ranges and tuples: include/daw/daw_format_range.h and daw_format_tuple.h.
-/

namespace Verif.Parse.FormatRange
open Verif Verif.Cxx

/-! ## The format specification -/

/-- The loop over the rest of the format string, daw_format_range.h 80-104 and daw_format_tuple.h 73-97: `count` is
`brace_count`, `q` is `in_quote`, `pos` the distance of the rest from `first` and `last` that of `last`.  Simplified: the
count, an `int`, does not overflow. -/
def scan (count : Nat) (q : Bool) (pos last : Nat) : List Char → Cxx Nat
  | [] => pure last
  | c :: cs =>
    if c = '"' then scan count (!q) (pos + 1) last cs
    else if c = '{' then scan (if q then count else count + 1) q (pos + 1) last cs
    else if c = '}' then
      if q then scan count q (pos + 1) last cs
      else if count = 0 then abort
      else if count = 1 then pure (pos + 1)
      else scan (count - 1) q (pos + 1) last cs
    else scan count q (pos + 1) last cs

/-- `parse`, daw_format_range.h 66-111 and daw_format_tuple.h 60-105: `s` is the whole format string, of which `b` characters
are before `ctx.begin( )`.  Gives `flags` and the place of the iterator that is returned.  Less than two characters before
`ctx.begin( )` make `expand_prefix( 2 )` leave the string. -/
def parse (s : List Char) (b : Nat) : Cxx (List Char × Int) :=
  match s.drop b with
  | [] => pure (['{', '}'], (b : Int))
  | c :: cs =>
    if c = '}' then pure (['{', '}'], (b : Int))
    else do
      let sz ← scan 1 false 0 0 (c :: cs)
      if b < 2 then ub
      else
        let flags := (s.drop (b - 2)).take (sz + 2)
        if flags.head? = some '{' then pure (flags, (b : Int) + sz - 1) else abort

/-- A format specification: braces in pairs, quotes in pairs with anything between. (Specification, no line of the source.) -/
inductive Spec : List Char → Prop
  | nil : Spec []
  | char {c : Char} {s : List Char} : c ≠ '"' → c ≠ '{' → c ≠ '}' → Spec s → Spec (c :: s)
  | quote {q s : List Char} : '"' ∉ q → Spec s → Spec ('"' :: (q ++ '"' :: s))
  | brace {a s : List Char} : Spec a → Spec s → Spec ('{' :: (a ++ '}' :: s))

theorem scan_quoted (q : List Char) (hq : '"' ∉ q) (count pos last : Nat) (t : List Char) :
    scan count true pos last (q ++ t) = scan count true (pos + q.length) last t := by
  induction q generalizing pos with
  | nil => rfl
  | cons c q ih =>
    have h1 : c ≠ '"' := fun h => hq (h ▸ List.mem_cons_self)
    have h2 : '"' ∉ q := fun h => hq (List.mem_cons_of_mem _ h)
    rw [List.cons_append, scan, if_neg h1, List.length_cons]
    have e : pos + (q.length + 1) = pos + 1 + q.length := by omega
    rw [e, ← ih h2 (pos + 1)]
    by_cases h3 : c = '{'
    · rw [if_pos h3, if_pos rfl]
    · rw [if_neg h3]
      by_cases h4 : c = '}'
      · rw [if_pos h4, if_pos rfl]
      · rw [if_neg h4]

theorem scan_spec {s : List Char} (h : Spec s) : ∀ (count pos last : Nat) (t : List Char), 1 ≤ count →
    scan count false pos last (s ++ t) = scan count false (pos + s.length) last t := by
  induction h with
  | nil => intro count pos last t _; rfl
  | @char c s h1 h2 h3 hs ih =>
    intro count pos last t hc
    rw [List.cons_append, scan, if_neg h1, if_neg h2, if_neg h3, ih _ _ _ _ hc, List.length_cons]
    congr 1; omega
  | @quote q s hq hs ih =>
    intro count pos last t hc
    rw [List.cons_append, scan, if_pos rfl, List.append_assoc, List.cons_append]
    show scan count true _ _ _ = _
    rw [scan_quoted q hq, scan, if_pos rfl]
    show scan count false _ _ _ = _
    rw [ih _ _ _ _ hc]
    congr 1
    simp only [List.length_cons, List.length_append]
    omega
  | @brace a s ha hs iha ihs =>
    intro count pos last t hc
    rw [List.cons_append, scan, if_neg (by decide), if_pos rfl, List.append_assoc, List.cons_append]
    rw [if_neg (by decide), iha _ _ _ _ (by omega), scan, if_neg (by decide), if_neg (by decide), if_pos rfl,
      if_neg (by decide), if_neg (by omega), if_neg (by omega)]
    rw [show count + 1 - 1 = count by omega, ihs _ _ _ _ hc]
    congr 1
    simp only [List.length_cons, List.length_append]
    omega

/-- A specification does not begin with a closing brace. -/
theorem spec_head {c : Char} {s : List Char} (h : Spec (c :: s)) : c ≠ '}' := by
  cases h with
  | char h1 h2 h3 _ => exact h3
  | quote => decide
  | brace => decide

theorem scan_close {s : List Char} (h : Spec s) (post : List Char) : scan 1 false 0 0 (s ++ '}' :: post) = pure (s.length + 1) := by
  rw [scan_spec h 1 0 0 _ (by omega), scan, if_neg (by decide), if_neg (by decide), if_pos rfl, if_neg (by decide),
    if_neg (by decide), if_pos rfl, Nat.zero_add]

/-- C286, part: in a field without a number the specification ends at the brace that closes the field, whatever comes before
or after, and `flags` is the field. -/
theorem C286_parse_partial (pre post : List Char) {s : List Char} (h : Spec s) :
    ∃ flags : List Char, parse (pre ++ '{' :: ':' :: (s ++ '}' :: post)) (pre.length + 2) =
      pure (flags, ((pre.length + 2 + s.length : Nat) : Int)) ∧
      (pre ++ '{' :: ':' :: (s ++ '}' :: post))[pre.length + 2 + s.length]? = some '}' ∧
      flags = if s = [] then ['{', '}'] else '{' :: ':' :: (s ++ ['}']) := by
  have hd : (pre ++ '{' :: ':' :: (s ++ '}' :: post)).drop (pre.length + 2) = s ++ '}' :: post := by
    rw [List.drop_append, List.drop_eq_nil_of_le (by omega)]
    simp
  have hget : (pre ++ '{' :: ':' :: (s ++ '}' :: post))[pre.length + 2 + s.length]? = some '}' := by
    rw [← List.getElem?_drop, hd, List.getElem?_append_right (Nat.le_refl _), Nat.sub_self]
    rfl
  cases s with
  | nil =>
    refine ⟨['{', '}'], ?_, hget, by rw [if_pos rfl]⟩
    rw [parse, hd]
    rfl
  | cons c s =>
    refine ⟨'{' :: ':' :: ((c :: s) ++ ['}']), ?_, hget, by rw [if_neg (by simp)]⟩
    rw [parse, hd, List.cons_append]
    show (if c = '}' then _ else _) = _
    rw [if_neg (spec_head h)]
    have hs := scan_close h post
    rw [List.cons_append] at hs
    rw [hs, pure_bind, if_neg (by omega)]
    have hf : List.take ((c :: s).length + 1 + 2) (List.drop (pre.length + 2 - 2) (pre ++ '{' :: ':' :: (c :: s ++ '}' :: post))) =
        '{' :: ':' :: (c :: s ++ ['}']) := by
      rw [Nat.add_sub_cancel, List.drop_append, List.drop_eq_nil_of_le (Nat.le_refl _), Nat.sub_self]
      simp only [List.drop_zero, List.nil_append, List.take_succ_cons]
      have e : c :: s ++ '}' :: post = (c :: s ++ ['}']) ++ post := by simp
      rw [e, show (c :: s).length + 1 = (c :: s ++ ['}']).length by simp, List.take_left]
    dsimp only
    rw [List.cons_append] at hf
    rw [hf, ← List.cons_append]
    show (if some '{' = some '{' then _ else _) = _
    rw [if_pos rfl]
    congr 2
    push_cast
    omega

example : parse ['a', '{', ':', 'x', '{', '}', '}', ' ', '{', ':', 'd', '}'] 3 = pure (['{', ':', 'x', '{', '}', '}'], 6) := by
  decide +kernel
example : Spec ['x', '{', '}'] :=
  .char (by decide) (by decide) (by decide) (.brace (a := []) .nil .nil)

/-- C286 does not hold for fields with a number: parsing ends the program, for every specification. -/
theorem C286_index_violated (pre ids post : List Char) (d : Char) (hd : d ≠ '{') {s : List Char} (h : Spec s) (hne : s ≠ []) :
    parse (pre ++ '{' :: (ids ++ d :: ':' :: (s ++ '}' :: post))) (pre.length + ids.length + 3) = abort := by
  have e : pre ++ '{' :: (ids ++ d :: ':' :: (s ++ '}' :: post)) = (pre ++ '{' :: ids) ++ d :: ':' :: (s ++ '}' :: post) := by simp
  have hl : pre.length + ids.length + 3 = (pre ++ '{' :: ids).length + 2 := by simp; omega
  rw [e, hl]
  generalize pre ++ '{' :: ids = p
  have hdrop : (p ++ d :: ':' :: (s ++ '}' :: post)).drop (p.length + 2) = s ++ '}' :: post := by
    rw [List.drop_append, List.drop_eq_nil_of_le (by omega)]
    simp
  obtain ⟨c, s, rfl⟩ := List.exists_cons_of_ne_nil hne
  rw [parse, hdrop, List.cons_append]
  show (if c = '}' then _ else _) = _
  rw [if_neg (spec_head h)]
  have hs := scan_close h post
  rw [List.cons_append] at hs
  rw [hs, pure_bind, if_neg (by omega)]
  rw [Nat.add_sub_cancel, List.drop_append, List.drop_eq_nil_of_le (Nat.le_refl _), Nat.sub_self]
  dsimp only
  rw [if_neg]
  simp [hd]

example : parse ['{', '0', ':', 'x', '}'] 3 = abort := by decide +kernel

/-- C286 does not hold for a quote in a specification, as the fill character: the closing brace of the field is not seen.
Without another quote in the rest of the string the iterator returned is before the specification, -/
theorem C286_quote_violated (pre rest : List Char) (h : '"' ∉ rest) :
    parse (pre ++ '{' :: ':' :: '"' :: rest) (pre.length + 2) = pure (['{', ':'], ((pre.length + 1 : Nat) : Int)) := by
  have hd : (pre ++ '{' :: ':' :: '"' :: rest).drop (pre.length + 2) = '"' :: rest := by
    rw [List.drop_append, List.drop_eq_nil_of_le (by omega)]
    simp
  rw [parse, hd]
  show (if '"' = '}' then _ else _) = _
  rw [if_neg (by decide), scan, if_pos rfl]
  have hs := scan_quoted rest h 1 1 0 []
  rw [List.append_nil] at hs
  show (scan 1 true 1 0 rest >>= _) = _
  rw [hs, scan, pure_bind, if_neg (by omega), Nat.add_sub_cancel, List.drop_append, List.drop_eq_nil_of_le (Nat.le_refl _),
    Nat.sub_self]
  show (if some '{' = some '{' then _ else _) = _
  rw [if_pos rfl]
  congr 2
  push_cast
  omega

example := C286_quote_violated ['a'] ['b', 'c'] (by decide)

/-- and with the same fill character in a later field both fields and the text between them are taken for one. -/
theorem C286_two_fields_violated (pre between rest : List Char) (h1 : '"' ∉ between) {s : List Char} (h : Spec s) :
    ∃ flags, parse (pre ++ '{' :: ':' :: ('"' :: (between ++ '"' :: s) ++ '}' :: rest)) (pre.length + 2) =
      pure (flags, ((pre.length + 2 + ('"' :: (between ++ '"' :: s)).length : Nat) : Int)) := by
  obtain ⟨flags, hp, _⟩ := C286_parse_partial pre rest (Spec.quote h1 h)
  exact ⟨flags, hp⟩

example : parse ['{', ':', '"', '<', '5', '}', ' ', '{', ':', '"', '<', '5', '}'] 2 =
    pure (['{', ':', '"', '<', '5', '}', ' ', '{', ':', '"', '<', '5', '}'], 12) := by decide +kernel

/-- C286, nested ranges: the field that is handed on to the elements is read as the same field. -/
theorem C286_again {s : List Char} (h : Spec s) (hne : s ≠ []) :
    parse ('{' :: ':' :: (s ++ ['}'])) 2 = pure ('{' :: ':' :: (s ++ ['}']), ((2 + s.length : Nat) : Int)) := by
  obtain ⟨flags, hp, _, hf⟩ := C286_parse_partial [] [] h
  rw [if_neg hne] at hf
  rw [hf] at hp
  simpa using hp

/-! ## The output -/

/-- The default separator and brackets, impl/formatter_common.h 23-28. -/
def sepD : List Char := [',']
/-- The default left bracket, impl/formatter_common.h 25-26. -/
def leftD : List Char := ['[']
/-- The default right bracket, impl/formatter_common.h 27-28. -/
def rightD : List Char := [']']

/-- The loop of `format`, daw_format_range.h 126-146 and daw_format_tuple.h 111-126: `is_first` and the output so far; `f`
writes an element. -/
def loop (sep : List Char) (f : α → Cxx (List Char)) (isFirst : Bool) (out : List Char) : List α → Cxx (List Char)
  | [] => pure out
  | v :: vs => do
    let out := if isFirst then out else out ++ sep
    let t ← f v
    loop sep f false (out ++ t) vs

/-- `format`, daw_format_range.h 124-148 and daw_format_tuple.h 108-129, for elements other than characters. -/
def format (sep left right : List Char) (f : α → Cxx (List Char)) (vs : List α) : Cxx (List Char) := do
  let out ← loop sep f true left vs
  pure (out ++ right)

/-- Ranges of ranges, as deep as their type says. (Specification, no line of the source.) -/
def Nest (α : Type) : Nat → Type
  | 0 => α
  | n + 1 => List (Nest α n)

/-- `std::vformat_to` with a string that is one field: the formatter parses what is after the colon, and has to come back at a
closing brace. (Rule of C++ or its library, no line of the source.) -/
def field (flags : List Char) : Cxx (List Char) := do
  let b := if flags[1]? = some ':' then 2 else 1
  let (fl, it) ← parse flags b
  if flags[it.toNat]? = some '}' then pure fl else thrown

/-- Formatting a range of ranges, daw_format_range.h 124-148: an element that is a range is formatted as `fmt_range( v )`,
with the default separator and brackets, by the field in `flags` (134-137), any other by the field itself, `leaf`
(142-145).  Simplified: the elements are not characters, and not tuples. -/
def formatNest (leaf : List Char → α → Cxx (List Char)) (sep left right : List Char) :
    (n : Nat) → List Char → Nest α (n + 1) → Cxx (List Char)
  | 0, flags, vs => format sep left right (leaf flags) vs
  | n + 1, flags, vs =>
    format sep left right (fun v => do
      let fl ← field flags
      formatNest leaf sepD leftD rightD n fl v) vs

theorem loop_eq (sep : List Char) (f : α → Cxx (List Char)) (g : α → List Char) (vs : List α)
    (h : ∀ v ∈ vs, f v = pure (g v)) : ∀ (isFirst : Bool) (out : List Char), loop sep f isFirst out vs =
      pure (out ++ (if isFirst then [] else if vs = [] then [] else sep) ++ sep.intercalate (vs.map g)) := by
  induction vs with
  | nil => intro isFirst out; cases isFirst <;> simp [loop]
  | cons v vs ih =>
    intro isFirst out
    rw [loop, h v List.mem_cons_self, pure_bind, ih (fun w hw => h w (List.mem_cons_of_mem _ hw))]
    congr 1
    cases vs with
    | nil => cases isFirst <;> simp
    | cons w ws => cases isFirst <;> simp [List.intercalate]

/-- C287: a range or tuple is written as its elements, with the separator between every two of them, within the brackets. -/
theorem C287_format (sep left right : List Char) (f : α → Cxx (List Char)) (g : α → List Char) (vs : List α)
    (h : ∀ v ∈ vs, f v = pure (g v)) : format sep left right f vs = pure (left ++ sep.intercalate (vs.map g) ++ right) := by
  rw [format, loop_eq sep f g vs h, pure_bind]
  simp

/-- C287, failure: an element that cannot be written makes the whole fail in the same way, if those before it can. -/
theorem C287_format_fails (sep left right : List Char) (f : α → Cxx (List Char)) (us ws : List α) (v : α) (e : Cxx (List Char))
    (h : ∀ u ∈ us, ∃ t, f u = pure t) (hv : f v = e) (he : e = thrown ∨ e = abort ∨ e = ub) :
    format sep left right f (us ++ v :: ws) = e := by
  have key : ∀ (us : List α), (∀ u ∈ us, ∃ t, f u = pure t) → ∀ isFirst out, loop sep f isFirst out (us ++ v :: ws) = e := by
    intro us
    induction us with
    | nil =>
      intro _ isFirst out
      rw [List.nil_append, loop, hv]
      rcases he with rfl | rfl | rfl <;> rfl
    | cons u us ih =>
      intro h isFirst out
      obtain ⟨t, ht⟩ := h u List.mem_cons_self
      rw [List.cons_append, loop, ht, pure_bind]
      exact ih (fun w hw => h w (List.mem_cons_of_mem _ hw)) _ _
  rw [format, key us h]
  rcases he with rfl | rfl | rfl <;> rfl

example := C287_format_fails [','] ['('] [')'] (fun n : Nat => if n = 3 then thrown else pure ['x']) [1, 2] [4] 3 thrown (fun u hu => ⟨['x'], by simp at hu; rcases hu with rfl | rfl <;> rfl⟩) rfl (.inl rfl)

/-- What is written for a range of ranges: the outermost with its own separator and brackets, the others with the default
ones. (Specification, no line of the source.) -/
def render (g : α → List Char) (sep left right : List Char) : (n : Nat) → Nest α (n + 1) → List Char
  | 0, vs => left ++ sep.intercalate (List.map g vs) ++ right
  | n + 1, vs => left ++ sep.intercalate (List.map (render g [','] ['['] [']'] n) vs) ++ right

theorem field_spec {s : List Char} (h : Spec s) (hne : s ≠ []) :
    field ('{' :: ':' :: (s ++ ['}'])) = pure ('{' :: ':' :: (s ++ ['}'])) := by
  have hb : (if ('{' :: ':' :: (s ++ ['}']))[1]? = some ':' then 2 else 1) = 2 := if_pos rfl
  simp only [field]
  rw [hb, C286_again h hne, pure_bind]
  show (if ('{' :: ':' :: (s ++ ['}']))[((2 + s.length : Nat) : Int).toNat]? = some '}' then _ else _) = _
  rw [Int.toNat_natCast, if_pos]
  rw [show 2 + s.length = s.length + 1 + 1 by omega, List.getElem?_cons_succ, List.getElem?_cons_succ,
    List.getElem?_append_right (Nat.le_refl _), Nat.sub_self]
  rfl

/-- C287, nested: the format of the field reaches the elements at every depth. -/
theorem C287_nested {s : List Char} (h : Spec s) (hne : s ≠ []) (leaf : List Char → α → Cxx (List Char)) (g : α → List Char)
    (hl : ∀ x, leaf ('{' :: ':' :: (s ++ ['}'])) x = pure (g x)) (n : Nat) :
    ∀ (sep left right : List Char) (vs : Nest α (n + 1)),
      formatNest leaf sep left right n ('{' :: ':' :: (s ++ ['}'])) vs = pure (render g sep left right n vs) := by
  induction n with
  | zero =>
    intro sep left right vs
    exact C287_format sep left right _ g vs fun v _ => hl v
  | succ n ih =>
    intro sep left right vs
    exact C287_format (α := Nest α (n + 1)) sep left right _ (render g [','] ['['] [']'] n) vs fun v _ => by
      rw [field_spec h hne, pure_bind]
      exact ih _ _ _ v

/-- C287, nested without a format. -/
theorem C287_nested_plain (leaf : List Char → α → Cxx (List Char)) (g : α → List Char)
    (hl : ∀ x, leaf ['{', '}'] x = pure (g x)) (n : Nat) :
    ∀ (sep left right : List Char) (vs : Nest α (n + 1)),
      formatNest leaf sep left right n ['{', '}'] vs = pure (render g sep left right n vs) := by
  have hf : field ['{', '}'] = pure ['{', '}'] := by decide +kernel
  induction n with
  | zero =>
    intro sep left right vs
    exact C287_format sep left right _ g vs fun v _ => hl v
  | succ n ih =>
    intro sep left right vs
    exact C287_format (α := Nest α (n + 1)) sep left right _ (render g [','] ['['] [']'] n) vs fun v _ => by
      rw [hf, pure_bind]
      exact ih _ _ _ v

example : formatNest (fun _ (x : Bool) => pure (if x then ['1'] else ['0'])) [' '] [] [] 1 ['{', ':', 'd', '}'] [[true, false], [], [true]] =
    pure ['[', '1', ',', '0', ']', ' ', '[', ']', ' ', '[', '1', ']'] := by
  exact C287_nested (s := ['d']) (.char (by decide) (by decide) (by decide) .nil) (by simp) _
    (fun x : Bool => if x then ['1'] else ['0']) (fun _ => rfl) 1 [' '] [] [] _

end Verif.Parse.FormatRange
