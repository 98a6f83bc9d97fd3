import Verif.Containers.Lists

/-
Arguments of a program: include/daw/daw_parse_args.h.  Texts are lists of characters; the views into them are those of daw_string_view.h,
which are modelled in Verif/StringView.
-/

namespace Verif.Parse.Args
open Cxx

/-- `pop_front_until( c )`, daw_string_view.h 1234-1240: the part before the character, and the rest behind it. -/
def popUntil (c : Nat) : List Nat → List Nat × List Nat
  | [] => ([], [])
  | x :: xs => if x = c then ([], xs) else (x :: (popUntil c xs).1, (popUntil c xs).2)

/-- An argument: its name and its value. (`Argument`, daw_parse_args.h 31-33.) -/
structure Argument where
  name : List Nat
  value : List Nat
  deriving DecidableEq

/-- `remove_prefix( 1 )` and `remove_suffix( 1 )` if a quote is at both ends, daw_parse_args.h 48-51.  A suffix of an empty view stays
empty, daw_string_view.h 1093-1097. -/
def unquote (s : List Nat) : List Nat :=
  if s.head? = some 34 ∧ s.getLast? = some 34 then (s.drop 1).dropLast else s

/-- The constructor of `Argument`, daw_parse_args.h 38-53. -/
def Argument.make (args : List Nat) : Argument :=
  match args with
  | 45 :: 45 :: args =>
    let name := (popUntil 61 args).1
    let args := (popUntil 61 args).2
    if args.isEmpty then ⟨name, []⟩ else ⟨name, unquote args⟩
  | args => ⟨[], unquote args⟩

/-- The constructor of `Arguments`, daw_parse_args.h 70-77: the name of the program and the arguments.  A null pointer as the name is
the empty text here. -/
def make : List (List Nat) → List Nat × List Argument
  | [] => ([], [])
  | prog :: argv => (prog, argv.map Argument.make)

/-- `std::find_if` and `std::distance`. (Rule of C++ or its library, no line of the source.) -/
def findIf (p : Argument → Bool) : List Argument → Option Nat
  | [] => none
  | a :: as => if p a then some 0 else (findIf p as).map (· + 1)

/-- `find_argument_position`, daw_parse_args.h 120-129. -/
def findPosition (as : List Argument) (name : List Nat) : Option Nat := findIf (fun a => decide (a.name = name)) as

/-- `operator[]( name )`, daw_parse_args.h 111-118. -/
def lookup (as : List Argument) (name : List Nat) : Cxx (Option (List Nat)) :=
  match findPosition as name with
  | some pos => do
    let a ← rd as pos
    pure (some a.value)
  | none => pure none

/-- `first_named_argument`, daw_parse_args.h 131-139. -/
def firstNamed (as : List Argument) : Option Nat := findIf (fun a => !a.name.isEmpty) as

/-- `has_named_argument`, daw_parse_args.h 141-143. -/
def hasNamed (as : List Argument) : Bool := (firstNamed as).isSome

/-! ## What a user writes -/

/-- An argument as a user means it. (Specification, no line of the source.) -/
inductive Meant where
  | positional (value : List Nat)
  | flag (name : List Nat)
  | option (name value : List Nat)
  | quoted (name value : List Nat)

/-- How it is written. (Specification, no line of the source.) -/
def Meant.text : Meant → List Nat
  | .positional v => v
  | .flag n => 45 :: 45 :: n
  | .option n v => 45 :: 45 :: (n ++ 61 :: v)
  | .quoted n v => 45 :: 45 :: (n ++ 61 :: 34 :: (v ++ [34]))

/-- What it is. (Specification, no line of the source.) -/
def Meant.argument : Meant → Argument
  | .positional v => ⟨[], v⟩
  | .flag n => ⟨n, []⟩
  | .option n v => ⟨n, v⟩
  | .quoted n v => ⟨n, v⟩

/-- A value that is no quoted text. (Specification, no line of the source.) -/
def Bare (v : List Nat) : Prop := ¬ (v.head? = some 34 ∧ v.getLast? = some 34)

/-- A positional argument is not taken for a named one, a name has no equals sign, and a value without quotes is not taken for one with
quotes. (Specification, no line of the source.) -/
def Meant.Ok : Meant → Prop
  | .positional v => Bare v ∧ ∀ r, v ≠ 45 :: 45 :: r
  | .flag n => 61 ∉ n
  | .option n v => 61 ∉ n ∧ Bare v
  | .quoted n _ => 61 ∉ n

theorem popUntil_no (c : Nat) (s : List Nat) (h : c ∉ s) : popUntil c s = (s, []) := by
  induction s with
  | nil => rfl
  | cons x xs ih =>
    simp only [List.mem_cons, not_or] at h
    unfold popUntil
    rw [if_neg (Ne.symm h.1), ih h.2]

theorem popUntil_yes (c : Nat) (s t : List Nat) (h : c ∉ s) : popUntil c (s ++ c :: t) = (s, t) := by
  induction s with
  | nil => simp [popUntil]
  | cons x xs ih =>
    simp only [List.mem_cons, not_or] at h
    rw [List.cons_append]
    unfold popUntil
    rw [if_neg (Ne.symm h.1), ih h.2]

theorem unquote_bare {v : List Nat} (h : Bare v) : unquote v = v := if_neg h

theorem unquote_quoted (v : List Nat) : unquote (34 :: (v ++ [34])) = v := by
  unfold unquote
  rw [if_pos ⟨rfl, by rw [← List.cons_append, List.getLast?_append]; rfl⟩]
  simp

theorem make_positional (v : List Nat) (h : ∀ r, v ≠ 45 :: 45 :: r) : Argument.make v = ⟨[], unquote v⟩ := by
  unfold Argument.make
  split
  · rename_i r
    exact absurd rfl (h r)
  · rfl

/-- Arguments come back as they were meant: positional ones, flags, and options with and without quotes; in their order, behind the name of
the program. -/
theorem C253_arguments_partial (prog : List Nat) (ms : List Meant) (hok : ∀ m ∈ ms, m.Ok) :
    make (prog :: ms.map Meant.text) = (prog, ms.map Meant.argument) := by
  have one : ∀ m : Meant, m.Ok → Argument.make m.text = m.argument := by
    intro m hm
    cases m with
    | positional v => exact (make_positional v hm.2).trans (by rw [unquote_bare hm.1]; rfl)
    | flag n =>
      simp only [Meant.text, Meant.argument, Argument.make]
      rw [popUntil_no 61 n hm]
      rfl
    | option n v =>
      simp only [Meant.text, Meant.argument, Argument.make]
      rw [popUntil_yes 61 n v hm.1]
      cases v with
      | nil => rfl
      | cons x xs => simp only [List.isEmpty_cons, Bool.false_eq_true, if_false]; rw [unquote_bare hm.2]
    | quoted n v =>
      simp only [Meant.text, Meant.argument, Argument.make]
      rw [popUntil_yes 61 n _ hm]
      simp only [List.isEmpty_cons, Bool.false_eq_true, if_false]
      rw [unquote_quoted]
  simp only [make, List.map_map, Prod.mk.injEq, true_and]
  apply List.map_congr_left
  intro m hm
  exact one m (hok m hm)

/-- `--config="a b"`, `--v` and `file`. -/
example : make [[112], [45, 45, 99, 61, 34, 97, 32, 98, 34], [45, 45, 118], [102, 105]] =
    ([112], [⟨[99], [97, 32, 98]⟩, ⟨[118], []⟩, ⟨[], [102, 105]⟩]) :=
  C253_arguments_partial [112] [.quoted [99] [97, 32, 98], .flag [118], .positional [102, 105]]
    (by intro m hm; simp at hm; rcases hm with rfl | rfl | rfl <;> simp [Meant.Ok, Bare])

/-- A value that is one quote, which is no quoted text, is lost. -/
theorem C253_lone_quote_violated :
    (make [[112], [45, 45, 113, 61, 34]]).2 = [⟨[113], []⟩] ∧ (make [[112], [34]]).2 = [⟨[], []⟩] := ⟨rfl, rfl⟩

/-- Different arguments that become the same: `--=x` and `x`, and `--` and an empty text. -/
theorem C253_unnamed_violated (x : List Nat) (h : ∀ r, x ≠ 45 :: 45 :: r) (hx : x ≠ []) :
    Argument.make (45 :: 45 :: 61 :: x) = Argument.make x ∧ Argument.make [45, 45] = Argument.make [] := by
  refine ⟨?_, rfl⟩
  rw [make_positional x h]
  simp only [Argument.make, popUntil, if_true]
  rw [if_neg (by simpa using hx)]

example : Argument.make [45, 45, 61, 120] = Argument.make [120] := (C253_unnamed_violated [120] (by simp) (by simp)).1

/-! ## Looking up -/

theorem findIf_some (p : Argument → Bool) : ∀ (as : List Argument) (i : Nat), findIf p as = some i ↔
    (∃ a, as[i]? = some a ∧ p a = true) ∧ ∀ j b, j < i → as[j]? = some b → p b = false := by
  intro as
  induction as with
  | nil => intro i; simp [findIf]
  | cons x xs ih =>
    intro i
    unfold findIf
    by_cases hx : p x = true
    · rw [if_pos hx]
      constructor
      · intro h
        obtain rfl : 0 = i := by simpa using h
        exact ⟨⟨x, rfl, hx⟩, fun j b hj => by omega⟩
      · intro h
        match i with
        | 0 => rfl
        | i + 1 => exact absurd hx (by simp [h.2 0 x (by omega) rfl])
    · rw [if_neg hx]
      match i with
      | 0 =>
        constructor
        · intro h; simp at h
        · intro h
          obtain ⟨⟨a, ha, hp⟩, _⟩ := h
          simp at ha
          exact absurd (ha ▸ hp) hx
      | i + 1 =>
        rw [Option.map_eq_some_iff]
        constructor
        · rintro ⟨k, hk, hk'⟩
          obtain rfl : k = i := by omega
          obtain ⟨h1, h2⟩ := (ih k).mp hk
          refine ⟨by simpa using h1, fun j b hj hb => ?_⟩
          match j with
          | 0 => simp at hb; subst hb; simpa using hx
          | j + 1 => exact h2 j b (by omega) (by simpa using hb)
        · intro h
          refine ⟨i, (ih i).mpr ⟨by simpa using h.1, fun j b hj hb => h.2 (j + 1) b (by omega) (by simpa using hb)⟩, rfl⟩

theorem findIf_none (p : Argument → Bool) (as : List Argument) : findIf p as = none ↔ ∀ a ∈ as, p a = false := by
  induction as with
  | nil => simp [findIf]
  | cons x xs ih =>
    unfold findIf
    by_cases hx : p x = true
    · rw [if_pos hx]
      simp [hx]
    · rw [if_neg hx]
      simp [ih, hx]

/-- A name is found where the first argument with it is, its value is given, and a name that no argument has is not found. -/
theorem C254_lookup (as : List Argument) (name : List Nat) :
    (∀ i, findPosition as name = some i ↔
      (∃ v, as[i]? = some ⟨name, v⟩) ∧ ∀ (j : Nat) (b : Argument), j < i → as[j]? = some b → b.name ≠ name) ∧
      (∀ v, lookup as name = pure (some v) ↔
        ∃ i : Nat, as[i]? = some ⟨name, v⟩ ∧ ∀ (j : Nat) (b : Argument), j < i → as[j]? = some b → b.name ≠ name) ∧
      (lookup as name = pure none ↔ ∀ a ∈ as, a.name ≠ name) := by
  have h1 : ∀ i, findPosition as name = some i ↔
      (∃ v, as[i]? = some ⟨name, v⟩) ∧ ∀ (j : Nat) (b : Argument), j < i → as[j]? = some b → b.name ≠ name := by
    intro i
    unfold findPosition
    rw [findIf_some]
    simp only [decide_eq_true_eq, decide_eq_false_iff_not, ne_eq]
    refine and_congr_left fun _ => ⟨?_, ?_⟩
    · rintro ⟨⟨n, v⟩, ha, hn⟩
      dsimp only at hn
      exact ⟨v, by rw [ha, hn]⟩
    · rintro ⟨v, hv⟩
      exact ⟨_, hv, rfl⟩
  have h3 : findPosition as name = none ↔ ∀ a ∈ as, a.name ≠ name := by
    unfold findPosition
    rw [findIf_none]
    simp
  refine ⟨h1, fun v => ?_, ?_⟩
  · unfold lookup
    cases hf : findPosition as name with
    | none =>
      have hn := h3.mp hf
      constructor
      · intro h; cases h
      · rintro ⟨i, hi, _⟩
        exact absurd rfl (hn _ (List.mem_of_getElem? hi))
    | some i =>
      obtain ⟨⟨w, hw⟩, hlt⟩ := (h1 i).mp hf
      simp only [rd_some hw, pure_bind]
      constructor
      · intro h
        have := Cxx.pure_inj.mp h
        simp at this
        subst this
        exact ⟨i, hw, hlt⟩
      · rintro ⟨k, hk, hk'⟩
        have : findPosition as name = some k := (h1 k).mpr ⟨⟨v, hk⟩, hk'⟩
        rw [hf] at this
        obtain rfl : i = k := by simpa using this
        rw [hw] at hk
        simp at hk
        rw [hk]
  · unfold lookup
    cases hf : findPosition as name with
    | none => simp only [true_iff]; exact h3.mp hf
    | some i =>
      obtain ⟨⟨w, hw⟩, _⟩ := (h1 i).mp hf
      simp only [rd_some hw, pure_bind]
      constructor
      · intro h; cases h
      · intro h; exact absurd rfl (h _ (List.mem_of_getElem? hw))

example : lookup [⟨[], [9]⟩, ⟨[1], [7]⟩, ⟨[1], [8]⟩] [1] = pure (some [7]) :=
  ((C254_lookup [⟨[], [9]⟩, ⟨[1], [7]⟩, ⟨[1], [8]⟩] [1]).2.1 [7]).mpr ⟨1, rfl, by
    intro j b hj hb
    obtain rfl : j = 0 := by omega
    simp at hb
    subst hb
    simp⟩

/-- With names that are not empty, `has_named_argument` says whether one argument is named, and `first_named_argument` where the first of
them is. -/
theorem C254_named_partial (prog : List Nat) (ms : List Meant) (hok : ∀ m ∈ ms, m.Ok)
    (hn : ∀ m ∈ ms, (∃ v, m = .positional v) ∨ m.argument.name ≠ []) :
    (hasNamed (make (prog :: ms.map Meant.text)).2 = true ↔ ∃ m ∈ ms, ∀ v, m ≠ .positional v) ∧
      ∀ i, firstNamed (make (prog :: ms.map Meant.text)).2 = some i →
        (∃ m, ms[i]? = some m ∧ ∀ v, m ≠ .positional v) ∧ ∀ j m, j < i → ms[j]? = some m → ∃ v, m = .positional v := by
  rw [C253_arguments_partial prog ms hok]
  dsimp only
  have named : ∀ m ∈ ms, (m.argument.name ≠ [] ↔ ∀ v, m ≠ .positional v) := by
    intro m hm
    constructor
    · intro h v e
      subst e
      exact h rfl
    · intro h
      rcases hn m hm with ⟨v, hv⟩ | h'
      · exact absurd hv (h v)
      · exact h'
  refine ⟨?_, fun i hi => ?_⟩
  · unfold hasNamed firstNamed
    rw [Option.isSome_iff_ne_none, Ne, findIf_none]
    constructor
    · intro h
      refine Classical.byContradiction fun hc => h ?_
      intro a ha
      obtain ⟨m, hm, rfl⟩ := List.mem_map.mp ha
      have : ¬ ∀ v, m ≠ .positional v := fun h => hc ⟨m, hm, h⟩
      rw [← named m hm] at this
      simpa using this
    · rintro ⟨m, hm, h⟩ hall
      have := hall _ (List.mem_map_of_mem hm)
      have h2 := (named m hm).mpr h
      simp at this
      exact h2 this
  · obtain ⟨⟨a, ha, hp⟩, hlt⟩ := (findIf_some _ _ i).mp hi
    rw [List.getElem?_map, Option.map_eq_some_iff] at ha
    obtain ⟨m, hm, rfl⟩ := ha
    refine ⟨⟨m, hm, (named m (List.mem_of_getElem? hm)).mp (by simpa using hp)⟩, fun j b hj hb => ?_⟩
    have := hlt j b.argument hj (by rw [List.getElem?_map, hb]; rfl)
    have hnb := named b (List.mem_of_getElem? hb)
    rcases hn b (List.mem_of_getElem? hb) with h | h
    · exact h
    · simp at this
      exact absurd this h

example : hasNamed (make [[112], [102], [45, 45, 118]]).2 = true :=
  (C254_named_partial [112] [.positional [102], .flag [118]]
    (by intro m hm; simp at hm; rcases hm with rfl | rfl <;> simp [Meant.Ok, Bare])
    (by intro m hm; simp at hm; rcases hm with rfl | rfl <;> simp [Meant.argument])).1.mpr ⟨.flag [118], by simp, by simp⟩

/-- Named arguments with an empty name count as positional: `--=x` is no named argument; and the empty name finds positional ones. -/
theorem C254_named_violated :
    hasNamed (make [[112], [45, 45, 61, 120]]).2 = false ∧ lookup (make [[112], [102]]).2 [] = pure (some [102]) := ⟨rfl, rfl⟩

end Verif.Parse.Args
