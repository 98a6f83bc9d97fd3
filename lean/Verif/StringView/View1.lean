import Verif.StringView.Compare

/-
The first version of the string view, `daw::sv1::basic_string_view`, include/daw/deprecated/daw_string_view1.h, with the
searching functions of include/daw/impl/daw_string_impl.h, for pointer bounds (the default except for MSVC).

As for the second version, the searching members are functions of the list of the characters of the view, and `none` is
`npos`.  Two members do not compile when they are used: `clear` (406-409), whose `make_last( nullptr, 0 )` is ambiguous,
and the constructor from a character array (212-215), which no overload resolution selects.
-/

namespace Verif.SV1
open Cxx Verif.SV

variable {α : Type}

/-! ### Searching -/

/-- `details::search`, daw_string_impl.h 25-44: the position, and the end of the text if there is none.  The inner loop,
32-42, is that of the second version, `matchFrom`. -/
def search [DecidableEq α] (ys : List α) : List α → Nat → Nat
  | [], k => k
  | x :: xs, k =>
    match matchFrom (x :: xs) ys with
    | .found => k
    | .atEnd => k + (xs.length + 1)
    | .differ _ => search ys xs (k + 1)

/-- `find( v, pos )`, daw_string_view1.h 677-694; a position beyond the end makes a pointer outside the text. -/
def find [DecidableEq α] (xs ys : List α) (pos : Nat) : Cxx (Option Nat) :=
  if xs.length < ys.length then pure none
  else if ys.isEmpty then pure (some pos)
  else if pos ≤ xs.length then
    let result := search ys (xs.drop pos) pos
    if result = xs.length then pure none else pure (some result)
  else ub

/-- The loop of `rfind`, daw_string_view1.h 725-732; `details::compare` is `char_traits::compare`, which compares the
characters one by one. -/
def rfindLoop [DecidableEq α] (xs ys : List α) : Nat → Cxx (Option Nat)
  | 0 => do
    if ← differ xs ys 0 ys.length 0 then pure none else pure (some 0)
  | cur + 1 => do
    if ← differ xs ys (cur + 1) ys.length 0 then rfindLoop xs ys cur else pure (some (cur + 1))

/-- `rfind( v, pos )`, daw_string_view1.h 713-733. -/
def rfind [DecidableEq α] (xs ys : List α) (pos : Option Nat) : Cxx (Option Nat) :=
  if xs.length < ys.length then pure none
  else
    let pos := match pos with
      | some p => min p (xs.length - ys.length)
      | none => xs.length - ys.length
    if ys.isEmpty then pure (some pos) else rfindLoop xs ys pos

/-- The loops of `details::find_first_of`, `find_first_not_of`, `find_first_of_if` and `find_first_not_of_if`,
daw_string_impl.h 114-121, 138-151, 170-175 and 188-193: the first position at which the test holds, and the end if there
is none. -/
def firstLoop (p : α → Bool) : List α → Nat → Nat
  | [], k => k
  | x :: xs, k => if p x then k else firstLoop p xs (k + 1)

/-- The comparison of a position with the end, as in daw_string_view1.h 766-769. -/
def orNpos (end' r : Nat) : Option Nat := if end' = r then none else some r

/-- The loop over the needle, daw_string_impl.h 115-119. -/
def isOneOf [DecidableEq α] (x : α) : List α → Bool
  | [] => false
  | y :: ys => if x = y then true else isOneOf x ys

/-- `find_first_of( v, pos )`, daw_string_view1.h 756-770. -/
def findFirstOf [DecidableEq α] (xs ys : List α) (pos : Nat) : Option Nat :=
  if pos ≥ xs.length ∨ ys.isEmpty then none
  else orNpos xs.length (firstLoop (fun x => isOneOf x ys) (xs.drop pos) pos)

/-- `find_first_of_if`, daw_string_view1.h 822-837. -/
def findFirstOfIf (p : α → Bool) (xs : List α) (pos : Nat) : Option Nat :=
  if pos ≥ xs.length then none else orNpos xs.length (firstLoop p (xs.drop pos) pos)

/-- `find_first_not_of_if`, daw_string_view1.h 839-855. -/
def findFirstNotOfIf (p : α → Bool) (xs : List α) (pos : Nat) : Option Nat :=
  if pos ≥ xs.length then none else orNpos xs.length (firstLoop (fun x => !p x) (xs.drop pos) pos)

/-- `find_first_not_of( v, pos )`, daw_string_view1.h 972-991. -/
def findFirstNotOf [DecidableEq α] (xs ys : List α) (pos : Nat) : Option Nat :=
  if pos ≥ xs.length then none
  else if ys.isEmpty then some pos
  else orNpos xs.length (firstLoop (fun x => !isOneOf x ys) (xs.drop pos) pos)

/-- Where the backward searches start, as a distance from `rbegin( )`, daw_string_view1.h 901-905 and 918-922. -/
def backward (xs : List α) : Option Nat → Nat
  | none => 0
  | some p => if p ≥ xs.length then 0 else xs.length - (p + 1)

/-- A position `r` from the end as `reverse_distance`, daw_string_view1.h 884-891, unless it is `rend( )`. -/
def fromBack (xs : List α) (r : Nat) : Option Nat := if r = xs.length then none else some (xs.length - 1 - r)

/-- `find_last_of( s, pos )`, daw_string_view1.h 894-910; `std::find_first_of` goes through the characters backward. -/
def findLastOf [DecidableEq α] (xs ys : List α) (pos : Option Nat) : Option Nat :=
  if ys.length = 0 then none
  else fromBack xs (firstLoop (fun x => isOneOf x ys.reverse) (xs.reverse.drop (backward xs pos)) (backward xs pos))

/-- `find_last_of_if( pred, pos )`, daw_string_view1.h 912-926. -/
def findLastOfIf (p : α → Bool) (xs : List α) (pos : Option Nat) : Option Nat :=
  fromBack xs (firstLoop p (xs.reverse.drop (backward xs pos)) (backward xs pos))

/-- The loop of `find_last_of( c, pos )`, daw_string_view1.h 935-940: `first` is `n` behind `last`, which is `pos`. -/
def lastCharLoop [DecidableEq α] (xs : List α) (c : α) (pos : Nat) : Nat → Cxx (Option Nat)
  | 0 => pure none
  | n + 1 => do
    let x ← rd xs (pos + n + 1)
    if x = c then pure (some (pos + n + 1)) else lastCharLoop xs c pos n

/-- `find_last_of( c, pos )`, daw_string_view1.h 928-942; for an empty text `std::prev` leaves it. -/
def findLastChar [DecidableEq α] (xs : List α) (c : α) (pos : Option Nat) : Cxx (Option Nat) :=
  let pos := match pos with
    | some p => if p ≥ xs.length then 0 else p
    | none => 0
  if xs.isEmpty then ub else lastCharLoop xs c pos (xs.length - 1 - pos)

/-- The loop over the needle in `find_not_of`, daw_string_view1.h 175-179: the character is compared with `sv[0]` each
time. -/
def notOfTest [DecidableEq α] (ys : List α) (x : α) : Bool := (List.range ys.length).any fun _ => ys.head? == some x

/-- `find_last_not_of( v, pos )`, daw_string_view1.h 1013-1030, with `find_not_of`, 167-183.  For an empty text `size( ) - 1`
wraps around to `npos`, and with a needle to zero again. -/
def findLastNotOf [DecidableEq α] (xs ys : List α) (pos : Option Nat) : Option Nat :=
  if xs.isEmpty then none
  else
    let pos := match pos with
      | some p => if p ≥ xs.length then xs.length - 1 else p
      | none => xs.length - 1
    if ys.isEmpty then some pos
    else
      let pos := xs.length - (pos + 1)
      fromBack xs (firstLoop (notOfTest ys) (xs.reverse.drop pos) pos)

/-- `search( v, pos )`, daw_string_view1.h 778-791. -/
def searchM [DecidableEq α] (xs ys : List α) (pos : Nat) : Option Nat :=
  if pos + ys.length ≥ xs.length ∨ ys.isEmpty then none
  else orNpos xs.length (search ys (xs.drop pos) pos)

/-- The loop of `search_last`, daw_string_view1.h 807-813. -/
def searchLastLoop [DecidableEq α] (xs ys : List α) (lastPos : Nat) (fpos : Option Nat) : Cxx Nat :=
  match fpos with
  | none => pure lastPos
  | some f =>
    let fpos := searchM xs ys f
    if fpos = some f then pure f else searchLastLoop xs ys f fpos
partial_fixpoint

/-- `search_last( v, pos )`, daw_string_view1.h 798-815. -/
def searchLast [DecidableEq α] (xs ys : List α) (pos : Nat) : Cxx (Option Nat) :=
  if pos + ys.length ≥ xs.length ∨ ys.isEmpty then pure none
  else do
    return some (← searchLastLoop xs ys pos (searchM xs ys pos))

section
variable [DecidableEq α]

theorem search_eq (ys : List α) (hy : ys ≠ []) : ∀ (xs : List α) (k : Nat),
    SV.search ys xs k = pure (orNpos (k + xs.length) (search ys xs k)) := by
  intro xs
  induction xs with
  | nil =>
    intro k
    cases ys with
    | nil => exact absurd rfl hy
    | cons y ys => simp [SV.search, search, matchFrom, orNpos]
  | cons x xs ih =>
    intro k
    rw [SV.search, search]
    cases h : matchFrom (x :: xs) ys with
    | found =>
      simp only [orNpos, List.length_cons]
      rw [if_neg (by omega)]
    | atEnd => simp [orNpos]
    | differ r =>
      simp only
      rw [ih (k + 1), List.length_cons, show k + (xs.length + 1) = k + 1 + xs.length by omega]

theorem find_eq (xs ys : List α) (pos : Nat) : find xs ys pos = SV.find xs ys pos := by
  unfold find SV.find
  split
  · rfl
  · split
    · rfl
    · rename_i hy
      split
      · rename_i hp
        rw [search_eq ys (by simpa using hy)]
        have : pos + (xs.drop pos).length = xs.length := by rw [List.length_drop]; omega
        rw [this]
        unfold orNpos
        dsimp only
        by_cases h : search ys (xs.drop pos) pos = xs.length
        · rw [if_pos h, if_pos h.symm]
        · rw [if_neg h, if_neg (fun e => h e.symm)]
      · rfl

theorem rfindLoop_eq (xs ys : List α) : ∀ pos, rfindLoop xs ys pos = SV.rfindLoop xs ys pos := by
  intro pos
  induction pos with
  | zero => rfl
  | succ n ih => rw [rfindLoop, SV.rfindLoop, ih]

theorem rfind_eq (xs ys : List α) (pos : Option Nat) : rfind xs ys pos = SV.rfind xs ys pos := by
  unfold rfind SV.rfind
  simp only [rfindLoop_eq]
  cases pos <;> rfl

/-- C216, `find`: the least position from `pos` on at which `v` occurs, `npos` if there is none.  Missing: positions beyond
the end, see `C216_find_violated`. -/
theorem C216_find_partial (xs ys : List α) (pos : Nat) (hpos : pos ≤ xs.length) :
    ∃ r, find xs ys pos = pure r ∧ FirstIn (Occurs ys xs) pos (xs.length + 1) r := by
  rw [find_eq]
  exact C13_find_partial xs ys pos hpos

example := C216_find_partial [1, 2, 3, 2, 3] [2, 3] 2 (by decide)

/-- C216 does not hold for a position beyond the end: the code leaves the text. -/
theorem C216_find_violated : find [1, 2, 3] [2] 4 = ub := rfl

/-- **C216**, `rfind`: the greatest position not beyond `pos` at which `v` occurs, `npos` if there is none. -/
theorem C216_rfind (xs ys : List α) (pos : Option Nat) :
    ∃ r, rfind xs ys pos = pure r ∧
      LastIn (fun i => Occurs ys xs i ∧ ∀ p, pos = some p → i ≤ p) (xs.length + 1) r := by
  rw [rfind_eq]
  exact C13_rfind xs ys pos

example : find [1, 2, 1, 2, 3] [1, 2] 1 = pure (some 2) ∧ find [1, 2, 3] [3, 4] 0 = pure none ∧
    rfind [1, 2, 1, 2, 3] [1, 2] (some 1) = pure (some 0) := ⟨rfl, rfl, rfl⟩

end

/-! ### Characters -/

theorem firstLoop_spec (p : α → Bool) : ∀ (xs : List α) (k : Nat), ∃ n, firstLoop p xs k = k + n ∧ n ≤ xs.length ∧
    (n < xs.length → At p xs n) ∧ ∀ j, j < n → ¬ At p xs j := by
  intro xs
  induction xs with
  | nil => intro k; exact ⟨0, rfl, Nat.le_refl _, fun h => absurd h (Nat.lt_irrefl _), fun j hj => absurd hj (Nat.not_lt_zero _)⟩
  | cons x xs ih =>
    intro k
    rw [firstLoop]
    by_cases hp : p x = true
    · rw [if_pos hp]
      exact ⟨0, rfl, Nat.zero_le _, fun _ => ⟨x, rfl, hp⟩, fun j hj => absurd hj (Nat.not_lt_zero _)⟩
    · rw [if_neg hp]
      obtain ⟨n, e, h1, h2, h3⟩ := ih (k + 1)
      have h0 : ¬ At p (x :: xs) 0 := by rintro ⟨a, ha, hpa⟩; simp at ha; subst ha; exact hp hpa
      refine ⟨n + 1, by rw [e]; omega, by simpa using h1, fun h => ?_, fun j hj => ?_⟩
      · have := h2 (by simpa using h)
        simpa [At] using this
      · cases j with
        | zero => exact h0
        | succ j => have := h3 j (by omega); simpa [At] using this

theorem first_spec (p : α → Bool) (xs : List α) (pos : Nat) (hpos : pos ≤ xs.length) :
    FirstIn (At p xs) pos xs.length (orNpos xs.length (firstLoop p (xs.drop pos) pos)) := by
  obtain ⟨n, e, h1, h2, h3⟩ := firstLoop_spec p (xs.drop pos) pos
  rw [List.length_drop] at h1 h2
  rw [e]
  unfold orNpos
  have hmin : ∀ j, pos ≤ j → j < pos + n → ¬ At p xs j := by
    intro j hj hj' ha
    refine h3 (j - pos) (by omega) ?_
    rw [at_drop]
    rwa [show pos + (j - pos) = j by omega]
  by_cases h : xs.length = pos + n
  · rw [if_pos h]
    exact ⟨fun i hi => by simp at hi, fun _ j hj hj' => hmin j hj (by omega)⟩
  · rw [if_neg h]
    refine ⟨?_, by simp⟩
    rintro i hi
    cases hi
    have := h2 (by omega)
    rw [at_drop] at this
    exact ⟨by omega, by omega, this, hmin⟩

theorem isOneOf_eq [DecidableEq α] (x : α) : ∀ ys, isOneOf x ys = ys.contains x := by
  intro ys
  induction ys with
  | nil => rfl
  | cons y ys ih =>
    rw [isOneOf, List.contains_cons, ih]
    by_cases h : x = y <;> simp [h]

theorem none_beyond {P : Nat → Prop} {lo hi : Nat} (h : hi ≤ lo) : FirstIn P lo hi none :=
  ⟨fun i hi' => by simp at hi', fun _ j h1 h2 => by omega⟩

/-- **C216**, the forward searches for characters: the first position from `pos` on of a character of the set, of one not
in it, of one that satisfies the predicate, and of one that does not. -/
theorem C216_first [DecidableEq α] (xs ys : List α) (p : α → Bool) (pos : Nat) :
    FirstIn (At (fun x => ys.contains x) xs) pos xs.length (findFirstOf xs ys pos) ∧
    FirstIn (At (fun x => !ys.contains x) xs) pos xs.length (findFirstNotOf xs ys pos) ∧
    FirstIn (At p xs) pos xs.length (findFirstOfIf p xs pos) ∧
    FirstIn (At (fun x => !p x) xs) pos xs.length (findFirstNotOfIf p xs pos) := by
  unfold findFirstOf findFirstNotOf findFirstOfIf findFirstNotOfIf
  by_cases h : pos ≥ xs.length
  · rw [if_pos (Or.inl h), if_pos h, if_pos h, if_pos h]
    exact ⟨none_beyond h, none_beyond h, none_beyond h, none_beyond h⟩
  · simp only [if_neg h, isOneOf_eq]
    have hp : pos ≤ xs.length := by omega
    refine ⟨?_, ?_, first_spec _ _ _ hp, first_spec _ _ _ hp⟩
    · split
      · rename_i hy
        rcases hy with hy | hy
        · exact absurd hy h
        · have : ys = [] := by simpa using hy
          subst this
          refine ⟨by simp, fun _ j _ _ ha => ?_⟩
          obtain ⟨a, _, ha⟩ := ha
          simp at ha
      · exact first_spec _ _ _ hp
    · split
      · rename_i hy
        have : ys = [] := by simpa using hy
        subst this
        refine ⟨?_, by simp⟩
        rintro i hi
        cases hi
        exact ⟨Nat.le_refl _, by omega, ⟨xs[pos]'(by omega), List.getElem?_eq_getElem (by omega), by simp⟩,
          by intros; omega⟩
      · exact first_spec _ _ _ hp

example : findFirstOf [1, 2, 3, 4] [4, 3] 1 = some 2 ∧ findFirstNotOf [1, 2, 3, 4] [1, 2] 0 = some 2 ∧
    findFirstOfIf (fun x => decide (2 < x)) [1, 2, 3, 4] 0 = some 2 ∧
    findFirstNotOfIf (fun x => decide (x < 5)) [1, 2, 3, 4] 0 = none := ⟨rfl, rfl, rfl, rfl⟩

theorem at_reverse {p : α → Bool} {xs : List α} {i : Nat} (hi : i < xs.length) :
    At p xs.reverse i ↔ At p xs (xs.length - 1 - i) := by
  unfold At
  rw [List.getElem?_reverse hi]

/-- A backward search that starts `off` before the end. -/
theorem last_spec (p : α → Bool) (xs : List α) (off : Nat) (hoff : off ≤ xs.length) :
    LastIn (At p xs) (xs.length - off) (fromBack xs (firstLoop p (xs.reverse.drop off) off)) := by
  obtain ⟨n, e, h1, h2, h3⟩ := firstLoop_spec p (xs.reverse.drop off) off
  rw [List.length_drop, List.length_reverse] at h1 h2
  rw [e]
  unfold fromBack
  have hmin : ∀ j, j < xs.length - off → xs.length - 1 - (off + n) < j ∨ off + n = xs.length → ¬ At p xs j := by
    intro j hj hj' ha
    refine h3 (xs.length - 1 - j - off) (by omega) ?_
    rw [at_drop, show off + (xs.length - 1 - j - off) = xs.length - 1 - j by omega, at_reverse (by omega)]
    rwa [show xs.length - 1 - (xs.length - 1 - j) = j by omega]
  by_cases h : off + n = xs.length
  · rw [if_pos h]
    exact ⟨fun i hi => by simp at hi, fun _ j hj => hmin j hj (Or.inr h)⟩
  · rw [if_neg h]
    refine ⟨?_, by simp⟩
    rintro i hi
    cases hi
    have := h2 (by omega)
    rw [at_drop, at_reverse (by omega)] at this
    exact ⟨by omega, this, fun j hj hj' => hmin j hj' (Or.inl hj)⟩

theorem backward_le (xs : List α) (pos : Option Nat) : backward xs pos ≤ xs.length := by
  unfold backward
  split
  · omega
  · split <;> omega

/-- How many characters a backward search looks at, from the front. (Specification, no line of the source.) -/
def upTo (xs : List α) : Option Nat → Nat
  | none => xs.length
  | some p => min (p + 1) xs.length

theorem upTo_backward (xs : List α) (pos : Option Nat) : xs.length - backward xs pos = upTo xs pos := by
  unfold backward upTo
  cases pos with
  | none => rfl
  | some p =>
    dsimp only
    split <;> omega

/-- **C216**, the backward searches for characters of a set and with a predicate: the last position not beyond `pos`. -/
theorem C216_last [DecidableEq α] (xs ys : List α) (p : α → Bool) (pos : Option Nat) :
    LastIn (At (fun x => ys.contains x) xs) (upTo xs pos) (findLastOf xs ys pos) ∧
    LastIn (At p xs) (upTo xs pos) (findLastOfIf p xs pos) := by
  rw [← upTo_backward]
  refine ⟨?_, last_spec p xs _ (backward_le xs pos)⟩
  unfold findLastOf
  split
  · rename_i h
    have : ys = [] := by simpa using h
    subst this
    refine ⟨by simp, fun _ j _ ha => ?_⟩
    obtain ⟨a, _, ha⟩ := ha
    simp at ha
  · have : (fun x => isOneOf x ys.reverse) = fun x => ys.contains x := by
      funext x
      rw [isOneOf_eq]
      simp [List.contains_eq_mem]
    rw [this]
    exact last_spec _ xs _ (backward_le xs pos)

example : findLastOf [1, 2, 1, 2] [1] none = some 2 ∧ findLastOf [1, 2, 1, 2] [1] (some 1) = some 0 ∧
    findLastOfIf (fun x => x == 2) [1, 2, 1, 2] (some 2) = some 1 := ⟨rfl, rfl, rfl⟩

/-- C216, what `find_last_of( c, pos )` returns: the last position *behind* `pos`, and behind the first character if
`pos` is `npos` or beyond the end.  Missing: the positions up to `pos`, which are those asked for. -/
theorem C216_last_char_partial [DecidableEq α] (xs : List α) (hx : xs ≠ []) (c : α) (pos : Option Nat) :
    ∃ r, findLastChar xs c pos = pure r ∧
      LastIn (fun i => At (fun x => x == c) xs i ∧ (match pos with | some p => if p ≥ xs.length then 0 else p | none => 0) < i)
        xs.length r := by
  have hl : 0 < xs.length := List.length_pos_iff.mpr hx
  have loop : ∀ (q n : Nat), q + n < xs.length → ∃ r, lastCharLoop xs c q n = pure r ∧
      LastIn (fun i => At (fun x => x == c) xs i ∧ q < i) (q + n + 1) r := by
    intro q n
    induction n with
    | zero =>
      intro _
      exact ⟨none, rfl, by simp, fun _ j hj h => by omega⟩
    | succ n ih =>
      intro hq
      rw [lastCharLoop, rd_eq (by omega), pure_bind]
      by_cases h : xs[q + n + 1] = c
      · rw [if_pos h]
        refine ⟨_, rfl, ?_, by simp⟩
        rintro i hi
        cases hi
        refine ⟨by omega, ⟨⟨_, List.getElem?_eq_getElem (by omega), by simp [h]⟩, by omega⟩, by intros; omega⟩
      · rw [if_neg h]
        obtain ⟨r, e, h1, h2⟩ := ih (by omega)
        have hno : ¬ At (fun x => x == c) xs (q + n + 1) := by
          rintro ⟨a, ha, hac⟩
          obtain ⟨_, rfl⟩ := List.getElem?_eq_some_iff.1 ha
          exact h (by simpa using hac)
        refine ⟨r, e, fun i hi => ?_, fun hr j hj => ?_⟩
        · obtain ⟨a, b, d⟩ := h1 i hi
          refine ⟨by omega, b, fun j hj hj' hat => ?_⟩
          by_cases hjn : j = q + n + 1
          · subst hjn; exact hno hat.1
          · exact d j hj (by omega) hat
        · by_cases hjn : j = q + n + 1
          · subst hjn; exact fun hat => hno hat.1
          · exact h2 hr j (by omega)
  have key : ∀ q, q < xs.length → ∃ r, (if xs.isEmpty = true then ub else lastCharLoop xs c q (xs.length - 1 - q) : Cxx (Option Nat))
      = pure r ∧ LastIn (fun i => At (fun x => x == c) xs i ∧ q < i) xs.length r := by
    intro q hq
    rw [if_neg (by simpa using hx)]
    obtain ⟨r, e, h⟩ := loop q (xs.length - 1 - q) (by omega)
    rw [show q + (xs.length - 1 - q) + 1 = xs.length by omega] at h
    exact ⟨r, e, h⟩
  unfold findLastChar
  cases pos with
  | none => exact key 0 hl
  | some p =>
    dsimp only
    by_cases hp : p ≥ xs.length
    · rw [if_pos hp]; exact key 0 hl
    · rw [if_neg hp]; exact key p (by omega)

example := C216_last_char_partial [1, 2, 3] (by decide) 2 none

/-- C216 does not hold for `find_last_of( c, pos )`: the first character is never looked at, a position makes it look
behind that position instead of before it, and an empty text is undefined behaviour. -/
theorem C216_last_char_violated : findLastChar [1, 2, 3] 1 none = pure none ∧ findLastChar [1, 2, 3] 3 (some 1) = pure (some 2) ∧
    findLastChar [1, 2, 3] 2 (some 1) = pure none ∧ findLastChar ([] : List Nat) 1 none = ub :=
  ⟨rfl, rfl, rfl, rfl⟩

theorem notOfTest_eq [DecidableEq α] (y : α) (ys : List α) (x : α) : notOfTest (y :: ys) x = (x == y) := by
  unfold notOfTest
  rw [Bool.eq_iff_iff]
  simp only [List.any_eq_true, List.head?_cons]
  constructor
  · rintro ⟨_, _, h⟩
    have := by simpa using h
    simp [this]
  · intro h
    have := by simpa using h
    exact ⟨0, by simp, by simp [this]⟩

/-- C216, what `find_last_not_of` returns: the last position not beyond `pos` whose character *is* the first one of the
set.  With an empty set it is right. -/
theorem C216_last_not_of_partial [DecidableEq α] (xs : List α) (y : α) (ys : List α) (pos : Option Nat) :
    LastIn (At (fun x => x == y) xs) (upTo xs pos) (findLastNotOf xs (y :: ys) pos) ∧
    LastIn (fun i => i < xs.length) (upTo xs pos) (findLastNotOf xs [] pos) := by
  unfold findLastNotOf
  by_cases hx : xs.isEmpty = true
  · simp only [if_pos hx]
    have : xs = [] := by simpa using hx
    subst this
    have hu : upTo ([] : List α) pos = 0 := by cases pos <;> simp [upTo]
    rw [hu]
    exact ⟨⟨by simp, fun _ j hj => by omega⟩, ⟨by simp, fun _ j hj => by omega⟩⟩
  · simp only [if_neg hx]
    have hl : 0 < xs.length := List.length_pos_iff.mpr (by simpa using hx)
    have hf : notOfTest (y :: ys) = fun x => x == y := funext fun x => notOfTest_eq y ys x
    rw [hf]
    have key : ∀ q, q < xs.length → q + 1 = upTo xs pos →
        LastIn (At (fun x => x == y) xs) (upTo xs pos)
          (if (y :: ys).isEmpty = true then some q
            else fromBack xs (firstLoop (fun x => x == y) (xs.reverse.drop (xs.length - (q + 1))) (xs.length - (q + 1)))) ∧
        LastIn (fun i => i < xs.length) (upTo xs pos)
          (if ([] : List α).isEmpty = true then some q
            else fromBack xs (firstLoop (notOfTest []) (xs.reverse.drop (xs.length - (q + 1))) (xs.length - (q + 1)))) := by
      intro q hq hu
      refine ⟨?_, ?_⟩
      · rw [if_neg (by simp)]
        have := last_spec (fun x => x == y) xs (xs.length - (q + 1)) (by omega)
        rwa [show xs.length - (xs.length - (q + 1)) = upTo xs pos by omega] at this
      · rw [if_pos (by simp)]
        refine ⟨?_, by simp⟩
        rintro i hi
        cases hi
        exact ⟨by omega, hq, by intros; omega⟩
    cases pos with
    | none => exact key (xs.length - 1) (by omega) (by simp [upTo]; omega)
    | some p =>
      dsimp only
      by_cases hp : p ≥ xs.length
      · simp only [if_pos hp]; exact key (xs.length - 1) (by omega) (by simp only [upTo]; omega)
      · simp only [if_neg hp]; exact key p (by omega) (by simp only [upTo]; omega)

/-- C216 does not hold for `find_last_not_of`.  The first text is that of a unit test, "abcabfghijklm" and "abc", which
expects 3; the last character not in the set is at 12. -/
theorem C216_last_not_of_violated :
    findLastNotOf "abcabfghijklm".toList "abc".toList none = some 3 ∧
    ("abcabfghijklm".toList)[12]? = some 'm' ∧ findLastNotOf [1, 1, 2] [1] none = some 1 := by
  refine ⟨by decide +kernel, by decide +kernel, by decide +kernel⟩

/-! ### `search` and `search_last` -/

theorem searchM_from [DecidableEq α] {xs ys : List α} {pos : Nat} (hy : ys ≠ []) (hpos : pos ≤ xs.length) :
    FirstIn (Occurs ys xs) pos (xs.length + 1) (orNpos xs.length (search ys (xs.drop pos) pos)) := by
  obtain ⟨r, e, h⟩ := search_from (ys := ys) hpos
  rw [search_eq ys hy] at e
  have hl : pos + (xs.drop pos).length = xs.length := by rw [List.length_drop]; omega
  rw [hl] at e
  rw [Cxx.pure_inj.mp e]
  exact h

/-- C216, `search`: the first occurrence of a non-empty text, if one more character has room.  Missing: a text that ends
where the view ends and starts at `pos`. -/
theorem C216_search_partial [DecidableEq α] (xs ys : List α) (pos : Nat) (hy : ys ≠ []) (h : pos + ys.length < xs.length) :
    FirstIn (Occurs ys xs) pos (xs.length + 1) (searchM xs ys pos) := by
  unfold searchM
  rw [if_neg (by simp [hy]; omega)]
  exact searchM_from hy (by omega)

/-- C216 does not hold for `search` and `search_last`: the text occurs in itself, and of two occurrences the last is not
found; without an occurrence `search_last` returns the position it started from. -/
theorem C216_search_violated : searchM [1, 2, 3] [1, 2, 3] 0 = none ∧ searchM [1, 2, 3] [2, 3] 1 = none ∧
    searchLast [1, 2, 1, 2, 3] [1, 2] 0 = pure (some 0) ∧ searchLast [1, 2, 3] [4] 1 = pure (some 1) := by
  refine ⟨rfl, rfl, ?_, ?_⟩
  · unfold searchLast
    rw [if_neg (by decide), show searchM [1, 2, 1, 2, 3] [1, 2] 0 = some 0 from rfl, searchLastLoop]
    rfl
  · unfold searchLast
    rw [if_neg (by decide), show searchM [1, 2, 3] [4] 1 = none from rfl, searchLastLoop]
    rfl

/-- C216: where the pattern does not fit, or with an empty pattern, both return `npos`; where it fits exactly they do too, which is the defect
of `C216_search_violated`. -/
theorem C216_search_outside [DecidableEq α] (xs ys : List α) (pos : Nat) (h : xs.length ≤ pos + ys.length ∨ ys = []) :
    searchM xs ys pos = none ∧ searchLast xs ys pos = pure none := by
  have hc : pos + ys.length ≥ xs.length ∨ ys.isEmpty = true := by
    rcases h with h | h
    · exact Or.inl h
    · exact Or.inr (by rw [h]; rfl)
  constructor
  · unfold searchM
    rw [if_pos hc]
  · unfold searchLast
    rw [if_pos hc]

example : searchLast [1, 2, 3] [2, 3, 4] 1 = pure none := (C216_search_outside [1, 2, 3] [2, 3, 4] 1 (Or.inl (by decide))).2

/-- C216, what `search_last` does return: the first occurrence from `pos` on, and `pos` if there is none.  Missing: that it
is the last. -/
theorem C216_search_last_partial [DecidableEq α] (xs ys : List α) (pos : Nat) (hy : ys ≠ [])
    (h : pos + ys.length < xs.length) :
    ∃ r, FirstIn (Occurs ys xs) pos (xs.length + 1) r ∧ searchLast xs ys pos = pure (some (r.getD pos)) := by
  have hs := C216_search_partial xs ys pos hy h
  refine ⟨searchM xs ys pos, hs, ?_⟩
  unfold searchLast
  rw [if_neg (by simp [hy]; omega)]
  cases e : searchM xs ys pos with
  | none => rw [searchLastLoop]; rfl
  | some i =>
    rw [e] at hs
    obtain ⟨_, h2, h3, _⟩ := hs.1 i rfl
    rw [searchLastLoop]
    by_cases hr : i + ys.length < xs.length
    · have hi : searchM xs ys i = some i := by
        refine (C216_search_partial xs ys i hy hr).unique ⟨?_, by simp⟩
        rintro k hk
        cases hk
        exact ⟨Nat.le_refl _, h2, h3, by intros; omega⟩
      simp only [hi]
      rfl
    · have hi : searchM xs ys i = none := by
        unfold searchM
        rw [if_pos (Or.inl (by omega))]
      simp only [hi]
      rw [if_neg (by simp), searchLastLoop]
      rfl

example := C216_search_last_partial [1, 2, 3, 2, 3] [2] 1 (by decide) (by decide)

/-! ### Comparing -/

/-- `str_compare`, daw_string_view1.h 600-614; the same in daw_bounded_string.h 370-384 and 403-417. -/
def strCompare [DecidableEq α] (lt : α → α → Bool) : Nat → List α → List α → Cxx Int
  | 0, _, _ => pure 0
  | n + 1, x :: xs, y :: ys => if x ≠ y then (if lt x y then pure (-1) else pure 1) else strCompare lt n xs ys
  | _ + 1, _, _ => ub

/-- `compare`, daw_string_view1.h 596-627; the same in daw_bounded_string.h 366-397 and 399-430. -/
def compare [DecidableEq α] (lt : α → α → Bool) (xs ys : List α) : Cxx Int := do
  let cmp ← strCompare lt (min xs.length ys.length) xs ys
  if cmp = 0 then
    if xs.length < ys.length then pure (-1)
    else if ys.length < xs.length then pure 1
    else pure cmp
  else pure cmp

/-- **C217**: `compare` gives zero exactly for equal texts, a negative number exactly if the left one comes first in the
lexicographic order, and a positive one exactly if the right one does. -/
theorem C217_compare [DecidableEq α] {lt : α → α → Bool} (sw : StrictWeak lt) (tot : ∀ a b, a ≠ b → lt a b = true ∨ lt b a = true)
    (xs ys : List α) :
    ∃ c, compare lt xs ys = pure c ∧ (c = 0 ↔ xs = ys) ∧ (c < 0 ↔ LexLt lt xs ys) ∧ (0 < c ↔ LexLt lt ys xs) := by
  have cons : ∀ (x y : α) (xs ys : List α), x = y → compare lt (x :: xs) (y :: ys) = compare lt xs ys := by
    intro x y xs ys h
    unfold compare
    rw [List.length_cons, List.length_cons, Nat.add_min_add_right, strCompare, if_neg (by simpa using h)]
    simp only [Nat.add_lt_add_iff_right]
  have irr : ∀ a, lt a a = false := sw.irrefl
  induction xs generalizing ys with
  | nil =>
    cases ys with
    | nil =>
      refine ⟨0, rfl, by simp, ?_, ?_⟩ <;> simp [lexLt_nil_right]
    | cons y ys =>
      refine ⟨-1, by simp [compare, strCompare], by simp, ?_, ?_⟩
      · simp [lexLt_nil_cons]
      · simp [lexLt_nil_right]
  | cons x xs ih =>
    cases ys with
    | nil =>
      refine ⟨1, by simp [compare, strCompare], by simp, ?_, ?_⟩
      · simp [lexLt_nil_right]
      · simp [lexLt_nil_cons]
    | cons y ys =>
      by_cases h : x = y
      · obtain ⟨c, e, h1, h2, h3⟩ := ih ys
        refine ⟨c, by rw [cons x y xs ys h]; exact e, ?_, ?_, ?_⟩
        · rw [h1]; simp [h]
        · rw [h2, lexLt_cons]; subst h; simp [irr, Equiv]
        · rw [h3, lexLt_cons]; subst h; simp [irr, Equiv]
      · have e : compare lt (x :: xs) (y :: ys) = if lt x y then pure (-1) else pure 1 := by
          unfold compare
          rw [List.length_cons, List.length_cons, Nat.add_min_add_right, strCompare, if_pos h]
          by_cases hl : lt x y = true <;> simp [hl]
        rw [e]
        by_cases hl : lt x y = true
        · have hl' : lt y x = false := by
            cases hh : lt y x with
            | false => rfl
            | true => have := sw.trans _ _ _ hl hh; rw [irr] at this; cases this
          rw [if_pos hl]
          refine ⟨-1, rfl, by simp [h], ?_, ?_⟩
          · rw [lexLt_cons]; simp [hl]
          · rw [lexLt_cons]; simp [hl', hl, Equiv]
        · have hl' : lt y x = true := (tot x y h).resolve_left hl
          rw [if_neg hl]
          refine ⟨1, rfl, by simp [h], ?_, ?_⟩
          · rw [lexLt_cons]; simp [hl', hl, Equiv]
          · rw [lexLt_cons]; simp [hl']

example : compare (fun a b : Nat => decide (a < b)) [1, 2, 3] [1, 3] = pure (-1) ∧
    compare (fun a b : Nat => decide (a < b)) [1, 2] [1, 2] = pure 0 ∧
    compare (fun a b : Nat => decide (a < b)) [1, 2] [1] = pure 1 := ⟨rfl, rfl, rfl⟩

end Verif.SV1
