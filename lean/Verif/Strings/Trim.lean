import Verif.Strings.Split

/-
The trimming, searching and replacing of deprecated/daw_string.h.
-/

namespace Verif.Strings
open Cxx Verif.Containers

variable {α : Type} [DecidableEq α]

/-- `std::string::npos`. (Rule of C++ or its library, no line of the source.) -/
def npos : Nat := 2 ^ 64 - 1

/-- `std::string::substr`. (Rule of C++ or its library, no line of the source.) -/
def substr (s : List α) (pos n : Nat) : Cxx (List α) :=
  if pos ≤ s.length then pure ((s.drop pos).take n) else thrown

/-- `std::string::find_first_not_of`. (Rule of C++ or its library, no line of the source.) -/
def findFirstNotOf (s d : List α) : Nat := (s.findIdx? (fun c => decide (c ∉ d))).getD npos

/-- `std::string::find_last_not_of`. (Rule of C++ or its library, no line of the source.) -/
def findLastNotOf (s d : List α) : Nat :=
  match s.reverse.findIdx? (fun c => decide (c ∉ d)) with
  | some i => s.length - 1 - i
  | none => npos

/-- `std::string::find_last_of`. (Rule of C++ or its library, no line of the source.) -/
def findLastOf (s d : List α) : Nat :=
  match s.reverse.findIdx? (fun c => decide (c ∈ d)) with
  | some i => s.length - 1 - i
  | none => npos

/-- `standard_split_delimiters`, deprecated/daw_string.h 280-286, as a `std::string` made of it has them: the `\0` ends the text. -/
def standardDelimiters : List Nat := [32, 12, 10, 13, 9, 11]

/-- `trim_right_copy`, deprecated/daw_string.h 292-300, and `trim_right`, 306-313. -/
def trimRight (s d : List α) : Cxx (List α) :=
  if s = [] then pure s else substr s 0 (addSize (findLastNotOf s d) 1)

/-- `trim_left_copy`, deprecated/daw_string.h 318-326, and `trim_left`, 332-339. -/
def trimLeft (s d : List α) : Cxx (List α) :=
  if s = [] then pure s else substr s (findFirstNotOf s d) npos

/-- `trim`, deprecated/daw_string.h 349-360, and `trim_copy`, 366-371. -/
def trim (s d : List α) : Cxx (List α) :=
  if npos = findFirstNotOf s d then pure []
  else substr s (findFirstNotOf s d) (addSize (subSize (findLastNotOf s d) (findFirstNotOf s d)) 1)

/-- `ends_with_t::operator( )` for a character, deprecated/daw_string.h 213-216. -/
def endsWithChar (s : List α) (c : α) : Cxx Bool :=
  if 0 < s.length then do
    let x ← rd s (s.length - 1)
    pure (decide (c = x))
  else pure false

/-- `ends_with_t::operator( )` for a text, deprecated/daw_string.h 218-222. -/
def endsWith (s e : List α) : Bool :=
  decide (npos ≠ findLastOf s e) && decide (findLastOf s e = subSize s.length 1)

/-- The search of `std::string::find` in what is left of the text. (Rule of C++ or its library, no line of the source.) -/
def findIn (x : List α) : List α → Option Nat
  | [] => if x = [] then some 0 else none
  | c :: s => if x.isPrefixOf (c :: s) then some 0 else (findIn x s).map (· + 1)

/-- `std::string::find`. (Rule of C++ or its library, no line of the source.) -/
def find (s x : List α) (pos : Nat) : Option Nat :=
  if pos ≤ s.length then (findIn x (s.drop pos)).map (· + pos) else none

/-- `std::string::replace` of `n` characters, for texts of at most `m` characters. (Rule of C++ or its library, no line of the source.) -/
def replace (m : Nat) (s : List α) (pos n : Nat) (y : List α) : Cxx (List α) :=
  if pos ≤ s.length then
    if (s.take pos ++ y ++ s.drop (pos + n)).length ≤ m then pure (s.take pos ++ y ++ s.drop (pos + n)) else thrown
  else thrown

/-- The loop of `search_replace`, deprecated/daw_string.h 401-405. -/
def replaceLoop (m : Nat) (x y : List α) (s : List α) (pos : Nat) : Cxx (List α) := do
  match find s x pos with
  | none => pure s
  | some p =>
    let s ← replace m s p x.length y
    replaceLoop m x y s (addSize p y.length)
partial_fixpoint

/-- `search_replace`, deprecated/daw_string.h 385-406, and `search_replace_copy`, 411-416: `m` is `max_size( )`. -/
def searchReplace (m : Nat) (s x y : List α) : Cxx (List α) := replaceLoop m x y s 0

/-- `contains`, deprecated/daw_string.h 376-380, and `in`, 342-344. -/
def contains (s x : List α) : Bool := (find s x 0).isSome

/-! ### Trimming -/

theorem findFirstNotOf_hit (d r : List α) (c : α) (hc : c ∉ d) (a : List α) (h : ∀ x ∈ a, x ∈ d) :
    (a ++ c :: r).findIdx? (fun c => decide (c ∉ d)) = some a.length := by
  induction a with
  | nil => simp [List.findIdx?_cons, hc]
  | cons x a ih =>
    rw [List.cons_append, List.findIdx?_cons, if_neg (by simp [h x (List.mem_cons_self ..)]),
      ih fun e he => h e (List.mem_cons_of_mem _ he)]
    rfl

theorem findFirstNotOf_none (d a : List α) (h : ∀ x ∈ a, x ∈ d) : a.findIdx? (fun c => decide (c ∉ d)) = none := by
  rw [List.findIdx?_eq_none_iff]
  intro x hx
  simp [h x hx]

/-- A text is blanks only, or has blanks, a first and a last other character and blanks. -/
theorem parts (d : List α) : ∀ s : List α, (∀ x ∈ s, x ∈ d) ∨ ∃ a c r, s = a ++ c :: r ∧ (∀ x ∈ a, x ∈ d) ∧ c ∉ d
  | [] => by simp
  | c :: s => by
    by_cases hc : c ∈ d
    · rcases parts d s with h | ⟨a, e, r, h1, h2, h3⟩
      · left
        intro x hx
        rcases List.mem_cons.mp hx with e | e
        · exact e ▸ hc
        · exact h x e
      · right
        refine ⟨c :: a, e, r, by simp [h1], ?_, h3⟩
        intro x hx
        rcases List.mem_cons.mp hx with e | e
        · exact e ▸ hc
        · exact h2 x e
    · right
      exact ⟨[], c, s, rfl, by simp, hc⟩

theorem parts_rev (d s : List α) : (∀ x ∈ s, x ∈ d) ∨ ∃ r c b, s = r ++ c :: b ∧ (∀ x ∈ b, x ∈ d) ∧ c ∉ d := by
  rcases parts d s.reverse with h | ⟨a, c, r, h1, h2, h3⟩
  · left
    intro x hx
    exact h x (by simpa using hx)
  · right
    refine ⟨r.reverse, c, a.reverse, ?_, by simpa using h2, h3⟩
    rw [← List.reverse_reverse s, h1]
    simp

theorem findLastNotOf_hit (d r b : List α) (c : α) (hc : c ∉ d) (h : ∀ x ∈ b, x ∈ d) :
    findLastNotOf (r ++ c :: b) d = r.length := by
  have : (r ++ c :: b).reverse = b.reverse ++ c :: r.reverse := by simp
  rw [findLastNotOf, this, findFirstNotOf_hit d r.reverse c hc b.reverse (by simpa using h)]
  simp

/-- C240: `trim_right` takes the delimiters at the end away, and nothing else, also if there is nothing else. -/
theorem C240_right (s d : List α) (hs : s.length < npos) :
    ∃ t b, trimRight s d = pure t ∧ s = t ++ b ∧ (∀ x ∈ b, x ∈ d) ∧ (∀ u c, t = u ++ [c] → c ∉ d) := by
  unfold npos at hs
  by_cases he : s = []
  · exact ⟨[], [], by simp [trimRight, he], by simp [he], by simp, by simp⟩
  · rcases parts_rev d s with h | ⟨r, c, b, h1, h2, h3⟩
    · refine ⟨[], s, ?_, rfl, h, by simp⟩
      have : findLastNotOf s d = npos := by
        rw [findLastNotOf, findFirstNotOf_none d s.reverse (by simpa using h)]
      rw [trimRight, if_neg he, this, substr, if_pos (Nat.zero_le _)]
      rfl
    · refine ⟨r ++ [c], b, ?_, by simp [h1], h2, ?_⟩
      · rw [trimRight, if_neg he, h1, findLastNotOf_hit d r b c h3 h2, substr, if_pos (Nat.zero_le _)]
        have hl : r.length + 1 < 2 ^ 64 := by
          rw [h1] at hs
          simp at hs
          omega
        rw [addSize_of_lt hl]
        have : r ++ c :: b = (r ++ [c]) ++ b := by simp
        rw [this, List.drop_zero]
        congr 1
        exact List.take_left' (by simp)
      · intro u e hu
        have := List.append_inj_right' hu rfl
        simp at this
        exact this ▸ h3

example : trimRight [97, 32, 98, 32, 10] standardDelimiters = pure [97, 32, 98] ∧
    trimRight [32, 10] standardDelimiters = pure [] := ⟨by decide +kernel, by decide +kernel⟩

/-- C240: `trim_left` takes the delimiters at the start away, and nothing else, if there is something else. -/
theorem C240_left_partial (s d : List α) (hs : s.length < npos) (hne : s = [] ∨ ∃ c ∈ s, c ∉ d) :
    ∃ a t, trimLeft s d = pure t ∧ s = a ++ t ∧ (∀ x ∈ a, x ∈ d) ∧ (∀ c u, t = c :: u → c ∉ d) := by
  by_cases he : s = []
  · exact ⟨[], [], by simp [trimLeft, he], by simp [he], by simp, by simp⟩
  · rcases parts d s with h | ⟨a, c, r, h1, h2, h3⟩
    · rcases hne with e | ⟨c, hc, hn⟩
      · exact absurd e he
      · exact absurd (h c hc) hn
    · refine ⟨a, c :: r, ?_, h1, h2, ?_⟩
      · have hf : findFirstNotOf s d = a.length := by
          rw [findFirstNotOf, h1, findFirstNotOf_hit d r c h3 a h2]
          rfl
        rw [trimLeft, if_neg he, hf, substr, if_pos (by rw [h1]; simp)]
        have : s.drop a.length = c :: r := by rw [h1]; simp
        rw [this, List.take_of_length_le]
        rw [h1] at hs
        simp at hs ⊢
        omega
      · intro e u hu
        injection hu with e1
        exact e1 ▸ h3

example : trimLeft [32, 97, 32] standardDelimiters = pure [97, 32] := by decide +kernel

/-- C240 is violated by `trim_left` for every text of delimiters only: it throws, where `trim_right` and `trim` give the empty text. -/
theorem C240_left_violated (s d : List α) (hs : s.length < npos) (hne : s ≠ []) (h : ∀ x ∈ s, x ∈ d) :
    trimLeft s d = thrown ∧ trimRight s d = pure [] ∧ trim s d = pure [] := by
  have h1 : findFirstNotOf s d = npos := by
    rw [findFirstNotOf, findFirstNotOf_none d s h]
    rfl
  refine ⟨?_, ?_, ?_⟩
  · rw [trimLeft, if_neg hne, h1, substr, if_neg (by omega)]
  · obtain ⟨t, b, e1, e2, _, e4⟩ := C240_right s d hs
    have : t = [] := by
      rcases List.eq_nil_or_concat t with e | ⟨u, c, e⟩
      · exact e
      · have e' : t = u ++ [c] := by simpa using e
        exact absurd (h c (by rw [e2, e']; simp)) (e4 u c e')
    rw [e1, this]
  · rw [trim, if_pos h1.symm]

example : trimLeft [32, 32] standardDelimiters = thrown := by decide +kernel

/-- C240: `trim` takes the delimiters at both ends away, and nothing else. -/
theorem C240_trim (s d : List α) (hs : s.length < npos) :
    ∃ a t b, trim s d = pure t ∧ s = a ++ t ++ b ∧ (∀ x ∈ a, x ∈ d) ∧ (∀ x ∈ b, x ∈ d) ∧
      (∀ c u, t = c :: u → c ∉ d) ∧ (∀ u c, t = u ++ [c] → c ∉ d) := by
  unfold npos at hs
  rcases parts d s with h | ⟨a, c, r, h1, h2, h3⟩
  · refine ⟨s, [], [], ?_, by simp, h, by simp, by simp, by simp⟩
    rw [trim, findFirstNotOf, findFirstNotOf_none d s h]
    rfl
  · have hf : findFirstNotOf s d = a.length := by
      rw [findFirstNotOf, h1, findFirstNotOf_hit d r c h3 a h2]
      rfl
    have hl : a.length < s.length := by rw [h1]; simp
    rcases parts_rev d (c :: r) with h | ⟨m, e, b, k1, k2, k3⟩
    · exact absurd (h c (List.mem_cons_self ..)) h3
    · refine ⟨a, m ++ [e], b, ?_, by rw [h1, k1]; simp, h2, k2, ?_, ?_⟩
      · have hs' : s = (a ++ m) ++ e :: b := by rw [h1, k1]; simp
        have hg : findLastNotOf s d = a.length + m.length := by
          rw [hs', findLastNotOf_hit d (a ++ m) b e k3 k2]
          simp
        have hlen : s.length = a.length + m.length + (b.length + 1) := by rw [hs']; simp; omega
        rw [trim, if_neg (by rw [hf]; unfold npos; omega), hf, hg, subSize_of_le (by omega) (by omega),
          Nat.add_sub_cancel_left, addSize_of_lt (by omega), substr, if_pos (by omega)]
        have : s.drop a.length = (m ++ [e]) ++ b := by rw [hs']; simp
        rw [this]
        congr 1
        exact List.take_left' (by simp)
      · intro x u hu
        have : x = c := by
          have h5 : c :: r = (m ++ [e]) ++ b := by rw [k1]; simp
          rw [hu] at h5
          injection h5 with h6
          exact h6.symm
        exact this ▸ h3
      · intro u x hu
        have := List.append_inj_right' hu rfl
        simp at this
        exact this ▸ k3

example : trim [32, 97, 32, 98, 10] standardDelimiters = pure [97, 32, 98] := by decide +kernel

/-- C240, with the standard delimiters: what `trim` takes away are the blank and the characters from tab to carriage return, which are those
of `std::isspace`, and it leaves none of them at the ends. -/
theorem C240_standard (s : List Nat) (hs : s.length < 2 ^ 64 - 1) :
    ∃ a t b, trim s standardDelimiters = pure t ∧ s = a ++ t ++ b ∧ (∀ x ∈ a ++ b, x = 32 ∨ 9 ≤ x ∧ x ≤ 13) ∧
      (∀ c u, t = c :: u → ¬(c = 32 ∨ 9 ≤ c ∧ c ≤ 13)) ∧ (∀ u c, t = u ++ [c] → ¬(c = 32 ∨ 9 ≤ c ∧ c ≤ 13)) := by
  have hd : ∀ x, x ∈ standardDelimiters ↔ x = 32 ∨ 9 ≤ x ∧ x ≤ 13 := by
    intro x
    simp only [standardDelimiters, List.mem_cons, List.not_mem_nil, or_false]
    omega
  obtain ⟨a, t, b, h1, h2, h3, h4, h5, h6⟩ := C240_trim s standardDelimiters hs
  refine ⟨a, t, b, h1, h2, fun x hx => (hd x).1 ?_, fun c u e => by rw [← hd]; exact h5 c u e, fun u c e => by rw [← hd]; exact h6 u c e⟩
  rcases List.mem_append.1 hx with h | h
  · exact h3 x h
  · exact h4 x h

example : trim [11, 9, 97, 32, 98, 13, 12] standardDelimiters = pure [97, 32, 98] := by decide +kernel

/-- C240, finding: the `\0` of the standard delimiters is none of them, so that it stays at the end of a text. -/
theorem C240_zero_finding : 0 ∉ standardDelimiters ∧ trim [97, 0] standardDelimiters = pure [97, 0] :=
  ⟨by decide, by decide +kernel⟩

/-! ### The end of a text -/

/-- C241: `ends_with` for a character says whether it is the last one. -/
theorem C241_char (s : List α) (c : α) : ∃ b, endsWithChar s c = pure b ∧ (b = true ↔ ∃ u, s = u ++ [c]) := by
  rcases List.eq_nil_or_concat s with h | ⟨u, x, h⟩
  · refine ⟨false, by simp [endsWithChar, h], by simp [h]⟩
  · have h' : s = u ++ [x] := by simpa using h
    refine ⟨decide (c = x), ?_, ?_⟩
    · rw [endsWithChar, if_pos (by rw [h']; simp), rd_eq (by rw [h']; simp)]
      simp [h']
    · rw [h']
      constructor
      · intro e
        exact ⟨u, by rw [of_decide_eq_true e]⟩
      · rintro ⟨v, e⟩
        have := List.append_inj_right' e rfl
        simp at this
        simp [this]

example : endsWithChar [97, 98] 98 = pure true := by decide +kernel

theorem endsWith_last (u e : List α) (x : α) (hs : u.length + 1 < npos) : endsWith (u ++ [x]) e = decide (x ∈ e) := by
  unfold npos at hs
  have hlen : subSize (u ++ [x]).length 1 = u.length := by
    rw [List.length_append, List.length_singleton, subSize_of_le (by omega) (by omega)]
    omega
  by_cases hx : x ∈ e
  · have : findLastOf (u ++ [x]) e = u.length := by
      simp [findLastOf, List.findIdx?_cons, hx]
    have hn : npos ≠ u.length := by
      unfold npos
      omega
    rw [endsWith, this, hlen, decide_eq_true hx, decide_eq_true hn, decide_eq_true rfl]
    rfl
  · have : findLastOf (u ++ [x]) e ≠ u.length ∨ findLastOf (u ++ [x]) e = npos := by
      rw [findLastOf]
      simp only [List.reverse_append, List.reverse_cons, List.reverse_nil, List.nil_append, List.singleton_append]
      rw [List.findIdx?_cons, if_neg (by simp [hx])]
      cases hf : u.reverse.findIdx? (fun c => decide (c ∈ e)) with
      | none => right; rfl
      | some i =>
        left
        have := (List.findIdx?_eq_some_iff_findIdx_eq.mp hf).1
        simp at this ⊢
        omega
    rw [endsWith, hlen, decide_eq_false hx]
    rcases this with e | e
    · simp [e]
    · simp [e]

/-- C241: for a text of one character `ends_with` says whether the text ends with it. -/
theorem C241_text_partial (s : List α) (c : α) (hs : s.length < npos) : endsWith s [c] = true ↔ ∃ u, s = u ++ [c] := by
  rcases List.eq_nil_or_concat s with h | ⟨u, x, h⟩
  · simp [h, endsWith, findLastOf]
  · have h' : s = u ++ [x] := by simpa using h
    rw [h', endsWith_last u [c] x (by rw [h'] at hs; simpa using hs)]
    constructor
    · intro e
      refine ⟨u, ?_⟩
      simp at e
      rw [e]
    · rintro ⟨v, e⟩
      have := List.append_inj_right' e rfl
      simp at this
      simp [this]

example : endsWith [97, 98] [98] = true := by decide +kernel

/-- C241 is violated by texts of several characters: the last one of the text can be any of them, in any place. -/
theorem C241_text_violated (u e : List α) (x : α) (hs : u.length + 1 < npos) (hx : x ∈ e) (hn : ∀ v, u ++ [x] ≠ v ++ e) :
    endsWith (u ++ [x]) e = true ∧ ¬∃ v, u ++ [x] = v ++ e := by
  refine ⟨?_, fun ⟨v, h⟩ => hn v h⟩
  rw [endsWith_last u e x hs, decide_eq_true hx]

example : endsWith [97, 98, 99] [99, 100] = true := by decide +kernel

/-- C241 is violated by the empty ending, which every text has. -/
theorem C241_empty_violated (s : List α) : endsWith s [] = false := by
  have : findLastOf s [] = npos := by
    have h : s.reverse.findIdx? (fun c => decide (c ∈ ([] : List α))) = none := by
      rw [List.findIdx?_eq_none_iff]
      simp
    rw [findLastOf, h]
  simp [endsWith, this]

/-! ### Replacing -/

/-- `x` is in the text at the position `i`. (Specification, no line of the source.) -/
def OccursAt (x s : List α) (i : Nat) : Prop := ∃ u v, s = u ++ x ++ v ∧ u.length = i

/-- `t` is `s` with every `x`, from the left, replaced by `y`. (Specification, no line of the source.) -/
inductive Replaced (x y : List α) : List α → List α → Prop
  | done (s : List α) (h : ∀ i, ¬OccursAt x s i) : Replaced x y s s
  | step (a r t : List α) (h : ∀ i, OccursAt x (a ++ x ++ r) i → a.length ≤ i) (k : Replaced x y r t) :
      Replaced x y (a ++ x ++ r) (a ++ y ++ t)

omit [DecidableEq α] in
theorem occursAt_cons (x s : List α) (c : α) (i : Nat) : OccursAt x (c :: s) (i + 1) ↔ OccursAt x s i := by
  constructor
  · rintro ⟨u, v, h1, h2⟩
    cases u with
    | nil => simp at h2
    | cons e u =>
      refine ⟨u, v, ?_, by simpa using h2⟩
      simp at h1
      simp [h1.2]
  · rintro ⟨u, v, h1, h2⟩
    exact ⟨c :: u, v, by simp [h1], by simp [h2]⟩

omit [DecidableEq α] in
theorem occursAt_zero (x s : List α) : OccursAt x s 0 ↔ x <+: s := by
  constructor
  · rintro ⟨u, v, h1, h2⟩
    have : u = [] := List.length_eq_zero_iff.mp h2
    subst this
    exact ⟨v, by simp [h1]⟩
  · rintro ⟨v, h⟩
    exact ⟨[], v, by simp [h], rfl⟩

theorem findIn_none (x : List α) : ∀ s : List α, findIn x s = none ↔ ∀ i, ¬OccursAt x s i
  | [] => by
    rw [findIn]
    by_cases hx : x = []
    · rw [if_pos hx]
      simp only [reduceCtorEq, false_iff]
      intro h
      exact h 0 ⟨[], [], by simp [hx], rfl⟩
    · rw [if_neg hx]
      simp only [true_iff]
      rintro i ⟨u, v, h, _⟩
      simp at h
      exact hx h.2.1
  | c :: s => by
    rw [findIn]
    by_cases hp : x <+: c :: s
    · rw [if_pos (List.isPrefixOf_iff_prefix.mpr hp)]
      simp only [reduceCtorEq, false_iff]
      intro h
      exact h 0 ((occursAt_zero x _).mpr hp)
    · rw [if_neg (fun e => hp (List.isPrefixOf_iff_prefix.mp e)), Option.map_eq_none_iff, findIn_none x s]
      constructor
      · intro h i
        cases i with
        | zero => exact fun e => hp ((occursAt_zero x _).mp e)
        | succ i => exact fun e => h i ((occursAt_cons x s c i).mp e)
      · intro h i e
        exact h (i + 1) ((occursAt_cons x s c i).mpr e)

theorem findIn_some (x : List α) : ∀ (s : List α) (k : Nat),
    findIn x s = some k ↔ OccursAt x s k ∧ ∀ i, OccursAt x s i → k ≤ i
  | [], k => by
    rw [findIn]
    by_cases hx : x = []
    · rw [if_pos hx]
      constructor
      · intro h
        injection h with h
        subst h
        exact ⟨⟨[], [], by simp [hx], rfl⟩, fun i _ => Nat.zero_le i⟩
      · rintro ⟨⟨u, v, h1, h2⟩, _⟩
        simp at h1
        simp [h1.1] at h2
        rw [← h2]
    · rw [if_neg hx]
      simp only [reduceCtorEq, false_iff]
      rintro ⟨⟨u, v, h, _⟩, _⟩
      simp at h
      exact hx h.2.1
  | c :: s, k => by
    rw [findIn]
    by_cases hp : x <+: c :: s
    · rw [if_pos (List.isPrefixOf_iff_prefix.mpr hp)]
      have h0 := (occursAt_zero x _).mpr hp
      constructor
      · intro h
        injection h with h
        subst h
        exact ⟨h0, fun i _ => Nat.zero_le i⟩
      · rintro ⟨_, h⟩
        have := h 0 h0
        rw [Nat.le_zero.mp this]
    · rw [if_neg (fun e => hp (List.isPrefixOf_iff_prefix.mp e)), Option.map_eq_some_iff]
      constructor
      · rintro ⟨j, h, e⟩
        subst e
        obtain ⟨h1, h2⟩ := (findIn_some x s j).mp h
        refine ⟨(occursAt_cons x s c j).mpr h1, ?_⟩
        intro i hi
        cases i with
        | zero => exact absurd ((occursAt_zero x _).mp hi) hp
        | succ i =>
          have := h2 i ((occursAt_cons x s c i).mp hi)
          omega
      · rintro ⟨h1, h2⟩
        cases k with
        | zero => exact absurd ((occursAt_zero x _).mp h1) hp
        | succ k =>
          refine ⟨k, (findIn_some x s k).mpr ⟨(occursAt_cons x s c k).mp h1, ?_⟩, rfl⟩
          intro i hi
          have := h2 (i + 1) ((occursAt_cons x s c i).mpr hi)
          omega

/-- C242: `contains` says whether a text is part of another one. -/
theorem C242_contains (s x : List α) : contains s x = true ↔ ∃ u v, s = u ++ x ++ v := by
  rw [contains, find, if_pos (Nat.zero_le _), List.drop_zero]
  cases h : findIn x s with
  | none =>
    simp only [Option.map_none, Option.isSome_none, Bool.false_eq_true, false_iff]
    rintro ⟨u, v, e⟩
    exact (findIn_none x s).mp h u.length ⟨u, v, e, rfl⟩
  | some k =>
    simp only [Option.map_some, Option.isSome_some, true_iff]
    obtain ⟨⟨u, v, e, _⟩, _⟩ := (findIn_some x s k).mp h
    exact ⟨u, v, e⟩

example : contains [97, 98, 99] [98, 99] = true ∧ contains [97, 98, 99] [99, 98] = false := ⟨by decide, by decide⟩

/-- Every text has a replacement. -/
theorem replaced_exists (x y : List α) (hx : x ≠ []) : ∀ (n : Nat) (s : List α), s.length ≤ n → ∃ t, Replaced x y s t
  | n, s, hn => by
    have hx' : 0 < x.length := List.length_pos_iff.mpr hx
    cases h : findIn x s with
    | none => exact ⟨s, .done s ((findIn_none x s).mp h)⟩
    | some k =>
      obtain ⟨⟨u, v, e1, e2⟩, h2⟩ := (findIn_some x s k).mp h
      subst e1
      have hl : v.length < n := by
        simp at hn
        omega
      cases n with
      | zero => omega
      | succ n =>
        obtain ⟨t, ht⟩ := replaced_exists x y hx n v (by omega)
        exact ⟨u ++ y ++ t, .step u v t (fun i hi => e2 ▸ h2 i hi) ht⟩

theorem replaceLoop_eq (m : Nat) (x y : List α) (hm : m < npos) {s t : List α} (h : Replaced x y s t) :
    ∀ z : List α, (z ++ s).length ≤ m → (z ++ t).length ≤ m → replaceLoop m x y (z ++ s) z.length = pure (z ++ t) := by
  unfold npos at hm
  induction h with
  | done s h =>
    intro z _ _
    have : find (z ++ s) x z.length = none := by
      rw [find, if_pos (by simp), List.drop_left, (findIn_none x s).mpr h]
      rfl
    rw [replaceLoop, this]
  | step a r t h k ih =>
    intro z h1 h2
    have hf : find (z ++ (a ++ x ++ r)) x z.length = some (a.length + z.length) := by
      have : findIn x (a ++ x ++ r) = some a.length := (findIn_some x _ _).mpr ⟨⟨a, r, rfl, rfl⟩, h⟩
      rw [find, if_pos (by simp), List.drop_left, this]
      rfl
    have h3 : (z ++ (a ++ x ++ r)).take (a.length + z.length) = z ++ a := by
      have : z ++ (a ++ x ++ r) = (z ++ a) ++ (x ++ r) := by simp
      rw [this, List.take_left' (by simp; omega)]
    have h4 : (z ++ (a ++ x ++ r)).drop (a.length + z.length + x.length) = r := by
      have : z ++ (a ++ x ++ r) = (z ++ a ++ x) ++ r := by simp
      rw [this, List.drop_left' (by simp; omega)]
    have hle : ∀ (r t : List α), Replaced x y r t → (x.length ≤ y.length → r.length ≤ t.length) ∧ (y.length ≤ x.length → t.length ≤ r.length) := by
      intro r t h
      induction h with
      | done => exact ⟨fun _ => Nat.le_refl _, fun _ => Nat.le_refl _⟩
      | step a r t _ _ ih =>
        constructor
        · intro hl
          have := ih.1 hl
          simp
          omega
        · intro hl
          have := ih.2 hl
          simp
          omega
    have h5 : (z ++ a ++ y ++ r).length ≤ m := by
      obtain ⟨e1, e2⟩ := hle r t k
      simp at h1 h2 ⊢
      rcases Nat.le_total x.length y.length with hl | hl
      · have := e1 hl
        omega
      · omega
    rw [replaceLoop, hf]
    simp only
    rw [replace, if_pos (by simp; omega), h3, h4, if_pos h5, pure_bind]
    have h6 : addSize (a.length + z.length) y.length = (z ++ a ++ y).length := by
      simp at h5
      rw [addSize_of_lt (by omega)]
      simp
      omega
    rw [h6, ih (z ++ a ++ y) (by simpa using h5) (by simpa using h2)]
    simp

/-- C243: `search_replace` replaces every occurrence of a text that is not empty, from the left, once; what was written is not searched
again. -/
theorem C243_replace_partial (m : Nat) (s x y : List α) (hx : x ≠ []) (hm : m < npos) (hs : s.length ≤ m) :
    (∃ t, Replaced x y s t) ∧ ∀ t, Replaced x y s t → t.length ≤ m → searchReplace m s x y = pure t := by
  refine ⟨replaced_exists x y hx s.length s (Nat.le_refl _), ?_⟩
  intro t h ht
  exact replaceLoop_eq m x y hm h [] hs ht

example : Replaced [97, 97] [97] [97, 97, 97, 97, 98] [97, 97, 98] := by
  refine .step [] [97, 97, 98] [97, 98] (fun i _ => Nat.zero_le i) (.step [] [98] [98] (fun i _ => Nat.zero_le i) (.done _ ?_))
  rintro i ⟨u, v, h, _⟩
  have := congrArg List.length h
  simp at this
  omega

/-- C243 is violated for an empty text to search and nothing to replace it with: the loop does not end. -/
theorem C243_empty_violated (m : Nat) (s : List α) (hs : s.length ≤ m) : searchReplace m s [] [] = diverge := by
  have hf : find s ([] : List α) 0 = some 0 := by
    rw [find, if_pos (Nat.zero_le _), List.drop_zero]
    cases s <;> rfl
  have step : ∀ g : List α → Nat → Cxx (List α),
      (do match find s ([] : List α) 0 with
          | none => pure s
          | some p =>
            let s ← replace m s p ([] : List α).length []
            g s (addSize p ([] : List α).length)) = g s 0 := by
    intro g
    rw [hf]
    simp only
    rw [replace, if_pos (Nat.zero_le _), if_pos (by simpa using hs)]
    simp [addSize]
  have := replaceLoop.fixpoint_induct (α := α) m [] [] (fun g => ∀ a b, a = s → b = 0 → g a b = diverge)
    (Cxx.admissible2 (fun a b (v : Cxx (List α)) => a = s → b = 0 → v = diverge) (fun _ _ _ _ => rfl)) (by
      rintro g hg a b ha hb
      rw [ha, hb]
      exact (step g).trans (hg s 0 rfl rfl))
  exact this s 0 rfl rfl

example : searchReplace 100 [97, 98] [] [] = diverge := C243_empty_violated 100 _ (by decide)

/-- C243 is violated for an empty text to search and something to replace it with: the text grows until there is no more room. -/
theorem C243_insert_violated (m : Nat) (s y : List α) (hm : m < npos) (hs : s.length ≤ m) (hy : y ≠ []) :
    searchReplace m s [] y = thrown := by
  unfold npos at hm
  have hy' : 0 < y.length := List.length_pos_iff.mpr hy
  have aux : ∀ (n : Nat) (s : List α) (pos : Nat), m - s.length ≤ n → s.length ≤ m → pos ≤ s.length →
      replaceLoop m [] y s pos = thrown := by
    intro n
    induction n with
    | zero =>
      intro s pos h1 h2 h3
      have hf : find s ([] : List α) pos = some pos := by
        rw [find, if_pos h3]
        cases s.drop pos <;> simp [findIn]
      rw [replaceLoop, hf]
      simp only
      rw [replace, if_pos h3, if_neg]
      · rfl
      · simp
        omega
    | succ n ih =>
      intro s pos h1 h2 h3
      have hf : find s ([] : List α) pos = some pos := by
        rw [find, if_pos h3]
        cases s.drop pos <;> simp [findIn]
      rw [replaceLoop, hf]
      simp only
      rw [replace, if_pos h3]
      by_cases hl : (s.take pos ++ y ++ s.drop (pos + ([] : List α).length)).length ≤ m
      · rw [if_pos hl, pure_bind]
        simp at hl
        apply ih
        · simp
          omega
        · simp
          omega
        · rw [addSize_of_lt (by omega)]
          simp
          omega
      · rw [if_neg hl]
        rfl
  exact aux _ s 0 (Nat.le_refl _) hs (Nat.zero_le _)

example : searchReplace 100 [97, 98] [] [45] = thrown := C243_insert_violated 100 _ _ (by decide) (by decide) (by decide)

end Verif.Strings
