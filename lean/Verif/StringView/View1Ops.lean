import Verif.StringView.View1

/-
The members of the first string view that change or cut it, and splitting, include/daw/deprecated/daw_string_view1.h.  A
view is an offset and a length in the characters `m` it looks at.
-/

namespace Verif.SV1
open Cxx Verif.SV

variable {α : Type}

/-- `m_first` and `m_last`, daw_string_view1.h 164-165, as an offset and a length. -/
structure View where
  off : Nat
  len : Nat
  deriving DecidableEq

namespace View

/-- The default constructed view, daw_string_view1.h 189; its pointers are null, which an offset cannot say. -/
def null : View := ⟨0, 0⟩

/-- The characters of a view. (Specification, no line of the source.) -/
def text (m : List α) (v : View) : List α := (m.drop v.off).take v.len

/-- `(std::min)( n, size( ) )`; `none` is `npos`, which exceeds every size.
(Rule of C++ or its library, no line of the source.) -/
def clip (v : View) : Option Nat → Nat
  | some n => min n v.len
  | none => v.len

/-- `remove_prefix( n )`, daw_string_view1.h 390-392, with `dec_front`, 145-153. -/
def removePrefix (v : View) (n : Option Nat) : View := ⟨v.off + v.clip n, v.len - v.clip n⟩

/-- `remove_suffix( n )`, daw_string_view1.h 398-400, with `dec_back`, 155-162. -/
def removeSuffix (v : View) (n : Option Nat) : View := ⟨v.off, v.len - v.clip n⟩

/-- `substr( pos, count )`, daw_string_view1.h 586-593. -/
def substr (v : View) (pos : Nat) (count : Option Nat) : Cxx View :=
  if pos ≤ v.len then
    pure ⟨v.off + pos, match count with
      | some n => min n (v.len - pos)
      | none => v.len - pos⟩
  else thrown

/-- `resize( n )`, daw_string_view1.h 561-564. -/
def resize (v : View) (n : Nat) : Cxx View := if n < v.len then pure ⟨v.off, n⟩ else thrown

/-- `at( pos )`, daw_string_view1.h 336-340. -/
def at' (m : List α) (v : View) (pos : Nat) : Cxx α := if pos < v.len then rd m (v.off + pos) else thrown

/-- `pop_front( )`, daw_string_view1.h 411-415: the rest and the character; the character of an empty view is outside
it. -/
def popFrontChar (m : List α) (v : View) : Cxx (View × α) := do
  let c ← rd (v.text m) 0
  pure (v.removePrefix (some 1), c)

/-- `pop_back( )`, daw_string_view1.h 458-462, with `back`, 346-348. -/
def popBackChar (m : List α) (v : View) : Cxx (View × α) := do
  if v.len = 0 then ub
  else
    let c ← rd (v.text m) (v.len - 1)
    pure (v.removeSuffix (some 1), c)

/-- `pop_front( count )`, daw_string_view1.h 421-425: the rest and the result. -/
def popFront (v : View) (count : Option Nat) : Cxx (View × View) := do
  let result ← v.substr 0 count
  pure (v.removePrefix count, result)

/-- `pop_back( count )`, daw_string_view1.h 468-473. -/
def popBack (v : View) (count : Option Nat) : Cxx (View × View) := do
  let count := v.clip count
  let result ← v.substr (v.len - count) none
  pure (v.removeSuffix (some count), result)

/-- `pop_front( pred )`, daw_string_view1.h 449-456; `find_predicate_result_size` is 1, 49-52. -/
def popFrontIf (m : List α) (v : View) (p : α → Bool) : Cxx (View × View) := do
  let (v, result) ← v.popFront (findFirstOfIf p (v.text m) 0)
  pure (v.removePrefix (some 1), result)

/-- `pop_back( pred )`, daw_string_view1.h 503-515. -/
def popBackIf (m : List α) (v : View) (p : α → Bool) : Cxx (View × View) :=
  match findLastOfIf p (v.text m) none with
  | none => pure (v.removePrefix none, v)
  | some pos => do
    let result ← v.substr (pos + 1) none
    pure (v.removeSuffix (some (v.len - pos)), result)

variable [DecidableEq α]

/-- `pop_front( where )`, daw_string_view1.h 431-437. -/
def popFrontAt (m : List α) (v : View) (w : List α) : Cxx (View × View) := do
  let (v, result) ← v.popFront (← find (v.text m) w 0)
  pure (v.removePrefix (some w.length), result)

/-- `pop_back( where )`, daw_string_view1.h 479-490. -/
def popBackAt (m : List α) (v : View) (w : List α) : Cxx (View × View) := do
  match ← rfind (v.text m) w none with
  | none => pure (v.removePrefix none, v)
  | some pos =>
    let result ← v.substr (pos + w.length) none
    pure (v.removeSuffix (some (v.len - pos)), result)

/-- `try_pop_front( where )`, daw_string_view1.h 522-531. -/
def tryPopFront (m : List α) (v : View) (w : List α) : Cxx (View × View) := do
  match ← find (v.text m) w 0 with
  | none => pure (v, null)
  | some pos =>
    let (v, result) ← v.popFront (some pos)
    pure (v.removePrefix (some w.length), result)

/-- `try_pop_back( where )`, daw_string_view1.h 538-547. -/
def tryPopBack (m : List α) (v : View) (w : List α) : Cxx (View × View) := do
  match ← rfind (v.text m) w none with
  | none => pure (v, null)
  | some pos =>
    let result ← v.substr (pos + w.length) none
    pure (v.removeSuffix (some (v.len - pos)), result)

/-- `consume_front( where )`, daw_string_view1.h 553-559. -/
def consumeFront (m : List α) (v : View) (w : List α) : Cxx View := do
  let pos ← find (v.text m) w 0
  pure ((v.removePrefix pos).removePrefix (some w.length))

end View

open View

/-- The view lies in the characters. (Specification, no line of the source.) -/
def Inside (m : List α) (v : View) : Prop := v.off + v.len ≤ m.length

theorem text_length {m : List α} {v : View} (h : Inside m v) : (v.text m).length = v.len := by
  unfold Inside at h
  rw [View.text, List.length_take, List.length_drop]
  omega

/-- **C217**, the positional operations: `remove_prefix` and `remove_suffix` cut off at most the whole view, `pop_front` and
`pop_back` split the text in two, `substr` is the part asked for and throws beyond the end. -/
theorem C217_cut (m : List α) (v : View) (h : Inside m v) (n : Nat) (pos : Nat) (count : Nat) :
    (v.removePrefix (some n)).text m = (v.text m).drop n ∧ Inside m (v.removePrefix (some n)) ∧
    (v.removeSuffix (some n)).text m = (v.text m).take (v.len - n) ∧ Inside m (v.removeSuffix (some n)) ∧
    (∃ rest res, v.popFront (some n) = pure (rest, res) ∧ Inside m rest ∧ Inside m res ∧
      res.text m = (v.text m).take n ∧ rest.text m = (v.text m).drop n) ∧
    (∃ rest res, v.popBack (some n) = pure (rest, res) ∧ Inside m rest ∧ Inside m res ∧
      rest.text m = (v.text m).take (v.len - n) ∧ res.text m = (v.text m).drop (v.len - n)) ∧
    (pos ≤ v.len → ∃ res, v.substr pos (some count) = pure res ∧ Inside m res ∧
      res.text m = ((v.text m).drop pos).take count) ∧
    (v.len < pos → v.substr pos (some count) = thrown) := by
  have hT := text_length h
  unfold Inside at *
  have hpre : ∀ k, k ≤ v.len → text m ⟨v.off, k⟩ = (v.text m).take k := by
    intro k hk
    simp only [View.text, List.take_take]
    rw [Nat.min_eq_left hk]
  have hsuf : ∀ k, k ≤ v.len → text m ⟨v.off + k, v.len - k⟩ = (v.text m).drop k := by
    intro k hk
    simp only [View.text, List.drop_take, List.drop_drop]
  have hdrop : ∀ k, (v.text m).drop (min k v.len) = (v.text m).drop k := by
    intro k
    by_cases hk : k ≤ v.len
    · rw [Nat.min_eq_left hk]
    · rw [Nat.min_eq_right (by omega), List.drop_of_length_le (by omega), List.drop_of_length_le (by omega)]
  have htake : ∀ k, (v.text m).take (min k v.len) = (v.text m).take k := by
    intro k
    by_cases hk : k ≤ v.len
    · rw [Nat.min_eq_left hk]
    · rw [Nat.min_eq_right (by omega), List.take_of_length_le (by omega), List.take_of_length_le (by omega)]
  have hrp : (v.removePrefix (some n)).text m = (v.text m).drop n := by
    rw [View.removePrefix, View.clip, hsuf _ (Nat.min_le_right _ _), hdrop]
  have hrs : (v.removeSuffix (some n)).text m = (v.text m).take (v.len - n) := by
    rw [View.removeSuffix, View.clip, hpre _ (Nat.sub_le _ _), show v.len - min n v.len = v.len - n by omega]
  refine ⟨hrp, ?_, hrs, ?_, ⟨v.removePrefix (some n), ⟨v.off, min n v.len⟩, ?_, ?_, ?_, ?_, hrp⟩,
    ⟨v.removeSuffix (some n), ⟨v.off + (v.len - n), min n v.len⟩, ?_, ?_, ?_, hrs, ?_⟩, fun hp => ?_, fun hp => ?_⟩
  · simp only [View.removePrefix, View.clip]; omega
  · simp only [View.removeSuffix, View.clip]; omega
  · simp only [View.popFront, View.substr, if_pos (Nat.zero_le _), pure_bind, Nat.sub_zero, Nat.add_zero]
  · simp only [View.removePrefix, View.clip]; omega
  · simp only; omega
  · rw [hpre _ (Nat.min_le_right _ _), htake]
  · simp only [View.popBack, View.substr, View.clip, if_pos (Nat.sub_le _ _), pure_bind, View.removeSuffix,
      show v.len - min n v.len = v.len - n by omega, show v.len - (v.len - n) = min n v.len by omega,
      show v.len - min (min n v.len) v.len = v.len - n by omega]
  · simp only [View.removeSuffix, View.clip]; omega
  · simp only; omega
  · rw [← hsuf _ (Nat.sub_le _ _), show v.len - (v.len - n) = min n v.len by omega]
  · refine ⟨⟨v.off + pos, min count (v.len - pos)⟩, by simp only [View.substr, if_pos hp], by simp only; omega, ?_⟩
    simp only [View.text, List.drop_take, List.drop_drop, List.take_take]
  · rw [View.substr, if_neg (by omega)]

example : Inside [1, 2, 3, 4] ⟨1, 2⟩ ∧ (⟨1, 2⟩ : View).text [1, 2, 3, 4] = [2, 3] ∧
    (⟨1, 2⟩ : View).popFront (some 1) = pure (⟨2, 1⟩, ⟨1, 1⟩) ∧ (⟨1, 2⟩ : View).popBack (some 5) = pure (⟨1, 0⟩, ⟨1, 2⟩) :=
  ⟨by simp [Inside], rfl, rfl, rfl⟩

/-- **C217**, one character: `at` checks the position, `pop_front` and `pop_back` take the first and the last. -/
theorem C217_char (m : List α) (v : View) (h : Inside m v) (pos : Nat) :
    (pos < v.len → ∃ c, (v.text m)[pos]? = some c ∧ v.at' m pos = pure c) ∧ (v.len ≤ pos → v.at' m pos = thrown) ∧
    (0 < v.len → (∃ c, (v.text m)[0]? = some c ∧ v.popFrontChar m = pure (⟨v.off + 1, v.len - 1⟩, c)) ∧
      ∃ c, (v.text m)[v.len - 1]? = some c ∧ v.popBackChar m = pure (⟨v.off, v.len - 1⟩, c)) := by
  have hT := text_length h
  have hin : v.off + v.len ≤ m.length := h
  refine ⟨fun hp => ?_, fun hp => by rw [View.at', if_neg (by omega)], fun hl => ⟨?_, ?_⟩⟩
  · refine ⟨m[v.off + pos]'(by omega), ?_, by rw [View.at', if_pos hp, rd_eq (by omega)]⟩
    rw [View.text, List.getElem?_take_of_lt hp, List.getElem?_drop, List.getElem?_eq_getElem]
  · refine ⟨(v.text m)[0]'(by omega), List.getElem?_eq_getElem (by omega), ?_⟩
    rw [View.popFrontChar, rd_eq (by omega), pure_bind]
    simp only [View.removePrefix, View.clip, Nat.min_eq_left (show 1 ≤ v.len from hl)]
  · refine ⟨(v.text m)[v.len - 1]'(by omega), List.getElem?_eq_getElem (by omega), ?_⟩
    rw [View.popBackChar, if_neg (by omega), rd_eq (by omega), pure_bind]
    simp only [View.removeSuffix, View.clip, Nat.min_eq_left (show 1 ≤ v.len from hl)]

example := C217_char [5, 2, 8, 3, 9] ⟨1, 3⟩ (by simp [Inside]) 2

/-- C217: an empty view has neither. -/
theorem C217_char_empty_finding (m : List α) (off : Nat) :
    (⟨off, 0⟩ : View).popFrontChar m = ub ∧ (⟨off, 0⟩ : View).popBackChar m = ub := by
  refine ⟨?_, ?_⟩
  · rw [View.popFrontChar, View.text, List.take_zero, rd_oob (by simp), ub_bind]
  · rw [View.popBackChar]
    rfl

/-- C217, `resize` to less than the size.  Missing: the size itself, see `C217_resize_violated`. -/
theorem C217_resize_partial (m : List α) (v : View) (h : Inside m v) (n : Nat) :
    (n < v.len → ∃ r, v.resize n = pure r ∧ Inside m r ∧ r.text m = (v.text m).take n) ∧ (v.len ≤ n → v.resize n = thrown) := by
  have hin : v.off + v.len ≤ m.length := h
  refine ⟨fun hn => ⟨⟨v.off, n⟩, by rw [View.resize, if_pos hn], by simp only [Inside]; omega, ?_⟩,
    fun hn => by rw [View.resize, if_neg (by omega)]⟩
  simp only [View.text, List.take_take]
  rw [Nat.min_eq_left (by omega)]

example := C217_resize_partial [5, 2, 8, 3, 9] ⟨1, 3⟩ (by simp [Inside]) 2

/-- C217: to its own size a view cannot be resized, and an empty view not at all. -/
theorem C217_resize_violated (v : View) : v.resize v.len = thrown ∧ (⟨v.off, 0⟩ : View).resize 0 = thrown :=
  ⟨by rw [View.resize, if_neg (by omega)], by rw [View.resize, if_neg (by simp)]⟩

/-! ### Up to a text -/

section
variable [DecidableEq α]

omit [DecidableEq α] in
theorem occurs_bound {xs ys : List α} {i : Nat} (h : Occurs ys xs i) : i + ys.length ≤ xs.length := by
  have := h.2.length_le
  rw [List.length_drop] at this
  have := h.1
  omega

/-- **C217**, `pop_front( where )`, `try_pop_front` and `consume_front` when the first occurrence is at `i`: the part before
it is returned, and it and the part before it are removed. -/
theorem C217_front_found (m : List α) (v : View) (h : Inside m v) (w : List α) (i : Nat)
    (hi : Occurs w (v.text m) i) (hmin : ∀ j, j < i → ¬ Occurs w (v.text m) j) :
    v.popFrontAt m w = pure (⟨v.off + i + w.length, v.len - i - w.length⟩, ⟨v.off, i⟩) ∧
    v.tryPopFront m w = pure (⟨v.off + i + w.length, v.len - i - w.length⟩, ⟨v.off, i⟩) ∧
    v.consumeFront m w = pure ⟨v.off + i + w.length, v.len - i - w.length⟩ := by
  have hT := text_length h
  have hb := occurs_bound hi
  rw [hT] at hb
  have hf : find (v.text m) w 0 = pure (some i) := by
    obtain ⟨r, e, hr⟩ := C216_find_partial (v.text m) w 0 (Nat.zero_le _)
    rw [e, hr.unique (s := some i) ⟨?_, by simp⟩]
    rintro k hk
    cases hk
    exact ⟨Nat.zero_le _, by omega, hi, fun j _ hj => hmin j hj⟩
  have hp : v.popFront (some i) = pure (⟨v.off + i, v.len - i⟩, ⟨v.off, i⟩) := by
    simp only [View.popFront, View.substr, View.removePrefix, View.clip, if_pos (Nat.zero_le _), pure_bind, Nat.sub_zero,
      Nat.add_zero, Nat.min_eq_left (show i ≤ v.len by omega)]
  have hc : (⟨v.off + i, v.len - i⟩ : View).removePrefix (some w.length) =
      ⟨v.off + i + w.length, v.len - i - w.length⟩ := by
    simp only [View.removePrefix, View.clip, Nat.min_eq_left (show w.length ≤ v.len - i by omega)]
  refine ⟨?_, ?_, ?_⟩
  · rw [View.popFrontAt, hf, pure_bind, hp, pure_bind]
    simp only [hc]
  · rw [View.tryPopFront, hf, pure_bind]
    simp only [hp, pure_bind, hc]
  · rw [View.consumeFront, hf, pure_bind, ← hc]
    simp only [View.removePrefix, View.clip, Nat.min_eq_left (show i ≤ v.len by omega)]

example := C217_front_found [5, 2, 8, 2, 9] ⟨0, 4⟩ (by simp [Inside]) [2] 1 (by simp [Occurs, View.text])
  (by intro j hj; obtain rfl : j = 0 := by omega
      simp [Occurs, View.text])

/-- **C217**, the same without an occurrence: `pop_front( where )` takes everything, `consume_front` removes everything,
`try_pop_front` leaves the view. -/
theorem C217_front_missing (m : List α) (v : View) (w : List α)
    (hno : ∀ i, ¬ Occurs w (v.text m) i) :
    v.popFrontAt m w = pure (⟨v.off + v.len, 0⟩, v) ∧ v.tryPopFront m w = pure (v, View.null) ∧
    v.consumeFront m w = pure ⟨v.off + v.len, 0⟩ := by
  have hf : find (v.text m) w 0 = pure none := by
    obtain ⟨r, e, hr⟩ := C216_find_partial (v.text m) w 0 (Nat.zero_le _)
    rw [e, hr.unique (s := none) ⟨by simp, fun _ j _ _ => hno j⟩]
  have hc : (⟨v.off + v.len, 0⟩ : View).removePrefix (some w.length) = ⟨v.off + v.len, 0⟩ := by
    simp [View.removePrefix, View.clip]
  refine ⟨?_, ?_, ?_⟩
  · rw [View.popFrontAt, hf, pure_bind]
    simp only [View.popFront, View.substr, if_pos (Nat.zero_le _), pure_bind, Nat.sub_zero, Nat.add_zero]
    rw [show v.removePrefix none = ⟨v.off + v.len, 0⟩ by simp [View.removePrefix, View.clip], hc]
  · rw [View.tryPopFront, hf, pure_bind]
  · rw [View.consumeFront, hf, pure_bind, show v.removePrefix none = ⟨v.off + v.len, 0⟩ by simp [View.removePrefix, View.clip],
      hc]

example := C217_front_missing [5, 2, 8] ⟨0, 2⟩ [7] (by
  intro i hi
  simp [Occurs, View.text] at hi
  have h3 : i = 0 ∨ i = 1 ∨ i = 2 := by omega
  rcases h3 with rfl | rfl | rfl <;> simp at hi)

/-- **C217**, `pop_back( where )` and `try_pop_back` when the last occurrence is at `i`: the part behind it is returned, and
it and the part behind it are removed. -/
theorem C217_back_found (m : List α) (v : View) (h : Inside m v) (w : List α) (i : Nat)
    (hi : Occurs w (v.text m) i) (hmax : ∀ j, i < j → ¬ Occurs w (v.text m) j) :
    v.popBackAt m w = pure (⟨v.off, i⟩, ⟨v.off + (i + w.length), v.len - (i + w.length)⟩) ∧
    v.tryPopBack m w = pure (⟨v.off, i⟩, ⟨v.off + (i + w.length), v.len - (i + w.length)⟩) := by
  have hT := text_length h
  have hb := occurs_bound hi
  rw [hT] at hb
  have hf : rfind (v.text m) w none = pure (some i) := by
    obtain ⟨r, e, hr⟩ := C216_rfind (v.text m) w none
    rw [e]
    congr 1
    cases r with
    | none => exact absurd ⟨hi, by simp⟩ (hr.2 rfl i (by omega))
    | some k =>
      obtain ⟨a, b, c⟩ := hr.1 k rfl
      rcases Nat.lt_trichotomy k i with hk | hk | hk
      · exact absurd ⟨hi, by simp⟩ (c i hk (by omega))
      · rw [hk]
      · exact absurd b.1 (hmax k hk)
  have hs : v.substr (i + w.length) none = pure ⟨v.off + (i + w.length), v.len - (i + w.length)⟩ := by
    rw [View.substr, if_pos hb]
  have hr : v.removeSuffix (some (v.len - i)) = ⟨v.off, i⟩ := by
    simp only [View.removeSuffix, View.clip, show v.len - min (v.len - i) v.len = i by omega]
  refine ⟨?_, ?_⟩
  · rw [View.popBackAt, hf, pure_bind]
    simp only [hs, pure_bind, hr]
  · rw [View.tryPopBack, hf, pure_bind]
    simp only [hs, pure_bind, hr]

/-- **C217**, the same without an occurrence: `pop_back( where )` takes everything, `try_pop_back` leaves the view. -/
theorem C217_back_missing (m : List α) (v : View) (w : List α) (hno : ∀ i, ¬ Occurs w (v.text m) i) :
    v.popBackAt m w = pure (⟨v.off + v.len, 0⟩, v) ∧ v.tryPopBack m w = pure (v, View.null) := by
  have hf : rfind (v.text m) w none = pure none := by
    obtain ⟨r, e, hr⟩ := C216_rfind (v.text m) w none
    rw [e]
    congr 1
    cases r with
    | none => rfl
    | some k => exact absurd (hr.1 k rfl).2.1.1 (hno k)
  refine ⟨?_, ?_⟩
  · rw [View.popBackAt, hf, pure_bind]
    simp [View.removePrefix, View.clip]
  · rw [View.tryPopBack, hf, pure_bind]

example : (⟨0, 5⟩ : View).popFrontAt [1, 9, 2, 9, 3] [9] = pure (⟨2, 3⟩, ⟨0, 1⟩) ∧
    (⟨0, 5⟩ : View).popBackAt [1, 9, 2, 9, 3] [9] = pure (⟨0, 3⟩, ⟨4, 1⟩) ∧
    (⟨0, 5⟩ : View).tryPopFront [1, 9, 2, 9, 3] [8] = pure (⟨0, 5⟩, View.null) ∧
    (⟨0, 5⟩ : View).consumeFront [1, 9, 2, 9, 3] [9, 2] = pure ⟨3, 2⟩ := ⟨rfl, rfl, rfl, rfl⟩

end

/-- **C217**, with a predicate: `pop_front` splits at the first character that satisfies it, `pop_back` at the last; without
one both take everything. -/
theorem C217_pred (m : List α) (v : View) (h : Inside m v) (p : α → Bool) (i : Nat) (hi : At p (v.text m) i) :
    ((∀ j, j < i → ¬ At p (v.text m) j) → v.popFrontIf m p = pure (⟨v.off + i + 1, v.len - i - 1⟩, ⟨v.off, i⟩)) ∧
    ((∀ j, i < j → ¬ At p (v.text m) j) →
      v.popBackIf m p = pure (⟨v.off, i⟩, ⟨v.off + (i + 1), v.len - (i + 1)⟩)) := by
  have hT := text_length h
  have hlt : i < v.len := by
    obtain ⟨a, ha, _⟩ := hi
    have := (List.getElem?_eq_some_iff.1 ha).1
    omega
  refine ⟨fun hmin => ?_, fun hmax => ?_⟩
  · have hs : FirstIn (At p (v.text m)) 0 (v.text m).length (findFirstOfIf p (v.text m) 0) := by
      unfold findFirstOfIf
      rw [if_neg (by omega)]
      exact first_spec _ _ _ (Nat.zero_le _)
    have hf : findFirstOfIf p (v.text m) 0 = some i := by
      refine hs.unique ⟨?_, by simp⟩
      rintro k hk
      cases hk
      exact ⟨Nat.zero_le _, by omega, hi, fun j _ hj => hmin j hj⟩
    rw [View.popFrontIf, hf]
    simp only [View.popFront, View.substr, View.removePrefix, View.clip, if_pos (Nat.zero_le _), pure_bind, Nat.sub_zero,
      Nat.add_zero, Nat.min_eq_left (show i ≤ v.len by omega), Nat.min_eq_left (show 1 ≤ v.len - i by omega)]
  · have hs : LastIn (At p (v.text m)) (v.text m).length (findLastOfIf p (v.text m) none) := last_spec p _ 0 (Nat.zero_le _)
    have hf : findLastOfIf p (v.text m) none = some i := by
      cases e : findLastOfIf p (v.text m) none with
      | none => exact absurd hi (hs.2 e i (by omega))
      | some k =>
        obtain ⟨a, b, c⟩ := hs.1 k e
        rcases Nat.lt_trichotomy k i with hk | hk | hk
        · exact absurd hi (c i hk (by omega))
        · rw [hk]
        · exact absurd b (hmax k hk)
    rw [View.popBackIf, hf]
    simp only [View.substr, if_pos (show i + 1 ≤ v.len by omega), pure_bind, View.removeSuffix, View.clip,
      show v.len - min (v.len - i) v.len = i by omega]

example := (C217_pred [5, 2, 8, 2, 9] ⟨0, 4⟩ (by simp [Inside]) (· == 2) 1 ⟨2, rfl, rfl⟩).1
  (by intro j hj; obtain rfl : j = 0 := by omega
      rintro ⟨x, hx, hp⟩
      cases hx
      simp at hp)

/-- **C217**, without a character that satisfies the predicate. -/
theorem C217_pred_missing (m : List α) (v : View) (p : α → Bool) (hno : ∀ i, ¬ At p (v.text m) i) :
    v.popFrontIf m p = pure (⟨v.off + v.len, 0⟩, v) ∧ v.popBackIf m p = pure (⟨v.off + v.len, 0⟩, v) := by
  refine ⟨?_, ?_⟩
  · have hf : findFirstOfIf p (v.text m) 0 = none := by
      unfold findFirstOfIf
      split
      · rfl
      · exact (first_spec p (v.text m) 0 (Nat.zero_le _)).unique ⟨by simp, fun _ j _ _ => hno j⟩
    rw [View.popFrontIf, hf]
    simp [View.popFront, View.substr, View.removePrefix, View.clip]
  · have hf : findLastOfIf p (v.text m) none = none := by
      have hs : LastIn (At p (v.text m)) (v.text m).length (findLastOfIf p (v.text m) none) := last_spec p _ 0 (Nat.zero_le _)
      cases e : findLastOfIf p (v.text m) none with
      | none => rfl
      | some k => exact absurd (hs.1 k e).2.1 (hno k)
    rw [View.popBackIf, hf]
    simp [View.removePrefix, View.clip]

example : (⟨0, 5⟩ : View).popFrontIf [1, 9, 2, 9, 3] (fun x => x == 9) = pure (⟨2, 3⟩, ⟨0, 1⟩) ∧
    (⟨0, 5⟩ : View).popBackIf [1, 9, 2, 9, 3] (fun x => x == 9) = pure (⟨0, 3⟩, ⟨4, 1⟩) ∧
    (⟨0, 2⟩ : View).popBackIf [1, 2] (fun x => x == 9) = pure (⟨2, 0⟩, ⟨0, 2⟩) := ⟨rfl, rfl, rfl⟩

/-! ### Prefixes and suffixes -/

section
variable [DecidableEq α]

/-- The loop of `starts_with`, daw_string_view1.h 1065-1073. -/
def startsLoop : List α → List α → Cxx Bool
  | _, [] => pure true
  | x :: xs, s :: ss => if x ≠ s then pure false else startsLoop xs ss
  | [], _ :: _ => ub

/-- `starts_with( s )`, daw_string_view1.h 1059-1074. -/
def startsWith (xs s : List α) : Cxx Bool := if s.length > xs.length then pure false else startsLoop xs s

/-- `ends_with( s )`, daw_string_view1.h 1087-1102: the loop, 1093-1101, is that of `starts_with` from the back. -/
def endsWith (xs s : List α) : Cxx Bool := if s.length > xs.length then pure false else startsLoop xs.reverse s.reverse

theorem startsLoop_eq : ∀ (xs s : List α), s.length ≤ xs.length → startsLoop xs s = pure (decide (s <+: xs)) := by
  intro xs
  induction xs with
  | nil =>
    intro s hs
    cases s with
    | nil => simp [startsLoop]
    | cons a s => simp at hs
  | cons x xs ih =>
    intro s hs
    cases s with
    | nil => simp [startsLoop]
    | cons a s =>
      rw [startsLoop]
      by_cases h : x = a
      · rw [if_neg (by simpa using h), ih s (by simpa using hs)]
        subst h
        simp [List.cons_prefix_cons]
      · rw [if_pos h]
        have : ¬ (a :: s <+: x :: xs) := by
          rw [List.cons_prefix_cons]
          exact fun hh => h hh.1.symm
        simp [this]

/-- **C217**, `starts_with` and `ends_with` decide whether the text is a prefix or a suffix. -/
theorem C217_affix (xs s : List α) : startsWith xs s = pure (decide (s <+: xs)) ∧ endsWith xs s = pure (decide (s <:+ xs)) := by
  unfold startsWith endsWith
  by_cases h : s.length > xs.length
  · rw [if_pos h, if_pos h]
    have h1 : ¬ s <+: xs := fun hh => by have := hh.length_le; omega
    have h2 : ¬ s <:+ xs := fun hh => by have := hh.length_le; omega
    simp [h1, h2]
  · rw [if_neg h, if_neg h, startsLoop_eq xs s (by omega), startsLoop_eq _ _ (by simp; omega)]
    refine ⟨rfl, ?_⟩
    congr 1
    simp [List.reverse_prefix]

example : startsWith [1, 2, 3] [1, 2] = pure true ∧ endsWith [1, 2, 3] [2, 3] = pure true ∧
    endsWith [1, 2, 3] [1, 3] = pure false := ⟨rfl, rfl, rfl⟩

end

/-! ### Splitting -/

/-- `split( str, pred )`, daw_string_view1.h 1594-1606.  `sz` is never `npos`, being at most the size, so the test in 1599
fails; and only the characters of the views are kept. -/
def split (p : α → Bool) (str : List α) : List (List α) :=
  if h : str.isEmpty then []
  else
    let sz := match findFirstOfIf p str 0 with
      | some n => min str.length n
      | none => str.length
    str.take sz :: split p (str.drop (sz + 1))
termination_by str.length
decreasing_by
  have : str ≠ [] := by simpa using h
  have := List.length_pos_iff.mpr this
  rw [List.length_drop]
  omega

/-- `split( str, d )` for a character array, daw_string_view1.h 1639-1643: all `N` characters of the array; for a literal
the last is the terminator `z`. -/
def splitLiteral (z : α) (p : α → Bool) (lit : List α) : List (List α) := split p (lit ++ [z])

/-- `make_string_view` of a character array, daw_string_view1.h 1180-1185: `N` characters, for a literal with the
terminator. -/
def makeLiteral (z : α) (lit : List α) : List α := lit ++ [z]

/-- The pieces of a text between the characters that satisfy `p`. (Specification, no line of the source.) -/
inductive Pieces (p : α → Bool) : List α → List (List α) → Prop
  | last {xs : List α} : (∀ x ∈ xs, p x = false) → Pieces p xs [xs]
  | more {a rest : List α} {d : α} {ps : List (List α)} : (∀ x ∈ a, p x = false) → p d = true → Pieces p rest ps →
      Pieces p (a ++ d :: rest) (a :: ps)

/-- The pieces without an empty last one. (Specification, no line of the source.) -/
def dropEmptyLast (ps : List (List α)) : List (List α) := if ps.getLast?.any List.isEmpty then ps.dropLast else ps

theorem Pieces.ne_nil {p : α → Bool} {xs : List α} {ps : List (List α)} (h : Pieces p xs ps) : ps ≠ [] := by
  cases h <;> simp

theorem not_at_mem {p : α → Bool} {xs : List α} {n : Nat} (h : ∀ j, j < n → ¬ At p xs j) : ∀ x ∈ xs.take n, p x = false := by
  intro x hx
  obtain ⟨j, hj, rfl⟩ := List.getElem_of_mem hx
  rw [List.length_take] at hj
  have := h j (by omega)
  rw [List.getElem_take]
  cases e : p (xs[j]'(by omega)) with
  | false => rfl
  | true => exact absurd ⟨_, List.getElem?_eq_getElem (by omega), e⟩ this

/-- **C218**: `split` gives the pieces between the delimiters in order, without the last one if that is empty; of an empty
text it gives nothing.
Missing: literals, see `C218_literal_violated`. -/
theorem C218_split_partial (p : α → Bool) (str : List α) : ∃ ps, Pieces p str ps ∧ split p str = dropEmptyLast ps := by
  induction hn : str.length using Nat.strongRecOn generalizing str with
  | _ n ih =>
    subst hn
    rw [split]
    by_cases h : str.isEmpty = true
    · have : str = [] := by simpa using h
      subst this
      exact ⟨[[]], Pieces.last (by simp), by simp [dropEmptyLast]⟩
    · rw [dif_neg h]
      have hne : str ≠ [] := by simpa using h
      have hl := List.length_pos_iff.mpr hne
      have hs : FirstIn (At p str) 0 str.length (findFirstOfIf p str 0) := by
        unfold findFirstOfIf
        rw [if_neg (by omega)]
        exact first_spec _ _ _ (Nat.zero_le _)
      cases e : findFirstOfIf p str 0 with
      | none =>
        refine ⟨[str], Pieces.last ?_, ?_⟩
        · have := not_at_mem (n := str.length) (fun j hj => hs.2 e j (Nat.zero_le _) hj)
          rwa [List.take_length] at this
        · simp only [List.take_length]
          rw [List.drop_of_length_le (by omega), split]
          simp [dropEmptyLast, hne]
      | some k =>
        obtain ⟨_, hk, ⟨d, hd, hpd⟩, hmin⟩ := hs.1 k e
        obtain ⟨ps, hps, he⟩ := ih (str.drop (k + 1)).length (by rw [List.length_drop]; omega) (str.drop (k + 1)) rfl
        have hsplit : str = str.take k ++ d :: str.drop (k + 1) := by
          obtain ⟨_, rfl⟩ := List.getElem?_eq_some_iff.1 hd
          rw [List.getElem_cons_drop, List.take_append_drop]
        refine ⟨str.take k :: ps, ?_, ?_⟩
        · have := Pieces.more (not_at_mem (n := k) (fun j hj => hmin j (Nat.zero_le _) hj)) hpd hps
          rwa [← hsplit] at this
        · simp only [Nat.min_eq_right (Nat.le_of_lt hk)]
          rw [he]
          unfold dropEmptyLast
          have hpn := hps.ne_nil
          rw [show (str.take k :: ps).getLast? = ps.getLast? by
            cases ps with
            | nil => exact absurd rfl hpn
            | cons a ps => simp [List.getLast?_cons_cons]]
          split
          · cases ps with
            | nil => exact absurd rfl hpn
            | cons a ps => rfl
          · rfl

/-- The pieces are determined, so that `C218_split_partial` says what the result is. -/
theorem C218_pieces_unique {p : α → Bool} {xs : List α} {ps qs : List (List α)} (h : Pieces p xs ps) (h' : Pieces p xs qs) :
    ps = qs := by
  induction h generalizing qs with
  | last hno =>
    cases h' with
    | last _ => rfl
    | more _ hd _ => have := hno _ (List.mem_append_right _ List.mem_cons_self); rw [hd] at this; cases this
  | @more a rest d ps ha hd _ ih =>
    generalize hx : a ++ d :: rest = xs at h'
    cases h' with
    | last hno =>
      have := hno d (by rw [← hx]; simp)
      rw [hd] at this
      cases this
    | @more b rest' d' qs hb hd' hq =>
      have key : ∀ (a b : List α), (∀ x ∈ a, p x = false) → (∀ x ∈ b, p x = false) →
          a ++ d :: rest = b ++ d' :: rest' → a = b ∧ rest = rest' := by
        intro a
        induction a with
        | nil =>
          intro b _ hb e
          cases b with
          | nil => simp at e; exact ⟨rfl, e.2⟩
          | cons y b =>
            simp at e
            have := hb y List.mem_cons_self
            rw [← e.1, hd] at this
            cases this
        | cons x a iha =>
          intro b ha hb e
          cases b with
          | nil =>
            simp at e
            have := ha x List.mem_cons_self
            rw [e.1, hd'] at this
            cases this
          | cons y b =>
            simp at e
            obtain ⟨e1, e2⟩ := iha b (fun z hz => ha z (List.mem_cons_of_mem _ hz))
              (fun z hz => hb z (List.mem_cons_of_mem _ hz)) e.2
            exact ⟨by rw [e.1, e1], e2⟩
      obtain ⟨e1, e2⟩ := key a b ha hb hx
      subst e1 e2
      rw [ih hq]

example : split (fun x => x == 0) [1, 2, 0, 0, 3] = [[1, 2], [], [3]] ∧ split (fun x => x == 0) [1, 0] = [[1]] := by
  refine ⟨?_, ?_⟩ <;> simp [split, findFirstOfIf, firstLoop, orNpos]

/-- C218 does not hold for literals: the terminator is taken for a character of the text, so that the last piece ends with
it, and of an empty literal there is one piece. -/
theorem C218_literal_violated (z : α) (p : α → Bool) (hz : p z = false) (lit : List α) :
    (∃ ps last, Pieces p lit (ps ++ [last]) ∧ splitLiteral z p lit = ps ++ [last ++ [z]]) ∧
    makeLiteral z lit ≠ lit := by
  refine ⟨?_, by simp [makeLiteral]⟩
  obtain ⟨ps, hps, he⟩ := C218_split_partial p (lit ++ [z])
  have key : ∀ {xs : List α} {ps : List (List α)}, Pieces p xs ps → ∀ lit, xs = lit ++ [z] →
      ∃ qs last, Pieces p lit (qs ++ [last]) ∧ ps = qs ++ [last ++ [z]] := by
    intro xs ps h
    induction h with
    | last hno =>
      intro lit hl
      subst hl
      exact ⟨[], lit, Pieces.last (fun x hx => hno x (List.mem_append_left _ hx)), rfl⟩
    | @more a rest d ps ha hd hr ih =>
      intro lit hl
      have hrest : rest ≠ [] := by
        rintro rfl
        have := congrArg List.getLast? hl
        simp at this
        rw [this, hz] at hd
        cases hd
      obtain ⟨r0, w, rfl⟩ : ∃ r0 w, rest = r0 ++ [w] :=
        ⟨rest.dropLast, rest.getLast hrest, (List.dropLast_concat_getLast hrest).symm⟩
      have hw : a ++ d :: r0 = lit ∧ w = z := by
        have e : (a ++ d :: r0) ++ [w] = lit ++ [z] := by simpa using hl
        have := List.append_inj' e rfl
        exact ⟨this.1, by simpa using this.2⟩
      obtain ⟨rfl, rfl⟩ := hw
      obtain ⟨qs, last, h1, h2⟩ := ih r0 rfl
      exact ⟨a :: qs, last, by simpa using Pieces.more ha hd h1, by simp [h2]⟩
  obtain ⟨qs, last, h1, rfl⟩ := key hps lit rfl
  refine ⟨qs, last, h1, ?_⟩
  rw [splitLiteral, he]
  simp [dropEmptyLast]

example : splitLiteral 0 (fun x => x == 7) [1, 7, 2] = [[1], [2, 0]] := by
  simp [splitLiteral, split, findFirstOfIf, firstLoop, orNpos]

end Verif.SV1
