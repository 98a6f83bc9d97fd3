import Verif.Base
import Verif.Containers.Lists

/-
include/daw/daw_parser_helper.h.  Iterators are positions in a list `m` of values of one type; `*it` outside the list is undefined, and a loop
that runs past `last` leaves the list in the end.  `is_a` compares in the larger of the two types; here both have the same type.
-/

namespace Verif.Parse
open Cxx
variable {α : Type}

/-- `find_result_t`, daw_parser_helper.h 37-90. -/
structure Res where
  first : Nat
  last : Nat
  found : Bool
  deriving DecidableEq

/-- `make_find_result`, daw_parser_helper.h 92-97. -/
def Res.make (first last : Nat) (result : Bool := false) : Res := ⟨first, last, result⟩

/-- The loop that the `until` functions have in common, daw_parser_helper.h 106-111, 121-127, 138-144, 186-192, 235-241: the position where it
stops early. -/
def scan (p : α → Bool) (m : List α) (last : Nat) (it : Nat) : Cxx (Option Nat) :=
  if it = last then pure none
  else if h : it < m.length then
    if p m[it] then pure (some it) else scan p m last (it + 1)
  else ub
termination_by m.length - it

/-- `until`, daw_parser_helper.h 99-114. -/
def untilP (m : List α) (isLast : α → Bool) (first last : Nat) : Cxx Res := do
  match ← scan isLast m last first with
  | some it => pure ⟨first, it, true⟩
  | none => pure (Res.make first last)

/-- `until` with `throw_if_end_reached`, daw_parser_helper.h 116-131. -/
def untilThrow (m : List α) (isLast : α → Bool) (first last : Nat) (throwIfEnd : Bool) : Cxx Res := do
  match ← scan isLast m last first with
  | some it => pure ⟨first, it, true⟩
  | none => if throwIfEnd then thrown else pure (Res.make first last)

/-- `until_false`, daw_parser_helper.h 133-146. -/
def untilFalse (m : List α) (isLast : α → Bool) (first last : Nat) : Cxx Res := do
  match ← scan (fun c => !isLast c) m last first with
  | some it => pure ⟨first, it, true⟩
  | none => pure (Res.make first last)

/-- `is_a`, daw_parser_helper.h 148-160. -/
def isA [DecidableEq α] (value : α) : List α → Bool
  | [] => false
  | [tst] => decide (value = tst)
  | tst :: tsts => decide (value = tst) || isA value tsts

/-- `until_value`, daw_parser_helper.h 181-194. -/
def untilValue [DecidableEq α] (m : List α) (values : List α) (first last : Nat) : Cxx Res := do
  match ← scan (fun c => isA c values) m last first with
  | some it => pure ⟨first, it, true⟩
  | none => pure (Res.make first last)

/-- `value_in`, daw_parser_helper.h 196-211: `std::find_if(…) == std::end`. -/
def valueIn [DecidableEq α] (value : α) (container : List α) : Bool := container.findIdx (fun v => isA value [v]) == container.length

/-- `until_values`, daw_parser_helper.h 230-243. -/
def untilValues [DecidableEq α] (m : List α) (container : List α) (first last : Nat) : Cxx Res := do
  match ← scan (fun c => valueIn c container) m last first with
  | some it => pure ⟨first, it, true⟩
  | none => pure (Res.make first last)

/-- `expect`, daw_parser_helper.h 260-267. -/
def expect [DecidableEq α] (value : α) (checks : List α) : Cxx Unit := if isA value checks then pure () else thrown

/-- `assert_not_equal`, daw_parser_helper.h 314-320: throws when the check is false. -/
def assertNotEqual [DecidableEq α] (lhs rhs : α) : Cxx Unit := if lhs = rhs then pure () else thrown

/-- `assert_equal`, daw_parser_helper.h 322-327. -/
def assertEqual [DecidableEq α] (lhs rhs : α) : Cxx Unit := if lhs ≠ rhs then pure () else thrown

/-- `assert_not_empty`, daw_parser_helper.h 329-333. -/
def assertNotEmpty (first last : Nat) : Cxx Unit := if first ≠ last then pure () else thrown

/-- `assert_empty`, daw_parser_helper.h 335-338. -/
def assertEmpty (first last : Nat) : Cxx Unit := assertEqual first last

/-- `from_to_pred`, daw_parser_helper.h 363-382. -/
def fromToPred (m : List α) (first last : Nat) (isFirst isLast : α → Bool) (throwIfEnd : Bool) : Cxx Res := do
  let start ← untilP m isFirst first last
  if start.found = false then thrown
  else
    let finish ← untilP m isLast start.last last
    if throwIfEnd = true ∧ finish.found = false then thrown
    else pure ⟨start.last, finish.last, decide (start.last ≠ finish.last)⟩

/-- `from_to`, daw_parser_helper.h 340-361. -/
def fromTo [DecidableEq α] (m : List α) (first last : Nat) (startFrom goUntil : α) (throwIfEnd : Bool) : Cxx Res := do
  let start ← untilValue m [startFrom] first last
  if start.found = false then thrown
  else
    let finish ← untilValue m [goUntil] start.last last
    if throwIfEnd = true ∧ finish.found = false then thrown
    else pure ⟨start.last, finish.last, decide (start.last ≠ finish.last)⟩

/-- The loop of `split_if`, daw_parser_helper.h 409-412: the last result and the endings. -/
def splitLoop (m : List α) (last : Nat) (isDivider : α → Bool) (s : Res × List Nat) : Cxx (Res × List Nat) :=
  if s.1.found then do
    let result ← untilP m isDivider s.1.last last
    splitLoop m last isDivider (result, s.2 ++ [s.1.last])
  else pure s
partial_fixpoint

/-- `split_if`, daw_parser_helper.h 401-417; `split_on`, 384-399, is the same with the predicate of `until_value`. -/
def splitIf (m : List α) (first last : Nat) (isDivider : α → Bool) : Cxx (List Nat) := do
  let result ← untilP m isDivider first last
  let s ← splitLoop m last isDivider (result, [])
  if s.1.first ≠ s.1.last then pure (s.2 ++ [s.1.last]) else pure s.2

/-- `skip_ws`, daw_parser_helper.h 478-486, for any notion of white space. -/
def skipWs (ws : α → Bool) (m : List α) (first last : Nat) : Cxx Res := do
  let result ← untilFalse m ws first last
  pure ⟨result.last, last, result.found⟩

/-- `trim_left`, daw_parser_helper.h 493-502. -/
def trimLeft (ws : α → Bool) (m : List α) (first last : Nat) : Cxx Res := do
  let start ← untilP m (fun c => !ws c) first last
  if start.found = false then pure (Res.make first last) else pure (Res.make start.last last)

/-- `trim_right`, daw_parser_helper.h 504-517. -/
def trimRight (ws : α → Bool) (m : List α) (first last : Nat) : Cxx Res := do
  let start ← untilP m (fun c => !ws c) first last
  if start.found = false then pure (Res.make first last false)
  else
    let finish ← untilP m ws start.last last
    pure (Res.make first finish.last true)

/-- `trim`, daw_parser_helper.h 519-527. -/
def trim (ws : α → Bool) (m : List α) (first last : Nat) : Cxx Res := do
  let start ← trimLeft ws m first last
  let finish ← trimRight ws m start.first last
  pure (Res.make start.first finish.last (start.found || finish.found))

/-- The loop of `is_crlf::match`, daw_parser_helper.h 550-555.  The list has an even number of values when it runs. -/
def crlfLoop : List Nat → Bool
  | [] => true
  | [_] => false
  | a :: b :: t => if isA a [13] && isA b [10] then crlfLoop t else false

/-- `is_crlf::match`, daw_parser_helper.h 545-557. -/
def crlfMatch (count : Nat) (lastValues : List Nat) : Bool := if lastValues.length ≠ 2 * count then false else crlfLoop lastValues

/-- The loop of `is_crlf::operator()`, daw_parser_helper.h 566-568. -/
def keepFour (l : List Nat) : List Nat := l.drop (l.length - 4)

/-- `is_crlf::operator()`, daw_parser_helper.h 564-570: the answer and the values kept. -/
def crlfStep (count : Nat) (lastValues : List Nat) (v : Nat) : Bool × List Nat :=
  let l := keepFour (lastValues ++ [v])
  (crlfMatch count l, l)

/-- Calls of one `is_crlf` one after the other: the last answer and the values kept.
(Uses of `is_crlf`, daw_parser_helper.h 540-571.) -/
def crlfRun (count : Nat) (vs : List Nat) : Bool × List Nat := vs.foldl (fun s v => crlfStep count s.2 v) (false, [])

/-- `starts_with`, daw_parser_helper.h 650-664. -/
def startsWith (pred : α → α → Bool) : List α → List α → Bool
  | [], ys => ys.isEmpty
  | _ :: _, [] => true
  | x :: xs, y :: ys => if pred x y then startsWith pred xs ys else false

/-- The loop of `until_last_of`, daw_parser_helper.h 672-678: `result.last`. -/
def lastLoop [DecidableEq α] (m : List α) (last : Nat) (value : α) (s : Bool × Nat) : Cxx Nat :=
  if s.1 = true ∧ s.2 ≠ last then do
    let tmp ← untilValue m [value] (s.2 + 1) last
    lastLoop m last value (tmp.found, if tmp.found then tmp.last else s.2)
  else pure s.2
partial_fixpoint

/-- `until_last_of`, daw_parser_helper.h 666-681. -/
def untilLastOf [DecidableEq α] (m : List α) (first last : Nat) (value : α) : Cxx Res := do
  let result ← untilValue m [value] first last
  let l ← lastLoop m last value (result.found, result.last)
  pure ⟨first, l, result.found⟩

/-- The inner loop of `find_first_of_any`, daw_parser_helper.h 696-703 (`last_first` is never read): the positions in `values` and in the text. -/
def anyInner [DecidableEq α] (m : List α) (last : Nat) : List α → Nat → Cxx (List α × Nat)
  | [], newEnd => pure ([], newEnd)
  | v :: vs, newEnd =>
    if newEnd = last then pure (v :: vs, newEnd)
    else do
      if v = (← rd m newEnd) then anyInner m last vs (newEnd + 1) else pure (v :: vs, newEnd)

/-- The outer loop of `find_first_of_any`, daw_parser_helper.h 694-709. -/
def anyLoop [DecidableEq α] (m : List α) (first last : Nat) (v : α) (vs : List α) (s : Res × Nat) : Cxx Res :=
  if s.2 ≠ last then do
    let (seqPos, newEnd) ← anyInner m last vs s.2
    if seqPos = [] then pure ⟨s.1.first, newEnd, s.1.found⟩
    else
      let result ← untilValue m [v] first last
      anyLoop m first last v vs (result, newEnd)
  else pure (Res.make first last false)
partial_fixpoint

/-- `find_first_of_any`, daw_parser_helper.h 683-711. -/
def findFirstOfAny [DecidableEq α] (m : List α) (first last : Nat) (values : List α) : Cxx Res :=
  match values with
  | [] => ub
  | v :: vs => do
    let result ← untilValue m [v] first last
    if result.found = false then pure result
    else anyLoop m first last v vs (result, result.first + 1)

/-! ### Where the `until` functions stop -/

/-- `r` is the first position from `first` on with a value that has the property `P`, or `last`.
(Specification, no line of the source.) -/
def FirstAt (P : α → Prop) (m : List α) (first last r : Nat) : Prop :=
  first ≤ r ∧ r ≤ last ∧ (∀ k c, first ≤ k → k < r → m[k]? = some c → ¬P c) ∧ (r < last → ∃ c, m[r]? = some c ∧ P c)

theorem scan_ok (p : α → Bool) (m : List α) (last : Nat) (hl : last ≤ m.length) (n : Nat) : ∀ it, it + n = last →
    ∃ r, scan p m last it = pure (if r < last then some r else none) ∧ FirstAt (fun c => p c = true) m it last r := by
  induction n with
  | zero =>
    intro it hn
    refine ⟨it, ?_, Nat.le_refl _, by omega, fun k c h1 h2 => by omega, fun h => by omega⟩
    rw [scan, if_pos (by omega), if_neg (by omega)]
  | succ n ih =>
    intro it hn
    have hlt : it < m.length := by omega
    rw [scan, if_neg (by omega), dif_pos hlt]
    by_cases hp : p m[it] = true
    · rw [if_pos hp]
      refine ⟨it, by rw [if_pos (by omega)], Nat.le_refl _, by omega, fun k c h1 h2 => by omega, fun _ => ⟨m[it], by simp [hlt], hp⟩⟩
    · rw [if_neg hp]
      obtain ⟨r, e, h1, h2, h3, h4⟩ := ih (it + 1) (by omega)
      refine ⟨r, e, by omega, h2, fun k c hk1 hk2 hc => ?_, h4⟩
      by_cases hk : k = it
      · subst hk
        rw [List.getElem?_eq_getElem hlt] at hc
        cases hc
        exact hp
      · exact h3 k c (by omega) hk2 hc

theorem isA_iff [DecidableEq α] (v : α) (l : List α) : isA v l = true ↔ v ∈ l := by
  induction l with
  | nil => simp [isA]
  | cons a l ih =>
    cases l with
    | nil => simp [isA]
    | cons b l => rw [isA, Bool.or_eq_true, ih]; simp; simp

/-- `until` returns the part of the range before the first value that satisfies the predicate. -/
theorem C63_until (m : List α) (p : α → Bool) (first last : Nat) (h : first ≤ last) (hl : last ≤ m.length) :
    ∃ r, untilP m p first last = pure ⟨first, r, decide (r < last)⟩ ∧ FirstAt (fun c => p c = true) m first last r := by
  obtain ⟨r, e, hr⟩ := scan_ok p m last hl (last - first) first (by omega)
  refine ⟨r, ?_, hr⟩
  unfold untilP
  rw [e]
  by_cases hlt : r < last
  · simp [hlt]
  · have : r = last := by have := hr.2.1; omega
    subst this
    simp [Res.make]

/-- `until` that throws at the end. -/
theorem C63_until_throw (m : List α) (p : α → Bool) (first last : Nat) (b : Bool) (h : first ≤ last) (hl : last ≤ m.length) :
    ∃ r, untilThrow m p first last b = (if b = true ∧ r = last then thrown else pure ⟨first, r, decide (r < last)⟩) ∧
      FirstAt (fun c => p c = true) m first last r := by
  obtain ⟨r, e, hr⟩ := scan_ok p m last hl (last - first) first (by omega)
  refine ⟨r, ?_, hr⟩
  unfold untilThrow
  rw [e]
  by_cases hlt : r < last
  · simp [hlt, show r ≠ last by omega]
  · have : r = last := by have := hr.2.1; omega
    subst this
    cases b <;> simp [Res.make]

example := C63_until_throw [5, 2, 8, 3] (fun c : Nat => decide (c = 8)) 0 4 true (by decide) (by decide)

/-- `until_false` returns the part of the range before the first value that does not satisfy the predicate. -/
theorem C63_until_false (m : List α) (p : α → Bool) (first last : Nat) (h : first ≤ last) (hl : last ≤ m.length) :
    ∃ r, untilFalse m p first last = pure ⟨first, r, decide (r < last)⟩ ∧ FirstAt (fun c => p c = false) m first last r := by
  obtain ⟨r, e, hr⟩ := C63_until m (fun c => !p c) first last h hl
  exact ⟨r, e, by simpa using hr⟩

/-- `until_value` returns the part of the range before the first of the values. -/
theorem C63_until_value [DecidableEq α] (m : List α) (values : List α) (first last : Nat) (h : first ≤ last) (hl : last ≤ m.length) :
    ∃ r, untilValue m values first last = pure ⟨first, r, decide (r < last)⟩ ∧ FirstAt (fun c => c ∈ values) m first last r := by
  obtain ⟨r, e, hr⟩ := C63_until m (fun c => isA c values) first last h hl
  exact ⟨r, e, by simpa [isA_iff] using hr⟩

example : untilValue [97, 98, 44, 99] [44, 59] 0 4 = pure ⟨0, 2, true⟩ ∧ untilValue [97, 98, 44, 99] [44, 59] 3 4 = pure ⟨3, 4, false⟩ := by
  decide +kernel

/-- `value_in` says whether the value is *not* in the container. -/
theorem C63_value_in_violated [DecidableEq α] (v : α) (l : List α) : valueIn v l = true ↔ v ∉ l := by
  unfold valueIn
  rw [beq_iff_eq, List.findIdx_eq_length]
  constructor
  · intro h hv
    simpa [isA] using h v hv
  · intro h x hx
    have : v ≠ x := fun e => h (e ▸ hx)
    simp [isA, this]

/-- `until_values` therefore stops at the first value that is not in the container. -/
theorem C63_until_values_violated [DecidableEq α] (m : List α) (values : List α) (first last : Nat) (h : first ≤ last) (hl : last ≤ m.length) :
    ∃ r, untilValues m values first last = pure ⟨first, r, decide (r < last)⟩ ∧ FirstAt (fun c => c ∉ values) m first last r := by
  obtain ⟨r, e, hr⟩ := C63_until m (fun c => valueIn c values) first last h hl
  exact ⟨r, e, by simpa [C63_value_in_violated] using hr⟩

example := C63_until_values_violated [5, 2, 8, 3] [5, 2] 0 4 (by decide) (by decide)

/-- `expect` lets exactly the values listed pass. -/
theorem C63_expect [DecidableEq α] (v : α) (l : List α) : (v ∈ l → expect v l = pure ()) ∧ (v ∉ l → expect v l = thrown) := by
  unfold expect
  constructor
  · intro h
    rw [if_pos ((isA_iff v l).2 h)]
  · intro h
    rw [if_neg fun h' => h ((isA_iff v l).1 h')]

/-- `assert_equal` throws for equal values, `assert_not_equal` for different ones, and `assert_empty` for an empty range. -/
theorem C63_assert_violated [DecidableEq α] (x y : α) (hxy : x ≠ y) (i j : Nat) (hij : i ≠ j) :
    assertEqual x x = thrown ∧ assertEqual x y = pure () ∧ assertNotEqual x x = pure () ∧ assertNotEqual x y = thrown ∧
      assertEmpty i i = thrown ∧ assertEmpty i j = pure () ∧ assertNotEmpty i i = thrown ∧ assertNotEmpty i j = pure () := by
  simp [assertEqual, assertNotEqual, assertEmpty, assertNotEmpty, hxy, hij]

example := C63_assert_violated 'a' 'b' (by decide) 2 3 (by decide)

/-- `from_to_pred` returns the part from the first value that satisfies `is_first` to the first from there on that satisfies `is_last`. -/
theorem C63_from_to_pred (m : List α) (p q : α → Bool) (first last : Nat) (b : Bool) (h : first ≤ last) (hl : last ≤ m.length) :
    ∃ s f, FirstAt (fun c => p c = true) m first last s ∧ FirstAt (fun c => q c = true) m s last f ∧
      fromToPred m first last p q b = (if s = last ∨ (b = true ∧ f = last) then thrown else pure ⟨s, f, decide (s ≠ f)⟩) := by
  obtain ⟨s, e, hs⟩ := C63_until m p first last h hl
  obtain ⟨f, e', hf⟩ := C63_until m q s last hs.2.1 hl
  refine ⟨s, f, hs, hf, ?_⟩
  unfold fromToPred
  rw [e]
  simp only [pure_bind]
  have h1 := hs.2.1
  have h2 := hf.2.1
  by_cases hsl : s = last
  · rw [if_pos (by simp; omega), if_pos (Or.inl hsl)]
  · rw [if_neg (by simp; omega), e']
    simp only [pure_bind]
    by_cases hb : b = true ∧ f = last
    · rw [if_pos ⟨hb.1, by simp; omega⟩, if_pos (Or.inr hb)]
    · rw [if_neg (fun hc => hb ⟨hc.1, by have := hc.2; simp at this; omega⟩), if_neg (by rintro (h | h); exact hsl h; exact hb h)]

theorem C63_from_to [DecidableEq α] (m : List α) (x y : α) (first last : Nat) (b : Bool) (h : first ≤ last) (hl : last ≤ m.length) :
    ∃ s f, FirstAt (fun c => c = x) m first last s ∧ FirstAt (fun c => c = y) m s last f ∧
      fromTo m first last x y b = (if s = last ∨ (b = true ∧ f = last) then thrown else pure ⟨s, f, decide (s ≠ f)⟩) := by
  obtain ⟨s, f, hs, hf, e⟩ := C63_from_to_pred m (fun c => isA c [x]) (fun c => isA c [y]) first last b h hl
  exact ⟨s, f, by simpa [isA_iff] using hs, by simpa [isA_iff] using hf, e⟩

/-- Between two equal values, as quotes are, `from_to` finds nothing. -/
theorem C63_from_to_violated [DecidableEq α] (m : List α) (x : α) (first last : Nat) (b : Bool) (h : first ≤ last) (hl : last ≤ m.length) (r : Res)
    (hr : fromTo m first last x x b = pure r) : r.first = r.last ∧ r.found = false := by
  obtain ⟨s, f, hs, hf, e⟩ := C63_from_to m x x first last b h hl
  rw [e] at hr
  split at hr
  · exact absurd hr (thrown_ne_pure _)
  · rename_i hc
    have hsf : s = f := by
      obtain ⟨c, hc1, hc2⟩ := hs.2.2.2 (by have := hs.2.1; omega)
      have := hf.1
      by_cases hlt : s < f
      · exact absurd hc2 (hf.2.2.1 s c (Nat.le_refl _) hlt hc1)
      · omega
    subst hsf
    cases pure_inj.1 hr
    simp

example : fromTo [120, 34, 97, 34] 0 4 34 34 false = pure ⟨1, 1, false⟩ := by decide +kernel

/-! ### Splitting -/

/-- When a divider is in the range, `split_if` and `split_on` never return. -/
theorem C63_split_violated (m : List α) (p : α → Bool) (first last k : Nat) (hl : last ≤ m.length) (hk : first ≤ k) (hkl : k < last) (c : α)
    (hc : m[k]? = some c) (hp : p c = true) (e : List Nat) : splitIf m first last p ≠ pure e := by
  intro he
  obtain ⟨r, e1, hr⟩ := C63_until m p first last (by omega) hl
  have hrl : r < last := by
    have := hr.2.1
    by_cases hx : r ≤ k
    · omega
    · exact absurd hp (hr.2.2.1 k c hk (by omega) hc)
  have key : ∀ (s : Res × List Nat) (t : Res × List Nat), splitLoop m last p s = pure t → ¬(s.1.found = true ∧ s.1.last = r) := by
    refine splitLoop.fixpoint_induct m last p (fun f => ∀ (s t : Res × List Nat), f s = pure t → ¬(s.1.found = true ∧ s.1.last = r)) ?_ ?_
    · exact admissible1 (fun (s : Res × List Nat) x => ∀ t, x = pure t → ¬(s.1.found = true ∧ s.1.last = r)) (fun _ t h => by cases h)
    · intro f ih s t ht ⟨hs1, hs2⟩
      dsimp only at ht
      rw [if_pos hs1, hs2] at ht
      obtain ⟨r', e2, hr'⟩ := C63_until m p r last (by omega) hl
      rw [e2] at ht
      simp only [pure_bind] at ht
      obtain ⟨c', hc1, hc2⟩ := hr.2.2.2 hrl
      have : r' = r := by
        have := hr'.1
        by_cases hlt : r < r'
        · exact absurd hc2 (hr'.2.2.1 r c' (Nat.le_refl _) hlt hc1)
        · omega
      refine ih _ _ ht ⟨?_, this⟩
      simp
      omega
  unfold splitIf at he
  rw [e1] at he
  simp only [pure_bind] at he
  obtain ⟨t, ht, _⟩ := bind_eq_pure.1 he
  exact key _ _ ht ⟨by simp [hrl], rfl⟩

example : ([97, 44, 98] : List Nat)[1]? = some 44 := rfl

/-- Without a divider the whole range is the only part. -/
theorem C63_split_partial (m : List α) (p : α → Bool) (first last : Nat) (h : first ≤ last) (hl : last ≤ m.length)
    (hno : ∀ k c, first ≤ k → k < last → m[k]? = some c → p c = false) :
    splitIf m first last p = pure (if first = last then [] else [last]) := by
  obtain ⟨r, e1, hr⟩ := C63_until m p first last h hl
  have hrl : r = last := by
    have := hr.2.1
    by_cases hx : r < last
    · obtain ⟨c, hc, hp⟩ := hr.2.2.2 hx
      simp [hno r c hr.1 hx hc] at hp
    · omega
  subst hrl
  unfold splitIf
  rw [e1]
  simp only [pure_bind, Nat.lt_irrefl, decide_false]
  rw [splitLoop, if_neg (by simp)]
  simp only [pure_bind]
  by_cases hfl : first = r <;> simp [hfl]

example := C63_split_partial [5, 2, 8, 3] (fun c : Nat => decide (c = 7)) 1 3 (by decide) (by decide) (fun k c h1 h2 h3 => by
  have hk : k = 1 ∨ k = 2 := by omega
  rcases hk with rfl | rfl <;> (simp at h3; subst h3; decide))

/-! ### White space -/

theorem firstAt_unique {P : α → Prop} {m : List α} {first last r r' : Nat} (h : FirstAt P m first last r) (h' : FirstAt P m first last r') : r = r' := by
  obtain ⟨a1, a2, a3, a4⟩ := h
  obtain ⟨b1, b2, b3, b4⟩ := h'
  rcases Nat.lt_trichotomy r r' with hlt | he | hlt
  · obtain ⟨c, hc, hp⟩ := a4 (by omega)
    exact absurd hp (b3 r c a1 hlt hc)
  · exact he
  · obtain ⟨c, hc, hp⟩ := b4 (by omega)
    exact absurd hp (a3 r' c b1 hlt hc)

/-- The first position in a text given by its parts. -/
theorem firstAt_parts {P : α → Prop} (pre a b post : List α) (ha : ∀ c ∈ a, ¬P c) (hb : ∀ c, b.head? = some c → P c) :
    FirstAt P (pre ++ a ++ b ++ post) pre.length (pre.length + a.length + b.length) (pre.length + a.length) := by
  refine ⟨by omega, by omega, fun k c h1 h2 hc => ?_, fun h => ?_⟩
  · rw [List.append_assoc, List.append_assoc, List.getElem?_append_right h1, List.getElem?_append_left (by omega)] at hc
    exact ha c (List.mem_of_getElem? hc)
  · cases b with
    | nil => simp at h
    | cons x b =>
      refine ⟨x, ?_, hb x rfl⟩
      simp

/-- `skip_ws` removes the leading white space. -/
theorem C63_skip_ws (ws : α → Bool) (pre a b post : List α) (ha : ∀ c ∈ a, ws c = true) (hb : ∀ c, b.head? = some c → ws c = false) :
    skipWs ws (pre ++ a ++ b ++ post) pre.length (pre.length + a.length + b.length) =
      pure ⟨pre.length + a.length, pre.length + a.length + b.length, decide (b ≠ [])⟩ := by
  obtain ⟨r, e, hr⟩ := C63_until_false (pre ++ a ++ b ++ post) ws pre.length (pre.length + a.length + b.length) (by omega) (by simp; omega)
  have := firstAt_unique hr (firstAt_parts pre a b post (fun c hc => by simp [ha c hc]) hb)
  subst this
  unfold skipWs
  rw [e]
  simp only [pure_bind]
  cases b <;> simp

example := C63_skip_ws (fun c : Nat => decide (c = 32)) [1] [32, 32] [65, 32] [2] (by decide) (by decide)

/-- `trim_left` removes the leading white space of a text that has something else. -/
theorem C63_trim_left_partial (ws : α → Bool) (pre a b post : List α) (ha : ∀ c ∈ a, ws c = true) (hb : ∀ c, b.head? = some c → ws c = false)
    (hne : b ≠ []) :
    trimLeft ws (pre ++ a ++ b ++ post) pre.length (pre.length + a.length + b.length) =
      pure ⟨pre.length + a.length, pre.length + a.length + b.length, false⟩ := by
  obtain ⟨r, e, hr⟩ := C63_until (pre ++ a ++ b ++ post) (fun c => !ws c) pre.length (pre.length + a.length + b.length) (by omega) (by simp; omega)
  have := firstAt_unique hr (firstAt_parts pre a b post (fun c hc => by simp [ha c hc]) (fun c hc => by simp [hb c hc]))
  subst this
  have : 0 < b.length := List.length_pos_iff.2 hne
  unfold trimLeft
  rw [e]
  simp only [pure_bind]
  rw [if_neg (by simp; omega)]
  rfl

/-- A text of white space only is not trimmed at all. -/
theorem C63_trim_left_violated (ws : α → Bool) (pre a post : List α) (ha : ∀ c ∈ a, ws c = true) :
    trimLeft ws (pre ++ a ++ post) pre.length (pre.length + a.length) = pure ⟨pre.length, pre.length + a.length, false⟩ ∧
    trimRight ws (pre ++ a ++ post) pre.length (pre.length + a.length) = pure ⟨pre.length, pre.length + a.length, false⟩ ∧
    trim ws (pre ++ a ++ post) pre.length (pre.length + a.length) = pure ⟨pre.length, pre.length + a.length, false⟩ := by
  obtain ⟨r, e, hr⟩ := C63_until (pre ++ a ++ post) (fun c => !ws c) pre.length (pre.length + a.length) (by omega) (by simp)
  have h' := firstAt_parts (P := fun c => (!ws c) = true) pre a [] post (fun c hc => by simp [ha c hc]) (fun c hc => by cases hc)
  simp only [List.append_nil, List.length_nil, Nat.add_zero] at h'
  have := firstAt_unique hr h'
  subst this
  have e1 : trimLeft ws (pre ++ a ++ post) pre.length (pre.length + a.length) = pure ⟨pre.length, pre.length + a.length, false⟩ := by
    unfold trimLeft
    rw [e]
    simp [Res.make]
  have e2 : trimRight ws (pre ++ a ++ post) pre.length (pre.length + a.length) = pure ⟨pre.length, pre.length + a.length, false⟩ := by
    unfold trimRight
    rw [e]
    simp [Res.make]
  refine ⟨e1, e2, ?_⟩
  unfold trim
  rw [e1]
  simp only [pure_bind]
  rw [e2]
  rfl

example := C63_trim_left_violated (fun c : Nat => decide (c = 32)) [1] [32, 32] [2] (by decide)

/-- `trim_right` and `trim` of one word between white space; `rest` is everything from the first white space behind the word on, cut off whatever
it has (see `C63_trim_right_violated`). -/
theorem C63_trim_right_any (ws : α → Bool) (pre a w rest post : List α) (ha : ∀ c ∈ a, ws c = true) (hw : ∀ c ∈ w, ws c = false) (hne : w ≠ [])
    (hrest : ∀ c, rest.head? = some c → ws c = true) :
    trimRight ws (pre ++ a ++ w ++ rest ++ post) pre.length (pre.length + a.length + w.length + rest.length) =
        pure ⟨pre.length, pre.length + a.length + w.length, true⟩ ∧
      trim ws (pre ++ a ++ w ++ rest ++ post) pre.length (pre.length + a.length + w.length + rest.length) =
        pure ⟨pre.length + a.length, pre.length + a.length + w.length, true⟩ := by
  have hpos : 0 < w.length := List.length_pos_iff.2 hne
  have hhead : ∀ (l : List α) c, (w ++ l).head? = some c → ws c = false := by
    intro l c hc
    cases w with
    | nil => exact absurd rfl hne
    | cons x w => simp at hc; subst hc; exact hw x (by simp)
  -- the word ends at the first white space behind its start
  have hstop : ∃ r, untilP (pre ++ a ++ w ++ rest ++ post) ws (pre.length + a.length) (pre.length + a.length + w.length + rest.length) = pure r ∧
      r.last = pre.length + a.length + w.length := by
    obtain ⟨r, e, hr⟩ := C63_until (pre ++ a ++ w ++ rest ++ post) ws (pre.length + a.length) (pre.length + a.length + w.length + rest.length)
      (by omega) (by simp; omega)
    have h' := firstAt_parts (P := fun c => ws c = true) (pre ++ a) w rest post (fun c hc => by simp [hw c hc]) hrest
    simp only [List.length_append] at h'
    exact ⟨_, e, firstAt_unique hr h'⟩
  have e1 : trimRight ws (pre ++ a ++ w ++ rest ++ post) pre.length (pre.length + a.length + w.length + rest.length) =
        pure ⟨pre.length, pre.length + a.length + w.length, true⟩ := by
    obtain ⟨r, e, hr⟩ := C63_until (pre ++ a ++ w ++ rest ++ post) (fun c => !ws c) pre.length (pre.length + a.length + w.length + rest.length)
      (by omega) (by simp; omega)
    have h' := firstAt_parts (P := fun c => (!ws c) = true) pre a (w ++ rest) post (fun c hc => by simp [ha c hc])
      (fun c hc => by simp [hhead rest c hc])
    rw [← List.append_assoc, List.length_append, ← Nat.add_assoc] at h'
    have := firstAt_unique hr h'
    subst this
    unfold trimRight
    rw [e]
    simp only [pure_bind]
    rw [if_neg (by simp; omega)]
    obtain ⟨r2, e2, h2⟩ := hstop
    rw [e2]
    simp only [pure_bind]
    rw [h2]
    rfl
  refine ⟨e1, ?_⟩
  have e0 := C63_trim_left_partial ws pre a (w ++ rest) post ha (hhead rest) (by simp [hne])
  rw [← List.append_assoc, List.length_append, ← Nat.add_assoc] at e0
  unfold trim
  rw [e0]
  simp only [pure_bind]
  obtain ⟨r, e, hr⟩ := C63_until (pre ++ a ++ w ++ rest ++ post) (fun c => !ws c) (pre.length + a.length)
    (pre.length + a.length + w.length + rest.length) (by omega) (by simp; omega)
  have h' := firstAt_parts (P := fun c => (!ws c) = true) (pre ++ a) [] (w ++ rest) post (fun c hc => by cases hc)
    (fun c hc => by simp [hhead rest c hc])
  simp only [List.append_nil, List.length_append, List.length_nil, Nat.add_zero, ← List.append_assoc, ← Nat.add_assoc] at h'
  have := firstAt_unique hr h'
  subst this
  obtain ⟨r2, e2, h2⟩ := hstop
  have e3 : trimRight ws (pre ++ a ++ w ++ rest ++ post) (pre.length + a.length) (pre.length + a.length + w.length + rest.length) =
      pure ⟨pre.length + a.length, pre.length + a.length + w.length, true⟩ := by
    unfold trimRight
    rw [e]
    simp only [pure_bind]
    rw [if_neg (by simp; omega), e2]
    simp only [pure_bind]
    rw [h2]
    rfl
  rw [e3]
  rfl

/-- One word between white space is trimmed on both sides. -/
theorem C63_trim_partial (ws : α → Bool) (pre a w b post : List α) (ha : ∀ c ∈ a, ws c = true) (hw : ∀ c ∈ w, ws c = false) (hne : w ≠ [])
    (hb : ∀ c ∈ b, ws c = true) :
    trimRight ws (pre ++ a ++ w ++ b ++ post) pre.length (pre.length + a.length + w.length + b.length) =
        pure ⟨pre.length, pre.length + a.length + w.length, true⟩ ∧
      trim ws (pre ++ a ++ w ++ b ++ post) pre.length (pre.length + a.length + w.length + b.length) =
        pure ⟨pre.length + a.length, pre.length + a.length + w.length, true⟩ :=
  C63_trim_right_any ws pre a w b post ha hw hne fun c hc => hb c (List.mem_of_head? hc)

example := C63_trim_partial (fun c : Nat => decide (c = 32)) [1] [32, 32] [65, 66] [32] [2] (by decide) (by decide) (by decide) (by decide)

/-- Two words: the second is cut off. -/
theorem C63_trim_right_violated (ws : α → Bool) (w u s : List α) (hw : ∀ c ∈ w, ws c = false) (hne : w ≠ []) (hs : ∀ c ∈ s, ws c = true) (hsne : s ≠ []) :
    trimRight ws (w ++ (s ++ u)) 0 (w.length + (s ++ u).length) = pure ⟨0, w.length, true⟩ ∧
      trim ws (w ++ (s ++ u)) 0 (w.length + (s ++ u).length) = pure ⟨0, w.length, true⟩ := by
  have := C63_trim_right_any ws [] [] w (s ++ u) [] (by simp) hw hne (fun c hc => by
    cases s with
    | nil => exact absurd rfl hsne
    | cons x s => simp at hc; subst hc; exact hs x (by simp))
  simpa using this

/-! ### Carriage return and line feed -/

theorem crlfRun_kept (count : Nat) (vs : List Nat) : (crlfRun count vs).2 = vs.drop (vs.length - 4) := by
  suffices ∀ n (vs : List Nat), vs.length = n → (crlfRun count vs).2 = vs.drop (vs.length - 4) from this _ vs rfl
  intro n
  induction n with
  | zero =>
    intro vs h
    rw [List.length_eq_zero_iff.1 h]
    rfl
  | succ n ih =>
    intro vs h
    obtain ⟨xs, x, rfl⟩ : ∃ xs x, vs = xs ++ [x] := by
      refine ⟨vs.dropLast, vs.getLast (by rintro rfl; cases h), (List.dropLast_concat_getLast _).symm⟩
    have hn : xs.length = n := by simpa using h
    unfold crlfRun at ih ⊢
    rw [List.foldl_append, List.foldl_cons, List.foldl_nil]
    rw [crlfStep, ih xs hn]
    simp only [keepFour]
    rw [List.length_append, List.length_drop, List.length_append, List.length_singleton]
    by_cases h4 : xs.length ≤ 3
    · rw [show xs.length - 4 = 0 by omega]
      simp [show xs.length + 1 - 4 = 0 by omega]
    · rw [← List.drop_append_of_le_length (by omega), List.drop_drop]
      congr 1
      omega

/-- The answer after the last of the values. -/
theorem crlfRun_answer (count : Nat) (vs : List Nat) (hne : vs ≠ []) : (crlfRun count vs).1 = crlfMatch count (vs.drop (vs.length - 4)) := by
  obtain ⟨xs, x, rfl⟩ : ∃ xs x, vs = xs ++ [x] := ⟨vs.dropLast, vs.getLast hne, (List.dropLast_concat_getLast _).symm⟩
  rw [← crlfRun_kept count]
  unfold crlfRun
  rw [List.foldl_append, List.foldl_cons, List.foldl_nil]
  rfl

/-- Asked for two line ends, `is_crlf` says yes exactly when the values so far end with them. -/
theorem C63_crlf_partial (vs : List Nat) : (crlfRun 2 vs).1 = true ↔ [13, 10, 13, 10] <:+ vs := by
  by_cases hne : vs = []
  · subst hne
    simp [crlfRun]
  rw [crlfRun_answer 2 vs hne]
  have hlen : (vs.drop (vs.length - 4)).length = min 4 vs.length := by rw [List.length_drop]; omega
  constructor
  · intro h
    have : vs.drop (vs.length - 4) = [13, 10, 13, 10] := by
      revert h hlen
      generalize vs.drop (vs.length - 4) = l
      intro hlen h
      unfold crlfMatch at h
      split at h
      · cases h
      · rename_i hl
        obtain ⟨a, b, c, d, rfl⟩ : ∃ a b c d, l = [a, b, c, d] := by
          match l, hl with
          | [a, b, c, d], _ => exact ⟨a, b, c, d, rfl⟩
          | [], h => simp at h
          | [_], h => simp at h
          | [_, _], h => simp at h
          | [_, _, _], h => simp at h
          | _ :: _ :: _ :: _ :: _ :: _, h => simp at h
        simp [crlfLoop, isA] at h
        obtain ⟨⟨rfl, rfl⟩, rfl, rfl⟩ := h
        rfl
    exact this ▸ List.drop_suffix _ _
  · rintro ⟨t, rfl⟩
    have : (t ++ [13, 10, 13, 10]).drop ((t ++ [13, 10, 13, 10]).length - 4) = [13, 10, 13, 10] := by simp
    rw [this]
    decide

/-- Asked for one line end, `is_crlf` finds it only in front. -/
theorem C63_crlf_violated (vs : List Nat) : ((crlfRun 1 vs).1 = true ↔ vs = [13, 10]) ∧ ∀ n, n = 0 ∨ 3 ≤ n → (crlfRun n vs).1 = false := by
  by_cases hne : vs = []
  · subst hne
    simp [crlfRun]
  have hpos : 0 < vs.length := List.length_pos_iff.2 hne
  have hlen : (vs.drop (vs.length - 4)).length = min 4 vs.length := by rw [List.length_drop]; omega
  refine ⟨?_, fun n hn => ?_⟩
  · rw [crlfRun_answer 1 vs hne]
    constructor
    · intro h
      unfold crlfMatch at h
      split at h
      · cases h
      · rename_i hl
        have h2 : vs.length = 2 := by omega
        rw [h2] at h
        match vs, h2 with
        | [a, b], _ =>
          simp [crlfLoop, isA] at h
          rw [h.1, h.2]
    · rintro rfl
      decide
  · rw [crlfRun_answer n vs hne, crlfMatch, if_pos (by omega)]

/-! ### `starts_with`, the last of a value, and sequences -/

/-- `starts_with` compares the two ranges value by value. -/
theorem C63_starts_with (pred : α → α → Bool) (xs ys : List α) :
    startsWith pred xs ys = true ↔ ys.length ≤ xs.length ∧ ∀ (k : Nat) (x y : α), xs[k]? = some x → ys[k]? = some y → pred x y = true := by
  induction xs generalizing ys with
  | nil => cases ys <;> simp [startsWith]
  | cons x xs ih =>
    cases ys with
    | nil => simp [startsWith]
    | cons y ys =>
      rw [startsWith]
      by_cases h : pred x y = true
      · rw [if_pos h, ih ys]
        constructor
        · rintro ⟨h1, h2⟩
          refine ⟨by simp; omega, fun k => ?_⟩
          cases k with
          | zero => intro a b ha hb; simp at ha hb; subst ha hb; exact h
          | succ k => intro a b ha hb; exact h2 k a b (by simpa using ha) (by simpa using hb)
        · rintro ⟨h1, h2⟩
          exact ⟨by simpa using h1, fun k a b ha hb => h2 (k + 1) a b (by simpa using ha) (by simpa using hb)⟩
      · rw [if_neg h]
        constructor
        · intro h'; cases h'
        · rintro ⟨_, h2⟩
          exact absurd (h2 0 x y rfl rfl) h

theorem C63_starts_with_prefix [DecidableEq α] (xs ys : List α) : startsWith (fun a b => decide (a = b)) xs ys = true ↔ ys <+: xs := by
  induction xs generalizing ys with
  | nil => cases ys <;> simp [startsWith]
  | cons x xs ih =>
    cases ys with
    | nil => simp [startsWith]
    | cons y ys =>
      rw [startsWith, List.cons_prefix_cons]
      by_cases h : x = y
      · subst h
        simp [ih ys]
      · simp [h, Ne.symm h]

theorem lastLoop_ok [DecidableEq α] (m : List α) (last : Nat) (hl : last ≤ m.length) (v : α) (n : Nat) : ∀ i, i + n = last → 0 < n → m[i]? = some v →
    ∃ r, lastLoop m last v (true, i) = pure r ∧ i ≤ r ∧ r < last ∧ m[r]? = some v ∧ ∀ k, r < k → k < last → m[k]? ≠ some v := by
  induction n using Nat.strongRecOn with
  | _ n ih =>
    intro i hn hpos hi
    rw [lastLoop, if_pos ⟨rfl, by simp; omega⟩]
    obtain ⟨r, e, hr⟩ := C63_until_value m [v] (i + 1) last (by omega) hl
    simp only []
    rw [e]
    simp only [pure_bind]
    by_cases hrl : r < last
    · rw [decide_eq_true hrl, if_pos rfl]
      obtain ⟨c, hc, hcv⟩ := hr.2.2.2 hrl
      have hrv : m[r]? = some v := by rw [hc, List.mem_singleton.1 hcv]
      have h1 := hr.1
      obtain ⟨r2, e2, h2, h3⟩ := ih (last - r) (by omega) r (by omega) (by omega) hrv
      exact ⟨r2, e2, by omega, h3⟩
    · rw [decide_eq_false hrl, lastLoop, if_neg (by simp)]
      refine ⟨i, rfl, Nat.le_refl _, by omega, hi, fun k hk1 hk2 hk => ?_⟩
      have := hr.2.1
      exact hr.2.2.1 k v (by omega) (by omega) hk (by simp)

/-- `until_last_of` returns the part of the range before the last of the value. -/
theorem C63_until_last_of [DecidableEq α] (m : List α) (v : α) (first last : Nat) (h : first ≤ last) (hl : last ≤ m.length) :
    ∃ r, untilLastOf m first last v = pure ⟨first, r, decide (r < last)⟩ ∧ first ≤ r ∧ r ≤ last ∧ (r < last → m[r]? = some v) ∧
      (∀ k, first ≤ k → k < last → m[k]? = some v → r < last ∧ k ≤ r) := by
  obtain ⟨s, e, hs⟩ := C63_until_value m [v] first last h hl
  unfold untilLastOf
  rw [e]
  simp only [pure_bind]
  by_cases hsl : s < last
  · obtain ⟨c, hc, hcv⟩ := hs.2.2.2 hsl
    have hsv : m[s]? = some v := by rw [hc, List.mem_singleton.1 hcv]
    obtain ⟨r, e2, h1, h2, h3, h4⟩ := lastLoop_ok m last hl v (last - s) s (by omega) (by omega) hsv
    rw [decide_eq_true hsl, e2]
    have := hs.1
    refine ⟨r, by simp [h2], by omega, by omega, fun _ => h3, fun k _ hk2 hk => ⟨h2, ?_⟩⟩
    by_cases hlt : r < k
    · exact absurd hk (h4 k hlt hk2)
    · omega
  · have : s = last := by have := hs.2.1; omega
    subst this
    rw [decide_eq_false hsl, lastLoop, if_neg (by simp)]
    refine ⟨s, by simp, h, Nat.le_refl _, fun h => by omega, fun k h1 h2 hk => ?_⟩
    exact absurd (by simp) (hs.2.2.1 k v h1 h2 hk)

example : untilValue [97, 46, 98, 46, 99] [46] 0 5 = pure ⟨0, 1, true⟩ := by decide +kernel

/-- `find_first_of_any` of one value answers with the first position of the range, wherever the value is. -/
theorem C63_find_any_violated [DecidableEq α] (m : List α) (v : α) (first last k : Nat) (hl : last ≤ m.length) (hk : first ≤ k) (hkl : k < last)
    (hc : m[k]? = some v) (h2 : first + 1 < last) : findFirstOfAny m first last [v] = pure ⟨first, first + 1, true⟩ := by
  obtain ⟨r, e, hr⟩ := C63_until_value m [v] first last (by omega) hl
  have hrl : r < last := by
    by_cases hx : r ≤ k
    · omega
    · exact absurd (by simp) (hr.2.2.1 k v hk (by omega) hc)
  rw [findFirstOfAny]
  rw [e]
  simp only [pure_bind]
  rw [if_neg (by simp [hrl]), anyLoop, if_pos (by simp; omega), anyInner]
  simp [hrl]

example := C63_find_any_violated [97, 98, 120] 120 0 3 2 (by decide) (by decide) (by decide) rfl (by decide)

/-- `find_first_of_any` does not find a value that is all of the range, whatever follows it in the sequence. -/
theorem C63_find_any_single_violated [DecidableEq α] (m : List α) (v : α) (vs : List α) (first : Nat) (hc : m[first]? = some v) :
    findFirstOfAny m first (first + 1) (v :: vs) = pure ⟨first, first + 1, false⟩ := by
  have hl : first < m.length := (List.getElem?_eq_some_iff.1 hc).1
  obtain ⟨r, e, hr⟩ := C63_until_value m [v] first (first + 1) (by omega) (by omega)
  have hrl : r < first + 1 := by
    by_cases hx : r ≤ first
    · omega
    · exact absurd (by simp) (hr.2.2.1 first v (by omega) (by omega) hc)
  rw [findFirstOfAny, e]
  simp only [pure_bind]
  rw [if_neg (by simp [hrl]), anyLoop, if_neg (by simp)]
  rfl

example := C63_find_any_single_violated [97, 98, 120] 98 [120] 1 rfl

example : ([97, 98, 120] : List Nat)[2]? = some 120 ∧ (0 + 1 : Nat) < 3 := by decide

/-- `find_first_of_any` never returns when the second value of the range is not the second of the sequence. -/
theorem C63_find_any_loop_violated [DecidableEq α] (m : List α) (v w : α) (vs : List α) (first last k : Nat) (hl : last ≤ m.length) (hk : first ≤ k)
    (hkl : k < last) (hc : m[k]? = some v) (h2 : first + 1 < last) (hw : m[first + 1]? ≠ some w) (r : Res) :
    findFirstOfAny m first last (v :: w :: vs) ≠ pure r := by
  obtain ⟨s, e, hs⟩ := C63_until_value m [v] first last (by omega) hl
  have hsl : s < last := by
    by_cases hx : s ≤ k
    · omega
    · exact absurd (by simp) (hs.2.2.1 k v hk (by omega) hc)
  have hr : rd m (first + 1) = pure (m[first + 1]'(by omega)) := rd_eq (by omega)
  have hne : w ≠ m[first + 1]'(by omega) := by
    intro he
    apply hw
    rw [he]
    exact List.getElem?_eq_getElem (by omega)
  have key : ∀ (t : Res × Nat) (r : Res), anyLoop m first last v (w :: vs) t = pure r → t.2 ≠ first + 1 := by
    refine anyLoop.fixpoint_induct m first last v (w :: vs) (fun f => ∀ (t : Res × Nat) r, f t = pure r → t.2 ≠ first + 1) ?_ ?_
    · exact admissible1 (fun (t : Res × Nat) x => ∀ r, x = pure r → t.2 ≠ first + 1) (fun _ t h => by cases h)
    · intro f ih t r ht h
      dsimp only at ht
      rw [if_pos (by omega), h, anyInner, if_neg (by omega), hr] at ht
      simp only [pure_bind] at ht
      rw [if_neg hne] at ht
      simp only [pure_bind] at ht
      rw [if_neg (by simp), e] at ht
      simp only [pure_bind] at ht
      exact ih _ _ ht rfl
  intro h
  rw [findFirstOfAny] at h
  rw [e] at h
  simp only [pure_bind] at h
  rw [if_neg (by simp [hsl])] at h
  exact key _ _ h rfl

example : ([97, 120, 97, 98] : List Nat)[0]? = some 97 ∧ ([97, 120, 97, 98] : List Nat)[0 + 1]? ≠ some 98 := by decide

end Verif.Parse
