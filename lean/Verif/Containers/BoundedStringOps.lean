import Verif.Containers.BoundedString

/-
Comparisons of `daw::basic_bounded_string` with other texts, and `operator+` with arrays, include/daw/deprecated/daw_bounded_string.h.

`str + array` of an array that is not constant (1280-1285) compiles for no array: for those that fit the assertion fails, and for the others the
constructor of the view from an array (daw_string_view1.h 212-215) is chosen, which calls a function `make_last` of one argument that does not exist.
-/

namespace Verif.Containers
namespace BStr
open Cxx BVec Verif.SV

variable {α : Type}

/-- The comparison operators. (Specification, no line of the source.) -/
inductive Rel
  | eq | ne | lt | le | gt | ge
  deriving DecidableEq

/-- The relation of the result of `compare` with 0. (Specification, no line of the source.) -/
def Rel.on : Rel → Int → Bool
  | .eq, c => c == 0
  | .ne, c => c != 0
  | .lt, c => decide (c < 0)
  | .le, c => decide (c ≤ 0)
  | .gt, c => decide (0 < c)
  | .ge, c => decide (0 ≤ c)

/-- `str op view`, daw_bounded_string.h 841-887, and `str op std::string`, 941-982: `lhs.compare( rhs ) op 0`. -/
def rightText [DecidableEq α] (lt : α → α → Bool) (r : Rel) (lhs : BVec α) (rhs : List α) : Cxx Bool := do
  let c ← SV1.compare lt lhs.contents rhs
  pure (r.on c)

/-- `view op str`, daw_bounded_string.h 891-937, and `std::string op str`, 986-1032: `rhs.compare( lhs )` with the relation that each of them writes. -/
def leftText [DecidableEq α] (lt : α → α → Bool) (r : Rel) (lhs : List α) (rhs : BVec α) : Cxx Bool := do
  let c ← SV1.compare lt rhs.contents lhs
  match r with
  | .eq => pure (c == 0)
  | .ne => pure (c != 0)
  | .lt => pure (decide (0 < c))
  | .le => pure (decide (0 ≤ c))
  | .gt => pure (decide (c < 0))
  | .ge => pure (decide (c ≤ 0))

/-- `str op pointer`, daw_bounded_string.h 1036-1088, and `str op array`, 1142-1188: the view of the string is compared with the text before the first terminator. -/
def rightPtr [DecidableEq α] (z : α) (lt : α → α → Bool) (r : Rel) (lhs : BVec α) (rhs : List α) : Cxx Bool := do
  let s ← readC z rhs
  let c ← SV1.compare lt lhs.contents s
  pure (r.on c)

/-- `pointer op str`, daw_bounded_string.h 1091-1138. -/
def leftPtr [DecidableEq α] (z : α) (lt : α → α → Bool) (r : Rel) (lhs : List α) (rhs : BVec α) : Cxx Bool := do
  let s ← readC z lhs
  let c ← SV1.compare lt s rhs.contents
  pure (r.on c)

/-- `array op str`, daw_bounded_string.h 1192-1234: `==` takes all characters but the last one, the others those before the first terminator. -/
def leftArray [DecidableEq α] (z : α) (lt : α → α → Bool) (r : Rel) (lhs : List α) (rhs : BVec α) : Cxx Bool :=
  match r with
  | .eq => do
    let c ← SV1.compare lt (lhs.take (lhs.length - 1)) rhs.contents
    pure (c == 0)
  | r => leftPtr z lt r lhs rhs

/-- `array + str` of an array that is not constant, daw_bounded_string.h 1247-1253; `none` if it does not compile. -/
def arrayPlus (z : α) (C : Nat) (lhs : List α) (rhs : BVec α) : Option (Cxx (BVec α)) :=
  if lhs.length > C then some do
    let result ← ofPtr z C lhs lhs.length
    append z C result rhs.contents
  else none

/-- `str + pointer`, daw_bounded_string.h 1288-1292, which literals are passed to, and `str + std::string`, 1263-1277, which appends all of it. -/
def plusPtr [DecidableEq α] (z : α) (C : Nat) (lhs : BVec α) (rhs : List α) : Cxx (BVec α) := do
  let s ← readC z rhs
  append z C lhs s

/-- The relation of two texts. (Specification, no line of the source.) -/
def Rel.Holds (lt : α → α → Bool) (r : Rel) (x y : List α) : Prop :=
  match r with
  | .eq => x = y
  | .ne => x ≠ y
  | .lt => LexLt lt x y
  | .le => ¬ LexLt lt y x
  | .gt => LexLt lt y x
  | .ge => ¬ LexLt lt x y

theorem readC_text [DecidableEq α] (z : α) (s rest : List α) (h : z ∉ s) : readC z (s ++ z :: rest) = pure s := by
  induction s with
  | nil => simp [readC]
  | cons a s ih =>
    have ha : a ≠ z := fun e => h (by simp [e])
    have hs : z ∉ s := fun e => h (by simp [e])
    rw [List.cons_append, readC, if_neg ha, ih hs, pure_bind]

theorem on_holds {lt : α → α → Bool} {c : Int} {x y : List α} (h1 : c = 0 ↔ x = y) (h2 : c < 0 ↔ LexLt lt x y) (h3 : 0 < c ↔ LexLt lt y x) (r : Rel) :
    r.on c = true ↔ r.Holds lt x y := by
  cases r <;> simp [Rel.on, Rel.Holds, h1, ← h2, ← h3]

theorem compare_on [DecidableEq α] {lt : α → α → Bool} (sw : StrictWeak lt) (tot : ∀ a b, a ≠ b → lt a b = true ∨ lt b a = true) (x y : List α) :
    ∃ c, SV1.compare lt x y = pure c ∧ (c = 0 ↔ x = y) ∧ (c < 0 ↔ LexLt lt x y) ∧ (0 < c ↔ LexLt lt y x) := by
  obtain ⟨c, e, h1, h2, h3⟩ := SV1.C217_compare sw tot x y
  refine ⟨c, e, ?_, ?_, ?_⟩ <;> grind

/-- The comparisons with views and with `std::string`, on either side, are those of the texts, whatever characters they contain. -/
theorem C343_views [DecidableEq α] {lt : α → α → Bool} (sw : StrictWeak lt) (tot : ∀ a b, a ≠ b → lt a b = true ∨ lt b a = true) (r : Rel) (v : BVec α) (t : List α) :
    (∃ b, rightText lt r v t = pure b ∧ (b = true ↔ r.Holds lt v.contents t)) ∧ (∃ b, leftText lt r t v = pure b ∧ (b = true ↔ r.Holds lt t v.contents)) := by
  obtain ⟨c, e, h1, h2, h3⟩ := compare_on sw tot v.contents t
  refine ⟨⟨r.on c, by unfold rightText; rw [e, pure_bind], on_holds h1 h2 h3 r⟩, ?_⟩
  unfold leftText
  rw [e, pure_bind]
  have h1' : c = 0 ↔ t = v.contents := h1.trans eq_comm
  cases r <;> refine ⟨_, rfl, ?_⟩ <;> simp [Rel.Holds, h1', ← h2, ← h3]

/-- The comparisons with pointers and arrays are those of the texts, if there is no terminator in the text. -/
theorem C343_c_strings_partial [DecidableEq α] {lt : α → α → Bool} (sw : StrictWeak lt) (tot : ∀ a b, a ≠ b → lt a b = true ∨ lt b a = true) (z : α) (r : Rel) (v : BVec α) (t : List α)
    (ht : z ∉ t) :
    (∃ b, rightPtr z lt r v (t ++ [z]) = pure b ∧ (b = true ↔ r.Holds lt v.contents t)) ∧ (∃ b, leftPtr z lt r (t ++ [z]) v = pure b ∧ (b = true ↔ r.Holds lt t v.contents)) ∧
    (∃ b, leftArray z lt r (t ++ [z]) v = pure b ∧ (b = true ↔ r.Holds lt t v.contents)) := by
  obtain ⟨c, e, h1, h2, h3⟩ := compare_on sw tot v.contents t
  obtain ⟨d, f, k1, k2, k3⟩ := compare_on sw tot t v.contents
  have hr := readC_text z t [] ht
  have hl : ∃ b, leftPtr z lt r (t ++ [z]) v = pure b ∧ (b = true ↔ r.Holds lt t v.contents) :=
    ⟨r.on d, by unfold leftPtr; rw [hr, pure_bind, f, pure_bind], on_holds k1 k2 k3 r⟩
  refine ⟨⟨r.on c, by unfold rightPtr; rw [hr, pure_bind, e, pure_bind], on_holds h1 h2 h3 r⟩, hl, ?_⟩
  cases r with
  | eq =>
    refine ⟨Rel.eq.on d, ?_, on_holds k1 k2 k3 .eq⟩
    unfold leftArray
    simp only [List.length_append, List.length_cons, List.length_nil, Nat.add_sub_cancel, List.take_left, Nat.zero_add]
    rw [f, pure_bind]; rfl
  | ne => exact hl
  | lt => exact hl
  | le => exact hl
  | gt => exact hl
  | ge => exact hl

example : leftArray 0 (fun a b : Nat => decide (a < b)) .lt ([1, 2] ++ [0]) ⟨1, 0, [3, 0]⟩ = pure true ∧ leftText (fun a b : Nat => decide (a < b)) .lt [1, 2] ⟨1, 0, [3, 0]⟩ = pure true :=
  ⟨by decide +kernel, by decide +kernel⟩

/-- A literal with a terminator in its text is both equal and not equal to the string with this text, if it is on the left side; on the right side it is not equal. -/
theorem C343_literal_violated [DecidableEq α] {lt : α → α → Bool} (sw : StrictWeak lt) (tot : ∀ a b, a ≠ b → lt a b = true ∨ lt b a = true) (z : α) (s rest : List α) (hs : z ∉ s) (v : BVec α)
    (hv : v.contents = s ++ z :: rest) :
    leftArray z lt .eq (v.contents ++ [z]) v = pure true ∧ leftArray z lt .ne (v.contents ++ [z]) v = pure true ∧ rightPtr z lt .eq v (v.contents ++ [z]) = pure false := by
  have hr : readC z (v.contents ++ [z]) = pure s := by
    rw [hv, List.append_assoc, List.cons_append]; exact readC_text z s _ hs
  have hne : s ≠ v.contents := by
    rw [hv]
    intro h
    have := congrArg List.length h
    simp at this
  obtain ⟨c, e, h1, -, -⟩ := compare_on sw tot v.contents v.contents
  obtain ⟨d, f, k1, -, -⟩ := compare_on sw tot s v.contents
  obtain ⟨g, k, l1, -, -⟩ := compare_on sw tot v.contents s
  refine ⟨?_, ?_, ?_⟩
  · unfold leftArray
    simp only [List.length_append, List.length_cons, List.length_nil, Nat.add_sub_cancel, List.take_left, Nat.zero_add]
    rw [e, pure_bind, h1.2 rfl]; rfl
  · show leftPtr z lt .ne (v.contents ++ [z]) v = pure true
    unfold leftPtr
    rw [hr, pure_bind, f, pure_bind]
    have : d ≠ 0 := fun h => hne (k1.1 h)
    rw [show Rel.ne.on d = true by simp [Rel.on, this]]
  · unfold rightPtr
    rw [hr, pure_bind, k, pure_bind]
    have : g ≠ 0 := fun h => hne (l1.1 h).symm
    rw [show Rel.eq.on g = false by simp [Rel.on, this]]

example : leftArray 0 (fun a b : Nat => decide (a < b)) .eq [1, 0, 2, 0] ⟨3, 0, [1, 0, 2, 0]⟩ = pure true ∧
    leftArray 0 (fun a b : Nat => decide (a < b)) .ne [1, 0, 2, 0] ⟨3, 0, [1, 0, 2, 0]⟩ = pure true := ⟨by decide +kernel, by decide +kernel⟩

/-- `str + text` is the concatenation if it fits, otherwise it throws. -/
theorem C344_plus_partial [DecidableEq α] (z : α) (C : Nat) (hC : C + 1 < 2 ^ 63) (v : BVec α) (h : Ok z C v) (t : List α) (ht : z ∉ t) (hl : t.length < 2 ^ 63) :
    (v.contents.length + t.length ≤ C → ∃ v', plusPtr z C v (t ++ [z]) = pure v' ∧ Ok z C v' ∧ v'.contents = v.contents ++ t) ∧
    (C < v.contents.length + t.length → plusPtr z C v (t ++ [z]) = thrown) := by
  unfold plusPtr
  rw [readC_text z t [] ht, pure_bind]
  exact append_ok hC h.inv t hl

example : plusPtr 0 4 ⟨2, 0, [1, 2, 0, 0, 0]⟩ [3, 0] = pure ⟨3, 0, [1, 2, 3, 0, 0]⟩ := by decide +kernel

/-- The assertion of `array + str` asks for the opposite: it compiles for arrays longer than the capacity only, and then it always throws. -/
theorem C344_array_violated (z : α) (C : Nat) (hC : C + 1 < 2 ^ 63) (v : BVec α) (h : Ok z C v) (t : List α) :
    (t.length ≤ C → arrayPlus z C t v = none) ∧ (C < t.length → arrayPlus z C t v = some thrown) := by
  refine ⟨fun h1 => by unfold arrayPlus; rw [if_neg (by omega)], fun h1 => ?_⟩
  unfold arrayPlus
  rw [if_pos h1]
  obtain ⟨w, e, hi, hc, -⟩ := ofPtr_eq z C t t.length (Nat.le_refl _)
  rw [List.take_length] at hc
  have hlen : w.contents.length = min (C + 1) t.length := by rw [hc, List.length_take]
  have hs := h.size
  have hidx := index_eq h
  rw [e, pure_bind, (append_ok (z := z) hC hi v.contents (by omega)).2 (by omega)]

example : arrayPlus 0 2 [5, 6, 0] ⟨0, 0, [0, 0, 0]⟩ = some thrown := by decide +kernel

end BStr
end Verif.Containers
