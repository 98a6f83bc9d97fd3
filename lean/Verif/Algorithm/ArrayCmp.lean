import Verif.Base

/-
Comparison of arrays of any rank, include/daw/algorithms/daw_array_compare.h, and orderings as integers, include/daw/daw_ordering_to_integer.h.
-/

namespace Verif.Algorithm.ArrayCmp
open Verif

variable {α β ρ : Type}

/-- Arrays of the rank `r`, for 0 the elements. (Rule of C++ or its library, no line of the source.) -/
def Arr (α : Type) : Nat → Type
  | 0 => α
  | r + 1 => List (Arr α r)

/-- The loop over the first extent, daw_array_compare.h 39-51: the first result that is not `eqv`. -/
def loop [DecidableEq ρ] (eqv : ρ) (f : β → β → ρ) : List β → List β → ρ
  | x :: xs, y :: ys =>
    let r := f x y
    if r ≠ eqv then r else loop eqv f xs ys
  | _, _ => eqv

/-- `array_cmp`, daw_array_compare.h 31-52; at rank 0 the call of `cmp`, 44.  `eqv` is `equal_or_equivalent_v<compare_result_t>`. -/
def arrayCmp [DecidableEq ρ] (eqv : ρ) (cmp : α → α → ρ) : (r : Nat) → Arr α r → Arr α r → ρ
  | 0, x, y => cmp x y
  | r + 1, xs, ys => loop eqv (arrayCmp eqv cmp r) xs ys

/-- `equal_or_equivalent_v<bool>`, daw_ordering_to_integer.h 86-87 and daw_array_compare.h 21-28. -/
def eqvBool : Bool := true

/-- `equal_or_equivalent_v<int>`, daw_ordering_to_integer.h 86-87 converted by daw_array_compare.h 22-24. -/
def eqvInt : Int := 1

/-- `equal_or_equivalent_v` of the orderings, daw_ordering_to_integer.h 89-99. -/
def eqvOrdering : Ordering := .eq

/-- The elements in the order in which they lie in memory. (Specification, no line of the source.) -/
def flat : (r : Nat) → Arr α r → List α
  | 0, x => [x]
  | r + 1, xs => ((show List (Arr α r) from xs).map (flat r)).flatten

/-- The array has the given extents. (Specification, no line of the source.) -/
def Shaped : (r : Nat) → List Nat → Arr α r → Prop
  | 0, [], _ => True
  | r + 1, d :: ds, xs => (show List (Arr α r) from xs).length = d ∧ ∀ x ∈ (show List (Arr α r) from xs), Shaped r ds x
  | _, _, _ => False

/-- The first result that differs from `eqv`. (Specification, no line of the source.) -/
def first [DecidableEq ρ] (eqv : ρ) (rs : List ρ) : ρ := (rs.find? (· ≠ eqv)).getD eqv

/-! ## Proofs -/

theorem flat_length {r : Nat} {ds : List Nat} {a b : Arr α r} (ha : Shaped r ds a) (hb : Shaped r ds b) :
    (flat r a).length = (flat r b).length := by
  induction r generalizing ds with
  | zero => rfl
  | succ r ih =>
    cases ds with
    | nil => exact ha.elim
    | cons d ds =>
      obtain ⟨ha1, ha2⟩ := ha
      obtain ⟨hb1, hb2⟩ := hb
      change List (Arr α r) at a b
      change a.length = d at ha1
      change b.length = d at hb1
      change ∀ x ∈ a, Shaped r ds x at ha2
      change ∀ x ∈ b, Shaped r ds x at hb2
      change ((a.map (flat r)).flatten).length = ((b.map (flat r)).flatten).length
      rw [← hb1] at ha1
      clear hb1
      induction a generalizing b with
      | nil => cases b with
        | nil => rfl
        | cons y b => simp at ha1
      | cons x a iha => cases b with
        | nil => simp at ha1
        | cons y b =>
          simp only [List.map_cons, List.flatten_cons, List.length_append]
          rw [ih (ha2 x (by simp)) (hb2 y (by simp)),
            iha (b := b) (by simpa using ha1) (fun z hz => ha2 z (by simp [hz])) (fun z hz => hb2 z (by simp [hz]))]

theorem first_append [DecidableEq ρ] (eqv : ρ) (l m : List ρ) :
    first eqv (l ++ m) = if first eqv l ≠ eqv then first eqv l else first eqv m := by
  unfold first
  rw [List.find?_append]
  cases h : l.find? (· ≠ eqv) with
  | none => simp
  | some r =>
    have := List.find?_some h
    simp at this
    simp [this]

/-- For arrays of any rank with the same extents, the result is the first of the results for the elements in memory order that does not mean equal.
Missing: comparisons that give an int, see `C298_int_violated`. -/
theorem C298_first_partial [DecidableEq ρ] (eqv : ρ) (cmp : α → α → ρ) {r : Nat} {ds : List Nat} {a b : Arr α r}
    (ha : Shaped r ds a) (hb : Shaped r ds b) : arrayCmp eqv cmp r a b = first eqv (List.zipWith cmp (flat r a) (flat r b)) := by
  induction r generalizing ds with
  | zero =>
    change cmp a b = first eqv [cmp a b]
    by_cases h : cmp a b = eqv <;> simp [first, h]
  | succ r ih =>
    cases ds with
    | nil => exact ha.elim
    | cons d ds =>
      obtain ⟨ha1, ha2⟩ := ha
      obtain ⟨hb1, hb2⟩ := hb
      change List (Arr α r) at a b
      change a.length = d at ha1
      change b.length = d at hb1
      change ∀ x ∈ a, Shaped r ds x at ha2
      change ∀ x ∈ b, Shaped r ds x at hb2
      change loop eqv (arrayCmp eqv cmp r) a b = first eqv (List.zipWith cmp ((a.map (flat r)).flatten) ((b.map (flat r)).flatten))
      rw [← hb1] at ha1
      clear hb1
      induction a generalizing b with
      | nil => cases b with
        | nil => simp [loop, first]
        | cons y b => simp at ha1
      | cons x a iha => cases b with
        | nil => simp at ha1
        | cons y b =>
          have hx := ha2 x (by simp)
          have hy := hb2 y (by simp)
          simp only [List.map_cons, List.flatten_cons, loop]
          rw [List.zipWith_append (flat_length hx hy), first_append, ih hx hy,
            iha (b := b) (by simpa using ha1) (fun z hz => ha2 z (by simp [hz])) (fun z hz => hb2 z (by simp [hz]))]

/-- A 2 by 2 array. (Specification, no line of the source.) -/
def sample (a b c d : Nat) : Arr Nat 2 := [[a, b], [c, d]]

theorem sample_shaped (a b c d : Nat) : Shaped 2 [2, 2] (sample a b c d) := by
  refine ⟨rfl, ?_⟩
  show ∀ x ∈ ([([a, b] : List Nat), [c, d]] : List (List Nat)), Shaped (α := Nat) 1 [2] x
  intro x hx
  simp only [List.mem_cons, List.not_mem_nil, or_false] at hx
  rcases hx with rfl | rfl <;> exact ⟨rfl, fun _ _ => trivial⟩

example : Shaped 2 [2, 2] (sample 1 2 3 4) ∧ Shaped 2 [2, 2] (sample 1 2 5 0) := ⟨sample_shaped .., sample_shaped ..⟩
example : arrayCmp eqvOrdering (fun x y : Nat => compare x y) 2 (sample 1 2 3 4) (sample 1 2 5 0) = .lt := by decide

theorem first_bool (l : List Bool) : first eqvBool l = l.all id := by
  induction l with
  | nil => rfl
  | cons x l ih => cases x <;> simp_all [first, eqvBool]

/-- With `==` arrays compare equal exactly if all elements are equal. -/
theorem C298_equal [DecidableEq α] {r : Nat} {ds : List Nat} {a b : Arr α r} (ha : Shaped r ds a) (hb : Shaped r ds b) :
    arrayCmp eqvBool (fun x y : α => decide (x = y)) r a b = true ↔ flat r a = flat r b := by
  rw [C298_first_partial _ _ ha hb, first_bool]
  have hl := flat_length ha hb
  generalize flat r a = l at *
  generalize flat r b = m at *
  induction l generalizing m with
  | nil => cases m with
    | nil => simp
    | cons y m => simp at hl
  | cons x l ih => cases m with
    | nil => simp at hl
    | cons y m =>
      have := ih m (by simpa using hl)
      simp [List.zipWith_cons_cons, this]

example : Shaped 2 [2, 2] (sample 1 2 3 4) := sample_shaped ..

/-- With a three way comparison of a total order the result is the lexicographic order of the elements. -/
theorem C298_lexicographic {r : Nat} {ds : List Nat} {a b : Arr Nat r} (ha : Shaped r ds a) (hb : Shaped r ds b) :
    (arrayCmp eqvOrdering (fun x y : Nat => compare x y) r a b = .lt ↔ flat r a < flat r b) ∧
    (arrayCmp eqvOrdering (fun x y : Nat => compare x y) r a b = .eq ↔ flat r a = flat r b) := by
  rw [C298_first_partial _ _ ha hb]
  have hl := flat_length ha hb
  generalize flat r a = l at *
  generalize flat r b = m at *
  clear ha hb a b
  induction l generalizing m with
  | nil => cases m with
    | nil => simp [first, eqvOrdering]
    | cons y m => simp at hl
  | cons x l ih => cases m with
    | nil => simp at hl
    | cons y m =>
      have := ih m (by simpa using hl)
      rw [List.zipWith_cons_cons]
      rcases Nat.lt_trichotomy x y with h | h | h
      · have hc : compare x y = .lt := Nat.compare_eq_lt.2 h
        simp [first, hc, eqvOrdering, List.cons_lt_cons_iff, h]
        omega
      · subst h
        have hc : compare x x = .eq := Nat.compare_eq_eq.2 rfl
        have hf : ∀ rs, first eqvOrdering (Ordering.eq :: rs) = first eqvOrdering rs := by intro rs; simp [first, eqvOrdering]
        rw [hc, hf]
        simp [this]
      · have hc : compare x y = .gt := Nat.compare_eq_gt.2 h
        simp [first, hc, eqvOrdering, List.cons_lt_cons_iff]
        omega

example : flat 2 (sample 1 2 3 4) < flat 2 (sample 1 2 5 0) := by decide

/-- A comparison that returns an `int`, 0 for equal: equality is taken to be 1, and the first two elements alone decide. -/
theorem C298_int_violated : ∃ (cmp : Nat → Nat → Int) (a b : Arr Nat 1), (∀ x y, cmp x y = 0 ↔ x = y) ∧ flat 1 a ≠ flat 1 b ∧
    arrayCmp eqvInt cmp 1 a b = 0 := by
  refine ⟨fun x y => if x = y then 0 else 5, ([1, 2] : List Nat), ([1, 3] : List Nat), ?_, ?_, ?_⟩
  · intro x y
    by_cases h : x = y <;> simp [h]
  · decide
  · decide

/-- C298, for every comparison that returns an `int`: the result is the first that is not 1, and 1 if there is none.  So a pair
that compares as 0, which is equal, ends the comparison, and pairs that compare as 1 are passed over as if they were equal. -/
theorem C298_int_result_finding (cmp : α → α → Int) {r : Nat} {ds : List Nat} {a b : Arr α r} (ha : Shaped r ds a) (hb : Shaped r ds b) :
    arrayCmp eqvInt cmp r a b = ((List.zipWith cmp (flat r a) (flat r b)).find? (· ≠ 1)).getD 1 := by
  rw [C298_first_partial _ _ ha hb]
  rfl

example : arrayCmp eqvInt (fun x y : Nat => if x < y then -1 else if y < x then 1 else 0) 2 (sample 2 2 3 4) (sample 1 3 3 4) = -1 := by
  rw [C298_int_result_finding _ (sample_shaped ..) (sample_shaped ..)]
  decide

/-- The orderings of the standard, with `unordered` for `std::partial_ordering`. (Rule of C++ or its library, no line of the source.) -/
inductive Order
  | less | equal | greater | unordered
  deriving DecidableEq

/-- `std::bit_cast<signed char>( order )`, daw_ordering_to_integer.h 20-30; the representation of `unordered` is up to the implementation. -/
def toInteger (unordered : Int) : Order → Int
  | .less => -1
  | .equal => 0
  | .greater => 1
  | .unordered => unordered

/-- `order_to_enum`, daw_ordering_to_integer.h 69-79, the value of the enumeration, 33-53. -/
def toEnum (unordered : Int) (o : Order) : Int := toInteger unordered o

/-- `equal_or_equivalent`, daw_ordering_to_integer.h 81-84. -/
def equalOrEquivalent (unordered : Int) (o : Order) : Bool := toInteger unordered o == 0

/-- Different orderings have different enumerators, and exactly equal ones are recognised, whatever value the implementation gives `unordered`
besides those of the others. -/
theorem C299_orderings (u : Int) (hu : u ≠ -1 ∧ u ≠ 0 ∧ u ≠ 1) (o p : Order) :
    (toEnum u o = toEnum u p ↔ o = p) ∧ (equalOrEquivalent u o = true ↔ o = .equal) ∧ (o ≠ .unordered → (toEnum u o < 0 ↔ o = .less)) := by
  obtain ⟨h1, h2, h3⟩ := hu
  cases o <;> cases p <;> simp [toEnum, toInteger, equalOrEquivalent] <;> omega

example : (-128 : Int) ≠ -1 ∧ (-128 : Int) ≠ 0 ∧ (-128 : Int) ≠ 1 := by decide

end Verif.Algorithm.ArrayCmp
