import Verif.Base

/-
The comparisons and the hash of `value_ptr`, include/daw/daw_value_ptr.h 190-311, beside those of `heap_value`,
include/daw/deprecated/daw_heap_value.h 123-151.
-/

namespace Verif.Own.ValueCompare
open Cxx

variable {α : Type}

/-- `compare`, daw_value_ptr.h 193-211, with `std::less<>` as the order: `none` is a null pointer. -/
def compare (lt : α → α → Bool) : Option α → Option α → Int
  | none, none => 0
  | none, some _ => -1
  | some _, none => 1
  | some a, some b => if lt a b then -1 else if lt b a then 1 else 0

/-- `operator==`, daw_value_ptr.h 241-249. -/
def eq (lt : α → α → Bool) (a b : Option α) : Bool := compare lt a b == 0

/-- `operator!=`, daw_value_ptr.h 251-258. -/
def ne (lt : α → α → Bool) (a b : Option α) : Bool := compare lt a b != 0

/-- `operator>`, daw_value_ptr.h 260-267. -/
def gt (lt : α → α → Bool) (a b : Option α) : Bool := decide (compare lt a b > 0)

/-- `operator>=`, daw_value_ptr.h 269-276. -/
def ge (lt : α → α → Bool) (a b : Option α) : Bool := decide (compare lt a b ≥ 0)

/-- `operator<`, daw_value_ptr.h 278-285. -/
def lt' (lt : α → α → Bool) (a b : Option α) : Bool := decide (compare lt a b < 0)

/-- `operator<=`, daw_value_ptr.h 287-294. -/
def le (lt : α → α → Bool) (a b : Option α) : Bool := decide (compare lt a b ≤ 0)

/-- `std::hash<value_ptr<T>>`, daw_value_ptr.h 301-310: what the pointer is to is hashed, without a test. -/
def hash (h : α → Nat) : Option α → Cxx Nat
  | none => ub
  | some a => pure (h a)

/-- `operator<` of `heap_value`, deprecated/daw_heap_value.h 148-151; the others, 123-146, are like it: the objects are read without a
test, and one that was moved from has none. -/
def heapLt (lt : α → α → Bool) : Option α → Option α → Cxx Bool
  | some a, some b => pure (lt a b)
  | _, _ => ub

/-- The order of the values, nothing being the least. (Specification, no line of the source.) -/
inductive Less (lt : α → α → Bool) : Option α → Option α → Prop where
  | null (b : α) : Less lt none (some b)
  | both (a b : α) (h : lt a b = true) : Less lt (some a) (some b)

theorem less_iff (lt : α → α → Bool) (hw : StrictWeak lt) (a b : Option α) :
    (Less lt a b ↔ compare lt a b < 0) ∧ (Less lt b a ↔ compare lt a b > 0) := by
  cases a with
  | none =>
    cases b with
    | none => exact ⟨⟨fun h => (by cases h), fun h => by simp [compare] at h⟩, ⟨fun h => (by cases h), fun h => by simp [compare] at h⟩⟩
    | some b => exact ⟨⟨fun _ => by simp [compare], fun _ => .null b⟩, ⟨fun h => (by cases h), fun h => by simp [compare] at h⟩⟩
  | some a =>
    cases b with
    | none => exact ⟨⟨fun h => (by cases h), fun h => by simp [compare] at h⟩, ⟨fun _ => by simp [compare], fun _ => .null a⟩⟩
    | some b =>
      have h1 : Less lt (some a) (some b) ↔ lt a b = true := ⟨fun h => by cases h; assumption, .both a b⟩
      have h2 : Less lt (some b) (some a) ↔ lt b a = true := ⟨fun h => by cases h; assumption, .both b a⟩
      rw [h1, h2]
      unfold compare
      by_cases hab : lt a b = true
      · simp [hab, hw.asymm hab]
      · by_cases hba : lt b a = true <;> simp [hab, hba]

/-- C349, as far as it holds: where `<` on the values is a strict weak order, the six operators are those of the order in which a null
pointer comes before every value; exactly one of `<`, `==` and `>` holds, and `==` is an equivalence. -/
theorem C349_order_partial (lt : α → α → Bool) (hw : StrictWeak lt) (a b c : Option α) :
    (lt' lt a b = true ↔ Less lt a b) ∧ (gt lt a b = true ↔ Less lt b a) ∧ (le lt a b = true ↔ ¬ Less lt b a) ∧
    (ge lt a b = true ↔ ¬ Less lt a b) ∧ (eq lt a b = true ↔ ¬ Less lt a b ∧ ¬ Less lt b a) ∧ (ne lt a b = !eq lt a b) ∧
    (lt' lt a b).toNat + (eq lt a b).toNat + (gt lt a b).toNat = 1 ∧
    (eq lt a b = true → eq lt b c = true → eq lt a c = true) := by
  obtain ⟨h1, h2⟩ := less_iff lt hw a b
  refine ⟨?_, ?_, ?_, ?_, ?_, ?_, ?_, ?_⟩
  · rw [h1]; simp [lt']
  · rw [h2]; simp [gt]
  · rw [h2]; simp [le]
  · rw [h1]; simp [ge]
  · rw [h1, h2]
    simp only [eq, beq_iff_eq]
    omega
  · simp [ne, eq, bne]
  · unfold lt' eq gt
    rcases Int.lt_trichotomy (compare lt a b) 0 with h | h | h
    · simp [h, show ¬ compare lt a b = 0 by omega, show ¬ 0 < compare lt a b by omega]
    · simp [h]
    · simp [h, show ¬ compare lt a b = 0 by omega, show ¬ compare lt a b < 0 by omega]
  · simp only [eq, beq_iff_eq]
    cases a <;> cases b <;> cases c <;> simp only [compare] <;> try (intros; omega)
    rename_i a b c
    intro hab hbc
    have hab' : lt a b = false ∧ lt b a = false := by
      by_cases h : lt a b = true
      · simp [h] at hab
      · by_cases h' : lt b a = true
        · simp [h, h'] at hab
        · simp_all
    have hbc' : lt b c = false ∧ lt c b = false := by
      by_cases h : lt b c = true
      · simp [h] at hbc
      · by_cases h' : lt c b = true
        · simp [h, h'] at hbc
        · simp_all
    rw [hw.incomp a b c hab'.1 hbc'.1, hw.incomp c b a hbc'.2 hab'.2]
    simp

example : eq (fun a b : Nat => decide (a < b)) (some 3) (some 3) = true ∧ lt' (fun a b : Nat => decide (a < b)) none (some 0) = true := by decide

/-- C349 does not hold for `==` as the equality of the values: two values of which neither is less count as equal, whatever their own
`==` says; so a number is equal to one that is not a number. -/
theorem C349_equality_violated (lt : α → α → Bool) (a b : α) (h1 : lt a b = false) (h2 : lt b a = false) :
    eq lt (some a) (some b) = true := by
  simp [eq, compare, h1, h2]

example := C349_equality_violated (fun a b : Nat => decide (a / 10 < b / 10)) 41 47 (by decide) (by decide)

/-- A floating point number as far as it matters here: a number, or no number, which is not less than anything and nothing is less than
it. (Rule of C++ or its library, no line of the source.) -/
def floatLt : Option Int → Option Int → Bool
  | some a, some b => decide (a < b)
  | _, _ => false

/-- C349: with floating point numbers `==` is not even transitive, and pointers that count as equal have different hashes. -/
theorem C349_floating_violated (h : Option Int → Nat) (h12 : h (some 1) ≠ h none) :
    eq floatLt (some (some 1)) (some none) = true ∧ eq floatLt (some none) (some (some 2)) = true ∧
    eq floatLt (some (some 1)) (some (some 2)) = false ∧
    hash h (some (some 1)) ≠ hash h (some none) := by
  refine ⟨rfl, rfl, rfl, fun he => h12 ?_⟩
  exact pure_inj.1 he

example : (fun x : Option Int => x.toList.length) (some 1) ≠ (fun x : Option Int => x.toList.length) none := by decide

/-- C349: the hash of a null pointer, which compares like any other, is undefined; so is every comparison with a `heap_value` that was
moved from. -/
theorem C349_null_violated (lt : α → α → Bool) (h : α → Nat) (b : Option α) :
    eq lt none none = true ∧ hash h none = ub ∧ heapLt lt none b = ub := by
  refine ⟨rfl, rfl, ?_⟩
  cases b <;> rfl

example := C349_null_violated (fun (a b : Nat) => decide (a < b)) id (some 3)

end Verif.Own.ValueCompare
