import Verif.Algorithm.Model
import Verif.Algorithm.Spec

/- C26 (comparison of ranges), C28 (set_intersection), C32 (variadic equality). -/

namespace Verif.Algorithm
open Cxx

variable {α β : Type}

/-- **C26**: `equal` is true exactly when the ranges have the same length and
their elements correspond pairwise. -/
theorem C26_equal_iff (comp : α → β → Bool) (xs : List α) (ys : List β) :
    equal comp xs ys = true ↔
      xs.length = ys.length ∧ ∀ (i : Nat) (a : α) (b : β), xs[i]? = some a → ys[i]? = some b → comp a b = true := by
  induction xs generalizing ys with
  | nil => cases ys <;> simp [equal]
  | cons x xs ih =>
    cases ys with
    | nil => simp [equal]
    | cons y ys =>
      simp only [equal, List.length_cons, Nat.add_right_cancel_iff]
      constructor
      · intro h
        split at h
        · rename_i hc
          obtain ⟨h1, h2⟩ := (ih ys).1 h
          refine ⟨h1, fun i a b ha hb => ?_⟩
          cases i with
          | zero => simp at ha hb; subst ha; subst hb; exact hc
          | succ i => exact h2 i a b (by simpa using ha) (by simpa using hb)
        · cases h
      · rintro ⟨h1, h2⟩
        have hc : comp x y = true := h2 0 x y rfl rfl
        rw [if_pos hc]
        exact (ih ys).2 ⟨h1, fun i a b ha hb => h2 (i + 1) a b (by simpa using ha) (by simpa using hb)⟩

/-- **C26**: with `==` this is equality of the sequences. -/
theorem C26_equal_eq [BEq α] [LawfulBEq α] (xs ys : List α) :
    equal (· == ·) xs ys = true ↔ xs = ys := by
  rw [C26_equal_iff]
  constructor
  · rintro ⟨h1, h2⟩
    apply List.ext_getElem h1
    intro i hi hj
    exact eq_of_beq (h2 i xs[i] ys[i] (by simp [hi]) (by simp [hj]))
  · rintro rfl
    refine ⟨rfl, fun i a b ha hb => ?_⟩
    rw [ha] at hb; injection hb with hb; subst hb; exact beq_self_eq_true _

/-- **C26** finding: `not_equal` is not the negation of `equal`: two ranges that differ,
but not at their first element, are reported as not "not equal". -/
theorem C26_not_equal_violated :
    ∃ xs ys : List Nat, equal (· == ·) xs ys = false ∧ notEqual (· != ·) xs ys = false :=
  ⟨[1, 2], [1, 3], rfl, rfl⟩

/-- **C26** finding: two empty ranges are reported both equal and not equal. -/
theorem C26_not_equal_empty_violated :
    equal (α := Nat) (· == ·) [] [] = true ∧ notEqual (α := Nat) (· != ·) [] [] = true := ⟨rfl, rfl⟩

/-- **C26** what `not_equal` does decide: the ranges have the same length and differ at
*every* position.  Missing: being the negation of `equal`, see the findings. -/
theorem C26_not_equal_partial [BEq α] [LawfulBEq α] (xs ys : List α) :
    notEqual (· != ·) xs ys = true ↔
      xs.length = ys.length ∧ ∀ (i : Nat) (a b : α), xs[i]? = some a → ys[i]? = some b → a ≠ b := by
  have e : ∀ (xs ys : List α), notEqual (· != ·) xs ys = equal (fun a b => a != b) xs ys := by
    intro xs
    induction xs with
    | nil => intro ys; cases ys <;> rfl
    | cons x xs ih => intro ys; cases ys with
      | nil => rfl
      | cons y ys => simp only [notEqual, equal, ih]
  rw [e, C26_equal_iff]
  simp

/-- The lexicographic order in terms of the position of the first difference. (Specification, no line of the source.) -/
def LexLess (lt : α → α → Bool) (xs ys : List α) : Prop :=
  ∃ k : Nat, (∀ (j : Nat) (a b : α), j < k → xs[j]? = some a → ys[j]? = some b → lt a b = false ∧ lt b a = false) ∧
    ((xs.length = k ∧ k < ys.length) ∨
     ∃ a b, xs[k]? = some a ∧ ys[k]? = some b ∧ lt a b = true)

/-- **C26**: `lexicographical_compare` decides the lexicographic order. -/
theorem C26_lexicographical_compare (lt : α → α → Bool) (xs ys : List α) :
    lexCompare lt xs ys = true ↔ LexLess lt xs ys := by
  induction xs generalizing ys with
  | nil =>
    cases ys with
    | nil => simp [lexCompare, LexLess]
    | cons y ys =>
      simp only [lexCompare, LexLess]
      simp only [List.isEmpty_nil, List.isEmpty_cons, Bool.not_false, Bool.and_self, true_iff]
      exact ⟨0, by intros; omega, Or.inl ⟨rfl, by simp⟩⟩
  | cons x xs ih =>
    cases ys with
    | nil =>
      simp only [lexCompare, LexLess, List.isEmpty_cons, Bool.false_and, Bool.false_eq_true, false_iff]
      rintro ⟨k, _, ⟨_, h⟩ | ⟨a, b, _, h, _⟩⟩
      · simp at h
      · simp at h
    | cons y ys =>
      simp only [lexCompare]
      by_cases h1 : lt x y
      · simp only [h1, if_true, true_iff]
        exact ⟨0, by intros; omega, Or.inr ⟨x, y, rfl, rfl, h1⟩⟩
      · simp only [h1, Bool.false_eq_true, if_false]
        by_cases h2 : lt y x
        · simp only [h2, if_true, Bool.false_eq_true, false_iff]
          rintro ⟨k, hk, hcase⟩
          cases k with
          | zero =>
            rcases hcase with ⟨h, _⟩ | ⟨a, b, ha, hb, hab⟩
            · simp at h
            · simp at ha hb; subst ha; subst hb; exact h1 hab
          | succ k =>
            have := (hk 0 x y (by omega) rfl rfl).2
            rw [h2] at this; cases this
        · simp only [h2, Bool.false_eq_true, if_false]
          rw [ih]
          constructor
          · rintro ⟨k, hk, hcase⟩
            refine ⟨k + 1, ?_, ?_⟩
            · intro j a b hj ha hb
              cases j with
              | zero =>
                simp at ha hb; subst ha; subst hb
                exact ⟨by simpa using h1, by simpa using h2⟩
              | succ j => exact hk j a b (by omega) (by simpa using ha) (by simpa using hb)
            · rcases hcase with ⟨h, h'⟩ | ⟨a, b, ha, hb, hab⟩
              · exact Or.inl ⟨by simp [h], by simpa using h'⟩
              · exact Or.inr ⟨a, b, by simpa using ha, by simpa using hb, hab⟩
          · rintro ⟨k, hk, hcase⟩
            cases k with
            | zero =>
              rcases hcase with ⟨h, _⟩ | ⟨a, b, ha, hb, hab⟩
              · simp at h
              · simp at ha hb; subst ha; subst hb; exact absurd hab h1
            | succ k =>
              refine ⟨k, ?_, ?_⟩
              · intro j a b hj ha hb
                exact hk (j + 1) a b (by omega) (by simpa using ha) (by simpa using hb)
              · rcases hcase with ⟨h, h'⟩ | ⟨a, b, ha, hb, hab⟩
                · exact Or.inl ⟨by simpa using h, by simpa using h'⟩
                · exact Or.inr ⟨a, b, by simpa using ha, by simpa using hb, hab⟩

/-- **C26**: the lexicographic comparison is itself a strict weak ordering. -/
theorem C26_lexicographical_compare_strictWeak (lt : α → α → Bool) (sw : StrictWeak lt) :
    StrictWeak (lexCompare lt) where
  irrefl := by
    intro xs
    induction xs with
    | nil => rfl
    | cons x xs ih => simp [lexCompare, sw.irrefl, ih]
  trans := by
    intro xs
    induction xs with
    | nil =>
      intro ys zs h1 h2
      cases zs with
      | nil => cases ys <;> simp [lexCompare] at h2
      | cons z zs => simp [lexCompare]
    | cons x xs ih =>
      intro ys zs h1 h2
      cases ys with
      | nil => simp [lexCompare] at h1
      | cons y ys =>
        cases zs with
        | nil => simp [lexCompare] at h2
        | cons z zs =>
          simp only [lexCompare] at h1 h2 ⊢
          by_cases a1 : lt x y
          · by_cases b1 : lt y z
            · simp [sw.trans _ _ _ a1 b1]
            · simp only [b1, Bool.false_eq_true, if_false] at h2
              by_cases b2 : lt z y
              · simp [b2] at h2
              · simp [sw.lt_of_lt_of_le a1 (by simpa using b2)]
          · simp only [a1, Bool.false_eq_true, if_false] at h1
            by_cases a2 : lt y x
            · simp [a2] at h1
            · simp only [a2, Bool.false_eq_true, if_false] at h1
              have a1' : lt x y = false := by simpa using a1
              have a2' : lt y x = false := by simpa using a2
              by_cases b1 : lt y z
              · simp [sw.lt_of_le_of_lt a2' b1]
              · simp only [b1, Bool.false_eq_true, if_false] at h2
                by_cases b2 : lt z y
                · simp [b2] at h2
                · simp only [b2, Bool.false_eq_true, if_false] at h2
                  have b1' : lt y z = false := by simpa using b1
                  have b2' : lt z y = false := by simpa using b2
                  simp [sw.incomp _ _ _ a1' b1', sw.incomp _ _ _ b2' a2', ih _ _ h1 h2]
  incomp := by
    intro xs
    induction xs with
    | nil =>
      intro ys zs h1 h2
      cases ys with
      | nil => exact h2
      | cons y ys => simp [lexCompare] at h1
    | cons x xs ih =>
      intro ys zs h1 h2
      cases zs with
      | nil => simp [lexCompare]
      | cons z zs =>
        cases ys with
        | nil => simp [lexCompare] at h2
        | cons y ys =>
          simp only [lexCompare] at h1 h2 ⊢
          by_cases a1 : lt x y
          · simp [a1] at h1
          · have a1' : lt x y = false := by simpa using a1
            by_cases b1 : lt y z
            · simp [b1] at h2
            · have b1' : lt y z = false := by simpa using b1
              have c1 := sw.incomp _ _ _ a1' b1'
              simp only [c1, a1', b1', Bool.false_eq_true, if_false] at h1 h2 ⊢
              by_cases c2 : lt z x
              · simp [c2]
              · have c2' : lt z x = false := by simpa using c2
                have a2' : lt y x = false := sw.incomp _ _ _ b1' c2'
                have b2' : lt z y = false := sw.incomp _ _ _ c2' a1'
                simp only [c2', a2', b2', Bool.false_eq_true, if_false] at h1 h2 ⊢
                exact ih _ _ h1 h2

/-- A pair decided at the third element. -/
example : lexCompare (fun a b : Nat => decide (a < b)) [4, 4, 1] [4, 4, 2, 0] = true := by decide

/-- **C26**: `compare_range` with `<` and `==` of a strict total order returns the sign of the
lexicographic comparison. -/
theorem C26_compare_range [DecidableEq α] (lt : α → α → Bool) (sw : StrictWeak lt)
    (tot : ∀ a b, lt a b = false → lt b a = false → a = b) (xs ys : List α) :
    compareRange lt (· == ·) xs ys =
      if xs = ys then 0 else if lexCompare lt xs ys then -1 else 1 := by
  induction xs generalizing ys with
  | nil => cases ys <;> simp [compareRange, lexCompare]
  | cons x xs ih =>
    cases ys with
    | nil => simp [compareRange, lexCompare]
    | cons y ys =>
      simp only [compareRange, lexCompare]
      by_cases hxy : x = y
      · subst hxy
        simp only [beq_self_eq_true, not_true, if_false, ih, sw.irrefl, Bool.false_eq_true,
          List.cons.injEq, true_and]
      · have : (x == y) = false := by simpa using hxy
        simp only [this, Bool.false_eq_true, not_false_eq_true, if_true, List.cons.injEq, hxy,
          false_and, if_false]
        by_cases h1 : lt x y
        · simp [h1]
        · by_cases h2 : lt y x
          · simp [h1, h2]
          · exact absurd (tot x y (by simpa using h1) (by simpa using h2)) hxy

/-! ### set_intersection -/

/-- Neither is less than the other. (Specification, no line of the source.) -/
def equivBy (lt : α → α → Bool) (v a : α) : Bool := !lt v a && !lt a v

theorem equivBy_congr {lt : α → α → Bool} (sw : StrictWeak lt) {x y v : α}
    (h1 : lt x y = false) (h2 : lt y x = false) : equivBy lt v x = equivBy lt v y := by
  have e1 : lt v x = lt v y := by
    cases ha : lt v x <;> cases hb : lt v y <;> try rfl
    · have := sw.incomp _ _ _ ha h1; rw [hb] at this; cases this
    · have := sw.incomp _ _ _ hb h2; rw [ha] at this; cases this
  have e2 : lt x v = lt y v := by
    cases ha : lt x v <;> cases hb : lt y v <;> try rfl
    · have := sw.incomp _ _ _ h2 ha; rw [hb] at this; cases this
    · have := sw.incomp _ _ _ h1 hb; rw [ha] at this; cases this
  simp [equivBy, e1, e2]

theorem countP_equiv_zero {lt : α → α → Bool} (sw : StrictWeak lt) {x y v : α} {ys : List α}
    (hs : (y :: ys).Pairwise (fun a b => lt b a = false)) (hxy : lt x y = true)
    (hv : equivBy lt v x = true) : (y :: ys).countP (equivBy lt v) = 0 := by
  rw [List.countP_eq_zero]
  intro z hz hvz
  have hyz : lt z y = false := by
    rcases List.mem_cons.1 hz with rfl | hz
    · exact sw.irrefl _
    · exact (List.pairwise_cons.1 hs).1 z hz
  have hxz := sw.lt_of_lt_of_le hxy hyz
  simp only [equivBy, Bool.and_eq_true, Bool.not_eq_true'] at hv hvz
  have := sw.incomp _ _ _ hv.2 hvz.1
  rw [hxz] at this; cases this

/-- **C28**: for sorted inputs the output of `set_intersection` is a sorted sub-sequence of the
first range, and every equivalence class of elements occurs in it as often as in the input
that has fewer of them. -/
theorem C28_set_intersection (lt : α → α → Bool) (sw : StrictWeak lt) (xs ys : List α)
    (hx : xs.Pairwise (fun a b => lt b a = false)) (hy : ys.Pairwise (fun a b => lt b a = false)) :
    (setIntersection lt xs ys).Sublist xs ∧
    (setIntersection lt xs ys).Pairwise (fun a b => lt b a = false) ∧
    ∀ v, (setIntersection lt xs ys).countP (equivBy lt v) =
      min (xs.countP (equivBy lt v)) (ys.countP (equivBy lt v)) := by
  suffices h : (setIntersection lt xs ys).Sublist xs ∧
      ∀ v, (setIntersection lt xs ys).countP (equivBy lt v) =
        min (xs.countP (equivBy lt v)) (ys.countP (equivBy lt v)) from
    ⟨h.1, List.Pairwise.sublist h.1 hx, h.2⟩
  fun_induction setIntersection lt xs ys with
  | case1 x xs y ys h1 ih =>
    obtain ⟨i1, i2⟩ := ih (List.pairwise_cons.1 hx).2 hy
    refine ⟨i1.cons _, fun v => ?_⟩
    rw [i2 v, List.countP_cons (l := xs)]
    by_cases hv : equivBy lt v x
    · rw [countP_equiv_zero sw hy h1 hv]; simp
    · simp [hv]
  | case2 x xs y ys h1 h2 ih =>
    obtain ⟨i1, i2⟩ := ih (List.pairwise_cons.1 hx).2 (List.pairwise_cons.1 hy).2
    refine ⟨i1.cons_cons _, fun v => ?_⟩
    rw [List.countP_cons, List.countP_cons, List.countP_cons, i2 v,
      equivBy_congr sw (v := v) (by simpa using h1) (by simpa using h2)]
    omega
  | case3 x xs y ys h1 h2 ih =>
    obtain ⟨i1, i2⟩ := ih hx (List.pairwise_cons.1 hy).2
    refine ⟨i1, fun v => ?_⟩
    rw [i2 v, List.countP_cons (l := ys)]
    by_cases hv : equivBy lt v y
    · rw [countP_equiv_zero sw hx (by simpa using h2) hv]; simp
    · simp [hv]
  | case4 xs ys h =>
    refine ⟨by simp, fun v => ?_⟩
    cases xs with
    | nil => simp
    | cons x xs =>
      cases ys with
      | nil => simp
      | cons y ys => exact absurd rfl (h x xs y ys rfl)

/-- Sorted inputs with repeated elements. -/
example : setIntersection (fun a b : Nat => decide (a < b)) [1, 2, 2, 2, 5] [2, 2, 3, 5, 5] =
    [2, 2, 5] := by
  simp [setIntersection]

/-! ### are_equal, all_equal -/

/-- **C32**: `all_equal` with `==` is true iff all elements of the range are equal. -/
theorem C32_all_equal [BEq α] [LawfulBEq α] (xs : List α) :
    allEqual (· == ·) xs = true ↔ ∀ a ∈ xs, ∀ b ∈ xs, a = b := by
  cases xs with
  | nil => simp [allEqual]
  | cons x rest =>
    simp only [allEqual, List.all_eq_true, beq_iff_eq]
    constructor
    · intro h a ha b hb
      have e : ∀ c ∈ x :: rest, x = c := by
        intro c hc
        rcases List.mem_cons.1 hc with rfl | hc
        · rfl
        · exact h c hc
      rw [← e a ha, ← e b hb]
    · intro h y hy
      exact h x (by simp) y (by simp [hy])

/-- **C32** finding: `are_equal( 1, 1, 2, 2 )` is true. -/
theorem C32_are_equal_violated : areEqual [1, 1, 2, 2] = true := rfl

/-- **C32**: `are_equal` of at most two arguments is true iff all are equal.
Missing: three or more arguments, see `C32_are_equal_violated` and
`C32_are_equal_three_violated`; `C32_are_equal_pairs` says what is decided in general. -/
theorem C32_are_equal_partial [BEq α] [LawfulBEq α] (xs : List α) (h : xs.length ≤ 2) :
    areEqual xs = true ↔ ∀ a ∈ xs, ∀ b ∈ xs, a = b := by
  match xs, h with
  | [], _ => simp [areEqual]
  | [a], _ => simp [areEqual]
  | [a, b], _ =>
    simp only [areEqual, beq_iff_eq, List.mem_cons, List.not_mem_nil, or_false]
    constructor
    · rintro rfl c (rfl | rfl) d (rfl | rfl) <;> rfl
    · intro h; exact h a (Or.inl rfl) b (Or.inr rfl)

example : areEqual [4, 5] = true ↔ ∀ a ∈ [4, 5], ∀ b ∈ [4, 5], a = b := C32_are_equal_partial [4, 5] (by decide)

/-- **C32** finding: already `are_equal( 1, 1, 2 )` is true. -/
theorem C32_are_equal_three_violated : areEqual [1, 1, 2] = true := rfl

/-- **C32**: what `are_equal` decides in general: consecutive disjoint pairs are equal. -/
theorem C32_are_equal_pairs [BEq α] [LawfulBEq α] (xs : List α) :
    areEqual xs = true ↔ ∀ (k : Nat) (a b : α), xs[2 * k]? = some a → xs[2 * k + 1]? = some b → a = b := by
  fun_induction areEqual xs with
  | case1 => simp
  | case2 x =>
    simp only [true_iff]
    intro k a b _ hb
    simp at hb
  | case3 a b =>
    simp only [beq_iff_eq]
    constructor
    · rintro rfl k c d hc hd
      cases k with
      | zero => simp at hc hd; rw [← hc, ← hd]
      | succ k => simp [Nat.mul_add] at hd
    · intro h; exact h 0 a b rfl rfl
  | case4 a b others hne ih =>
    simp only [Bool.and_eq_true, beq_iff_eq, ih]
    constructor
    · rintro ⟨rfl, h⟩ k c d hc hd
      cases k with
      | zero => simp at hc hd; rw [← hc, ← hd]
      | succ k => exact h k c d (by simpa [Nat.mul_add] using hc) (by simpa [Nat.mul_add] using hd)
    · intro h
      exact ⟨h 0 a b rfl rfl, fun k c d hc hd =>
        h (k + 1) c d (by simpa [Nat.mul_add] using hc) (by simpa [Nat.mul_add] using hd)⟩

end Verif.Algorithm
