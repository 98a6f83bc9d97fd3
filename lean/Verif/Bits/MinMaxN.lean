import Verif.Bits.IntCmp

/-
`min` and `max` of several integers, include/daw/impl/daw_math_impl.h.  An integer stands with its type.
-/

namespace Verif.Bits.MinMaxN
open Verif Verif.Bits

/-- `std::common_type_t<T, U>` of integer types: the type itself if they are the same, else that of the usual arithmetic conversions.
(Rule of C++ or its library, no line of the source.) -/
def commonType (t u : IntTy) : IntTy := if t = u then t else t.common u

/-- `max( val1, val2 )`, daw_math_impl.h 45-51. -/
def max2 (a b : IntTy × Int) : IntTy × Int :=
  let r := commonType a.1 b.1
  (r, r.conv (if cppLt b.1 a.1 b.2 a.2 then a.2 else b.2))

/-- `max( val1, vs... )`, daw_math_impl.h 35-55: with more than two values, 37-44, the maximum of the others is found first. -/
def maxN : IntTy × Int → List (IntTy × Int) → IntTy × Int
  | a, [] => a
  | a, b :: bs => max2 a (maxN b bs)

/-- `min( val1, val2 )`, daw_math_impl.h 85-91. -/
def min2 (a b : IntTy × Int) : IntTy × Int :=
  let r := commonType a.1 b.1
  (r, r.conv (if !cppLt b.1 a.1 b.2 a.2 then a.2 else b.2))

/-- `min( val1, vs... )`, daw_math_impl.h 75-95. -/
def minN : IntTy × Int → List (IntTy × Int) → IntTy × Int
  | a, [] => a
  | a, b :: bs => min2 a (minN b bs)

/-- `min_comp`, daw_math_impl.h 57-64: which argument is returned, the left one for `true`. -/
def minComp {α : Type} (comp : α → α → Bool) (lhs rhs : α) : Bool × α := if comp lhs rhs then (true, lhs) else (false, rhs)

/-- `max_comp`, daw_math_impl.h 66-73. -/
def maxComp {α : Type} (comp : α → α → Bool) (lhs rhs : α) : Bool × α := if comp rhs lhs then (true, lhs) else (false, rhs)

/-! ## Proofs -/

/-- The values belong to their types, and either all types are signed or no value is negative. (Specification, no line of the source.) -/
def Good (s : Bool) (a : IntTy × Int) : Prop := a.1.Has a.2 ∧ if s then a.1.signed = true else 0 ≤ a.2

theorem has_nonneg {t u : IntTy} {x : Int} (h : t.Has x) (h0 : 0 ≤ x) (hb : t.bits ≤ u.bits) (hu : u.signed = false) : u.Has x :=
  (h.unsigned h0).widen (by rw [hu]; rfl) hb

theorem common_nonneg {t u : IntTy} {x y : Int} (hx : t.Has x) (hy : u.Has y) (h0 : 0 ≤ x) (h1 : 0 ≤ y) :
    (t.common u).Has x ∧ (t.common u).Has y := by
  have hx' := hx.promote
  have hy' := hy.promote
  unfold IntTy.common
  generalize t.promote = t at *
  generalize u.promote = u at *
  by_cases h : t.signed = u.signed
  · rw [if_pos h]
    split
    · exact ⟨hx', hy'.widen h.symm (by assumption)⟩
    · exact ⟨hx'.widen h (by omega), hy'⟩
  · rw [if_neg h]
    cases ht : t.signed
    · have hu : u.signed = true := by
        cases hu : u.signed
        · exact absurd (by rw [ht, hu]) h
        · rfl
      rw [if_neg (by simp)]
      split
      · exact ⟨hx', has_nonneg hy' h1 (by assumption) ht⟩
      · exact ⟨hx'.toSigned ht hu (by omega), hy'⟩
    · have hu : u.signed = false := by
        cases hu : u.signed
        · rfl
        · exact absurd (by rw [ht, hu]) h
      rw [if_pos rfl]
      split
      · exact ⟨has_nonneg hx' h0 (by assumption) hu, hy'⟩
      · exact ⟨hx', hy'.toSigned hu ht (by omega)⟩

theorem common_signed {t u : IntTy} (ht : t.signed = true) (hu : u.signed = true) : (t.common u).signed = true := by
  have ht' := IntTy.promote_signed ht
  have hu' := IntTy.promote_signed hu
  unfold IntTy.common
  rw [if_pos (by rw [ht', hu'])]
  split
  · exact ht'
  · exact hu'

theorem common_good {s : Bool} {a b : IntTy × Int} (ha : Good s a) (hb : Good s b) :
    (a.1.common b.1).Has a.2 ∧ (a.1.common b.1).Has b.2 ∧ (commonType a.1 b.1).Has a.2 ∧ (commonType a.1 b.1).Has b.2 ∧
      (s = true → (commonType a.1 b.1).signed = true) := by
  obtain ⟨h1, h2⟩ := ha
  obtain ⟨h3, h4⟩ := hb
  have hc : (a.1.common b.1).Has a.2 ∧ (a.1.common b.1).Has b.2 := by
    cases s
    · exact common_nonneg h1 h3 h2 h4
    · exact IntTy.common_has h1 h3 (show a.1.signed = b.1.signed by
        rw [show a.1.signed = true from h2, show b.1.signed = true from h4])
  refine ⟨hc.1, hc.2, ?_⟩
  unfold commonType
  by_cases he : a.1 = b.1
  · rw [if_pos he]
    exact ⟨h1, he ▸ h3, fun hs => by subst hs; exact h2⟩
  · rw [if_neg he]
    exact ⟨hc.1, hc.2, fun hs => by subst hs; exact common_signed h2 h4⟩

theorem lt_good {s : Bool} {a b : IntTy × Int} (ha : Good s a) (hb : Good s b) : cppLt b.1 a.1 b.2 a.2 = decide (b.2 < a.2) := by
  obtain ⟨h1, h2, _⟩ := common_good hb ha
  unfold cppLt
  rw [IntTy.conv_of_has h1, IntTy.conv_of_has h2]

theorem max2_good {s : Bool} {a b : IntTy × Int} (ha : Good s a) (hb : Good s b) :
    (max2 a b).2 = max a.2 b.2 ∧ (max2 a b).1 = commonType a.1 b.1 ∧ Good s (max2 a b) := by
  obtain ⟨_, _, h3, h4, h5⟩ := common_good ha hb
  have hv : (max2 a b).2 = max a.2 b.2 := by
    unfold max2
    rw [lt_good ha hb]
    by_cases h : b.2 < a.2
    · simp only [h, decide_true, if_true, IntTy.conv_of_has h3]
      omega
    · simp only [h, decide_false, Bool.false_eq_true, if_false, IntTy.conv_of_has h4]
      omega
  refine ⟨hv, rfl, ?_⟩
  refine ⟨?_, ?_⟩
  · show (commonType a.1 b.1).Has (max2 a b).2
    rw [hv]
    rcases Int.le_total a.2 b.2 with h | h
    · rw [Int.max_eq_right h]; exact h4
    · rw [Int.max_eq_left h]; exact h3
  · cases s
    · show 0 ≤ (max2 a b).2
      rw [hv]
      have : 0 ≤ a.2 := ha.2
      omega
    · exact h5 rfl

theorem min2_good {s : Bool} {a b : IntTy × Int} (ha : Good s a) (hb : Good s b) :
    (min2 a b).2 = min a.2 b.2 ∧ (min2 a b).1 = commonType a.1 b.1 ∧ Good s (min2 a b) := by
  obtain ⟨_, _, h3, h4, h5⟩ := common_good ha hb
  have hv : (min2 a b).2 = min a.2 b.2 := by
    unfold min2
    rw [lt_good ha hb]
    by_cases h : b.2 < a.2
    · simp only [h, decide_true, Bool.not_true, Bool.false_eq_true, if_false, IntTy.conv_of_has h4]
      omega
    · simp only [h, decide_false, Bool.not_false, if_true, IntTy.conv_of_has h3]
      omega
  refine ⟨hv, rfl, ?_⟩
  refine ⟨?_, ?_⟩
  · show (commonType a.1 b.1).Has (min2 a b).2
    rw [hv]
    rcases Int.le_total a.2 b.2 with h | h
    · rw [Int.min_eq_left h]; exact h3
    · rw [Int.min_eq_right h]; exact h4
  · cases s
    · show 0 ≤ (min2 a b).2
      rw [hv]
      have h1 : 0 ≤ a.2 := ha.2
      have h2 : 0 ≤ b.2 := hb.2
      omega
    · exact h5 rfl

/-- C294, as far as it holds: with signed types only, or with no negative value, `max` is the greatest and `min` the least of the numbers.
Missing: negative values beside types without sign, see `C294_mixed_violated`. -/
theorem C294_min_max_partial (s : Bool) (a : IntTy × Int) (bs : List (IntTy × Int)) (h : ∀ b ∈ a :: bs, Good s b) :
    ((maxN a bs).2 ∈ (a :: bs).map Prod.snd ∧ ∀ b ∈ a :: bs, b.2 ≤ (maxN a bs).2) ∧
    ((minN a bs).2 ∈ (a :: bs).map Prod.snd ∧ ∀ b ∈ a :: bs, (minN a bs).2 ≤ b.2) := by
  have key : ∀ (bs : List (IntTy × Int)) (a : IntTy × Int), (∀ b ∈ a :: bs, Good s b) →
      (((maxN a bs).2 ∈ (a :: bs).map Prod.snd ∧ ∀ b ∈ a :: bs, b.2 ≤ (maxN a bs).2) ∧ Good s (maxN a bs)) ∧
      (((minN a bs).2 ∈ (a :: bs).map Prod.snd ∧ ∀ b ∈ a :: bs, (minN a bs).2 ≤ b.2) ∧ Good s (minN a bs)) := by
    intro bs
    induction bs with
    | nil =>
      intro a h
      have := h a (List.mem_cons_self ..)
      simp [maxN, minN, this]
    | cons b bs ih =>
      intro a h
      obtain ⟨⟨⟨m1, m2⟩, m3⟩, ⟨n1, n2⟩, n3⟩ := ih b fun c hc => h c (List.mem_cons_of_mem _ hc)
      have ha := h a (List.mem_cons_self ..)
      obtain ⟨e1, _, g1⟩ := max2_good ha m3
      obtain ⟨e2, _, g2⟩ := min2_good ha n3
      refine ⟨⟨⟨?_, ?_⟩, g1⟩, ⟨?_, ?_⟩, g2⟩
      · show (max2 a (maxN b bs)).2 ∈ _
        rw [e1]
        rcases Int.le_total a.2 (maxN b bs).2 with hl | hl
        · rw [Int.max_eq_right hl, List.map_cons]; exact List.mem_cons_of_mem _ m1
        · rw [Int.max_eq_left hl, List.map_cons]; exact List.mem_cons_self ..
      · intro c hc
        show c.2 ≤ (max2 a (maxN b bs)).2
        rw [e1]
        rcases List.mem_cons.1 hc with rfl | hc
        · omega
        · have := m2 c hc
          omega
      · show (min2 a (minN b bs)).2 ∈ _
        rw [e2]
        rcases Int.le_total a.2 (minN b bs).2 with hl | hl
        · rw [Int.min_eq_left hl, List.map_cons]; exact List.mem_cons_self ..
        · rw [Int.min_eq_right hl, List.map_cons]; exact List.mem_cons_of_mem _ n1
      · intro c hc
        show (min2 a (minN b bs)).2 ≤ c.2
        rw [e2]
        rcases List.mem_cons.1 hc with rfl | hc
        · omega
        · have := n2 c hc
          omega
  exact ⟨(key bs a h).1.1, (key bs a h).2.1⟩

example : (maxN (.int, -4) [(⟨8, true, by decide⟩, 100), (⟨64, true, by decide⟩, 7)]).2 ∈ [(-4 : Int), 100, 7] :=
  (C294_min_max_partial true _ _ (by unfold Good; decide +kernel)).1.1

example : ∀ b ∈ [((.uint, 5) : IntTy × Int), (.int, 7)], (minN (.uint, 5) [(.int, 7)]).2 ≤ b.2 :=
  (C294_min_max_partial false _ _ (by unfold Good; decide +kernel)).2.2

/-- C294 does not hold for mixed types: the greatest of -1 and 1u is 4294967295, the least is 1. -/
theorem C294_mixed_violated : maxN (.int, -1) [(.uint, 1)] = (.uint, 4294967295) ∧ minN (.int, -1) [(.uint, 1)] = (.uint, 1) := by
  decide +kernel

/-- C294, `min_comp` and `max_comp` return an argument that no other is before or after; of equivalent arguments both return the right one, where
`std::min` and `std::max` return the left one. -/
theorem C294_comp {α : Type} (comp : α → α → Bool) (h : StrictWeak comp) (x y : α) :
    comp y (minComp comp x y).2 = false ∧ comp x (minComp comp x y).2 = false ∧
    comp (maxComp comp x y).2 y = false ∧ comp (maxComp comp x y).2 x = false ∧
    (comp x y = false → comp y x = false → minComp comp x y = (false, y) ∧ maxComp comp x y = (false, y)) := by
  have asym : ∀ a b, comp a b = true → comp b a = false := by
    intro a b hab
    cases hba : comp b a
    · rfl
    · have := h.trans _ _ _ hab hba
      rw [h.irrefl] at this
      exact absurd this (by decide)
  unfold minComp maxComp
  refine ⟨?_, ?_, ?_, ?_, fun h1 h2 => by simp [h1, h2]⟩
  · split
    · rename_i hc; exact asym _ _ hc
    · exact h.irrefl y
  · split
    · exact h.irrefl x
    · rename_i hc; simpa using hc
  · split
    · rename_i hc; exact asym _ _ hc
    · exact h.irrefl y
  · split
    · exact h.irrefl x
    · rename_i hc; simpa using hc

example : minComp (fun a b : Nat × Nat => decide (a.1 < b.1)) (3, 0) (3, 1) = (false, (3, 1)) :=
  ((C294_comp (fun a b : Nat × Nat => decide (a.1 < b.1))
    ⟨by simp, by simp; omega, by simp; omega⟩ (3, 0) (3, 1)).2.2.2.2 rfl rfl).1

end Verif.Bits.MinMaxN
