import Verif.Algorithm.Remove
import Verif.Algorithm.Compare

/-
`consume_if`, the comparisons with one end iterator, and the functions on values
(include/daw/daw_algorithm.h 249-271, 515-522, 1289-1324, 1634-1645, 1783-1798).
-/

namespace Verif.Algorithm
open Cxx

variable {α : Type}

/-- The loop of `consume_if`, daw_algorithm.h 1789-1795; `log` are the arguments `func` was called with. -/
def consumeIfLoop (p : α → Bool) (last : Nat) (xs : List α) (first i : Nat) (log : List α) :
    Cxx (List α × Nat × List α) :=
  if i ≠ last then do
    let x ← rd xs i
    if ¬ p x then do
      let xs ← wr xs first x
      consumeIfLoop p last xs (first + 1) (i + 1) (log ++ [x])
    else consumeIfLoop p last xs first (i + 1) log
  else pure (xs, first, log)
partial_fixpoint

/-- `consume_if`, daw_algorithm.h 1783-1798. -/
def consumeIf (p : α → Bool) (xs : List α) (first last : Nat) : Cxx (List α × Nat × List α) := do
  let first ← findIf p xs first last
  if first ≠ last then consumeIfLoop p last xs first (first + 1) [] else pure (xs, first, [])

theorem consumeIfLoop_total (p : α → Bool) (last : Nat) :
    ∀ n (xs : List α) first i (log : List α), last - i = n → first < i → i ≤ last → last ≤ xs.length →
      ∃ ys r, removeIfLoop p last xs first i = pure (ys, r) ∧
        consumeIfLoop p last xs first i log = pure (ys, r, log ++ (slice xs i last).filter (fun a => !p a)) := by
  intro n
  induction n with
  | zero =>
    intro xs first i log hn hf hi hl
    have : i = last := by omega
    subst this
    rw [removeIfLoop, consumeIfLoop]
    exact ⟨xs, first, by simp, by simp [slice_self]⟩
  | succ n ih =>
    intro xs first i log hn hf hi hl
    obtain ⟨x, hx⟩ := getElem?_of_lt (xs := xs) (i := i) (by omega)
    rw [removeIfLoop, consumeIfLoop, if_pos (by omega), if_pos (by omega), rd_some hx]
    simp only [pure_bind]
    by_cases hp : p x = true
    · rw [if_neg (by simp [hp]), if_neg (by simp [hp])]
      obtain ⟨ys, r, h1, h2⟩ := ih xs first (i + 1) log (by omega) (by omega) (by omega) hl
      exact ⟨ys, r, h1, by rw [h2, slice_cons (i := i) (by omega) hx]; simp [hp]⟩
    · rw [if_pos hp, if_pos hp, wr_eq (by omega)]
      simp only [pure_bind]
      obtain ⟨ys, r, h1, h2⟩ :=
        ih (xs.set first x) (first + 1) (i + 1) (log ++ [x]) (by omega) (by omega) (by omega) (by simpa using hl)
      exact ⟨ys, r, h1, by rw [h2, slice_set (by omega), slice_cons (i := i) (by omega) hx]; simp [hp]⟩

/-- C81, as far as it holds: `consume_if` leaves what `remove_if` leaves.  Missing: the calls of `func`, see
`C81_consume_if_calls_violated`; it is called for the elements that are kept and follow the first match. -/
theorem C81_consume_if_partial (p : α → Bool) (xs : List α) (first last : Nat) (hf : first ≤ last)
    (hlen : last ≤ xs.length) :
    ∃ ys r m, consumeIf p xs first last = pure (ys, r, (slice xs (m + 1) last).filter (fun a => !p a)) ∧
      IsFirst p xs first last m ∧ first ≤ r ∧ r ≤ last ∧
      ys.length = xs.length ∧ ys.drop last = xs.drop last ∧
      ys.take r = xs.take first ++ (slice xs first last).filter (fun a => !p a) := by
  obtain ⟨ys, r, h0, h⟩ := C27_remove_if p xs first last hf hlen
  obtain ⟨m, hm, hfm⟩ := find_if_first p xs first last hf hlen
  unfold removeIf at h0
  unfold consumeIf
  rw [hm, pure_bind] at h0 ⊢
  have hml := hfm.2.1
  by_cases hl : m = last
  · rw [if_neg (by simpa using hl)] at h0 ⊢
    have := pure_inj.1 h0
    obtain ⟨rfl, rfl⟩ := Prod.mk.injEq .. |>.mp this
    refine ⟨xs, m, m, ?_, hfm, h⟩
    have : slice xs (m + 1) last = [] := by subst hl; unfold slice; simp; omega
    rw [this]; rfl
  · rw [if_pos hl] at h0 ⊢
    obtain ⟨ys', r', h1, h2⟩ := consumeIfLoop_total p last _ xs m (m + 1) [] rfl (by omega) (by omega) hlen
    rw [h1] at h0
    have := pure_inj.1 h0
    cases this
    exact ⟨ys, r, m, by rw [h2]; rfl, hfm, h⟩

/-- C81 does not hold: consuming the even numbers of `[2, 3]` calls `func` with 3, which stays, and not with 2, which
is removed. -/
theorem C81_consume_if_calls_violated :
    ∃ ys, consumeIf (fun n : Nat => n % 2 == 0) [2, 3] 0 2 = pure (ys, 1, [3]) ∧ ys.take 1 = [3] := by
  obtain ⟨ys, r, m, h1, h2, h3, h4, h5, h6, h7⟩ :=
    C81_consume_if_partial (fun n : Nat => n % 2 == 0) [2, 3] 0 2 (by decide) (by decide)
  have hm : m = 0 := by
    rcases Nat.eq_zero_or_pos m with h | h
    · exact h
    · have := h2.2.2.1 0 2 (Nat.le_refl _) h rfl
      cases this
  subst hm
  have hr : r = 1 := by
    have := congrArg List.length h7
    simp [slice] at this
    have h5' : ys.length = 2 := h5
    omega
  subst hr
  exact ⟨ys, h1, h7⟩

/-- C82: `equal` with one end iterator tells whether the second range starts with the first. -/
theorem C82_equal3 [BEq α] [LawfulBEq α] : ∀ (xs ys : List α), xs.length ≤ ys.length →
    ∃ b, equal3 xs ys = pure b ∧ (b = true ↔ xs <+: ys) := by
  intro xs
  induction xs with
  | nil => intro ys _; exact ⟨true, rfl, by simp⟩
  | cons x xs ih =>
    intro ys h
    cases ys with
    | nil => simp at h
    | cons y ys =>
      rw [equal3]
      by_cases hxy : x = y
      · subst hxy
        obtain ⟨b, h1, h2⟩ := ih ys (by simpa using h)
        exact ⟨b, by simpa using h1, by rw [h2, List.cons_prefix_cons]; simp⟩
      · exact ⟨false, by simp [hxy], by rw [List.cons_prefix_cons]; simp [hxy]⟩

/-- C82 does not hold for `not_equal` with one end iterator: different ranges with an equal element in one place. -/
theorem C82_not_equal3_violated : notEqual3 [1, 2] [1, 3] = pure false ∧ equal3 [1, 2] [1, 3] = pure false := ⟨rfl, rfl⟩

/-- C82: what `not_equal` with one end iterator does decide: no place has equal elements.  Missing: that it is the
negation of `equal`; this holds for ranges of one element. -/
theorem C82_not_equal3_partial [BEq α] [LawfulBEq α] : ∀ (xs ys : List α), xs.length ≤ ys.length →
    ∃ b, notEqual3 xs ys = pure b ∧
      (b = true ↔ ∀ (i : Nat) (a b : α), xs[i]? = some a → ys[i]? = some b → a ≠ b) := by
  intro xs
  induction xs with
  | nil => intro ys _; exact ⟨true, rfl, by simp⟩
  | cons x xs ih =>
    intro ys h
    cases ys with
    | nil => simp at h
    | cons y ys =>
      rw [notEqual3]
      by_cases hxy : x = y
      · subst hxy
        refine ⟨false, by simp, ?_⟩
        simp only [Bool.false_eq_true, false_iff]
        intro hh
        exact hh 0 x x rfl rfl rfl
      · obtain ⟨b, h1, h2⟩ := ih ys (by simpa using h)
        refine ⟨b, by simpa [hxy] using h1, ?_⟩
        rw [h2]
        constructor
        · intro hh i a b ha hb
          cases i with
          | zero => simp at ha hb; subst ha hb; exact hxy
          | succ i => exact hh i a b (by simpa using ha) (by simpa using hb)
        · intro hh i a b ha hb
          exact hh (i + 1) a b (by simpa using ha) (by simpa using hb)

/-! ### Values -/

/-- `min_item`, daw_algorithm.h 249-259; the arguments as a first one and the others. -/
def minItem (lt : α → α → Bool) : α → List α → α
  | a, [] => a
  | a, b :: bs => let rhs := minItem lt b bs; if lt a rhs then a else rhs

/-- `max_item`, daw_algorithm.h 261-271; `a > b` is `b < a`. -/
def maxItem (lt : α → α → Bool) : α → List α → α
  | a, [] => a
  | a, b :: bs => let rhs := maxItem lt b bs; if lt rhs a then a else rhs

/-- `minmax_item`, daw_algorithm.h 1634-1645. -/
def minmaxItem (lt : α → α → Bool) (a b : α) : α × α := if lt b a then (b, a) else (a, b)

/-- `clamp( value, max_value )`, daw_algorithm.h 515-522. -/
def clampMax (lt : α → α → Bool) (v mx : α) : α := if lt mx v then mx else v

/-- C83: `min_item` returns one of its arguments, and none is less. -/
theorem C83_min_item (lt : α → α → Bool) (sw : StrictWeak lt) : ∀ (as : List α) (a : α),
    minItem lt a as ∈ a :: as ∧ ∀ x ∈ a :: as, lt x (minItem lt a as) = false := by
  intro as
  induction as with
  | nil => intro a; simp [minItem, sw.irrefl]
  | cons b bs ih =>
    intro a
    obtain ⟨h1, h2⟩ := ih b
    rw [minItem]
    by_cases h : lt a (minItem lt b bs) = true
    · rw [if_pos h]
      refine ⟨by simp, fun x hx => ?_⟩
      rcases List.mem_cons.1 hx with rfl | hx
      · exact sw.irrefl _
      · cases hxa : lt x a with
        | false => rfl
        | true =>
          have := sw.trans _ _ _ hxa h
          rw [h2 x hx] at this
          cases this
    · rw [if_neg h]
      refine ⟨List.mem_cons_of_mem _ h1, fun x hx => ?_⟩
      rcases List.mem_cons.1 hx with rfl | hx
      · simpa using h
      · exact h2 x hx

/-- C83: `max_item` returns one of its arguments, and is less than none. -/
theorem C83_max_item (lt : α → α → Bool) (sw : StrictWeak lt) : ∀ (as : List α) (a : α),
    maxItem lt a as ∈ a :: as ∧ ∀ x ∈ a :: as, lt (maxItem lt a as) x = false := by
  intro as
  induction as with
  | nil => intro a; simp [maxItem, sw.irrefl]
  | cons b bs ih =>
    intro a
    obtain ⟨h1, h2⟩ := ih b
    rw [maxItem]
    by_cases h : lt (maxItem lt b bs) a = true
    · rw [if_pos h]
      refine ⟨by simp, fun x hx => ?_⟩
      rcases List.mem_cons.1 hx with rfl | hx
      · exact sw.irrefl _
      · cases hxa : lt a x with
        | false => rfl
        | true =>
          have := sw.trans _ _ _ h hxa
          rw [h2 x hx] at this
          cases this
    · rw [if_neg h]
      refine ⟨List.mem_cons_of_mem _ h1, fun x hx => ?_⟩
      rcases List.mem_cons.1 hx with rfl | hx
      · simpa using h
      · exact h2 x hx

/-- C83: `minmax_item` orders its arguments and keeps the order of equivalent ones. -/
theorem C83_minmax_item (lt : α → α → Bool) (sw : StrictWeak lt) (a b : α) :
    lt (minmaxItem lt a b).2 (minmaxItem lt a b).1 = false ∧
    (minmaxItem lt a b = (a, b) ∨ minmaxItem lt a b = (b, a)) ∧
    (lt a b = false → lt b a = false → minmaxItem lt a b = (a, b)) := by
  unfold minmaxItem
  split
  · rename_i h
    refine ⟨?_, .inr rfl, fun _ h' => by rw [h'] at h; cases h⟩
    cases h' : lt a b with
    | false => rfl
    | true => exact absurd (sw.trans _ _ _ h h') (by simp [sw.irrefl])
  · rename_i h
    exact ⟨by simpa using h, .inl rfl, fun _ _ => rfl⟩

/-- C83: `clamp` with an upper bound: the result is not above the bound, and is the value if that is not. -/
theorem C83_clamp (lt : α → α → Bool) (sw : StrictWeak lt) (v mx : α) :
    lt mx (clampMax lt v mx) = false ∧ (lt mx v = false → clampMax lt v mx = v) ∧
    (lt mx v = true → clampMax lt v mx = mx) := by
  unfold clampMax
  split
  · rename_i h; exact ⟨sw.irrefl _, fun h' => (by rw [h'] at h; cases h), fun _ => rfl⟩
  · rename_i h; exact ⟨by simpa using h, fun _ => rfl, fun h' => absurd h' h⟩

example : minItem (fun a b : Nat => decide (a < b)) 3 [1, 2] = 1 ∧
    maxItem (fun a b : Nat => decide (a < b)) 3 [7, 2] = 7 := by decide

end Verif.Algorithm
