import Verif.Pipelines.Filter
import Verif.Pipelines.Zip
import Verif.Algorithm.Split

/-
The ends of a pipeline: include/daw/pipelines/find.h, algorithm.h, first.h, drop.h, every.h, numeric.h and to.h, and the iterators of
take.h, sized_iterator.h, walked backwards, reverse.h, and range.h.
-/

namespace Verif.Pipe
open Cxx Algorithm Verif.Bits
variable {α β ν : Type}

/-! ## Find -/

/-- `FindValue_t::operator()`, pipelines/find.h 54-65; `eqv` is the `==` of needle and projected value. -/
def findValue (eqv : ν → β → Bool) (needle : ν) (proj : α → β) (xs : List α) (it : Nat) : Cxx Nat :=
  if it = xs.length then pure it
  else if h : it < xs.length then
    if eqv needle (proj xs[it]) then pure it else findValue eqv needle proj xs (it + 1)
  else ub
termination_by xs.length - it

/-- `finder`, pipelines/find.h 25-47: `c` more values are read and passed with those read before. -/
def finder (needle : List β → Bool) (proj : α → β) (xs : List α) : Nat → Nat → List β → Cxx Bool
  | 0, _, vs => pure (needle vs)
  | c + 1, it, vs => do
    let a ← rd xs it
    finder needle proj xs c (it + 1) (vs ++ [proj a])

/-- `FindIf_t::operator()`, pipelines/find.h 75-92, for random access iterators; `width` is `FindWidth`. -/
def findIfWidth (width : Nat) (needle : List β → Bool) (proj : α → β) (xs : List α) (it : Nat) : Cxx Nat :=
  if it = xs.length then pure it
  else if it < xs.length then do
    let plast ← safeNext it xs.length width
    if (plast - it).toNat < width then pure xs.length
    else
      let found ← finder needle proj xs width it []
      if found then pure it else findIfWidth width needle proj xs (it + 1)
  else ub
termination_by xs.length - it

theorem findValue_spec (eqv : ν → β → Bool) (needle : ν) (proj : α → β) (xs : List α) (k : Nat) : ∀ it, it + k = xs.length →
    ∃ i, findValue eqv needle proj xs it = pure i ∧ it ≤ i ∧ i ≤ xs.length ∧
      (∀ j (hj : j < xs.length), it ≤ j → j < i → eqv needle (proj xs[j]) = false) ∧
      ∀ h : i < xs.length, eqv needle (proj xs[i]) = true := by
  induction k with
  | zero =>
    intro it h
    refine ⟨it, by rw [findValue, if_pos (by omega)], Nat.le_refl _, by omega, fun j hj h1 h2 => absurd h1 (by omega), fun h => absurd h (by omega)⟩
  | succ k ih =>
    intro it h
    have hlt : it < xs.length := by omega
    rw [findValue, if_neg (by omega), dif_pos hlt]
    by_cases hc : eqv needle (proj xs[it]) = true
    · rw [if_pos hc]
      exact ⟨it, rfl, Nat.le_refl _, by omega, fun j hj h1 h2 => absurd h1 (by omega), fun _ => hc⟩
    · rw [if_neg hc]
      obtain ⟨i, he, h1, h2, h3, h4⟩ := ih (it + 1) (by omega)
      refine ⟨i, he, by omega, h2, fun j hj hj1 hj2 => ?_, h4⟩
      by_cases e : j = it
      · subst e; simpa using hc
      · exact h3 j hj (by omega) hj2

/-- `Find( needle, proj )` gives the first position whose projected value equals the needle, the end if there is none. -/
theorem C149_find (eqv : ν → β → Bool) (needle : ν) (proj : α → β) (xs : List α) :
    ∃ i, findValue eqv needle proj xs 0 = pure i ∧ i ≤ xs.length ∧
      (∀ j (hj : j < xs.length), j < i → eqv needle (proj xs[j]) = false) ∧
      ∀ h : i < xs.length, eqv needle (proj xs[i]) = true := by
  obtain ⟨i, h, -, h1, h2, h3⟩ := findValue_spec eqv needle proj xs xs.length 0 (by omega)
  exact ⟨i, h, h1, fun j hj hji => h2 j hj (by omega) hji, h3⟩

example := C149_find (· == ·) 5 (· + 1) [3, 4, 5]

theorem finder_eq (needle : List β → Bool) (proj : α → β) (xs : List α) (c : Nat) : ∀ (it : Nat) (vs : List β), it + c ≤ xs.length →
    finder needle proj xs c it vs = pure (needle (vs ++ ((xs.drop it).take c).map proj)) := by
  induction c with
  | zero => intro it vs _; simp [finder]
  | succ c ih =>
    intro it vs h
    have hlt : it < xs.length := by omega
    unfold finder
    rw [rd_eq hlt, pure_bind, ih (it + 1) _ (by omega), List.drop_eq_getElem_cons hlt, List.take_succ_cons, List.map_cons, List.append_assoc]
    rfl

/-- `FindIf<width>( needle, proj )` gives the first position at which the needle accepts the `width` projected values from there on,
the end if there is none; no element outside is read. -/
theorem C149_find_if (width : Nat) (h0 : 0 < width) (hw : (width : Int) ≤ ptrdiffMax) (needle : List β → Bool) (proj : α → β)
    (xs : List α) : ∃ i, findIfWidth width needle proj xs 0 = pure i ∧
      (i + width ≤ xs.length ∧ needle (((xs.drop i).take width).map proj) = true ∨ i = xs.length) ∧
      ∀ j, j < i → j + width ≤ xs.length → needle (((xs.drop j).take width).map proj) = false := by
  have key : ∀ k it, it + k = xs.length → ∃ i, findIfWidth width needle proj xs it = pure i ∧
      (i + width ≤ xs.length ∧ needle (((xs.drop i).take width).map proj) = true ∨ i = xs.length) ∧
      ∀ j, it ≤ j → j < i → j + width ≤ xs.length → needle (((xs.drop j).take width).map proj) = false := by
    intro k
    induction k with
    | zero =>
      intro it h
      exact ⟨it, by rw [findIfWidth, if_pos (by omega)], .inr (by omega), fun j h1 h2 => absurd h1 (by omega)⟩
    | succ k ih =>
      intro it h
      rw [findIfWidth, if_neg (by omega), if_pos (by omega), C31_safe_next_partial it xs.length width (by omega) hw, pure_bind]
      by_cases hs : it + width ≤ xs.length
      · rw [if_neg (by omega), finder_eq needle proj xs width it [] hs, pure_bind, List.nil_append]
        by_cases hc : needle (((xs.drop it).take width).map proj) = true
        · rw [if_pos hc]
          exact ⟨it, rfl, .inl ⟨hs, hc⟩, fun j h1 h2 => absurd h1 (by omega)⟩
        · rw [if_neg hc]
          obtain ⟨i, he, h1, h2⟩ := ih (it + 1) (by omega)
          refine ⟨i, he, h1, fun j hj hji hjw => ?_⟩
          by_cases e : j = it
          · subst e; simpa using hc
          · exact h2 j (by omega) hji hjw
      · rw [if_pos (by omega)]
        exact ⟨xs.length, rfl, .inr rfl, fun j h1 _ h3 => absurd h3 (by omega)⟩
  obtain ⟨i, h, h1, h2⟩ := key xs.length 0 (by omega)
  exact ⟨i, h, h1, fun j hj => h2 j (by omega) hj⟩

example : findIfWidth 2 (fun l => decide (l.getD 1 0 < l.getD 0 0)) id [1, 3, 2, 5] 0 = pure 1 := by decide +kernel
example : findValue (fun a b => a == b) 5 (· + 1) [1, 4, 4] 0 = pure 1 := by decide +kernel

/-! ## Contains, First, CountIf, DropWhile and DropUntil -/

/-- `Contains_t::operator()`, pipelines/algorithm.h 168-181. -/
def containsIf (cmp : β → ν → Bool) (proj : α → β) (needle : ν) (xs : List α) (it : Nat) : Cxx Bool :=
  if it = xs.length then pure false
  else if h : it < xs.length then
    if cmp (proj xs[it]) needle then pure true else containsIf cmp proj needle xs (it + 1)
  else ub
termination_by xs.length - it

/-- `FirstFn::operator()`, pipelines/first.h 49-59. -/
def firstOf (xs : List α) : Cxx (Option α) :=
  if 0 = xs.length then pure none else do let a ← rd xs 0; pure (some a)

/-- `DropWhile`, pipelines/drop.h 18-23: the position the resulting range begins at. -/
def dropFrom (p : α → Bool) (xs : List α) (it : Nat) : Cxx Nat :=
  if it = xs.length then pure it
  else if h : it < xs.length then
    if p xs[it] then dropFrom p xs (it + 1) else pure it
  else ub
termination_by xs.length - it

/-- `DropUntil`, pipelines/drop.h 30-35. -/
def dropUntilFrom (p : α → Bool) (xs : List α) (it : Nat) : Cxx Nat :=
  if it = xs.length then pure it
  else if h : it < xs.length then
    if !p xs[it] then dropUntilFrom p xs (it + 1) else pure it
  else ub
termination_by xs.length - it

/-- `CountIf_t::operator()`, pipelines/numeric.h 52-59, for a function that gives a `bool`: the loop, with the result so far. -/
def countIf (p : α → Bool) : List α → Nat → Nat
  | [], r => r
  | a :: l, r => countIf p l ((r + if p a then 1 else 0) % 2 ^ 64)

theorem contains_from (cmp : β → ν → Bool) (proj : α → β) (needle : ν) (xs : List α) (k : Nat) : ∀ it, it + k = xs.length →
    containsIf cmp proj needle xs it = pure ((xs.drop it).any fun a => cmp (proj a) needle) := by
  induction k with
  | zero =>
    intro it h
    rw [containsIf, if_pos (by omega), List.drop_eq_nil_of_le (by omega)]
    rfl
  | succ k ih =>
    intro it h
    have hlt : it < xs.length := by omega
    rw [containsIf, if_neg (by omega), dif_pos hlt, List.drop_eq_getElem_cons hlt, List.any_cons]
    by_cases hc : cmp (proj xs[it]) needle = true
    · simp [hc]
    · rw [if_neg hc, ih (it + 1) (by omega)]
      simp [hc]

theorem dropUntil_eq (p : α → Bool) (xs : List α) (k : Nat) : ∀ it, it + k = xs.length →
    dropUntilFrom p xs it = dropFrom (fun a => !p a) xs it := by
  induction k with
  | zero => intro it h; rw [dropUntilFrom, dropFrom, if_pos (by omega), if_pos (by omega)]
  | succ k ih =>
    intro it h
    rw [dropUntilFrom, dropFrom, ih (it + 1) (by omega)]

/-- `Contains` tells whether some projected element compares true with the needle, with the element on the left. -/
theorem C150_contains (cmp : β → ν → Bool) (proj : α → β) (needle : ν) (xs : List α) :
    ∃ r, containsIf cmp proj needle xs 0 = pure r ∧ (r = true ↔ ∃ a ∈ xs, cmp (proj a) needle = true) :=
  ⟨_, contains_from cmp proj needle xs xs.length 0 (by omega), by simp⟩

/-- `First` gives the first element, nothing for an empty range. -/
theorem C150_first (xs : List α) : firstOf xs = pure xs.head? := by
  cases xs with
  | nil => rfl
  | cons a l => rfl

/-- What `DropWhile` and `DropUntil` leave is the rest from the first element on that does not, does satisfy the predicate. -/
theorem C150_drop (p : α → Bool) (xs : List α) :
    (∃ i, dropFrom p xs 0 = pure i ∧ (∀ j (hj : j < xs.length), j < i → p xs[j] = true) ∧ i ≤ xs.length ∧
      ∀ h : i < xs.length, p xs[i] = false) ∧
    ∃ i, dropUntilFrom p xs 0 = pure i ∧ (∀ j (hj : j < xs.length), j < i → p xs[j] = false) ∧ i ≤ xs.length ∧
      ∀ h : i < xs.length, p xs[i] = true := by
  have key : ∀ p : α → Bool, ∃ i, dropFrom p xs 0 = pure i ∧ (∀ j (hj : j < xs.length), j < i → p xs[j] = true) ∧ i ≤ xs.length ∧
      ∀ h : i < xs.length, p xs[i] = false := by
    intro p
    have gen : ∀ k it, it + k = xs.length → ∃ i, dropFrom p xs it = pure i ∧
        (∀ j (hj : j < xs.length), it ≤ j → j < i → p xs[j] = true) ∧ i ≤ xs.length ∧ ∀ h : i < xs.length, p xs[i] = false := by
      intro k
      induction k with
      | zero =>
        intro it h
        exact ⟨it, by rw [dropFrom, if_pos (by omega)], fun j hj h1 h2 => absurd h1 (by omega), by omega, fun h => absurd h (by omega)⟩
      | succ k ih =>
        intro it h
        have hlt : it < xs.length := by omega
        rw [dropFrom, if_neg (by omega), dif_pos hlt]
        by_cases hc : p xs[it] = true
        · rw [if_pos hc]
          obtain ⟨i, he, h1, h2, h3⟩ := ih (it + 1) (by omega)
          refine ⟨i, he, fun j hj hij hji => ?_, h2, h3⟩
          by_cases e : j = it
          · subst e; exact hc
          · exact h1 j hj (by omega) hji
        · rw [if_neg hc]
          exact ⟨it, rfl, fun j hj h1 h2 => absurd h1 (by omega), by omega, fun _ => by simpa using hc⟩
    obtain ⟨i, h, h1, h2, h3⟩ := gen xs.length 0 (by omega)
    exact ⟨i, h, fun j hj hji => h1 j hj (by omega) hji, h2, h3⟩
  refine ⟨key p, ?_⟩
  obtain ⟨i, h, h1, h2, h3⟩ := key (fun a => !p a)
  rw [← dropUntil_eq p xs xs.length 0 (by omega)] at h
  exact ⟨i, h, fun j hj hji => by simpa using h1 j hj hji, h2, fun hi => by simpa using h3 hi⟩

example := C150_drop (· < 5) [3, 4, 5, 2]

/-- `CountIf` counts the elements that satisfy the predicate, for every range that fits in memory. -/
theorem C150_count_if (p : α → Bool) (xs : List α) (h : xs.length < 2 ^ 64) : countIf p xs 0 = (xs.filter p).length := by
  have key : ∀ (l : List α) (r : Nat), r + l.length < 2 ^ 64 → countIf p l r = r + (l.filter p).length := by
    intro l
    induction l with
    | nil => intro r _; rfl
    | cons a l ih =>
      intro r hr
      rw [List.length_cons] at hr
      unfold countIf
      by_cases hp : p a = true
      · rw [if_pos hp, Nat.mod_eq_of_lt (by omega), ih _ (by omega), List.filter_cons_of_pos hp, List.length_cons]
        omega
      · rw [if_neg hp, Nat.mod_eq_of_lt (by omega), ih _ (by omega), List.filter_cons_of_neg hp]
        omega
  rw [key xs 0 (by omega), Nat.zero_add]

example : dropFrom (· < 3) [1, 2, 3, 1] 0 = pure 2 ∧ containsIf (· < ·) id 2 [3, 1] 0 = pure true := ⟨by decide +kernel, by decide +kernel⟩

/-! ## Every -/

/-- The function of `Every_t`, pipelines/every.h 20-27, and its state `n`. -/
def everyFn (sel n : Nat) (_ : α) : Bool × Nat := if n ≥ sel then (true, 1) else (false, n + 1)

/-- Iterating over `Every( sel )( xs )`, pipelines/every.h 18-28. -/
def every (sel : Nat) (xs : List α) : Cxx (List α) := filterView (everyFn sel) sel xs

theorem passes_every (sel : Nat) (h0 : 0 < sel) (xs : List α) : ∀ (n : Nat), 0 < n → n ≤ sel → ∀ i : Nat,
    (passes (everyFn sel) n xs)[i]? = xs[sel - n + i * sel]? := by
  induction xs with
  | nil => intro n _ _ i; simp [passes]
  | cons a l ih =>
    intro n hn hn' i
    unfold passes
    by_cases h : n ≥ sel
    · have e : everyFn sel n a = (true, 1) := by unfold everyFn; rw [if_pos h]
      rw [e, if_pos rfl, show sel - n = 0 by omega]
      cases i with
      | zero => simp
      | succ i =>
        rw [List.getElem?_cons_succ, ih 1 (by omega) (by omega) i, show 0 + (i + 1) * sel = (sel - 1 + i * sel) + 1 by
          rw [Nat.succ_mul]; omega, List.getElem?_cons_succ]
    · have e : everyFn sel n a = (false, n + 1) := by unfold everyFn; rw [if_neg h]
      rw [e, if_neg (by simp), ih (n + 1) (by omega) (by omega) i, show sel - n + i * sel = (sel - (n + 1) + i * sel) + 1 by omega,
        List.getElem?_cons_succ]

/-- A loop over `Every( sel )`, `sel` not zero, sees the elements at the positions `0`, `sel`, `2 sel`, ... and no others. -/
theorem C151_every (sel : Nat) (h0 : 0 < sel) (xs : List α) :
    ∃ l, every sel xs = pure l ∧ ∀ i : Nat, l[i]? = xs[i * sel]? := by
  refine ⟨_, filterView_eq _ _ _, fun i => ?_⟩
  rw [passes_every sel h0 xs sel h0 (Nat.le_refl _) i, Nat.sub_self, Nat.zero_add]

example := C151_every 3 (by decide) [1, 2, 3, 4, 5, 6, 7]

/-- `Every( 0 )` is `Every( 1 )`: it sees all the elements. -/
theorem C151_every_zero_finding (xs : List α) : every 0 xs = pure xs := by
  unfold every
  rw [filterView_eq]
  congr 1
  have : ∀ (l : List α) (n : Nat), passes (everyFn 0) n l = l := by
    intro l
    induction l with
    | nil => intro n; rfl
    | cons a l ih =>
      intro n
      have e : everyFn 0 n a = (true, 1) := by unfold everyFn; rw [if_pos (by omega)]
      unfold passes
      rw [e, if_pos rfl, ih]
  exact this xs 0

/-! ## Sum -/

/-- `sum_t::operator()`, pipelines/numeric.h 22-30, for a range of integers of type `t`: the sum has the type of the elements. -/
def sumOf (t : IntTy) : List Int → Int → Cxx Int
  | [], s => pure s
  | v :: l, s => do
    let r ← Iter.arith t (s + v)
    sumOf t l (t.conv r)

/-- If no partial sum leaves the type of the elements, `Sum` is the sum. -/
theorem C152_sum_partial (t : IntTy) (xs : List Int) (h : ∀ i, i ≤ xs.length → t.Has (xs.take i).sum) :
    sumOf t xs 0 = pure xs.sum := by
  have key : ∀ (l : List Int) (s : Int), (∀ i, i ≤ l.length → t.Has (s + (l.take i).sum)) → sumOf t l s = pure (s + l.sum) := by
    intro l
    induction l with
    | nil => intro s _; simp [sumOf]
    | cons v l ih =>
      intro s hs
      have h1 : t.Has (s + v) := by simpa using hs 1 (by simp)
      have e : sumOf t (v :: l) s = ((do let r ← Iter.arith t (s + v); pure (t.conv r)) >>= sumOf t l) := by
        rw [bind_assoc]
        simp only [pure_bind]
        rfl
      rw [e, arith_conv h1, pure_bind, ih (s + v)]
      · rw [List.sum_cons, Int.add_assoc]
      · intro i hi
        have := hs (i + 1) (by simpa using hi)
        rwa [List.take_succ_cons, List.sum_cons, ← Int.add_assoc] at this
  simpa using key xs 0 (by simpa using h)

example : sumOf .int [3, -5, 7] 0 = pure 5 := C152_sum_partial .int [3, -5, 7] (by decide)

/-- For unsigned types `Sum` is the sum modulo the size of the type of the elements. -/
theorem C152_sum_unsigned (t : IntTy) (hu : t.signed = false) (hb : t.bits ≤ 16 ∨ 32 ≤ t.bits) (xs : List Int)
    (h : ∀ v ∈ xs, t.Has v) : sumOf t xs 0 = pure (xs.sum % 2 ^ t.bits) := by
  have hlo : t.lowest = 0 := by simp [IntTy.lowest, hu]
  have hmax : t.max = 2 ^ t.bits - 1 := by simp [IntTy.max, hu]
  have hconv : ∀ z, t.conv z = z % 2 ^ t.bits := by intro z; simp [IntTy.conv, hu]
  have hpow : (0 : Int) < 2 ^ t.bits := Int.pow_pos (by decide)
  have step : ∀ s v : Int, t.Has s → t.Has v → (do let r ← Iter.arith t (s + v); pure (t.conv r)) = (pure ((s + v) % 2 ^ t.bits) : Cxx Int) := by
    intro s v hs hv
    unfold IntTy.Has at hs hv
    rw [hlo, hmax] at hs hv
    unfold Iter.arith
    rcases hb with hb | hb
    · have e : t.promote = .int := by unfold IntTy.promote; rw [if_pos (by omega)]
      have h1 : (2 : Int) ^ t.bits ≤ 2 ^ 16 := by
        have := Nat.pow_le_pow_right (n := 2) (by omega) hb
        exact_mod_cast this
      have h3 : IntTy.int.lowest = -2 ^ 31 := rfl
      have h4 : IntTy.int.max = 2 ^ 31 - 1 := rfl
      rw [e, if_pos (show IntTy.int.signed = true from rfl), if_pos (by unfold IntTy.Has; rw [h3, h4]; omega), pure_bind, hconv]
    · have e : t.promote = t := by unfold IntTy.promote; rw [if_neg (by omega)]
      rw [e, if_neg (by simp [hu]), pure_bind, hconv, hconv, Int.emod_emod_of_dvd _ (Int.dvd_refl _)]
  have key : ∀ (l : List Int) (s : Int), (∀ v ∈ l, t.Has v) → t.Has s → sumOf t l s = pure ((s + l.sum) % 2 ^ t.bits) := by
    intro l
    induction l with
    | nil =>
      intro s _ hs
      unfold IntTy.Has at hs
      rw [hlo, hmax] at hs
      show pure s = _
      rw [List.sum_nil, Int.add_zero, Int.emod_eq_of_lt hs.1 (by omega)]
    | cons v l ih =>
      intro s hl hs
      have e : sumOf t (v :: l) s = ((do let r ← Iter.arith t (s + v); pure (t.conv r)) >>= sumOf t l) := by
        rw [bind_assoc]
        simp only [pure_bind]
        rfl
      have hm1 := Int.emod_nonneg (s + v) (show (2 : Int) ^ t.bits ≠ 0 by omega)
      have hm2 := Int.emod_lt_of_pos (s + v) hpow
      rw [e, step s v hs (hl v (by simp)), pure_bind, ih _ (fun w hw => hl w (by simp [hw])) ⟨by rw [hlo]; exact hm1, by rw [hmax]; omega⟩,
        Int.emod_add_emod, List.sum_cons, Int.add_assoc]
  have := key xs 0 h ⟨by rw [hlo]; exact Int.le_refl _, by rw [hmax]; omega⟩
  rwa [Int.zero_add] at this

example := C152_sum_unsigned ⟨8, false, by decide⟩ rfl (.inl (by decide)) [200, 100] (by decide)

/-- So the sum of a few bytes is wrong, and that of a few `int`s undefined, though a larger type would hold it. -/
theorem C152_sum_violated :
    sumOf ⟨8, false, by decide⟩ [200, 100] 0 = pure 44 ∧ sumOf .int [2 ^ 31 - 1, 1, -1] 0 = ub := by
  constructor <;> decide +kernel

example : ∀ i, i ≤ [100, 20, -90].length → (⟨8, true, by decide⟩ : IntTy).Has ([100, 20, -90].take i).sum := by decide +kernel

/-! ## To an array -/

/-- `make_array_value` once for each element of the array, pipelines/to.h 72-85 and 100-103: the elements of a braced list are
evaluated in order. `it` is the iterator `first`, which the calls share; `dflt` is what `Default` yields. -/
def makeArray (dflt : α) (xs : List α) : Nat → Nat → Cxx (List α)
  | 0, _ => pure []
  | n + 1, it => do
    let (a, it) ← (if it ≠ xs.length then do let a ← rd xs it; pure (a, it + 1) else pure (dflt, it) : Cxx (α × Nat))
    let rest ← makeArray dflt xs n (it)
    pure (a :: rest)

/-- `To<std::array<T, n>, Default>`, pipelines/to.h 87-104. -/
def toArray (n : Nat) (dflt : α) (xs : List α) : Cxx (List α) := makeArray dflt xs n 0

theorem makeArray_eq (dflt : α) (xs : List α) (n : Nat) : ∀ it, it ≤ xs.length →
    makeArray dflt xs n it = pure ((xs.drop it).take n ++ List.replicate (n - (xs.length - it)) dflt) := by
  induction n with
  | zero => intro it _; simp [makeArray]
  | succ n ih =>
    intro it h
    unfold makeArray
    by_cases he : it = xs.length
    · subst he
      rw [if_neg (by simp), pure_bind]
      simp only []
      rw [ih _ (Nat.le_refl _), pure_bind]
      simp [List.replicate_succ]
    · have hlt : it < xs.length := by omega
      rw [if_pos he, rd_eq hlt, pure_bind, pure_bind]
      simp only []
      rw [ih (it + 1) (by omega), pure_bind, List.drop_eq_getElem_cons hlt, List.take_succ_cons, List.cons_append,
        show n + 1 - (xs.length - it) = n - (xs.length - (it + 1)) by omega]

/-- The array holds the elements of the range in order, the default behind them if the range is shorter; elements beyond the size of
the array are dropped without a word. -/
theorem C153_array (n : Nat) (dflt : α) (xs : List α) :
    ∃ l, toArray n dflt xs = pure l ∧ l.length = n ∧ ∀ i : Nat, i < n → l[i]? = some (xs.getD i dflt) := by
  refine ⟨_, makeArray_eq dflt xs n 0 (by omega), by simp; omega, fun i hi => ?_⟩
  rw [List.drop_zero, Nat.sub_zero]
  by_cases hx : i < xs.length
  · rw [List.getElem?_append_left (by simp; omega), List.getElem?_take_of_lt hi, List.getD_eq_getElem?_getD,
      List.getElem?_eq_getElem hx]
    rfl
  · rw [List.getElem?_append_right (by simp; omega), List.getElem?_replicate, if_pos (by simp; omega), List.getD_eq_getElem?_getD,
      List.getElem?_eq_none (by omega)]
    rfl

example : toArray 4 9 [1, 2] = pure [1, 2, 9, 9] ∧ toArray 2 9 [1, 2, 3] = pure [1, 2] := ⟨by decide +kernel, by decide +kernel⟩

/-! ## sized_iterator backwards -/

/-- `sized_iterator::decrement`, pipelines/sized_iterator.h 43-46. -/
def sizedDec (it : Nat × Int) : Cxx (Nat × Int) := if 0 < it.1 then pure (it.1 - 1, it.2 + 1) else ub

/-- `sized_iterator::advance`, pipelines/sized_iterator.h 48-51, used by `+=`, `-=`, `+` and `-`, 125-149; `len` is the size of the
range the iterator walks. -/
def sizedAdvance (len : Nat) (it : Nat × Int) (n : Int) : Cxx (Nat × Int) :=
  let p := (it.1 : Int) + n
  if 0 ≤ p ∧ p ≤ len then pure (p.toNat, it.2 - min n it.2) else ub

/-- `sized_iterator::operator-( sized_iterator )`, pipelines/sized_iterator.h 151-154. -/
def sizedDiff (a b : Nat × Int) : Int := b.2 - a.2

/-- `sized_iterator::operator==`, pipelines/sized_iterator.h 88-91. -/
def sizedEq (a b : Nat × Int) : Bool := a.2 == b.2

/-- The begin of `Take( n )`, pipelines/take.h 35-39. -/
def takeBegin (n : Nat) (xs : List α) : Nat × Int := (0, min (xs.length : Int) (toPtrdiff n))

/-- The end of `Take( n )`, pipelines/take.h 40: the end of the whole range. -/
def takeEnd (xs : List α) : Nat × Int := (xs.length, 0)

/-- What a loop over `Reverse` of `Take( n )` sees, pipelines/reverse.h 35-37: `reverse_iterator::operator*` reads before the iterator it holds,
`operator++` decrements it, iterator/daw_reverse_iterator.h 48-51 and 76-79. -/
def reverseTake (n : Nat) (xs : List α) : Cxx (List α) :=
  collect (fun it => !sizedEq it (takeBegin n xs)) (fun it => do
    let tmp ← sizedDec it
    let a ← rd xs tmp.1
    pure (a, it)) sizedDec (takeEnd xs)

theorem reverseTake_from (xs : List α) (n m : Nat) (hm : (takeBegin n xs).2 = m) (k : Nat) : ∀ it c : Nat, k ≤ it → it ≤ xs.length →
    c + k = m →
    collect (fun it => !sizedEq it (takeBegin n xs)) (fun it => do
      let tmp ← sizedDec it
      let a ← rd xs tmp.1
      pure (a, it)) sizedDec (it, (c : Int)) = pure (((xs.take it).drop (it - k)).reverse) := by
  induction k with
  | zero =>
    intro it c _ hi hc
    rw [collect_nil (by simp [sizedEq, hm]; omega), List.drop_eq_nil_of_le (by simp; omega)]
    rfl
  | succ k ih =>
    intro it c hk hi hc
    have hlt : it - 1 < xs.length := by omega
    have hd : sizedDec (it, (c : Int)) = pure (it - 1, ((c + 1 : Nat) : Int)) := by
      unfold sizedDec
      rw [if_pos (show 0 < it by omega)]
      simp
    have e : ((xs.take it).drop (it - (k + 1))).reverse = xs[it - 1] :: ((xs.take (it - 1)).drop (it - 1 - k)).reverse := by
      have e1 : xs.take it = xs.take (it - 1) ++ [xs[it - 1]] := by
        have : it = it - 1 + 1 := by omega
        conv => lhs; rw [this]
        rw [List.take_succ_eq_append_getElem hlt]
      rw [e1, List.drop_append_of_le_length (by simp; omega), List.reverse_append, show it - (k + 1) = it - 1 - k by omega]
      rfl
    rw [e]
    refine collect_cons (s' := (it, (c : Int))) (by simp [sizedEq, hm]; omega) ?_ hd (ih (it - 1) (c + 1) (by omega) (by omega) (by omega))
    rw [hd, pure_bind, rd_eq hlt]
    rfl

/-- `Reverse` of `Take( n )` sees the last elements of the whole range, as many as `Take( n )` has, not those `Take( n )` has. -/
theorem C154_reverse_finding (n : Nat) (hn : (n : Int) ≤ ptrdiffMax) (xs : List α) :
    reverseTake n xs = pure ((xs.drop (xs.length - n)).reverse) := by
  have hm : (takeBegin n xs).2 = ((min xs.length n : Nat) : Int) := by
    unfold takeBegin toPtrdiff
    rw [if_pos hn]
    simp only []
    omega
  have h := reverseTake_from xs n (min xs.length n) hm (min xs.length n) xs.length 0 (by omega) (Nat.le_refl _) (by omega)
  rw [List.take_length] at h
  rw [show xs.length - n = xs.length - min xs.length n by omega]
  exact h

/-- It is the reverse of what a loop forward sees if `Take( n )` takes all the elements. -/
theorem C154_reverse_partial (n : Nat) (hn : (n : Int) ≤ ptrdiffMax) (xs : List α) (h : xs.length ≤ n) :
    ∃ l, take n xs = pure l ∧ reverseTake n xs = pure l.reverse :=
  ⟨_, C67_take_partial n hn xs, by rw [C154_reverse_finding n hn, List.take_of_length_le h, show xs.length - n = 0 by omega, List.drop_zero]⟩

example := C154_reverse_partial 5 (by decide) [1, 2, 3] (by decide)

/-- And is not otherwise. -/
theorem C154_reverse_violated : ∃ (n : Nat) (xs : List Nat), take n xs = pure [1, 2] ∧ reverseTake n xs = pure [4, 3] :=
  ⟨2, [1, 2, 3, 4], C67_take_partial 2 (by decide) _, C154_reverse_finding 2 (by decide) _⟩

/-- Equal iterators with different predecessors: the end of `Take( n )` and the iterator a loop arrives at. -/
theorem C154_equal_violated : ∃ (xs : List Nat) (it : Nat × Int), sizedAdvance xs.length (takeBegin 1 xs) 1 = pure it ∧
    sizedEq it (takeEnd xs) = true ∧ (do let p ← sizedDec it; rd xs p.1) = pure 1 ∧
    (do let p ← sizedDec (takeEnd xs); rd xs p.1) = pure 3 :=
  ⟨[1, 2, 3], (1, 0), by decide +kernel, by decide +kernel, by decide +kernel, by decide +kernel⟩

/-- Steps forward. (Specification, no line of the source.) -/
def sizedSteps (len : Nat) : Nat → Nat × Int → Cxx (Nat × Int)
  | 0, it => pure it
  | n + 1, it => do
    let it ← sizedInc len it
    sizedSteps len n it

/-- Inside what is taken, `it + n` is `n` steps, `( it + n ) - it` is `n` and `( it + n ) - n` is `it`. -/
theorem C154_arithmetic_partial (len : Nat) (it : Nat × Int) (n : Nat) (h : it.1 + n ≤ len) (hn : (n : Int) ≤ it.2) :
    ∃ it', sizedAdvance len it n = pure it' ∧ sizedSteps len n it = pure it' ∧ sizedDiff it' it = n ∧
      sizedAdvance len it' (-n) = pure it := by
  obtain ⟨p, c⟩ := it
  simp only at h hn
  have e : sizedAdvance len (p, c) n = pure (p + n, c - n) := by
    unfold sizedAdvance
    simp only []
    rw [if_pos (by omega), show ((p : Int) + n).toNat = p + n by omega, show min (n : Int) c = n by omega]
  refine ⟨(p + n, c - n), e, ?_, by simp only [sizedDiff]; omega, ?_⟩
  · clear e
    induction n generalizing p c with
    | zero => simp [sizedSteps]
    | succ n ih =>
      show (sizedInc len (p, c) >>= _) = _
      unfold sizedInc
      rw [if_pos (show p < len by omega), if_pos (show 0 ≤ c - 1 by omega), pure_bind]
      rw [ih (p + 1) (c - 1) (by omega) (by omega), pure_inj, Prod.mk.injEq]
      exact ⟨by omega, by omega⟩
  · unfold sizedAdvance
    simp only []
    rw [if_pos (by omega), show (((p + n : Nat) : Int) + -n).toNat = p by omega, show min (-(n : Int)) (c - n) = -n by omega,
      pure_inj, Prod.mk.injEq]
    exact ⟨rfl, by omega⟩

example : sizedAdvance 5 (1, 3) 2 = pure (3, 1) := by decide +kernel

/-! ## range_t -/

/-- `range_t`: `first` and `last`, pipelines/range.h 33-34, as positions in one block. -/
structure Rng where
  first : Nat
  last : Nat
  deriving DecidableEq

/-- `range_t::size`, pipelines/range.h 70-73: the distance as `std::size_t`. -/
def Rng.size (r : Rng) : Nat := (((r.last : Int) - r.first) % 2 ^ 64).toNat

/-- `range_t::operator++`, pipelines/range.h 95-98, in a block of `len` elements. -/
def Rng.inc (len : Nat) (r : Rng) : Cxx Rng := if r.first < len then pure { r with first := r.first + 1 } else ub

/-- `range_t::operator-`, pipelines/range.h 153-156: `std::distance( first, rhs.first )`. -/
def Rng.diff (r rhs : Rng) : Int := (rhs.first : Int) - r.first

/-- Some increments. (Specification, no line of the source.) -/
def Rng.steps (len : Nat) : Nat → Rng → Cxx Rng
  | 0, r => pure r
  | n + 1, r => do
    let r ← r.inc len
    r.steps len n

theorem steps_eq (len n : Nat) : ∀ r : Rng, r.first + n ≤ len → r.steps len n = pure ⟨r.first + n, r.last⟩ := by
  induction n with
  | zero => intro r _; rfl
  | succ n ih =>
    intro r h
    show (r.inc len >>= _) = _
    unfold Rng.inc
    rw [if_pos (by omega), pure_bind, ih _ (by simp only []; omega), pure_inj]
    simp only [Rng.mk.injEq, and_true]
    omega

/-- A `range_t` that has been incremented `n` times inside has `n` elements less, and its first element is the one `n` further on. -/
theorem C155_steps_partial (len n : Nat) (r : Rng) (h : r.first + n ≤ r.last) (hl : r.last ≤ len) (hm : len < 2 ^ 63) :
    ∃ r', r.steps len n = pure r' ∧ r'.first = r.first + n ∧ r'.size + n = r.size := by
  refine ⟨_, steps_eq len n r (by omega), rfl, ?_⟩
  unfold Rng.size
  simp only []
  rw [Int.emod_eq_of_lt (by omega) (by omega), Int.emod_eq_of_lt (by omega) (by omega)]
  omega

example := C155_steps_partial 9 3 ⟨2, 8⟩ (by decide) (by decide) (by decide)

/-- The difference of ranges has the wrong sign: the range after `n` increments is `-n` after the one before. -/
theorem C155_difference_violated (len n : Nat) (r : Rng) (h : r.first + n ≤ len) :
    ∃ r', r.steps len n = pure r' ∧ r'.diff r = -(n : Int) := by
  refine ⟨_, steps_eq len n r h, ?_⟩
  unfold Rng.diff
  simp only []
  omega

example : (⟨1, 4⟩ : Rng).steps 5 2 = pure ⟨3, 4⟩ := by decide +kernel

end Verif.Pipe
