import Verif.StringView.Model
import Verif.StringView.Spec

/-
What the searching members of `basic_string_view` return.
-/

namespace Verif.SV
open Cxx

variable {α : Type}

/-! ### Substrings -/

section
variable [DecidableEq α]

theorem matchFrom_spec : ∀ (ys xs : List α),
    (matchFrom xs ys = .found → ys <+: xs) ∧
    (matchFrom xs ys = .atEnd → xs.length < ys.length) ∧
    (∀ r, matchFrom xs ys = .differ r → ¬ ys <+: xs ∧ xs ≠ []) := by
  intro ys
  induction ys with
  | nil => intro xs; simp [matchFrom]
  | cons y ys ih =>
    intro xs
    cases xs with
    | nil => simp [matchFrom]
    | cons x xs =>
      obtain ⟨h1, h2, h3⟩ := ih xs
      rw [matchFrom]
      by_cases h : x = y
      · subst h
        simp only [ne_eq, not_true, if_false]
        refine ⟨fun h => by simpa using h1 h, fun h => by simpa using h2 h, fun r h => ?_⟩
        have := (h3 r h).1
        exact ⟨by simpa using this, by simp⟩
      · simp only [ne_eq, h, not_false_eq_true, if_true]
        refine ⟨fun h => by simp at h, fun h => by simp at h, fun r _ => ⟨?_, by simp⟩⟩
        intro hp
        rw [List.cons_prefix_cons] at hp
        exact h hp.1.symm

omit [DecidableEq α] in
theorem occurs_length {ys xs : List α} {i : Nat} (h : Occurs ys xs i) : i + ys.length ≤ xs.length := by
  have := h.2.length_le
  simp at this
  have := h.1
  omega

theorem search_total (ys : List α) : ∀ (xs : List α) (k : Nat),
    ∃ r, search ys xs k = pure r ∧
      (∀ n, r = some n → ∃ i, n = k + i ∧ Occurs ys xs i ∧ ∀ j, j < i → ¬ Occurs ys xs j) ∧
      (r = none → ∀ i, ¬ Occurs ys xs i) := by
  intro xs
  induction xs with
  | nil =>
    intro k
    obtain ⟨h1, h2, h3⟩ := matchFrom_spec ys []
    rw [search]
    cases hm : matchFrom [] ys with
    | found => exact ⟨some k, rfl, fun n hn => ⟨0, by simpa using hn.symm, ⟨by simp, h1 hm⟩, by intros; omega⟩, by simp⟩
    | atEnd =>
      refine ⟨none, rfl, by simp, fun _ i hi => ?_⟩
      have := h2 hm
      have := occurs_length hi
      omega
    | differ r => exact absurd rfl (h3 r hm).2
  | cons x xs ih =>
    intro k
    obtain ⟨h1, h2, h3⟩ := matchFrom_spec ys (x :: xs)
    rw [search]
    cases hm : matchFrom (x :: xs) ys with
    | found => exact ⟨some k, rfl, fun n hn => ⟨0, by simpa using hn.symm, ⟨by simp, h1 hm⟩, by intros; omega⟩, by simp⟩
    | atEnd =>
      refine ⟨none, rfl, by simp, fun _ i hi => ?_⟩
      have := h2 hm
      have := occurs_length hi
      omega
    | differ r =>
      obtain ⟨res, e, g1, g2⟩ := ih (k + 1)
      refine ⟨res, e, ?_, ?_⟩
      · intro n hn
        obtain ⟨i, rfl, hi, hmin⟩ := g1 n hn
        refine ⟨i + 1, by omega, ⟨by have := hi.1; simp; omega, by simpa using hi.2⟩, ?_⟩
        intro j hj hocc
        cases j with
        | zero => exact (h3 r hm).1 (by simpa using hocc.2)
        | succ j => exact hmin j (by omega) ⟨by have := hocc.1; simp at this; omega, by simpa using hocc.2⟩
      · intro hn i hocc
        cases i with
        | zero => exact (h3 r hm).1 (by simpa using hocc.2)
        | succ i => exact g2 hn i ⟨by have := hocc.1; simp at this; omega, by simpa using hocc.2⟩

omit [DecidableEq α] in
theorem occurs_drop {ys xs : List α} {pos i : Nat} (hpos : pos ≤ xs.length) :
    Occurs ys (xs.drop pos) i ↔ Occurs ys xs (pos + i) := by
  unfold Occurs
  rw [List.length_drop, List.drop_drop]
  constructor
  · rintro ⟨h, h'⟩; exact ⟨by omega, h'⟩
  · rintro ⟨h, h'⟩; exact ⟨by omega, h'⟩

theorem search_from {ys xs : List α} {pos : Nat} (hpos : pos ≤ xs.length) :
    ∃ r, search ys (xs.drop pos) pos = pure r ∧ FirstIn (Occurs ys xs) pos (xs.length + 1) r := by
  obtain ⟨r, e, h1, h2⟩ := search_total ys (xs.drop pos) pos
  refine ⟨r, e, ?_, ?_⟩
  · intro i hi
    obtain ⟨k, rfl, hk, hmin⟩ := h1 i hi
    rw [occurs_drop hpos] at hk
    refine ⟨by omega, by have := hk.1; omega, hk, fun j h1 h2 h3 => ?_⟩
    refine hmin (j - pos) (by omega) ?_
    rw [occurs_drop hpos]
    rwa [show pos + (j - pos) = j by omega]
  · intro hn j hj _ hocc
    refine h2 hn (j - pos) ?_
    rw [occurs_drop hpos]
    rwa [show pos + (j - pos) = j by omega]

/-- **C13** for `find`: the least position from `pos` on at which `v` occurs, `npos` if there is none.  Missing: positions
beyond the end, see `C13_find_beyond_violated`. -/
theorem C13_find_partial (xs ys : List α) (pos : Nat) (hpos : pos ≤ xs.length) :
    ∃ r, find xs ys pos = pure r ∧ FirstIn (Occurs ys xs) pos (xs.length + 1) r := by
  unfold find
  by_cases h1 : xs.length < ys.length
  · rw [if_pos h1]
    refine ⟨none, rfl, by simp, fun _ j _ _ hocc => ?_⟩
    have := occurs_length hocc
    omega
  · rw [if_neg h1]
    by_cases h2 : ys.isEmpty = true
    · rw [if_pos h2]
      have : ys = [] := by simpa using h2
      subst this
      refine ⟨some pos, rfl, ?_, by simp⟩
      rintro i hi
      cases hi
      exact ⟨Nat.le_refl _, by omega, ⟨hpos, List.nil_prefix⟩, by intros; omega⟩
    · rw [if_neg h2, if_pos hpos]
      exact search_from hpos

example := C13_find_partial [1, 2, 3, 2, 3] [2, 3] 2 (by decide)

/-- C13 does not hold for `find` with a position beyond the end: `std::string_view` returns `npos`, the code forms a
pointer outside the text and a length that wraps around. -/
theorem C13_find_beyond_violated : find [1, 2, 3] [2] 4 = ub := rfl

theorem differ_total (xs ys : List α) (pos : Nat) : ∀ n k, k + n = ys.length → pos + ys.length ≤ xs.length →
    ∃ b, differ xs ys pos n k = pure b ∧ (b = false ↔ ys.drop k <+: xs.drop (pos + k)) := by
  intro n
  induction n with
  | zero =>
    intro k hk _
    refine ⟨false, rfl, ?_⟩
    have : ys.drop k = [] := by rw [List.drop_eq_nil_iff]; omega
    rw [this]
    simp
  | succ n ih =>
    intro k hk hl
    have hkx : pos + k < xs.length := by omega
    have hky : k < ys.length := by omega
    rw [differ, rd_eq hkx, rd_eq hky]
    simp only [pure_bind]
    rw [List.drop_eq_getElem_cons hkx, List.drop_eq_getElem_cons hky, List.cons_prefix_cons]
    by_cases h : xs[pos + k] = ys[k]
    · rw [if_neg (by simpa using h)]
      obtain ⟨b, e, hb⟩ := ih (k + 1) (by omega) hl
      exact ⟨b, e, by rw [hb]; simp [h, Nat.add_assoc]⟩
    · rw [if_pos h]
      refine ⟨true, rfl, ?_⟩
      simp only [Bool.true_eq_false, false_iff]
      rintro ⟨h', _⟩
      exact h h'.symm

theorem rfindLoop_total (xs ys : List α) : ∀ pos, pos + ys.length ≤ xs.length →
    ∃ r, rfindLoop xs ys pos = pure r ∧ LastIn (Occurs ys xs) (pos + 1) r := by
  intro pos
  induction pos with
  | zero =>
    intro hl
    obtain ⟨b, e, hb⟩ := differ_total xs ys 0 ys.length 0 (by simp) hl
    rw [rfindLoop, e, pure_bind]
    have hocc : b = false ↔ Occurs ys xs 0 := by rw [hb]; simp [Occurs]
    cases b
    · exact ⟨some 0, rfl, by rintro i hi; cases hi; exact ⟨by omega, hocc.1 rfl, by intros; omega⟩, by simp⟩
    · refine ⟨none, rfl, by simp, fun _ j hj h => ?_⟩
      have : j = 0 := by omega
      subst this
      exact Bool.noConfusion (hocc.2 h)
  | succ pos ih =>
    intro hl
    obtain ⟨b, e, hb⟩ := differ_total xs ys (pos + 1) ys.length 0 (by simp) hl
    rw [rfindLoop, e, pure_bind]
    have hocc : b = false ↔ Occurs ys xs (pos + 1) := by rw [hb]; simp [Occurs]; omega
    cases b
    · exact ⟨some (pos + 1), rfl, by rintro i hi; cases hi; exact ⟨by omega, hocc.1 rfl, by intros; omega⟩, by simp⟩
    · obtain ⟨r, e, h1, h2⟩ := ih (by omega)
      have hno : ¬ Occurs ys xs (pos + 1) := fun h => Bool.noConfusion (hocc.2 h)
      refine ⟨r, e, ?_, ?_⟩
      · intro i hi
        obtain ⟨a, b, c⟩ := h1 i hi
        refine ⟨by omega, b, fun j hj hj' => ?_⟩
        by_cases hjp : j = pos + 1
        · subst hjp; exact hno
        · exact c j hj (by omega)
      · intro hn j hj
        by_cases hjp : j = pos + 1
        · subst hjp; exact hno
        · exact h2 hn j (by omega)

/-- **C13** for `rfind`: the greatest position not beyond `pos` (`npos`: anywhere) at which `v` occurs, `npos` if there
is none. -/
theorem C13_rfind (xs ys : List α) (pos : Option Nat) :
    ∃ r, rfind xs ys pos = pure r ∧
      LastIn (fun i => Occurs ys xs i ∧ ∀ p, pos = some p → i ≤ p) (xs.length + 1) r := by
  unfold rfind
  by_cases h1 : xs.length < ys.length
  · rw [if_pos h1]
    refine ⟨none, rfl, by simp, fun _ j _ hocc => ?_⟩
    have := occurs_length hocc.1
    omega
  · rw [if_neg h1]
    have key : ∀ q, q ≤ xs.length - ys.length → (∀ i, Occurs ys xs i → (∀ p, pos = some p → i ≤ p) → i ≤ q) →
        (∀ i, i ≤ q → ∀ p, pos = some p → i ≤ p) →
        ∃ r, (if ys.isEmpty = true then pure (some q) else rfindLoop xs ys q : Cxx (Option Nat)) = pure r ∧
          LastIn (fun i => Occurs ys xs i ∧ ∀ p, pos = some p → i ≤ p) (xs.length + 1) r := by
      intro q hq hup hdown
      by_cases h2 : ys.isEmpty = true
      · rw [if_pos h2]
        have : ys = [] := by simpa using h2
        subst this
        refine ⟨some q, rfl, ?_, by simp⟩
        rintro i hi
        cases hi
        refine ⟨by omega, ⟨⟨by omega, List.nil_prefix⟩, hdown q (Nat.le_refl _)⟩, fun j hj _ hocc => ?_⟩
        have := hup j hocc.1 hocc.2
        omega
      · rw [if_neg h2]
        obtain ⟨r, e, g1, g2⟩ := rfindLoop_total xs ys q (by omega)
        refine ⟨r, e, ?_, ?_⟩
        · intro i hi
          obtain ⟨a, b, c⟩ := g1 i hi
          refine ⟨by have := b.1; omega, ⟨b, hdown i (by omega)⟩, fun j hj _ hocc => ?_⟩
          exact c j hj (by have := hup j hocc.1 hocc.2; omega) hocc.1
        · intro hn j _ hocc
          exact g2 hn j (by have := hup j hocc.1 hocc.2; omega) hocc.1
    cases pos with
    | none =>
      exact key (xs.length - ys.length) (Nat.le_refl _) (fun i hi _ => by have := occurs_length hi; omega)
        (by intro i _ p hp; cases hp)
    | some p =>
      refine key (min p (xs.length - ys.length)) (Nat.min_le_right _ _) (fun i hi hp => ?_) (fun i hi q hq => ?_)
      · have := occurs_length hi
        have := hp p rfl
        omega
      · cases hq
        omega

example : find [1, 2, 1, 2, 3] [1, 2] 1 = pure (some 2) ∧ rfind [1, 2, 1, 2, 3] [1, 2] none = pure (some 2) ∧
    rfind [1, 2, 1, 2, 3] [1, 2] (some 1) = pure (some 0) := ⟨rfl, rfl, rfl⟩

end

/-! ### Characters -/

theorem findIfFrom_spec (p : α → Bool) : ∀ (xs : List α) (k : Nat),
    (∀ i, findIfFrom p xs k = some i → ∃ n, i = k + n ∧ At p xs n ∧ ∀ j, j < n → ¬ At p xs j) ∧
    (findIfFrom p xs k = none → ∀ j, ¬ At p xs j) := by
  intro xs
  induction xs with
  | nil => intro k; simp [findIfFrom, At]
  | cons x xs ih =>
    intro k
    rw [findIfFrom]
    by_cases hp : p x = true
    · rw [if_pos hp]
      refine ⟨fun i hi => ?_, by simp⟩
      cases hi
      exact ⟨0, by simp, ⟨x, rfl, hp⟩, by intros; omega⟩
    · rw [if_neg hp]
      obtain ⟨h1, h2⟩ := ih (k + 1)
      have h0 : ¬ At p (x :: xs) 0 := by rintro ⟨a, ha, hpa⟩; simp at ha; subst ha; exact hp hpa
      refine ⟨fun i hi => ?_, fun hn j => ?_⟩
      · obtain ⟨n, rfl, ha, hmin⟩ := h1 i hi
        refine ⟨n + 1, by omega, by simpa [At] using ha, fun j hj => ?_⟩
        cases j with
        | zero => exact h0
        | succ j => have := hmin j (by omega); simpa [At] using this
      · cases j with
        | zero => exact h0
        | succ j => have := h2 hn j; simpa [At] using this

theorem at_lt {p : α → Bool} {xs : List α} {i : Nat} (h : At p xs i) : i < xs.length := by
  obtain ⟨a, ha, _⟩ := h
  exact (List.getElem?_eq_some_iff.1 ha).1

theorem at_drop {p : α → Bool} {xs : List α} {pos i : Nat} : At p (xs.drop pos) i ↔ At p xs (pos + i) := by
  unfold At
  rw [List.getElem?_drop]

theorem findIfFrom_drop (p : α → Bool) (xs : List α) (pos : Nat) :
    FirstIn (At p xs) pos xs.length (findIfFrom p (xs.drop pos) pos) := by
  obtain ⟨h1, h2⟩ := findIfFrom_spec p (xs.drop pos) pos
  refine ⟨fun i hi => ?_, fun hn j hj _ ha => ?_⟩
  · obtain ⟨n, rfl, ha, hmin⟩ := h1 i hi
    rw [at_drop] at ha
    refine ⟨by omega, at_lt ha, ha, fun j hj hj' ha' => ?_⟩
    refine hmin (j - pos) (by omega) ?_
    rw [at_drop]
    rwa [show pos + (j - pos) = j by omega]
  · refine h2 hn (j - pos) ?_
    rw [at_drop]
    rwa [show pos + (j - pos) = j by omega]

theorem findIfNotFrom_eq (p : α → Bool) : ∀ (xs : List α) (k : Nat),
    findIfNotFrom p xs k = findIfFrom (fun x => !p x) xs k := by
  intro xs
  induction xs with
  | nil => intro k; rfl
  | cons x xs ih =>
    intro k
    rw [findIfNotFrom, findIfFrom, ih]
    cases p x <;> rfl

theorem findCharLoop_zero [DecidableEq α] (ys : List α) (c : α) : ∀ fuel n, n + fuel = ys.length →
    findCharLoop ys c fuel n = pure (findIfFrom (· == c) (ys.drop n) n) := by
  intro fuel
  induction fuel with
  | zero =>
    intro n hn
    have : ys.drop n = [] := by rw [List.drop_eq_nil_iff]; omega
    rw [this]
    rfl
  | succ fuel ih =>
    intro n hn
    have hlt : n < ys.length := by omega
    rw [findCharLoop, rd_eq hlt, pure_bind, List.drop_eq_getElem_cons hlt, findIfFrom, ih (n + 1) (by omega)]
    by_cases h : ys[n] = c
    · simp [h]
    · simp [h]

/-- C14, as far as it holds: from position zero, `find( c )` returns the first position of the character, both at run
time and at compile time.  Missing: other starting positions, see `C14_find_char_runtime_violated` and
`C14_find_char_constexpr_violated`. -/
theorem C14_find_char_partial [DecidableEq α] (xs : List α) (c : α) :
    ∃ r, findCharRun xs c 0 = pure r ∧ findCharCx xs c 0 = pure r ∧ FirstIn (At (· == c) xs) 0 xs.length r := by
  refine ⟨findIfFrom (· == c) (xs.drop 0) 0, ?_, ?_, findIfFrom_drop _ _ _⟩
  · unfold findCharRun
    rw [if_pos (Nat.zero_le _)]
  · unfold findCharCx
    rw [if_pos (Nat.zero_le _), findCharLoop_zero _ _ _ _ (by simp)]
    simp

/-- C14 does not hold at run time: the position found is counted from `pos`. -/
theorem C14_find_char_runtime_violated : findCharRun [1, 2, 3] 3 1 = pure (some 1) := rfl

/-- C14, what holds at run time for any position: the result is the first position from `pos` on, less `pos`. -/
theorem C14_find_char_runtime_shifted_partial [DecidableEq α] (xs : List α) (c : α) (pos : Nat) (h : pos ≤ xs.length) :
    ∃ r, findCharRun xs c pos = pure r ∧ FirstIn (At (· == c) xs) pos xs.length (r.map (pos + ·)) := by
  refine ⟨_, by unfold findCharRun; rw [if_pos h], ?_⟩
  have : (findIfFrom (· == c) (xs.drop pos) 0).map (pos + ·) = findIfFrom (· == c) (xs.drop pos) pos := by
    have key : ∀ (ys : List α) k, (findIfFrom (· == c) ys k).map (pos + ·) = findIfFrom (· == c) ys (pos + k) := by
      intro ys
      induction ys with
      | nil => intro k; rfl
      | cons y ys ih =>
        intro k
        rw [findIfFrom, findIfFrom]
        split
        · rfl
        · exact ih (k + 1)
    exact key _ 0
  rw [this]
  exact findIfFrom_drop _ _ _

example := C14_find_char_runtime_shifted_partial [1, 2, 3, 2, 3] 3 1 (by decide)

/-- C14 does not hold at compile time: the search starts `2 * pos` characters into the text, and the result differs from
that at run time. -/
theorem C14_find_char_constexpr_violated : findCharCx [1, 2, 3] 2 1 = pure none ∧
    findCharCx [1, 2, 3] 3 1 = pure (some 1) ∧ findCharRun [1, 2, 3] 2 1 = pure (some 0) := ⟨rfl, rfl, rfl⟩

/-! ### Sets of characters -/

theorem inNeedle_eq (p : α → α → Bool) (x : α) : ∀ ys, inNeedle p x ys = ys.any (p x) := by
  intro ys
  induction ys with
  | nil => rfl
  | cons y ys ih =>
    rw [inNeedle, ih, List.any_cons]
    cases p x y <;> rfl

theorem inNeedle_contains [DecidableEq α] (x : α) (ys : List α) :
    inNeedle (fun a b => a == b) x ys = ys.contains x := by
  rw [inNeedle_eq, List.contains_eq_any_beq]

/-- **C15**: `find_first_of`, wider characters. -/
theorem C15_find_first_of [DecidableEq α] (xs ys : List α) (pos : Nat) :
    FirstIn (At (fun x => ys.contains x) xs) pos xs.length (findFirstOf xs ys pos) := by
  unfold findFirstOf
  by_cases h : pos ≥ xs.length ∨ ys.isEmpty
  · rw [if_pos h]
    refine ⟨by simp, fun _ j hj hj' ha => ?_⟩
    rcases h with h | h
    · omega
    · have : ys = [] := by simpa using h
      subst this
      obtain ⟨a, _, ha⟩ := ha
      simp at ha
  · rw [if_neg h]
    simp only [inNeedle_contains]
    exact findIfFrom_drop _ _ _

theorem needleTable_spec (ys : List (BitVec 8)) :
    ∃ tbl, needleTable ys = pure tbl ∧ ∀ x : BitVec 8, tbl.test x.toNat = pure (ys.contains x) := by
  have h := Bits.Bitset.C37_set_many (n := 256) (ys.map (·.toNat))
    (by intro i hi; obtain ⟨y, _, rfl⟩ := List.mem_map.1 hi; exact y.isLt) (b := Bits.Bitset.empty 256)
    Bits.Bitset.empty_ok
  obtain ⟨tbl, h1, h2, h3⟩ := h
  refine ⟨tbl, ?_, fun x => ?_⟩
  · unfold needleTable
    rw [← h1, List.foldlM_map]
  · obtain ⟨v, hv, ht⟩ := h3 x.toNat x.isLt
    rw [Bits.Bitset.test_eq Bits.Bitset.empty_ok x.isLt, Bits.Bitset.bit_empty] at hv
    have := pure_inj.1 hv
    subst this
    rw [ht]
    congr 1
    simp only [Bool.or_false]
    rw [Bool.eq_iff_iff]
    simp only [decide_eq_true_eq, List.contains_iff_mem, List.mem_map]
    constructor
    · rintro ⟨y, hy, e⟩
      have : y = x := BitVec.eq_of_toNat_eq e
      subst this; exact hy
    · intro h; exact ⟨x, h, rfl⟩

theorem findInTable_eq {tbl : Bits.Bitset 256} {q : BitVec 8 → Bool} (h : ∀ x : BitVec 8, tbl.test x.toNat = pure (q x)) :
    ∀ (xs : List (BitVec 8)) (k : Nat), findInTable tbl xs k = pure (findIfFrom q xs k) := by
  intro xs
  induction xs with
  | nil => intro k; rfl
  | cons x xs ih =>
    intro k
    rw [findInTable, h, pure_bind, findIfFrom, ih]
    cases q x <;> rfl

/-- **C15**: `find_first_of`, one byte characters, through the table of bits. -/
theorem C15_find_first_of_bytes (xs ys : List (BitVec 8)) (pos : Nat) :
    ∃ r, findFirstOf8 xs ys pos = pure r ∧ FirstIn (At (fun x => ys.contains x) xs) pos xs.length r := by
  refine ⟨findFirstOf xs ys pos, ?_, C15_find_first_of xs ys pos⟩
  unfold findFirstOf8 findFirstOf
  split
  · rfl
  · obtain ⟨tbl, h1, h2⟩ := needleTable_spec ys
    rw [h1, pure_bind, findInTable_eq h2]
    simp only [inNeedle_contains]

/-- **C15**: `find_first_of_if`. -/
theorem C15_find_first_of_if (p : α → Bool) (xs : List α) (pos : Nat) :
    FirstIn (At p xs) pos xs.length (findFirstOfIf p xs pos) := by
  unfold findFirstOfIf
  split
  · exact ⟨by simp, by intros; omega⟩
  · exact findIfFrom_drop _ _ _

/-- **C15**: `find_first_not_of_if`. -/
theorem C15_find_first_not_of_if (p : α → Bool) (xs : List α) (pos : Nat) :
    FirstIn (At (fun x => !p x) xs) pos xs.length (findFirstNotOfIf p xs pos) := by
  unfold findFirstNotOfIf
  split
  · exact ⟨by simp, by intros; omega⟩
  · rw [findIfNotFrom_eq]; exact findIfFrom_drop _ _ _

/-- **C15**: `find_first_not_of`. -/
theorem C15_find_first_not_of [DecidableEq α] (xs ys : List α) (pos : Nat) :
    FirstIn (At (fun x => !ys.contains x) xs) pos xs.length (findFirstNotOf xs ys pos) := by
  unfold findFirstNotOf
  split
  · exact ⟨by simp, by intros; omega⟩
  · rename_i hpos
    split
    · rename_i h
      have : ys = [] := by simpa using h
      subst this
      refine ⟨?_, by simp⟩
      rintro i hi
      cases hi
      exact ⟨Nat.le_refl _, by omega, ⟨xs[pos]'(by omega), List.getElem?_eq_getElem (by omega), by simp⟩,
        by intros; omega⟩
    · rw [findIfNotFrom_eq]
      simp only [inNeedle_contains]
      exact findIfFrom_drop _ _ _

theorem lastLoop_total (p : α → Cxx Bool) (q : α → Bool) (hp : ∀ x, p x = pure (q x)) (xs : List α) :
    ∀ n, n ≤ xs.length → ∃ r, lastLoop p xs n = pure r ∧ LastIn (At q xs) n r := by
  intro n
  induction n with
  | zero => intro _; exact ⟨none, rfl, by simp, by intros; omega⟩
  | succ n ih =>
    intro hn
    rw [lastLoop, rd_eq (by omega), pure_bind, hp, pure_bind]
    cases hq : q (xs[n]'(by omega))
    · obtain ⟨r, e, h1, h2⟩ := ih (by omega)
      have hno : ¬ At q xs n := by
        rintro ⟨a, ha, hqa⟩
        obtain ⟨_, rfl⟩ := List.getElem?_eq_some_iff.1 ha
        rw [hq] at hqa; cases hqa
      refine ⟨r, e, fun i hi => ?_, fun hr j hj => ?_⟩
      · obtain ⟨a, b, c⟩ := h1 i hi
        refine ⟨by omega, b, fun j hj hj' => ?_⟩
        by_cases hjn : j = n
        · subst hjn; exact hno
        · exact c j hj (by omega)
      · by_cases hjn : j = n
        · subst hjn; exact hno
        · exact h2 hr j (by omega)
    · refine ⟨some n, rfl, ?_, by simp⟩
      rintro i hi
      cases hi
      exact ⟨by omega, ⟨_, List.getElem?_eq_getElem (by omega), hq⟩, by intros; omega⟩

/-- **C15**: `find_last_of_if` looks at the first `pos` characters (all, if `pos` is `npos` or beyond the end). -/
theorem C15_find_last_of_if (p : α → Bool) (xs : List α) (pos : Option Nat) :
    ∃ r, findLastOfIf p xs pos = pure r ∧
      LastIn (At p xs) (match pos with | some n => min n xs.length | none => xs.length) r := by
  unfold findLastOfIf
  cases pos with
  | none => exact lastLoop_total _ p (fun _ => rfl) xs _ (Nat.le_refl _)
  | some n =>
    obtain ⟨r, e, h1, h2⟩ := lastLoop_total _ p (fun _ => rfl) (xs.take n) _ (Nat.le_refl _)
    have hat : ∀ i, i < (xs.take n).length → (At p (xs.take n) i ↔ At p xs i) := by
      intro i hi
      unfold At
      rw [List.getElem?_take_of_lt (by rw [List.length_take] at hi; omega)]
    refine ⟨r, e, ?_⟩
    rw [List.length_take] at h1 h2 hat
    refine ⟨fun i hi => ?_, fun hn j hj => ?_⟩
    · obtain ⟨a, b, c⟩ := h1 i hi
      rw [hat i a] at b
      exact ⟨a, b, fun j hj hj' => by rw [← hat j hj']; exact c j hj hj'⟩
    · rw [← hat j hj]; exact h2 hn j hj

/-- C15, `find_last_of` for one byte characters, as far as it holds: the last position of a character of the set in the
whole text.  Missing: the position is ignored, see `C15_find_last_of_bytes_violated`. -/
theorem C15_find_last_of_bytes_partial (xs ys : List (BitVec 8)) (pos : Option Nat) :
    ∃ r, findLastOf8 xs ys pos = pure r ∧ LastIn (At (fun x => ys.contains x) xs) xs.length r := by
  unfold findLastOf8
  split
  · rename_i h
    have : ys = [] := by simpa using h
    subst this
    refine ⟨none, rfl, by simp, fun _ j _ ha => ?_⟩
    obtain ⟨a, _, ha⟩ := ha
    simp at ha
  · obtain ⟨tbl, h1, h2⟩ := needleTable_spec ys
    rw [h1, pure_bind]
    exact lastLoop_total _ _ h2 xs _ (Nat.le_refl _)

/-- C15 does not hold for `find_last_of` with a position, one byte characters: the `b` at 3 is beyond position 1. -/
theorem C15_find_last_of_bytes_violated :
    findLastOf8 [97#8, 98#8, 97#8, 98#8] [98#8] (some 1) = pure (some 3) := by rfl

/-- C15, `find_last_of` for wider characters, as far as it holds: without a position.  Missing: with a position it
searches the wrong end, see `C15_find_last_of_violated`. -/
theorem C15_find_last_of_partial [DecidableEq α] (xs ys : List α) :
    ∃ r, findLastOf xs ys none = pure r ∧ LastIn (At (fun x => ys.contains x) xs) xs.length r := by
  unfold findLastOf
  split
  · rename_i h
    have : ys = [] := by simpa using h
    subst this
    refine ⟨none, rfl, by simp, fun _ j _ ha => ?_⟩
    obtain ⟨a, _, ha⟩ := ha
    simp at ha
  · obtain ⟨r, e, h⟩ := lastLoop_total (fun x => pure (inNeedle (fun a b => a == b) x ys)) (fun x => ys.contains x)
      (fun x => by rw [inNeedle_contains]) xs _ (Nat.le_refl _)
    refine ⟨r, ?_, h⟩
    simp only [List.drop_zero, if_pos]
    rw [e, pure_bind]
    cases r <;> simp

/-- C15 does not hold for `find_last_of` with a position, wider characters: looking for 2 up to position 0 of
`1, 2, 3` finds nothing there but reports position 1, and up to position 1 of `2, 1, 1` reports position 0 although the
part it searches, `1, 1`, is the other end. -/
theorem C15_find_last_of_violated : findLastOf [1, 2, 3] [2] (some 0) = pure (some 1) ∧
    findLastOf [1, 1, 2] [1] (some 0) = pure (some 1) := ⟨rfl, rfl⟩

/-- C15 does not hold for `find_last_of` with a position, wider characters, whatever the text: it finds the last
character of the set in the last `pos + 1` characters, and reports the position before these if there is none. -/
theorem C15_find_last_of_position_violated [DecidableEq α] (xs ys : List α) (p : Nat) (hp : p < xs.length)
    (hy : ys ≠ []) :
    (∃ i, findLastOf xs ys (some p) = pure (some i) ∧ xs.length - (p + 1) ≤ i ∧ i < xs.length ∧
      At (fun x => ys.contains x) xs i ∧ ∀ j, i < j → j < xs.length → ¬ At (fun x => ys.contains x) xs j) ∨
    ((∀ j, xs.length - (p + 1) ≤ j → j < xs.length → ¬ At (fun x => ys.contains x) xs j) ∧
      findLastOf xs ys (some p) = pure (if p + 1 = xs.length then none else some (xs.length - (p + 2)))) := by
  unfold findLastOf
  rw [if_neg (by simpa using hy)]
  simp only [if_neg (Nat.not_le.2 hp)]
  generalize hoff : xs.length - (p + 1) = off
  obtain ⟨r, e, h1, h2⟩ := lastLoop_total (fun x => pure (inNeedle (fun a b => a == b) x ys)) (fun x => ys.contains x)
    (fun x => by rw [inNeedle_contains]) (xs.drop off) _ (Nat.le_refl _)
  have hat : ∀ i, At (fun x => ys.contains x) (xs.drop off) i ↔ At (fun x => ys.contains x) xs (off + i) := by
    intro i; unfold At; rw [List.getElem?_drop]
  rw [e, pure_bind]
  rw [List.length_drop] at h1 h2
  cases r with
  | some i =>
    obtain ⟨a, b, c⟩ := h1 i rfl
    refine .inl ⟨off + i, rfl, by omega, by omega, (hat i).1 b, fun j hj hj' => ?_⟩
    have := c (j - off) (by omega) (by omega)
    rwa [hat, Nat.add_sub_cancel' (by omega)] at this
  | none =>
    refine .inr ⟨fun j hj hj' => ?_, ?_⟩
    · have := h2 rfl (j - off) (by omega)
      rwa [hat, Nat.add_sub_cancel' (by omega)] at this
    · by_cases h : p + 1 = xs.length
      · simp only [if_pos h, if_pos (show off = 0 by omega)]
      · simp only [if_neg h, if_neg (show ¬ off = 0 by omega)]
        rw [show off - 1 = xs.length - (p + 2) by omega]

example : findLastOf [2, 1, 2, 1] [2] (some 1) = pure (some 2) ∧ findLastOf [2, 2, 1, 1] [2] (some 0) = pure (some 2) :=
  ⟨rfl, rfl⟩

/-- C15, `find_last_not_of_if`, as far as it holds: the last position not beyond `pos` with a character that does not
satisfy the predicate.  Missing: `pos == size( )`, see `C15_find_last_not_of_if_violated`. -/
theorem C15_find_last_not_of_if_partial (p : α → Bool) (xs : List α) (pos : Option Nat) (h : pos ≠ some xs.length) :
    ∃ r, findLastNotOfIf p xs pos = pure r ∧
      LastIn (At (fun x => !p x) xs) (match pos with | some n => min (n + 1) xs.length | none => xs.length) r := by
  unfold findLastNotOfIf
  split
  · rename_i he
    have : xs = [] := by simpa using he
    subst this
    refine ⟨none, rfl, by simp, fun _ j _ ha => ?_⟩
    obtain ⟨a, ha, _⟩ := ha
    simp at ha
  · rename_i he
    have hne : xs ≠ [] := by simpa using he
    have hlen : 0 < xs.length := List.length_pos_iff.2 hne
    cases pos with
    | none =>
      have := lastLoop_total (fun x => pure (!p x)) _ (fun _ => rfl) xs xs.length (Nat.le_refl _)
      simp only []
      rwa [show xs.length - 1 + 1 = xs.length by omega]
    | some n =>
      have hn : n ≠ xs.length := fun h' => h (by rw [h'])
      simp only []
      by_cases hgt : n > xs.length
      · rw [if_pos hgt, show xs.length - 1 + 1 = xs.length by omega, show min (n + 1) xs.length = xs.length by omega]
        exact lastLoop_total _ _ (fun _ => rfl) xs _ (Nat.le_refl _)
      · rw [if_neg hgt, show min (n + 1) xs.length = n + 1 by omega]
        exact lastLoop_total _ _ (fun _ => rfl) xs _ (by omega)

example := C15_find_last_not_of_if_partial (fun x : Nat => decide (x = 3)) [1, 2, 3] (some 2) (by decide)

/-- C15 does not hold for `find_last_not_of_if` with the size as position: it reads the character past the end. -/
theorem C15_find_last_not_of_if_violated (p : α → Bool) (x : α) (xs : List α) :
    findLastNotOfIf p (x :: xs) (some (x :: xs).length) = ub := by
  unfold findLastNotOfIf
  simp only [List.isEmpty_cons, Bool.false_eq_true, if_false, gt_iff_lt, Nat.lt_irrefl]
  rw [lastLoop, rd_oob (by simp)]
  rfl

/-- C15, `find_last_not_of`, as far as it holds.  Missing: `pos == size( )`, where it reads past the end or, for the empty
set, returns a position that is none. -/
theorem C15_find_last_not_of_partial [DecidableEq α] (xs ys : List α) (pos : Option Nat) (h : pos ≠ some xs.length) :
    ∃ r, findLastNotOf xs ys pos = pure r ∧
      LastIn (At (fun x => !ys.contains x) xs) (match pos with | some n => min (n + 1) xs.length | none => xs.length) r := by
  have hfind : ∀ x, (do return (← findCharRun ys x 0).isNone : Cxx Bool) = pure (!ys.contains x) := by
    intro x
    obtain ⟨r, e, _, hr⟩ := C14_find_char_partial ys x
    rw [e, pure_bind]
    congr 1
    cases r with
    | none =>
      simp only [Option.isNone_none]
      symm
      rw [Bool.not_eq_true', Bool.eq_false_iff]
      intro hc
      rw [List.contains_iff_mem] at hc
      obtain ⟨i, hi, rfl⟩ := List.mem_iff_getElem.1 hc
      exact hr.2 rfl i (Nat.zero_le _) hi ⟨_, List.getElem?_eq_getElem hi, by simp⟩
    | some i =>
      obtain ⟨_, hi, ⟨a, ha, hax⟩, _⟩ := hr.1 i rfl
      simp only [Option.isNone_some]
      symm
      rw [Bool.not_eq_false', List.contains_iff_mem]
      have : a = x := by simpa using hax
      subst this
      exact List.mem_of_getElem? ha
  unfold findLastNotOf
  split
  · rename_i he
    have : xs = [] := by simpa using he
    subst this
    refine ⟨none, rfl, by simp, fun _ j _ ha => ?_⟩
    obtain ⟨a, ha, _⟩ := ha
    simp at ha
  · rename_i he
    have hne : xs ≠ [] := by simpa using he
    have hlen : 0 < xs.length := List.length_pos_iff.2 hne
    have key : ∀ q, q < xs.length →
        ∃ r, (if ys.isEmpty = true then pure (some q) else
          lastLoop (fun x => do return (← findCharRun ys x 0).isNone) xs (q + 1) : Cxx (Option Nat)) = pure r ∧
          LastIn (At (fun x => !ys.contains x) xs) (q + 1) r := by
      intro q hq
      by_cases hy : ys.isEmpty = true
      · rw [if_pos hy]
        have : ys = [] := by simpa using hy
        subst this
        refine ⟨some q, rfl, ?_, by simp⟩
        rintro i hi
        cases hi
        exact ⟨by omega, ⟨xs[q], List.getElem?_eq_getElem hq, by simp⟩, by intros; omega⟩
      · rw [if_neg hy]
        exact lastLoop_total _ _ hfind xs _ (by omega)
    cases pos with
    | none =>
      have := key (xs.length - 1) (by omega)
      simp only []
      rwa [show xs.length - 1 + 1 = xs.length by omega] at this ⊢
    | some n =>
      have hn : n ≠ xs.length := fun h' => h (by rw [h'])
      simp only []
      by_cases hgt : n > xs.length
      · have := key (xs.length - 1) (by omega)
        rw [if_pos hgt, show min (n + 1) xs.length = xs.length by omega]
        rwa [show xs.length - 1 + 1 = xs.length by omega] at this ⊢
      · rw [if_neg hgt, show min (n + 1) xs.length = n + 1 by omega]
        exact key n (by omega)

example := C15_find_last_not_of_partial [1, 2, 3] [3] none (by decide)

/-- C15 does not hold for `find_last_not_of` with the size as position and an empty set: 3 is no position of the text. -/
theorem C15_find_last_not_of_violated : findLastNotOf [1, 2, 3] [] (some 3) = pure (some 3) ∧
    findLastNotOf [1, 2, 3] [3] (some 3) = ub := ⟨rfl, rfl⟩

/-! ### `search` and `search_last` -/

/-- C20, `search`, as far as it holds: the first occurrence of a non-empty needle, if there is room for it and one more
character.  Missing: a needle that ends the text is not found if nothing is left over, see `C20_search_violated`. -/
theorem C20_search_partial [DecidableEq α] (xs ys : List α) (pos : Nat) (hy : ys ≠ []) (h : pos + ys.length < xs.length) :
    ∃ r, searchM xs ys pos = pure r ∧ FirstIn (Occurs ys xs) pos (xs.length + 1) r := by
  unfold searchM
  rw [if_neg (by simp [hy]; omega)]
  exact search_from (by omega)

/-- C20 does not hold for `search`: the text occurs in itself, and a suffix is not found from where it starts. -/
theorem C20_search_violated : searchM [1, 2, 3] [1, 2, 3] 0 = pure none ∧ searchM [1, 2, 3] [2, 3] 1 = pure none ∧
    searchM [1, 2, 3] [2, 3] 0 = pure (some 1) := ⟨rfl, rfl, rfl⟩

/-- C20: where the pattern does not fit, or with an empty pattern, both return `npos`; where it fits exactly they do too, which is the defect
of `C20_search_violated`. -/
theorem C20_search_outside [DecidableEq α] (xs ys : List α) (pos : Nat) (h : xs.length ≤ pos + ys.length ∨ ys = []) :
    searchM xs ys pos = pure none ∧ searchLast xs ys pos = pure none := by
  have hc : pos + ys.length ≥ xs.length ∨ ys.isEmpty = true := by
    rcases h with h | h
    · exact Or.inl h
    · exact Or.inr (by rw [h]; rfl)
  constructor
  · unfold searchM
    rw [if_pos hc]
  · unfold searchLast
    rw [if_pos hc]

example : searchLast [1, 2, 3] [2, 3, 4] 1 = pure none := (C20_search_outside [1, 2, 3] [2, 3, 4] 1 (Or.inl (by decide))).2

/-- C20, what `search_last` does return: the first occurrence from `pos` on, and `pos` if there is none.  Missing: that it
is the last occurrence; it is if there is only one. -/
theorem C20_search_last_partial [DecidableEq α] (xs ys : List α) (pos : Nat) (hy : ys ≠ [])
    (h : pos + ys.length < xs.length) :
    ∃ r, FirstIn (Occurs ys xs) pos (xs.length + 1) r ∧
      (∀ i, r = some i → i + ys.length < xs.length → searchLast xs ys pos = pure (some i)) ∧
      (r = none → searchLast xs ys pos = pure (some pos)) := by
  obtain ⟨r, e, hr⟩ := C20_search_partial xs ys pos hy h
  refine ⟨r, hr, fun i hi hroom => ?_, fun hn => ?_⟩
  · subst hi
    obtain ⟨r', e', hr'⟩ := C20_search_partial xs ys i hy hroom
    have hri : r' = some i := by
      obtain ⟨_, h2, h3, _⟩ := hr.1 i rfl
      refine hr'.unique ⟨?_, by simp⟩
      rintro k hk
      cases hk
      exact ⟨Nat.le_refl _, h2, h3, by intros; omega⟩
    unfold searchLast
    rw [if_neg (by simp [hy]; omega), e, pure_bind, searchLastLoop, e', hri, pure_bind, if_pos rfl, pure_bind]
  · subst hn
    unfold searchLast
    rw [if_neg (by simp [hy]; omega), e, pure_bind, searchLastLoop, pure_bind]

example := C20_search_last_partial [1, 2, 3, 2, 3] [2] 1 (by decide) (by decide)

/-- C20 does not hold for `search_last`: of two occurrences it returns the first, and a position if there is none. -/
theorem C20_search_last_violated : searchLast [1, 2, 1, 2, 3] [1, 2] 0 = pure (some 0) ∧
    searchLast [1, 2, 3] [4] 1 = pure (some 1) := by
  constructor
  · unfold searchLast
    rw [if_neg (by decide), show searchM [1, 2, 1, 2, 3] [1, 2] 0 = pure (some 0) from rfl, pure_bind, searchLastLoop,
      show searchM [1, 2, 1, 2, 3] [1, 2] 0 = pure (some 0) from rfl]
    rfl
  · unfold searchLast
    rw [if_neg (by decide), show searchM [1, 2, 3] [4] 1 = pure none from rfl, pure_bind, searchLastLoop]
    rfl

/-! ### Several needles -/

/-- C85, `find_first_match` with one needle is `find`.  Missing: several needles, see
`C85_find_first_match_violated`. -/
theorem C85_find_first_match_partial [DecidableEq α] (xs ys : List α) (pos : Nat) (hpos : pos ≤ xs.length) :
    ∃ r, findFirstMatch xs [ys] pos = pure r ∧ FirstIn (Occurs ys xs) pos (xs.length + 1) r := by
  unfold findFirstMatch
  by_cases hy : ys = []
  · subst hy
    refine ⟨some pos, rfl, ?_, by simp⟩
    rintro i hi
    cases hi
    exact ⟨Nat.le_refl _, by omega, ⟨hpos, List.nil_prefix⟩, by intros; omega⟩
  · rw [if_neg (by simp [hy]), if_pos hpos]
    obtain ⟨r, e, hr⟩ := search_from (ys := ys) hpos
    refine ⟨r, ?_, hr⟩
    rw [← e]
    have key : ∀ (zs : List α) (k : Nat), (pure (searchMany [ys] zs k) : Cxx (Option Nat)) = search ys zs k := by
      intro zs
      induction zs with
      | nil =>
        intro k
        cases ys with
        | nil => exact absurd rfl hy
        | cons y ys => rfl
      | cons z zs ih =>
        intro k
        rw [searchMany, search, tryNeedles]
        cases matchFrom (z :: zs) ys with
        | found => rfl
        | atEnd => rfl
        | differ r => simp only [tryNeedles]; exact ih (k + 1)
    exact key _ _

example := C85_find_first_match_partial [1, 2, 3, 2, 3] [2, 3] 2 (by decide)

/-- C85 does not hold for several needles: after a needle that agrees in its first characters the next one is compared
from where that one stopped, and a needle that reaches the end stops the search for the others. -/
theorem C85_find_first_match_violated : findFirstMatch [1, 2, 3] [[1, 4], [1, 2, 3]] 0 = pure none ∧
    findFirstMatch [1, 2] [[1, 2, 3], [2]] 0 = pure none := ⟨rfl, rfl⟩

end Verif.SV
