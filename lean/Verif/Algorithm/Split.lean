import Verif.Algorithm.Model

/- C30 (split), C31 (safe_next, safe_prev, begin_at), C33 (partition_range). -/

namespace Verif.Algorithm
open Cxx

variable {α : Type}

/-- The parts of a text each followed by the delimiter. (Specification, no line of the source.) -/
def terminated (v : α) (parts : List (List α)) : List α := parts.flatMap (fun p => p ++ [v])

theorem splitLoop_spec [BEq α] [LawfulBEq α] (v : α) (xs : List α) :
    ∀ (result : List (List α)) (temp : List α), v ∉ temp → (∀ p ∈ result, v ∉ p) →
      ∃ rest, v ∉ rest ∧ (∀ p ∈ splitLoop v xs result temp, v ∉ p) ∧
        terminated v result ++ temp ++ xs = terminated v (splitLoop v xs result temp) ++ rest := by
  induction xs with
  | nil =>
    intro result temp ht hr
    exact ⟨temp, ht, hr, by simp [splitLoop]⟩
  | cons x xs ih =>
    intro result temp ht hr
    simp only [splitLoop]
    by_cases h : v == x
    · have hx := eq_of_beq h
      subst hx
      simp only [beq_self_eq_true, if_true]
      obtain ⟨rest, h1, h2, h3⟩ := ih (result ++ [temp]) [] (by simp) (by
        intro p hp
        rcases List.mem_append.1 hp with hp | hp
        · exact hr p hp
        · rw [List.mem_singleton.1 hp]; exact ht)
      refine ⟨rest, h1, h2, ?_⟩
      rw [← h3]
      simp [terminated]
    · simp only [h, Bool.false_eq_true, if_false]
      have hne : v ≠ x := fun e => h (by simp [e])
      obtain ⟨rest, h1, h2, h3⟩ := ih result (temp ++ [x]) (by simp [ht, hne]) hr
      exact ⟨rest, h1, h2, by rw [← h3]; simp⟩

/-- **C30** finding: the part after the last delimiter is lost: splitting `1,0,2` at `0` gives
one part only, so no joining with the delimiter gives back the text. -/
theorem C30_split_violated :
    split [1, 0, 2] 0 = [[1]] ∧ List.intercalate [0] (split [1, 0, 2] 0) ≠ [1, 0, 2] := by decide

/-- **C30**: no part contains the delimiter, and the parts, each followed by the delimiter, are a
prefix of the text after which no delimiter follows.  Missing: that remaining text, which is not
returned (`C30_split_violated`); the claim holds for texts ending in the delimiter. -/
theorem C30_split_partial [BEq α] [LawfulBEq α] (xs : List α) (v : α) :
    ∃ rest, v ∉ rest ∧ (∀ p ∈ split xs v, v ∉ p) ∧ xs = terminated v (split xs v) ++ rest := by
  obtain ⟨rest, h1, h2, h3⟩ := splitLoop_spec v xs [] [] (by simp) (by simp)
  exact ⟨rest, h1, h2, by simpa [terminated, split] using h3⟩

/-- **C30** for texts ending in the delimiter nothing is lost. -/
theorem C30_split_terminated [BEq α] [LawfulBEq α] (xs : List α) (v : α) :
    terminated v (split (xs ++ [v]) v) = xs ++ [v] := by
  obtain ⟨rest, h1, _, h3⟩ := C30_split_partial (xs ++ [v]) v
  cases hr : rest.reverse with
  | nil => rw [List.reverse_eq_nil_iff] at hr; subst hr; rw [List.append_nil] at h3; exact h3.symm
  | cons y ys =>
    have : rest = ys.reverse ++ [y] := by
      rw [← List.reverse_reverse rest, hr]; simp
    subst this
    rw [← List.append_assoc] at h3
    have := (List.append_inj' h3 rfl).2
    injection this with h _
    subst h
    simp at h1

example : split [1, 0, 0, 2, 3, 0] 0 = [[1], [], [2, 3]] := by decide

/-! ### safe_next, safe_prev, begin_at -/

/-- **C31**: `safe_next` moves by `min(n, last - it)`, for counts up to `PTRDIFF_MAX`.
Missing: greater counts, see `C31_begin_at_violated`. -/
theorem C31_safe_next_partial (it last n : Nat) (h : it ≤ last) (hn : (n : Int) ≤ ptrdiffMax) :
    safeNext it last n = pure ((it + min n (last - it) : Nat) : Int) := by
  unfold safeNext safeAdvanceRA toPtrdiff
  rw [if_pos hn, if_neg (by omega)]
  simp only []
  rw [if_neg (by omega), pure_inj]
  omega

/-- **C31**: `safe_prev` moves by `min(n, it - first)`, for counts up to `PTRDIFF_MAX`.
Missing: greater counts. -/
theorem C31_safe_prev_partial (it first n : Nat) (h : first ≤ it) (hn : (n : Int) ≤ ptrdiffMax) :
    safePrev it first n = pure ((it - min n (it - first) : Nat) : Int) := by
  unfold safePrev safeAdvanceRA toPtrdiff
  unfold ptrdiffMax at *
  simp only [if_pos hn]
  rw [if_neg (by omega)]
  by_cases h0 : n = 0
  · subst h0
    simp
  · rw [if_pos (by omega), if_neg (by omega), if_neg (by omega), pure_inj]
    omega

example : safePrev 5 2 100 = pure 2 := C31_safe_prev_partial 5 2 100 (by decide) (by decide)

/-- **C31**: `begin_at( c, n )` is `begin + min(n, size)`, for counts up to `PTRDIFF_MAX`.
Missing: greater counts, see `C31_begin_at_violated`. -/
theorem C31_begin_at_partial (size n : Nat) (hn : (n : Int) ≤ ptrdiffMax) :
    beginAt size n = pure ((min n size : Nat) : Int) := by
  unfold beginAt safeAdvanceRA toPtrdiff
  rw [if_pos hn, if_neg (by omega)]
  simp only []
  rw [if_neg (by omega), pure_inj]
  omega

example : beginAt 4 9 = pure 4 := C31_begin_at_partial 4 9 (by decide)

/-- **C31** finding: `begin_at( c, SIZE_MAX )` is `begin`, not `end`, for every container. -/
theorem C31_begin_at_violated (size : Nat) : beginAt size (2 ^ 64 - 1) = pure 0 := by
  unfold beginAt safeAdvanceRA toPtrdiff ptrdiffMax
  simp [pure_inj]
  omega

/-- **C31** finding: `safe_next( it, last, SIZE_MAX )` does not move. -/
theorem C31_safe_next_violated (it last : Int) : safeNext it last (2 ^ 64 - 1) = pure it := by
  unfold safeNext safeAdvanceRA toPtrdiff ptrdiffMax
  simp [pure_inj]
  omega

/-- **C31** finding: the count `2^63` makes `begin_at` negate `PTRDIFF_MIN`. -/
theorem C31_begin_at_ub (size : Nat) : beginAt size (2 ^ 63) = ub := by
  unfold beginAt safeAdvanceRA toPtrdiff ptrdiffMax
  simp

/-- **C31** finding: for counts beyond `PTRDIFF_MAX`, `safe_prev` does not move, and `2^63` makes it negate `PTRDIFF_MIN`. -/
theorem C31_safe_prev_violated (it first : Int) (n : Nat) (hn : ptrdiffMax < (n : Int)) (hn2 : n < 2 ^ 64) :
    safePrev it first n = if n = 2 ^ 63 then ub else pure it := by
  unfold safePrev safeAdvanceRA toPtrdiff
  unfold ptrdiffMax at *
  simp only [if_neg (show ¬ (n : Int) ≤ 2 ^ 63 - 1 by omega)]
  by_cases h : n = 2 ^ 63
  · rw [if_pos (by omega), if_pos h]
  · rw [if_neg (by omega), if_neg h, if_neg (by omega), if_neg (by omega), pure_inj]
    omega

example : safePrev 5 0 (2 ^ 64 - 1) = pure 5 := C31_safe_prev_violated 5 0 (2 ^ 64 - 1) (by unfold ptrdiffMax; omega) (by omega)

theorem safeAdvanceFwd_total : ∀ (k : Nat) (it last : Nat) (n : Nat), n = k → it ≤ last →
    safeAdvanceFwd (it : Int) last (n : Int) =
      pure (((it + min n (last - it) : Nat) : Int), ((n - (last - it) : Nat) : Int)) := by
  intro k
  induction k with
  | zero =>
    intro it last n hn h
    subst hn
    rw [safeAdvanceFwd]
    simp
  | succ k ih =>
    intro it last n hn h
    rw [safeAdvanceFwd]
    by_cases hl : it = last
    · subst hl
      simp
    · rw [if_pos (by omega)]
      have e1 : (it : Int) + 1 = ((it + 1 : Nat) : Int) := by omega
      have e2 : (n : Int) - 1 = ((n - 1 : Nat) : Int) := by omega
      rw [e1, e2, ih (it + 1) last (n - 1) (by omega) (by omega), pure_inj, Prod.mk.injEq]
      omega

theorem safeAdvanceBwd_total : ∀ (k : Nat) (it first : Nat) (n : Nat), n = k → first ≤ it →
    safeAdvanceBwd (it : Int) first (-(n : Int)) = pure ((it - min n (it - first) : Nat) : Int) := by
  intro k
  induction k with
  | zero =>
    intro it first n hn h
    subst hn
    rw [safeAdvanceBwd]
    simp
  | succ k ih =>
    intro it first n hn h
    rw [safeAdvanceBwd]
    by_cases hl : it = first
    · subst hl
      simp
    · rw [if_pos (by omega)]
      have e1 : (it : Int) - 1 = ((it - 1 : Nat) : Int) := by omega
      have e2 : -(n : Int) + 1 = -((n - 1 : Nat) : Int) := by omega
      rw [e1, e2, ih (it - 1) first (n - 1) (by omega) (by omega), pure_inj]
      omega

/-- **C31**: the version for iterators without random access moves by the same amount: forward by
`min(n, last - it)` for a count `n ≥ 0` and backward by `min(n, it - first)` for `-n`. -/
theorem C31_safe_advance_seq (first it last n : Nat) (h1 : first ≤ it) (h2 : it ≤ last) :
    safeAdvanceSeq first it last n = pure ((it + min n (last - it) : Nat) : Int) ∧
    safeAdvanceSeq first it last (-(n : Int)) = pure ((it - min n (it - first) : Nat) : Int) := by
  constructor
  · unfold safeAdvanceSeq
    rw [safeAdvanceFwd_total _ it last n rfl h2]
    simp only [pure_bind]
    rw [safeAdvanceBwd, if_neg (by omega)]
  · unfold safeAdvanceSeq
    have : safeAdvanceFwd (it : Int) last (-(n : Int)) = pure ((it : Int), -(n : Int)) := by
      rw [safeAdvanceFwd, if_neg (by omega)]
    rw [this]
    simp only [pure_bind]
    exact safeAdvanceBwd_total _ it first n rfl h1

example : safeNext 3 10 100 = pure 10 :=
  C31_safe_next_partial 3 10 100 (by decide) (by decide)

/-! ### partition_range -/

theorem viewPopFront_eq (v : List α) (n : Nat) : viewPopFront v n = (v.take n, v.drop n) := by
  unfold viewPopFront
  by_cases h : n > v.length
  · simp only [if_pos h]
    rw [List.take_of_length_le (Nat.le_refl _), List.take_of_length_le (by omega),
      List.drop_of_length_le (Nat.le_refl _), List.drop_of_length_le (by omega)]
  · simp only [if_neg h]

theorem partitionLoop_eq (sz : Nat) : ∀ (count : Nat) (v : List α) (result : List (List α)),
    partitionLoop sz count v result =
      result ++ (List.range count).map (fun k => (v.drop (k * sz)).take sz) ++ [v.drop (count * sz)] := by
  intro count
  induction count with
  | zero => intro v result; simp [partitionLoop]
  | succ count ih =>
    intro v result
    simp only [partitionLoop, viewPopFront_eq]
    rw [ih, List.range_succ_eq_map, List.map_cons, List.map_map]
    have e1 : (List.range count).map ((fun k => (v.drop (k * sz)).take sz) ∘ Nat.succ) =
        (List.range count).map (fun k => ((v.drop sz).drop (k * sz)).take sz) := by
      apply List.map_congr_left
      intro k _
      simp only [Function.comp, List.drop_drop]
      rw [show sz + k * sz = k.succ * sz by rw [Nat.succ_mul]; omega]
    rw [e1, show v.drop ((count + 1) * sz) = (v.drop sz).drop (count * sz) by
      rw [List.drop_drop, Nat.succ_mul]; congr 1; omega]
    simp

theorem flatten_parts (sz : Nat) : ∀ (count : Nat) (v : List α),
    ((List.range count).map (fun k => (v.drop (k * sz)).take sz) ++ [v.drop (count * sz)]).flatten = v := by
  intro count
  induction count with
  | zero => intro v; simp
  | succ count ih =>
    intro v
    rw [List.range_succ_eq_map, List.map_cons, List.map_map, List.cons_append, List.flatten_cons]
    have : (List.range count).map ((fun k => (v.drop (k * sz)).take sz) ∘ Nat.succ) =
        (List.range count).map (fun k => ((v.drop sz).drop (k * sz)).take sz) := by
      apply List.map_congr_left
      intro k _
      simp only [Function.comp, List.drop_drop]
      rw [show sz + k * sz = k.succ * sz by rw [Nat.succ_mul]; omega]
    rw [this, show v.drop ((count + 1) * sz) = (v.drop sz).drop (count * sz) by
      rw [List.drop_drop, Nat.succ_mul]; congr 1; omega, ih]
    simp

/-- **C33**: for a positive number of parts `partition_range` returns exactly that many parts; one
after the other they are the range; every part but the last has `max(size / count, MinSize)`
elements as long as there are that many left.
Missing: zero parts, see `C33_partition_range_zero_violated`. -/
theorem C33_partition_range_partial (minSize : Nat) (xs : List α) (count : Nat) (hc : 0 < count) :
    ∃ parts, partitionRange minSize xs count = pure parts ∧ parts.length = count ∧
      parts.flatten = xs ∧
      ∀ k, k + 1 < count → ∃ p, parts[k]? = some p ∧
        p.length = min (max (xs.length / count) minSize) (xs.length - k * max (xs.length / count) minSize) := by
  unfold partitionRange
  rw [if_neg (by omega)]
  have hsz : (if xs.length / count < minSize then minSize else xs.length / count) =
      max (xs.length / count) minSize := by
    split <;> omega
  simp only [hsz]
  generalize max (xs.length / count) minSize = sz
  refine ⟨_, rfl, ?_, ?_, ?_⟩
  · rw [partitionLoop_eq]; simp; omega
  · rw [partitionLoop_eq, List.nil_append, flatten_parts]
  · intro k hk
    refine ⟨(xs.drop (k * sz)).take sz, ?_, by simp⟩
    rw [partitionLoop_eq, List.nil_append, List.getElem?_append_left (by simp; omega)]
    rw [List.getElem?_map, List.getElem?_range (by omega)]
    rfl

/-- **C33** finding: zero parts divides by zero. -/
theorem C33_partition_range_zero_violated (minSize : Nat) (xs : List α) :
    partitionRange minSize xs 0 = ub := by simp [partitionRange]

example : ∃ parts, partitionRange 1 [1, 2, 3, 4, 5] 3 = pure parts ∧ parts.flatten = [1, 2, 3, 4, 5] :=
  let ⟨p, h, _, h2, _⟩ := C33_partition_range_partial 1 [1, 2, 3, 4, 5] 3 (by decide)
  ⟨p, h, h2⟩

end Verif.Algorithm
