import Verif.Base
import Mathlib.Algebra.Order.Field.Rat
import Mathlib.Data.Rat.Floor
import Mathlib.Tactic.Linarith
import Mathlib.Tactic.Ring
import Mathlib.Tactic.FieldSimp
import Mathlib.Tactic.Positivity
import Mathlib.Tactic.NormNum
import Mathlib.Algebra.BigOperators.Group.List.Basic

/-
Times and their units: include/daw/daw_benchmark.h.  Simplified: `double` is replaced by the rational numbers, so that there
is no rounding but that of the output; the clock is left to the caller.
-/

namespace Verif.Util.Benchmark

/-! ## Units -/

/-- One `if( val < 1000 )` after the other with `val /= 1000.0` between, daw_benchmark.h 58-83 and 93-118: the number and the
unit printed. -/
def pick (val : ℚ) : List String → String → ℚ × String
  | [], last => (val, last)
  | u :: us, last => if val < 1000 then (val, u) else pick (val / 1000) us last

/-- `format_seconds`, daw_benchmark.h 53-85, before the number is printed. -/
def formatSeconds (t : ℚ) : ℚ × String := pick (t * 1000000000000000) ["fs", "ps", "ns", "us", "ms"] "s"

/-- `to_bytes_per_second`, daw_benchmark.h 87-120, before the number is printed; `val * 100.0 / 100` is `val`. -/
def toBytesPerSecond (bytes : Nat) (t : ℚ) : ℚ × String := pick (bytes / t) ["bytes", "KB", "MB", "GB", "TB"] "PB"

/-- `ss << std::setprecision( prec ) << std::fixed << val`, daw_benchmark.h 56 and 91, as a number of units of
`10 ^ -prec`.  Simplified: ties go up.  (Rule of C++ or its library, no line of the source.) -/
def printed (prec : Nat) (val : ℚ) : Int := ⌊val * 10 ^ prec + 1 / 2⌋

/-- How many of the smallest unit a unit is. (Specification, no line of the source.) -/
def weight : String → ℚ
  | "fs" => 1 / 1000000000000000
  | "ps" => 1 / 1000000000000
  | "ns" => 1 / 1000000000
  | "us" => 1 / 1000000
  | "ms" => 1 / 1000
  | "s" => 1
  | "bytes" => 1
  | "KB" => 1000
  | "MB" => 1000000
  | "GB" => 1000000000
  | "TB" => 1000000000000
  | "PB" => 1000000000000000
  | _ => 0

/-- C284, part: the number times the unit is the time, and for times from a femtosecond up to a thousand seconds the number,
before it is printed, is at least one and below a thousand. -/
theorem C284_seconds_partial (t : ℚ) :
    (formatSeconds t).1 * weight (formatSeconds t).2 = t ∧
    (1 / 1000000000000000 ≤ t → t < 1000 → 1 ≤ (formatSeconds t).1 ∧ (formatSeconds t).1 < 1000) := by
  simp only [formatSeconds, pick]
  split_ifs <;> refine ⟨by simp only [weight]; ring, fun h1 h2 => ⟨by linarith, by linarith⟩⟩

example : formatSeconds (1 / 80) = (25 / 2, "ms") := by
  simp only [formatSeconds, pick]
  norm_num

/-- C284, rates: the same for bytes, from one byte up to a thousand petabytes in the time. -/
theorem C284_bytes_partial (bytes : Nat) (t : ℚ) :
    (toBytesPerSecond bytes t).1 * weight (toBytesPerSecond bytes t).2 = bytes / t ∧
    (1 ≤ (bytes : ℚ) / t → (bytes : ℚ) / t < 1000000000000000000 →
      1 ≤ (toBytesPerSecond bytes t).1 ∧ (toBytesPerSecond bytes t).1 < 1000) := by
  simp only [toBytesPerSecond, pick]
  generalize (bytes : ℚ) / t = x
  split_ifs <;> refine ⟨by simp only [weight]; ring, fun h1 h2 => ⟨by linarith, by linarith⟩⟩

/-- C284 does not hold for what is printed: the unit is chosen before rounding, so that every time just below a unit is
printed as a thousand of the unit below it, with every precision. -/
theorem C284_printed_violated (prec : Nat) {t : ℚ} (h1 : (1000 - 1 / (2 * 10 ^ prec)) / 1000000000 ≤ t)
    (h2 : t < 1000 / 1000000000) : (formatSeconds t).2 = "ns" ∧ printed prec (formatSeconds t).1 = 1000 * 10 ^ prec := by
  have hp : (1 : ℚ) ≤ 10 ^ prec := one_le_pow₀ (by norm_num)
  have hq : 1 / (2 * 10 ^ prec : ℚ) ≤ 1 / 2 := by
    rw [div_le_div_iff₀ (by positivity) (by norm_num)]
    linarith
  have h3 : (1000 - 1 / (2 * 10 ^ prec) : ℚ) ≤ t * 1000000000 := by
    rw [div_le_iff₀ (by norm_num)] at h1
    exact h1
  have h4 : t * 1000000000 < 1000 := by
    rw [lt_div_iff₀ (by norm_num)] at h2
    exact h2
  have e : formatSeconds t = (t * 1000000000000000 / 1000 / 1000, "ns") := by
    simp only [formatSeconds, pick]
    rw [if_neg (by linarith), if_neg (by linarith), if_pos (by linarith)]
  rw [e]
  refine ⟨rfl, ?_⟩
  unfold printed
  rw [Int.floor_eq_iff]
  have e2 : t * 1000000000000000 / 1000 / 1000 = t * 1000000000 := by ring
  have h5 : (1000 - 1 / (2 * 10 ^ prec)) * 10 ^ prec ≤ t * 1000000000 * 10 ^ prec :=
    mul_le_mul_of_nonneg_right h3 (by positivity)
  have h6 : (1000 - 1 / (2 * 10 ^ prec) : ℚ) * 10 ^ prec = 1000 * 10 ^ prec - 1 / 2 := by
    field_simp
  have h7 : t * 1000000000 * 10 ^ prec < 1000 * 10 ^ prec := mul_lt_mul_of_pos_right h4 (by positivity)
  dsimp only
  rw [e2]
  push_cast
  constructor <;> linarith

example : printed 0 (formatSeconds (9997 / 10000000000)).1 = 1000 :=
  (C284_printed_violated 0 (by norm_num) (by norm_num)).2

/-- C284 does not hold for negative times, which occur because an estimate is taken off the times: all of them are printed
in femtoseconds. -/
theorem C284_negative_violated {t : ℚ} (h : t < 0) : formatSeconds t = (t * 1000000000000000, "fs") := by
  simp only [formatSeconds, pick]
  rw [if_pos (by linarith)]

example := C284_negative_violated (t := -3) (by norm_num)

/-! ## Runs -/

/-- The loop that looks for the smallest duration, daw_benchmark.h 221-241 and 259-261, from `m`. -/
def minLoop (m : ℚ) (ds : List ℚ) : ℚ := ds.foldl (fun m d => if d < m then d else m) m

/-- The loop that looks for the largest duration, daw_benchmark.h 262-264, from `m`. -/
def maxLoop (m : ℚ) (ds : List ℚ) : ℚ := ds.foldl (fun m d => if d > m then d else m) m

/-- The numbers printed by `bench_n_test`, daw_benchmark.h 300-304. -/
structure Stats where
  total : ℚ
  avg : ℚ
  min : ℚ
  max : ℚ

/-- `bench_n_test`, daw_benchmark.h 220-306, and `bench_n_test_mbs`, 381-465: `big` is `max_value<double>`, `base` are the
1000 durations of nothing, `ds` those of the `Runs` runs and `all` that of the whole loop. -/
def stats (big : ℚ) (base ds : List ℚ) (all : ℚ) : Stats :=
  let runs : ℚ := ds.length
  let b := minLoop big base
  let mn := minLoop big ds - b
  let mx := maxLoop 0 ds - b
  let total := all - runs * b
  let avg := if ds.length ≥ 10 then (total - mx) / (runs - 1) else if ds.length > 1 then total / runs else (total - mx) / 1
  ⟨total, avg - b, mn, mx⟩

/-- The outcomes of the test, a value or (`none`) an exception, in the order of the calls, and what `bench_n_test` returns,
daw_benchmark.h 246-281: the exceptions of the runs are dropped, the result is that of one more call. -/
def benchResult {α : Type} (runs : Nat) (test : Nat → Option α) : Nat × Option α :=
  let calls := (List.range runs).foldl (fun n _ => n + 1) 0
  (calls + 1, test calls)

theorem minLoop_le (ds : List ℚ) : ∀ m, minLoop m ds ≤ m ∧ (∀ d ∈ ds, minLoop m ds ≤ d) ∧ (minLoop m ds = m ∨ minLoop m ds ∈ ds) := by
  induction ds with
  | nil => intro m; exact ⟨le_refl _, by simp, .inl rfl⟩
  | cons x ds ih =>
    intro m
    have e : minLoop m (x :: ds) = minLoop (if x < m then x else m) ds := rfl
    rw [e]
    obtain ⟨h1, h2, h3⟩ := ih (if x < m then x else m)
    by_cases h : x < m
    · rw [if_pos h] at *
      refine ⟨by linarith, ?_, ?_⟩
      · intro d hd
        rcases List.mem_cons.1 hd with rfl | hd
        · exact h1
        · exact h2 d hd
      · rcases h3 with h3 | h3
        · right; rw [h3]; exact List.mem_cons_self
        · right; exact List.mem_cons_of_mem _ h3
    · rw [if_neg h] at *
      refine ⟨h1, ?_, ?_⟩
      · intro d hd
        rcases List.mem_cons.1 hd with rfl | hd
        · linarith
        · exact h2 d hd
      · rcases h3 with h3 | h3
        · left; exact h3
        · right; exact List.mem_cons_of_mem _ h3

theorem maxLoop_ge (ds : List ℚ) : ∀ m, m ≤ maxLoop m ds ∧ (∀ d ∈ ds, d ≤ maxLoop m ds) ∧ (maxLoop m ds = m ∨ maxLoop m ds ∈ ds) := by
  induction ds with
  | nil => intro m; exact ⟨le_refl _, by simp, .inl rfl⟩
  | cons x ds ih =>
    intro m
    have e : maxLoop m (x :: ds) = maxLoop (if x > m then x else m) ds := rfl
    rw [e]
    obtain ⟨h1, h2, h3⟩ := ih (if x > m then x else m)
    by_cases h : x > m
    · rw [if_pos h] at *
      refine ⟨by linarith, ?_, ?_⟩
      · intro d hd
        rcases List.mem_cons.1 hd with rfl | hd
        · exact h1
        · exact h2 d hd
      · rcases h3 with h3 | h3
        · right; rw [h3]; exact List.mem_cons_self
        · right; exact List.mem_cons_of_mem _ h3
    · rw [if_neg h] at *
      refine ⟨h1, ?_, ?_⟩
      · intro d hd
        rcases List.mem_cons.1 hd with rfl | hd
        · linarith
        · exact h2 d hd
      · rcases h3 with h3 | h3
        · left; exact h3
        · right; exact List.mem_cons_of_mem _ h3

/-- C285, part: the smallest and the largest time are those of a run, less the estimate for nothing, and no run is outside
them. -/
theorem C285_min_max_partial {big all : ℚ} {base ds : List ℚ} (hne : ds ≠ []) (h0 : ∀ d ∈ ds, 0 ≤ d) (hb : ∀ d ∈ ds, d < big) :
    (∃ d ∈ ds, (stats big base ds all).min = d - minLoop big base) ∧
    (∃ d ∈ ds, (stats big base ds all).max = d - minLoop big base) ∧
    (∀ d ∈ ds, (stats big base ds all).min ≤ d - minLoop big base ∧ d - minLoop big base ≤ (stats big base ds all).max) := by
  obtain ⟨_, a2, a3⟩ := minLoop_le ds big
  obtain ⟨b1, b2, b3⟩ := maxLoop_ge ds 0
  obtain ⟨x, xs, rfl⟩ := List.exists_cons_of_ne_nil hne
  refine ⟨?_, ?_, ?_⟩
  · rcases a3 with a3 | a3
    · have := a2 x List.mem_cons_self
      have := hb x List.mem_cons_self
      linarith
    · exact ⟨_, a3, rfl⟩
  · rcases b3 with b3 | b3
    · refine ⟨x, List.mem_cons_self, ?_⟩
      have h1 := b2 x List.mem_cons_self
      have h2 := h0 x List.mem_cons_self
      show maxLoop 0 (x :: xs) - _ = _
      have : maxLoop 0 (x :: xs) = x := by linarith
      rw [this]
    · exact ⟨_, b3, rfl⟩
  · intro d hd
    exact ⟨sub_le_sub_right (a2 d hd) _, sub_le_sub_right (b2 d hd) _⟩

example := C285_min_max_partial (big := 1000) (all := 27) (base := [3, 0, 5]) (ds := [7, 8, 12]) (by simp) (by norm_num) (by norm_num)

theorem minLoop_const (d : ℚ) (n : Nat) : ∀ m, d < m → minLoop m (List.replicate (n + 1) d) = d := by
  intro m h
  obtain ⟨_, _, h3⟩ := minLoop_le (List.replicate (n + 1) d) m
  have h2 := (minLoop_le (List.replicate (n + 1) d) m).2.1 d (by simp)
  rcases h3 with h3 | h3
  · linarith
  · exact (List.mem_replicate.1 h3).2

theorem maxLoop_const (d : ℚ) (n : Nat) (h0 : 0 ≤ d) : maxLoop 0 (List.replicate (n + 1) d) = d := by
  obtain ⟨_, h2, h3⟩ := maxLoop_ge (List.replicate (n + 1) d) 0
  have h2 := h2 d (by simp)
  rcases h3 with h3 | h3
  · linarith
  · exact (List.mem_replicate.1 h3).2

/-- C285 does not hold for the average: when all of the two or more runs take the same time and nothing else takes time, the
average printed is below the smallest time printed, because the estimate for nothing is taken off twice. -/
theorem C285_average_violated {big d : ℚ} {base : List ℚ} (n : Nat) (h0 : 0 ≤ d) (hb : d < big)
    (hpos : 0 < minLoop big base) :
    (stats big base (List.replicate (n + 2) d) ((n + 2) * d)).avg = d - 2 * minLoop big base ∧
    (stats big base (List.replicate (n + 2) d) ((n + 2) * d)).avg <
      (stats big base (List.replicate (n + 2) d) ((n + 2) * d)).min := by
  have hn : (0 : ℚ) ≤ n := Nat.cast_nonneg n
  have key : (stats big base (List.replicate (n + 2) d) ((n + 2) * d)).avg = d - 2 * minLoop big base := by
    simp only [stats, List.length_replicate]
    rw [show maxLoop 0 (List.replicate (n + 2) d) = d from maxLoop_const d (n + 1) h0]
    push_cast
    split_ifs with h1
    · have : (n : ℚ) + 2 - 1 ≠ 0 := by linarith
      field_simp
      ring
    · have : (n : ℚ) + 2 ≠ 0 := by linarith
      field_simp
      ring
    · omega
  refine ⟨key, ?_⟩
  rw [key]
  show _ < minLoop big (List.replicate (n + 2) d) - minLoop big base
  rw [show minLoop big (List.replicate (n + 2) d) = d from minLoop_const d (n + 1) big hb]
  linarith

example := C285_average_violated (big := 1000) (d := 7) (base := [3, 2, 5]) 3 (by norm_num) (by norm_num) (by simp only [minLoop, List.foldl]; norm_num)

/-- C285 does not hold for one run: the average has nothing to do with the time of the run, it is the time between the calls
of the clock less the estimate for nothing. -/
theorem C285_one_run_violated {big d all : ℚ} {base : List ℚ} (h0 : 0 ≤ d) :
    (stats big base [d] all).avg = all - d - minLoop big base := by
  simp only [stats, List.length_singleton]
  rw [show maxLoop 0 [d] = d from maxLoop_const d 0 h0]
  norm_num

example : minLoop 1000 [3, 2, 5] = 2 ∧ maxLoop 0 [3, 2, 5] = 5 := by
  simp only [minLoop, maxLoop, List.foldl]
  norm_num

theorem sum_bounds {lo hi : ℚ} (ds : List ℚ) (h : ∀ d ∈ ds, lo ≤ d ∧ d ≤ hi) :
    ds.length * lo ≤ ds.sum ∧ ds.sum ≤ ds.length * hi := by
  induction ds with
  | nil => simp
  | cons x ds ih =>
    obtain ⟨h1, h2⟩ := ih fun d hd => h d (List.mem_cons_of_mem _ hd)
    obtain ⟨h3, h4⟩ := h x List.mem_cons_self
    rw [List.sum_cons, List.length_cons]
    push_cast
    constructor <;> linarith

/-- C285, part: for two or more runs, when nothing takes no time and no time passes between the runs, the average is between
the smallest and the largest time. -/
theorem C285_average_partial {big : ℚ} {base ds : List ℚ} (hz : minLoop big base = 0)
    (h0 : ∀ d ∈ ds, 0 ≤ d) (h1 : 1 < ds.length) :
    (stats big base ds ds.sum).min ≤ (stats big base ds ds.sum).avg ∧
    (stats big base ds ds.sum).avg ≤ (stats big base ds ds.sum).max := by
  have hn : (0 : ℚ) < ds.length := by exact_mod_cast (by omega : 0 < ds.length)
  have hn1 : (0 : ℚ) < ds.length - 1 := by
    have : (1 : ℚ) < ds.length := by exact_mod_cast h1
    linarith
  have hall : ∀ d ∈ ds, minLoop big ds ≤ d ∧ d ≤ maxLoop 0 ds :=
    fun d hd => ⟨(minLoop_le ds big).2.1 d hd, (maxLoop_ge ds 0).2.1 d hd⟩
  simp only [stats, hz]
  by_cases h10 : ds.length ≥ 10
  · rw [if_pos h10]
    simp only [mul_zero, sub_zero]
    have hmem : maxLoop 0 ds ∈ ds := by
      rcases (maxLoop_ge ds 0).2.2 with h | h
      · obtain ⟨x, xs, rfl⟩ := List.exists_cons_of_ne_nil (l := ds) (by intro h; simp [h] at h1)
        have := (hall x List.mem_cons_self).2
        have := h0 x List.mem_cons_self
        have : maxLoop 0 (x :: xs) = x := by linarith
        rw [this]
        exact List.mem_cons_self
      · exact h
    have hs : maxLoop 0 ds + (ds.erase (maxLoop 0 ds)).sum = ds.sum := by
      rw [← List.sum_cons]
      exact (List.perm_cons_erase hmem).symm.sum_eq
    have hl : ((ds.erase (maxLoop 0 ds)).length : ℚ) = ds.length - 1 := by
      rw [List.length_erase_of_mem hmem, Nat.cast_sub (by omega)]
      norm_num
    obtain ⟨s1, s2⟩ := sum_bounds (ds.erase (maxLoop 0 ds)) fun d hd => hall d (List.mem_of_mem_erase hd)
    rw [hl] at s1 s2
    constructor
    · rw [le_div_iff₀ hn1]; linarith
    · rw [div_le_iff₀ hn1]; linarith
  · obtain ⟨s1, s2⟩ := sum_bounds ds hall
    rw [if_neg h10, if_pos (by omega)]
    simp only [mul_zero, sub_zero]
    constructor
    · rw [le_div_iff₀ hn]; linarith
    · rw [div_le_iff₀ hn]; linarith

example : minLoop 1000 [3, 0, 5] = 0 ∧ (∀ d ∈ [(7 : ℚ), 8, 12], 0 ≤ d) ∧ 1 < [(7 : ℚ), 8, 12].length := by
  simp only [minLoop, List.foldl]
  norm_num

/-- C285, calls: the test is called once more than it is timed, and the result is that of the last call, also if earlier
calls threw. -/
theorem C285_calls {α : Type} (runs : Nat) (test : Nat → Option α) : benchResult runs test = (runs + 1, test runs) := by
  have : ∀ (l : List Nat) (k : Nat), l.foldl (fun n _ => n + 1) k = k + l.length := by
    intro l
    induction l with
    | nil => intro k; rfl
    | cons x l ih => intro k; rw [List.foldl_cons, ih, List.length_cons]; omega
  simp only [benchResult, this, List.length_range, Nat.zero_add]

end Verif.Util.Benchmark
