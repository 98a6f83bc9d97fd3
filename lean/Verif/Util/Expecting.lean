import Verif.Bits.CxCmp
import Verif.Base

/-
The checks of a test program, include/daw/daw_benchmark.h 626-710, and the runs that are timed and checked, 490-596 and 320-378.
-/

namespace Verif.Util.Expecting
open Verif Verif.Bits

/-! ## Checks -/

/-- How a check ends: it comes back, `expected_failure` is thrown, another exception leaves it, or the program ends.
(daw_benchmark.h 33-35, 637-641, 649-653 and 689-709.) -/
inductive Res (ε : Type) where
  | returns
  | failure
  | escapes (e : ε)
  | terminated
  deriving DecidableEq

/-- An argument of `expecting`: an integer of a type, or an array (for instance a literal) at an address.
(Rule of C++ or its library, no line of the source.) -/
inductive Arg where
  | int (t : IntTy) (x : Int)
  | array (addr : Nat) (text : List Nat)

/-- `cmp_equal` as `expecting` calls it, daw_cxmath.h 1400-1414: the arguments are passed by value, so that an array is passed as a
pointer.  `none` where it does not compile. -/
def cmpEqual : Arg → Arg → Option Bool
  | .int t x, .int u y => some (CxCmp.equal t u x y)
  | .array a _, .array b _ => some (a == b)
  | _, _ => none

/-- A check that does not hold, daw_benchmark.h 637-641 and 649-653: with and without exceptions. -/
def fails (exc : Bool) : Res ε := if exc then .failure else .terminated

/-- `expecting( expected_result, result )`, daw_benchmark.h 626-643. -/
def expecting (exc : Bool) (a b : Arg) : Option (Res ε) := (cmpEqual a b).map (fun r => if r then .returns else fails exc)

/-- `expecting( value )` of an integer, daw_benchmark.h 645-655. -/
def expectingTrue (exc : Bool) (x : Int) : Res ε := if x ≠ 0 then .returns else fails exc

/-- `expecting_exception<Exception>( expression, pred )`, daw_benchmark.h 682-710: `isA` tells which exceptions the handler of line 695
catches; the predicate may throw.  Without exceptions only lines 692 and 693 are compiled. -/
def expectingException (exc : Bool) (isA : ε → Bool) (pred : ε → Except ε Bool) (expression : Except ε Unit) : Res ε :=
  if exc then
    match expression with
    | .ok _ => .failure
    | .error e =>
      if isA e then
        match pred e with
        | .ok true => .returns
        | .ok false => .failure
        | .error e' => .escapes e'
      else .escapes e
  else
    match expression with
    | .ok _ => .returns
    | .error _ => .terminated

/-- C352, as far as it holds: `expecting` of two integers of any types comes back exactly if they are the same number, and
`expecting` of one exactly if it is not zero.  Missing: arrays, see `C352_arrays_violated`. -/
theorem C352_integers_partial (exc : Bool) (t u : IntTy) (x y : Int) (hx : t.Has x) (hy : u.Has y) :
    (expecting exc (.int t x) (.int u y) = some (.returns : Res ε) ↔ x = y) ∧
    (x ≠ y → expecting exc (.int t x) (.int u y) = some (if exc then .failure else .terminated : Res ε)) ∧
    (expectingTrue exc x = (.returns : Res ε) ↔ x ≠ 0) := by
  have h := CxCmp.C291_equal t u x y hx hy
  refine ⟨?_, fun hne => ?_, ?_⟩
  · simp only [expecting, cmpEqual, h, Option.map_some]
    by_cases he : x = y
    · simp [he]
    · cases exc <;> simp [he, fails]
  · simp only [expecting, cmpEqual, h, Option.map_some]
    simp [hne, fails]
  · unfold expectingTrue
    by_cases h0 : x = 0
    · cases exc <;> simp [h0, fails]
    · simp [h0]

example : IntTy.int.Has (-1) ∧ IntTy.int.unsigned.Has 4294967295 := by decide

/-- C352 does not hold for arrays, for instance literals: equal texts at two places fail, whatever they are, and the content of one
array does not matter. -/
theorem C352_arrays_violated (a b : Nat) (h : a ≠ b) (s t : List Nat) :
    expecting true (.array a s) (.array b s) = some (.failure : Res ε) ∧
    expecting true (.array a s) (.array a t) = some (.returns : Res ε) := by
  simp [expecting, cmpEqual, h, fails]

/-- C352, `expecting_exception`, as far as it holds: with exceptions it comes back exactly if the expression throws an exception of
the type for which the predicate gives true, it fails exactly if nothing is thrown or the predicate gives false, and an exception
of another type leaves it.  Missing: programs without exceptions, see `C352_no_exceptions_violated`. -/
theorem C352_exception_partial (isA : ε → Bool) (pred : ε → Except ε Bool) (expression : Except ε Unit) :
    (expectingException true isA pred expression = .returns ↔ ∃ e, expression = .error e ∧ isA e = true ∧ pred e = .ok true) ∧
    (expectingException true isA pred expression = .failure ↔
      expression = .ok () ∨ ∃ e, expression = .error e ∧ isA e = true ∧ pred e = .ok false) ∧
    (∀ e, expression = .error e → isA e = false → expectingException true isA pred expression = .escapes e) ∧
    expectingException true isA pred expression ≠ .terminated := by
  unfold expectingException
  cases expression with
  | ok u => cases u; simp
  | error e =>
    by_cases h : isA e = true
    · rcases hp : pred e with e' | b
      · simp [h, hp]
      · cases b <;> simp [h, hp]
    · simp [h]

example : expectingException true (fun e : Nat => e < 10) (fun e => .ok (e == 3)) (.error 3) = .returns := rfl

/-- C352 does not hold in a program without exceptions: an expression that throws nothing passes, whatever was expected, and one
that would throw ends the program, also with the exception expected. -/
theorem C352_no_exceptions_violated (isA : ε → Bool) (pred : ε → Except ε Bool) :
    expectingException false isA pred (.ok ()) = .returns ∧ ∀ e, expectingException false isA pred (.error e) = .terminated :=
  ⟨rfl, fun _ => rfl⟩

/-! ## Timed runs -/

/-- The smallest duration of the runs of nothing, daw_benchmark.h 497-517 and 553-573: in nanoseconds, from `max_value<long long>`. -/
def baseTime (ds : List Int) : Int := ds.foldl (fun m d => if d < m then d else m) (2 ^ 63 - 1)

/-- How a timed function ends: with the durations, with `expected_failure` of the check, or with the exception of a run; and the
number of calls. (daw_benchmark.h 354-377, 520-531 and 577-595.) -/
inductive Timed where
  | results (rs : List Int)
  | invalid (calls : Nat)
  | thrown (calls : Nat)
  deriving DecidableEq

/-- The loop of `bench_n_test_json_val`, daw_benchmark.h 577-594, and of the others, 520-530 and 354-376, from run `n` on with `todo` to go: run `k` gives `call k`, nothing if it
throws, and takes `dur k`. -/
def valLoop (valid : β → Bool) (call : Nat → Option β) (dur : Nat → Int) (base : Int) : Nat → Nat → List Int → Timed
  | _, 0, rs => .results rs
  | n, todo + 1, rs =>
    match call n with
    | none => .thrown (n + 1)
    | some r => if valid r then valLoop valid call dur base (n + 1) todo (rs ++ [dur n - base]) else .invalid (n + 1)

/-- `bench_n_test_json_val`, daw_benchmark.h 542-596; `bench_n_test_json`, 490-532, is the one with a check that always holds. -/
def jsonVal (runs : Nat) (valid : β → Bool) (call : Nat → Option β) (dur : Nat → Int) (nothing : List Int) : Timed :=
  valLoop valid call dur (baseTime nothing) 0 runs []

/-- `bench_n_test_mbs2`, daw_benchmark.h 320-378: the smallest duration of nothing is computed, and not used. -/
def mbs2 (runs : Nat) (valid : β → Bool) (call : Nat → Option β) (dur : Nat → Int) : Timed :=
  valLoop valid call dur 0 0 runs []

theorem valLoop_all (valid : β → Bool) (call : Nat → Option β) (dur : Nat → Int) (base : Int) (todo : Nat) : ∀ n rs,
    (∀ k, n ≤ k → k < n + todo → ∃ r, call k = some r ∧ valid r = true) →
    valLoop valid call dur base n todo rs = .results (rs ++ (List.range' n todo).map (fun k => dur k - base)) := by
  induction todo with
  | zero => intro n rs _; simp [valLoop]
  | succ todo ih =>
    intro n rs h
    obtain ⟨r, h1, h2⟩ := h n (Nat.le_refl _) (by omega)
    simp only [valLoop, h1, h2, if_true]
    rw [ih (n + 1) _ (fun k a b => h k (by omega) (by omega)), List.range'_succ]
    simp

theorem valLoop_bad (valid : β → Bool) (call : Nat → Option β) (dur : Nat → Int) (base : Int) (bad : Nat) (todo : Nat) : ∀ n rs,
    n ≤ bad → bad < n + todo → (∀ k, n ≤ k → k < bad → ∃ r, call k = some r ∧ valid r = true) →
    (call bad = none → valLoop valid call dur base n todo rs = .thrown (bad + 1)) ∧
    (∀ r, call bad = some r → valid r = false → valLoop valid call dur base n todo rs = .invalid (bad + 1)) := by
  induction todo with
  | zero => intro n rs h1 h2; omega
  | succ todo ih =>
    intro n rs h1 h2 h
    by_cases hn : n = bad
    · subst hn
      exact ⟨fun hc => by simp [valLoop, hc], fun r hc hv => by simp [valLoop, hc, hv]⟩
    · obtain ⟨r, hc, hv⟩ := h n (Nat.le_refl _) (by omega)
      simp only [valLoop, hc, hv, if_true]
      exact ih (n + 1) _ (by omega) (by omega) (fun k a b => h k (by omega) b)

/-- C353, the check: if every run gives a valid result there is one duration for each run, in order; otherwise the first run that
throws or is not valid is the last one, and it is reported as what it is. -/
theorem C353_checked (runs : Nat) (valid : β → Bool) (call : Nat → Option β) (dur : Nat → Int) (nothing : List Int) :
    ((∀ k, k < runs → ∃ r, call k = some r ∧ valid r = true) →
      (∃ ds, jsonVal runs valid call dur nothing = .results ds ∧ ds.length = runs) ∧
      mbs2 runs valid call dur = .results ((List.range runs).map dur)) ∧
    ∀ bad, bad < runs → (∀ k, k < bad → ∃ r, call k = some r ∧ valid r = true) →
      (call bad = none → jsonVal runs valid call dur nothing = .thrown (bad + 1) ∧ mbs2 runs valid call dur = .thrown (bad + 1)) ∧
      ∀ r, call bad = some r → valid r = false →
        jsonVal runs valid call dur nothing = .invalid (bad + 1) ∧ mbs2 runs valid call dur = .invalid (bad + 1) := by
  constructor
  · intro h
    have h' : ∀ k, 0 ≤ k → k < 0 + runs → ∃ r, call k = some r ∧ valid r = true := fun k _ hk => h k (by omega)
    refine ⟨⟨_, valLoop_all valid call dur _ runs 0 [] h', by simp⟩, ?_⟩
    unfold mbs2
    rw [valLoop_all valid call dur 0 runs 0 [] h', List.range_eq_range']
    simp
  · intro bad hb h
    have a := valLoop_bad valid call dur (baseTime nothing) bad runs 0 [] (by omega) (by omega) (fun k _ hk => h k hk)
    have b := valLoop_bad valid call dur 0 bad runs 0 [] (by omega) (by omega) (fun k _ hk => h k hk)
    exact ⟨fun hc => ⟨a.1 hc, b.1 hc⟩, fun r hc hv => ⟨a.2 r hc hv, b.2 r hc hv⟩⟩

theorem baseTime_spec (ds : List Int) (h : ∀ d ∈ ds, d ≤ 2 ^ 63 - 1) (hne : ds ≠ []) :
    baseTime ds ∈ ds ∧ ∀ d ∈ ds, baseTime ds ≤ d := by
  have key : ∀ (ds : List Int) (m : Int),
      let r := ds.foldl (fun m d => if d < m then d else m) m
      r ≤ m ∧ (∀ d ∈ ds, r ≤ d) ∧ (r = m ∨ r ∈ ds) := by
    intro ds
    induction ds with
    | nil => intro m; simp
    | cons x ds ih =>
      intro m
      obtain ⟨h1, h2, h3⟩ := ih (if x < m then x else m)
      simp only [List.foldl_cons]
      by_cases hx : x < m
      · simp only [hx, if_true] at h1 h2 h3 ⊢
        refine ⟨by omega, ?_, ?_⟩
        · intro d hd
          rcases List.mem_cons.1 hd with rfl | hd
          · exact h1
          · exact h2 d hd
        · rcases h3 with h3 | h3
          · right; rw [h3]; exact List.mem_cons_self
          · right; exact List.mem_cons_of_mem _ h3
      · simp only [hx, if_false] at h1 h2 h3 ⊢
        refine ⟨h1, ?_, ?_⟩
        · intro d hd
          rcases List.mem_cons.1 hd with rfl | hd
          · omega
          · exact h2 d hd
        · rcases h3 with h3 | h3
          · left; exact h3
          · right; exact List.mem_cons_of_mem _ h3
  obtain ⟨h1, h2, h3⟩ := key ds (2 ^ 63 - 1)
  refine ⟨?_, h2⟩
  rcases h3 with h3 | h3
  · cases ds with
    | nil => exact absurd rfl hne
    | cons x ds =>
      have hx := h x List.mem_cons_self
      have hx' := h2 x List.mem_cons_self
      have : x = baseTime (x :: ds) := by
        unfold baseTime
        omega
      rw [← this]
      exact List.mem_cons_self
  · exact h3

/-- C353, as far as it holds: where no run is quicker than the quickest run of nothing, the durations are those of the runs less that
one, none of them negative. -/
theorem C353_durations_partial (runs : Nat) (valid : β → Bool) (call : Nat → Option β) (dur : Nat → Int) (nothing : List Int)
    (hn : nothing ≠ []) (hmax : ∀ d ∈ nothing, d ≤ 2 ^ 63 - 1) (h : ∀ k, k < runs → ∃ r, call k = some r ∧ valid r = true) (quickest : Int)
    (hq : quickest ∈ nothing) (hq' : ∀ d ∈ nothing, quickest ≤ d) :
    jsonVal runs valid call dur nothing = .results ((List.range runs).map (fun k => dur k - quickest)) ∧
    ((∀ k, k < runs → quickest ≤ dur k) → ∀ d ∈ (List.range runs).map (fun k => dur k - quickest), 0 ≤ d) := by
  obtain ⟨h1, h2⟩ := baseTime_spec nothing hmax hn
  have hb : baseTime nothing = quickest := Int.le_antisymm (h2 _ hq) (hq' _ h1)
  refine ⟨?_, ?_⟩
  · unfold jsonVal
    rw [hb, valLoop_all valid call dur quickest runs 0 [] (fun k _ hk => h k (by omega)), List.range_eq_range']
    simp
  · intro hd d hm
    simp only [List.mem_map, List.mem_range] at hm
    obtain ⟨k, hk, rfl⟩ := hm
    have := hd k hk
    omega

example : (∀ k, k < 3 → ∃ r, (fun k : Nat => some (k + 1)) k = some r ∧ decide (0 < r) = true) ∧
    jsonVal 3 (fun r => decide (0 < r)) (fun k => some (k + 1)) (fun k => 50 + (k : Int)) [20, 7, 9] = .results [43, 44, 45] := by
  refine ⟨fun k _ => ⟨k + 1, rfl, by simp⟩, by decide⟩

/-- C353 does not hold for a run quicker than every run of nothing: its duration is negative. -/
theorem C353_negative_violated (valid : β → Bool) (call : Nat → Option β) (dur : Nat → Int) (nothing : List Int) (r : β)
    (hc : call 0 = some r) (hv : valid r = true) (hd : ∀ d ∈ nothing, dur 0 < d) (h0 : dur 0 < 2 ^ 63 - 1) :
    ∃ d, jsonVal 1 valid call dur nothing = .results [d] ∧ d < 0 := by
  refine ⟨dur 0 - baseTime nothing, by simp [jsonVal, valLoop, hc, hv], ?_⟩
  have : ∀ (ds : List Int) (m : Int), dur 0 < m → (∀ d ∈ ds, dur 0 < d) → dur 0 < ds.foldl (fun m d => if d < m then d else m) m := by
    intro ds
    induction ds with
    | nil => intro m hm _; exact hm
    | cons x ds ih =>
      intro m hm h
      have hx := h x List.mem_cons_self
      rw [List.foldl_cons]
      refine ih _ ?_ (fun d hd => h d (List.mem_cons_of_mem _ hd))
      split <;> omega
  have := this nothing (2 ^ 63 - 1) h0 hd
  unfold baseTime
  omega

example : ∀ d ∈ [(30 : Int), 28, 31], (fun _ : Nat => (25 : Int)) 0 < d := by decide

end Verif.Util.Expecting
