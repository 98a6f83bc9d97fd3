import Verif.Parse.Helper
import Verif.Parse.Format

/-
daw_parser_addons.h: numbers and quoted strings.  Characters are the values that a conversion to `uint32_t` gives; 45 is '-', 46 is '.',
34 is '"' and 92 is '\'.
-/

namespace Verif.Parse.Addons
open Cxx Verif.Parse

/-- `is_number`, daw_parser_helper.h 298-301, with `in_range`, 289-296. -/
def isNumber (c : Nat) : Bool := decide (48 ≤ c) && decide (c ≤ 57)

/-- `is_first` of `find_number`, daw_parser_addons.h 23-25. -/
def isFirst (c : Nat) : Bool := decide (45 = c) || isNumber c

/-- The loop of `until` with `is_last` of `find_number`, daw_parser_addons.h 27-36 and daw_parser_helper.h 106-111: `dec` is
`has_decimal`. -/
def numScan (m : List Nat) (last it : Nat) (dec : Bool) : Cxx (Option Nat) :=
  if it = last then pure none
  else if h : it < m.length then
    if m[it] = 46 then
      if dec then pure (some it)
      else if isNumber m[it] then pure (some it) else numScan m last (it + 1) true
    else if isNumber m[it] then pure (some it) else numScan m last (it + 1) dec
  else ub
termination_by m.length - it

/-- `find_number`, daw_parser_addons.h 21-40, with `from_to_pred`, daw_parser_helper.h 363-382.  An iterator cannot go behind the end of
the range. -/
def findNumber (m : List Nat) (first last : Nat) : Cxx Res := do
  let start ← untilP m isFirst first last
  if start.found = false then thrown
  else
    let finish ← numScan m last start.last false
    let fin := finish.getD last
    if fin = last then ub else pure ⟨start.last, fin + 1, decide (start.last ≠ fin)⟩

/-- Arithmetic of a signed type with values below `M` that is not promoted. (Rule of C++ or its library, no line of the source.) -/
def arithS (M : Nat) (v : Int) : Cxx Int := if -(M : Int) ≤ v ∧ v < M then pure v else ub

/-- `from_num_char`, daw_parser_addons.h 42-47, for a signed type with values below `M`, which is 2^31 or 2^63. -/
def fromNumCharS (M c : Nat) : Int :=
  let r := (c + 2 ^ 32 - 48) % 2 ^ 32
  if r < M then r else (r : Int) - 2 ^ 32

/-- The loop of `parse_unsigned_int` and the check after it, daw_parser_addons.h 59-66, for a signed type. -/
def intLoop (M count : Nat) : List Nat → Int → Cxx Int
  | [], r => pure r
  | c :: cs, r =>
    if count = 0 then thrown
    else do
      let r ← arithS M (r * 10)
      let r ← arithS M (r + fromNumCharS M c)
      intLoop M (count - 1) cs r

/-- `parse_unsigned_int`, daw_parser_addons.h 49-75, for a signed type: `k` is `digits10`; the first character is read in any case. -/
def parseUnsignedS (M k : Nat) (s : List Nat) : Cxx Int := do
  let c ← rd s 0
  if c = 45 then thrown else intLoop M k s 0

/-- `parse_int`, daw_parser_addons.h 89-112, for a signed type. -/
def parseInt (M k : Nat) (s : List Nat) : Cxx Int := do
  let c ← rd s 0
  if c = 45 then do
    let r ← parseUnsignedS M k (s.drop 1)
    arithS M (r * -1)
  else parseUnsignedS M k s

/-- `is_unicode_whitespace`, daw_parser_helper.h 434-466. -/
def isWs (c : Nat) : Bool :=
  [0x9, 0xA, 0xB, 0xC, 0xD, 0x20, 0x85, 0xA0, 0x1680, 0x2000, 0x2001, 0x2002, 0x2003, 0x2004, 0x2005, 0x2006, 0x2007, 0x2008, 0x2009,
    0x200A, 0x2028, 0x2029, 0x202F, 0x205F, 0x3000].contains c

/-- The loop of `parse_string_literal`, daw_parser_addons.h 127-133: where it ends, and `found`. -/
def litLoop (q : Nat) (m : List Nat) (last it lastIt : Nat) (found : Bool) : Cxx (Nat × Bool) :=
  if it = last then pure (it, found)
  else if h : it < m.length then
    if m[it] = q then do
      let p ← rd m lastIt
      if p ≠ 92 then pure (it, true) else litLoop q m last (it + 1) it true
    else litLoop q m last (it + 1) it false
  else ub
termination_by m.length - it

/-- `parse_string_literal`, daw_parser_addons.h 114-140, with `is_quote`, daw_parser_helper.h 473-476. -/
def parseLiteral (m : List Nat) (first last : Nat) : Cxx Res := do
  let result ← trimLeft isWs m first last
  let quote ← rd m first
  if quote ≠ 34 then thrown
  else do
    let (it, found) ← litLoop quote m last (result.first + 1) result.first false
    if found = false then thrown else pure ⟨result.first + 1, it, true⟩

/-! ### Finding numbers -/

theorem isFirst_iff (c : Nat) : isFirst c = true ↔ c = 45 ∨ (48 ≤ c ∧ c ≤ 57) := by
  unfold isFirst isNumber
  simp
  omega

theorem isNumber_iff (c : Nat) : isNumber c = true ↔ 48 ≤ c ∧ c ≤ 57 := by
  unfold isNumber
  simp

/-- The first character of a number is found. -/
theorem untilFirst (pre : List Nat) (c : Nat) (rest : List Nat) (hp : ∀ d ∈ pre, isFirst d = false) (hc : isFirst c = true) :
    untilP (pre ++ c :: rest) isFirst 0 (pre ++ c :: rest).length = pure ⟨0, pre.length, true⟩ := by
  obtain ⟨r, e, hr⟩ := C63_until (pre ++ c :: rest) isFirst 0 (pre ++ c :: rest).length (Nat.zero_le _) (Nat.le_refl _)
  have hf : FirstAt (fun c => isFirst c = true) (pre ++ c :: rest) 0 (pre ++ c :: rest).length pre.length := by
    refine ⟨Nat.zero_le _, by simp, ?_, fun _ => ⟨c, by simp, hc⟩⟩
    intro k d _ hk hd
    rw [List.getElem?_append_left hk] at hd
    show ¬isFirst d = true
    rw [hp d (List.mem_of_getElem? hd)]
    decide
  have := firstAt_unique hr hf
  subst this
  rw [e]
  simp

theorem getElem_mid (pre : List Nat) (c : Nat) (rest : List Nat) (h : pre.length < (pre ++ c :: rest).length) :
    (pre ++ c :: rest)[pre.length] = c := by simp

/-- C234, violated: of any number that begins with a digit `find_number` finds the first digit only, and says that it found nothing. -/
theorem C234_digit_violated (pre : List Nat) (d : Nat) (rest : List Nat) (hp : ∀ c ∈ pre, c ≠ 45 ∧ ¬(48 ≤ c ∧ c ≤ 57))
    (hd : 48 ≤ d ∧ d ≤ 57) :
    findNumber (pre ++ d :: rest) 0 (pre ++ d :: rest).length = pure ⟨pre.length, pre.length + 1, false⟩ := by
  have h1 := untilFirst pre d rest
    (by
      intro c hc
      have := hp c hc
      cases h : isFirst c with
      | false => rfl
      | true => have := (isFirst_iff c).mp h; omega)
    ((isFirst_iff d).mpr (.inr hd))
  have hlt : pre.length < (pre ++ d :: rest).length := by simp
  have h2 : numScan (pre ++ d :: rest) (pre ++ d :: rest).length pre.length false = pure (some pre.length) := by
    rw [numScan, if_neg (by omega), dif_pos hlt, getElem_mid, if_neg (by omega), if_pos ((isNumber_iff d).mpr hd)]
  unfold findNumber
  rw [h1]
  simp only [pure_bind]
  rw [if_neg (by decide), h2]
  simp only [pure_bind, Option.getD_some]
  rw [if_neg (by omega)]
  simp

example : findNumber [97, 49, 50, 51, 98] 0 5 = pure ⟨1, 2, false⟩ :=
  C234_digit_violated [97] 49 [50, 51, 98] (by simp) (by decide)

/-- How far a negative number goes: to the first digit, or to the second point. -/
theorem numScan_skip (pre : List Nat) : ∀ (mid : List Nat) (p : List Nat) (d : Nat) (rest : List Nat) (b : Bool),
    (∀ c ∈ mid, c ≠ 46 ∧ ¬(48 ≤ c ∧ c ≤ 57)) → 48 ≤ d ∧ d ≤ 57 → p = pre ++ mid ++ d :: rest →
    numScan p p.length pre.length b = pure (some (pre.length + mid.length)) := by
  intro mid
  induction mid generalizing pre with
  | nil =>
    intro p d rest b _ hd e
    subst e
    have hlt : pre.length < (pre ++ [] ++ d :: rest).length := by simp
    rw [numScan, if_neg (by omega), dif_pos hlt]
    have : (pre ++ [] ++ d :: rest)[pre.length] = d := by simp
    rw [this, if_neg (by omega), if_pos ((isNumber_iff d).mpr hd)]
    rfl
  | cons c mid ih =>
    intro p d rest b hm hd e
    have hc := hm c List.mem_cons_self
    have hlt : pre.length < p.length := by rw [e]; simp
    have hg : p[pre.length] = c := by simp [e]
    rw [numScan, if_neg (by omega), dif_pos hlt, hg, if_neg hc.1,
      if_neg (by intro h; exact hc.2 ((isNumber_iff c).mp h))]
    have := ih (pre ++ [c]) p d rest b (fun x hx => hm x (List.mem_cons_of_mem _ hx)) hd (by simp [e])
    rw [List.length_append] at this
    simp only [List.length_cons, List.length_nil] at this
    rw [show pre.length + (0 + 1) = pre.length + 1 by omega] at this
    rw [this]
    congr 2
    simp
    omega

/-- C234, for a minus followed by exactly one digit: the two characters are found, if nothing before them looks like a number.  Missing:
all other numbers, see the theorems beside this one. -/
theorem C234_negative_partial (pre : List Nat) (d : Nat) (rest : List Nat) (hp : ∀ c ∈ pre, c ≠ 45 ∧ ¬(48 ≤ c ∧ c ≤ 57))
    (hd : 48 ≤ d ∧ d ≤ 57) :
    findNumber (pre ++ 45 :: d :: rest) 0 (pre ++ 45 :: d :: rest).length = pure ⟨pre.length, pre.length + 2, true⟩ := by
  have h1 := untilFirst pre 45 (d :: rest)
    (by
      intro c hc
      have := hp c hc
      cases h : isFirst c with
      | false => rfl
      | true => have := (isFirst_iff c).mp h; omega)
    ((isFirst_iff 45).mpr (.inl rfl))
  have h2 := numScan_skip pre [45] (pre ++ 45 :: d :: rest) d rest false (by simp) hd (by simp)
  unfold findNumber
  rw [h1]
  simp only [pure_bind]
  rw [if_neg (by decide), h2]
  simp only [pure_bind, Option.getD_some, List.length_cons, List.length_nil, List.length_append]
  rw [if_neg (by omega)]
  congr 2
  simp

example : findNumber [97, 45, 55, 98] 0 4 = pure ⟨1, 3, true⟩ := C234_negative_partial [97] 55 [98] (by simp) (by decide)

/-- C234, violated: a minus and whatever is between it and the next digit counts as a number, and further digits do not. -/
theorem C234_minus_violated (pre mid : List Nat) (d : Nat) (rest : List Nat) (hp : ∀ c ∈ pre, c ≠ 45 ∧ ¬(48 ≤ c ∧ c ≤ 57))
    (hm : ∀ c ∈ mid, c ≠ 46 ∧ ¬(48 ≤ c ∧ c ≤ 57)) (hd : 48 ≤ d ∧ d ≤ 57) :
    findNumber (pre ++ 45 :: (mid ++ d :: rest)) 0 (pre ++ 45 :: (mid ++ d :: rest)).length =
      pure ⟨pre.length, pre.length + 2 + mid.length, true⟩ := by
  have h1 := untilFirst pre 45 (mid ++ d :: rest)
    (by
      intro c hc
      have := hp c hc
      cases h : isFirst c with
      | false => rfl
      | true => have := (isFirst_iff c).mp h; omega)
    ((isFirst_iff 45).mpr (.inl rfl))
  have h2 := numScan_skip pre (45 :: mid) (pre ++ 45 :: (mid ++ d :: rest)) d rest false
    (by
      intro c hc
      rcases List.mem_cons.mp hc with rfl | hc
      · decide
      · exact hm c hc) hd (by simp)
  unfold findNumber
  rw [h1]
  simp only [pure_bind]
  rw [if_neg (by decide), h2]
  simp only [pure_bind, Option.getD_some, List.length_cons, List.length_append]
  rw [if_neg (by omega)]
  congr 2
  · omega
  · simp

/-- "-x12" -/
example : findNumber [45, 120, 49, 50] 0 4 = pure ⟨0, 3, true⟩ := C234_minus_violated [] [120] 49 [50] (by simp) (by simp) (by decide)

theorem numScan_none : ∀ (n it : Nat) (m : List Nat) (b : Bool), it + n = m.length →
    (∀ (k c : Nat), it ≤ k → m[k]? = some c → c ≠ 46 ∧ ¬(48 ≤ c ∧ c ≤ 57)) → numScan m m.length it b = pure none := by
  intro n
  induction n with
  | zero => intro it m b h _; rw [numScan, if_pos (by omega)]
  | succ n ih =>
    intro it m b h hm
    have hlt : it < m.length := by omega
    have hc := hm it m[it] (Nat.le_refl _) (List.getElem?_eq_getElem hlt)
    rw [numScan, if_neg (by omega), dif_pos hlt, if_neg hc.1, if_neg (by intro h; exact hc.2 ((isNumber_iff _).mp h))]
    exact ih (it + 1) m b (by omega) (fun k c hk => hm k c (by omega))

/-- C234, violated: a minus with no digit (and no point) behind it makes the result go behind the end of the text. -/
theorem C234_end_violated (pre rest : List Nat) (hp : ∀ c ∈ pre, c ≠ 45 ∧ ¬(48 ≤ c ∧ c ≤ 57))
    (hr : ∀ c ∈ rest, c ≠ 46 ∧ ¬(48 ≤ c ∧ c ≤ 57)) :
    findNumber (pre ++ 45 :: rest) 0 (pre ++ 45 :: rest).length = ub := by
  have h1 := untilFirst pre 45 rest
    (by
      intro c hc
      have := hp c hc
      cases h : isFirst c with
      | false => rfl
      | true => have := (isFirst_iff c).mp h; omega)
    ((isFirst_iff 45).mpr (.inl rfl))
  have h2 := numScan_none (rest.length + 1) pre.length (pre ++ 45 :: rest) false (by simp)
    (by
      intro k c hk hc
      rw [List.getElem?_append_right hk] at hc
      rcases List.mem_cons.mp (List.mem_of_getElem? hc) with rfl | hc
      · decide
      · exact hr c hc)
  unfold findNumber
  rw [h1]
  simp only [pure_bind]
  rw [if_neg (by decide), h2]
  simp only [pure_bind, Option.getD_none]
  exact if_pos trivial

example : findNumber [97, 45] 0 2 = ub := C234_end_violated [97] [] (by simp) (by simp)

/-- C234, also: a text with no minus and no digit makes `find_number` throw. -/
theorem C234_none (m : List Nat) (hm : ∀ c ∈ m, c ≠ 45 ∧ ¬(48 ≤ c ∧ c ≤ 57)) : findNumber m 0 m.length = thrown := by
  obtain ⟨r, e, hr⟩ := C63_until m isFirst 0 m.length (Nat.zero_le _) (Nat.le_refl _)
  have : ¬r < m.length := by
    intro h
    obtain ⟨c, hc, hf⟩ := hr.2.2.2 h
    have := hm c (List.mem_of_getElem? hc)
    have := (isFirst_iff c).mp hf
    omega
  unfold findNumber
  rw [e, pure_bind]
  rw [if_pos (by simp [this])]

example : findNumber [97, 98] 0 2 = thrown := C234_none [97, 98] (by simp)

/-! ### Signed numbers -/

theorem fromNumCharS_digit {M c : Nat} (hM : 10 ≤ M) (h : 48 ≤ c ∧ c ≤ 57) : fromNumCharS M c = (c - 48 : Nat) := by
  unfold fromNumCharS
  have : (c + 2 ^ 32 - 48) % 2 ^ 32 = c - 48 := by omega
  rw [this]
  dsimp only
  rw [if_pos (by omega)]

theorem intLoop_eq {M : Nat} (hM : 10 ≤ M) : ∀ (ds : List Nat) (k r : Nat), (∀ c ∈ ds, 48 ≤ c ∧ c ≤ 57) → ds.length ≤ k →
    ds.foldl (fun a c => 10 * a + (c - 48)) r < M →
    intLoop M k ds r = pure ((ds.foldl (fun a c => 10 * a + (c - 48)) r : Nat) : Int) := by
  intro ds
  induction ds with
  | nil => intro k r _ _ _; rfl
  | cons d ds ih =>
    intro k r hd hk hr
    simp only [List.length_cons] at hk
    rw [List.foldl_cons] at hr ⊢
    have hle := Format.fold_le ds (10 * r + (d - 48))
    have hdd := hd d List.mem_cons_self
    rw [intLoop, if_neg (by omega), fromNumCharS_digit hM hdd]
    have a1 : arithS M ((r : Int) * 10) = pure ((r : Int) * 10) := by
      unfold arithS; rw [if_pos ⟨by omega, by omega⟩]
    have a2 : arithS M ((r : Int) * 10 + (d - 48 : Nat)) = pure ((10 * r + (d - 48) : Nat) : Int) := by
      unfold arithS; rw [if_pos ⟨by omega, by omega⟩]; congr 1; omega
    rw [a1, pure_bind, a2, pure_bind]
    exact ih (k - 1) _ (fun c hc => hd c (List.mem_cons_of_mem _ hc)) (by omega) hr

/-- C235, for at most `digits10` digits: `parse_int` gives the number that the digits say, and its negative behind a minus.  Missing:
numbers of the type with one digit more, texts that are no numbers, see the theorems beside this one. -/
theorem C235_parse_partial {M k : Nat} (hM : 10 ≤ M) (hk : 10 ^ k ≤ M) {ds : List Nat} (hd : ∀ c ∈ ds, 48 ≤ c ∧ c ≤ 57) (hne : ds ≠ [])
    (hl : ds.length ≤ k) :
    parseInt M k ds = pure (Format.value ds : Int) ∧ parseInt M k (45 :: ds) = pure (-(Format.value ds : Int)) := by
  have hv : Format.value ds < M :=
    Nat.lt_of_lt_of_le (Format.value_lt hd) (Nat.le_trans (Nat.pow_le_pow_right (by omega) hl) hk)
  have hu : parseUnsignedS M k ds = pure (Format.value ds : Int) := by
    cases ds with
    | nil => exact absurd rfl hne
    | cons d ds =>
      have := hd d List.mem_cons_self
      unfold parseUnsignedS
      rw [rd_some (a := d) rfl, pure_bind, if_neg (by omega)]
      exact intLoop_eq hM (d :: ds) k 0 hd hl hv
  constructor
  · cases ds with
    | nil => exact absurd rfl hne
    | cons d ds =>
      have := hd d List.mem_cons_self
      unfold parseInt
      rw [rd_some (a := d) rfl, pure_bind, if_neg (by omega)]
      exact hu
  · unfold parseInt
    rw [rd_some (a := 45) rfl, pure_bind, if_pos rfl]
    show (do let r ← parseUnsignedS M k ds; arithS M (r * -1)) = _
    rw [hu, pure_bind]
    unfold arithS
    rw [if_pos ⟨by omega, by omega⟩]
    congr 1
    omega

/-- `int`: 2^31 and nine digits. -/
example : parseInt (2 ^ 31) 9 [45, 51, 52, 53] = pure (-345) := by
  have := (C235_parse_partial (M := 2 ^ 31) (k := 9) (by decide) (by decide) (ds := [51, 52, 53]) (by decide) (by decide) (by decide)).2
  exact this

theorem intLoop_long {M : Nat} (hM : 10 ≤ M) : ∀ (ds : List Nat) (k r : Nat), (∀ c ∈ ds, 48 ≤ c ∧ c ≤ 57) → k < ds.length →
    (ds.take k).foldl (fun a c => 10 * a + (c - 48)) r < M → intLoop M k ds r = thrown := by
  intro ds
  induction ds with
  | nil => intro k r _ h; simp at h
  | cons d ds ih =>
    intro k r hd hk hr
    simp only [List.length_cons] at hk
    rw [intLoop]
    by_cases h0 : k = 0
    · rw [if_pos h0]
    · obtain ⟨j, rfl⟩ : ∃ j, k = j + 1 := ⟨k - 1, by omega⟩
      rw [List.take_succ_cons, List.foldl_cons] at hr
      have hle := Format.fold_le (ds.take j) (10 * r + (d - 48))
      have hdd := hd d List.mem_cons_self
      rw [if_neg h0, fromNumCharS_digit hM hdd]
      have a1 : arithS M ((r : Int) * 10) = pure ((r : Int) * 10) := by
        unfold arithS; rw [if_pos ⟨by omega, by omega⟩]
      have a2 : arithS M ((r : Int) * 10 + (d - 48 : Nat)) = pure ((10 * r + (d - 48) : Nat) : Int) := by
        unfold arithS; rw [if_pos ⟨by omega, by omega⟩]; congr 1; omega
      rw [a1, pure_bind, a2, pure_bind]
      exact ih j _ (fun c hc => hd c (List.mem_cons_of_mem _ hc)) (by omega) hr

/-- C235, violated: with more than `digits10` digits `parse_int` throws, also if the number is one of the type. -/
theorem C235_long_violated {M k : Nat} (hM : 10 ≤ M) (hk : 10 ^ k ≤ M) {ds : List Nat} (hd : ∀ c ∈ ds, 48 ≤ c ∧ c ≤ 57)
    (hl : k < ds.length) : parseInt M k ds = thrown ∧ parseInt M k (45 :: ds) = thrown := by
  have hv : Format.value (ds.take k) < M := by
    refine Nat.lt_of_lt_of_le (Format.value_lt (fun c hc => hd c (List.mem_of_mem_take hc))) (Nat.le_trans ?_ hk)
    rw [List.length_take]
    exact Nat.pow_le_pow_right (by omega) (by omega)
  have hu : parseUnsignedS M k ds = thrown := by
    cases ds with
    | nil => simp at hl
    | cons d ds =>
      have := hd d List.mem_cons_self
      unfold parseUnsignedS
      rw [rd_some (a := d) rfl, pure_bind, if_neg (by omega)]
      exact intLoop_long hM (d :: ds) k 0 hd hl hv
  constructor
  · cases ds with
    | nil => simp at hl
    | cons d ds =>
      have := hd d List.mem_cons_self
      unfold parseInt
      rw [rd_some (a := d) rfl, pure_bind, if_neg (by omega)]
      exact hu
  · unfold parseInt
    rw [rd_some (a := 45) rfl, pure_bind, if_pos rfl]
    show (do let r ← parseUnsignedS M k ds; arithS M (r * -1)) = _
    rw [hu]
    rfl

/-- "2147483647" is the largest `int`. -/
example : Format.value [50, 49, 52, 55, 52, 56, 51, 54, 52, 55] = 2 ^ 31 - 1 ∧
    parseInt (2 ^ 31) 9 [50, 49, 52, 55, 52, 56, 51, 54, 52, 55] = thrown :=
  ⟨by decide, (C235_long_violated (M := 2 ^ 31) (k := 9) (by decide) (by decide) (by decide) (by decide)).1⟩

/-- C235, violated: a character above the digits is taken as a digit with a larger value. -/
theorem C235_letter_violated {M k c : Nat} (hM : 256 ≤ M) (hk : 0 < k) (h : 57 < c ∧ c < 256) : parseInt M k [c] = pure ((c : Int) - 48) := by
  have hv : fromNumCharS M c = (c - 48 : Nat) := by
    unfold fromNumCharS
    have : (c + 2 ^ 32 - 48) % 2 ^ 32 = c - 48 := by omega
    rw [this]
    dsimp only
    rw [if_pos (by omega)]
  unfold parseInt parseUnsignedS
  rw [rd_some (a := c) rfl]
  simp only [pure_bind]
  rw [if_neg (by omega), if_neg (by omega), intLoop, if_neg (by omega), hv]
  unfold arithS
  rw [if_pos ⟨by omega, by omega⟩, pure_bind, if_pos ⟨by omega, by omega⟩, pure_bind]
  show pure _ = pure _
  congr 1
  omega

example : parseInt (2 ^ 31) 9 [97] = pure 49 := by decide +kernel

/-- **C235 (violated: signs).**  A character below `0`, such as a plus sign or a blank, is read as a negative digit by a type of 32 bits and as a digit of more than four
thousand million by one of 64 bits. -/
theorem C235_sign_violated {k c : Nat} (hk : 0 < k) (h : c < 48) (hm : c ≠ 45) :
    parseInt (2 ^ 31) k [c] = pure ((c : Int) - 48) ∧ parseInt (2 ^ 63) k [c] = pure ((c : Int) - 48 + 2 ^ 32) := by
  have hr : (c + 2 ^ 32 - 48) % 2 ^ 32 = c + 2 ^ 32 - 48 := Nat.mod_eq_of_lt (by omega)
  have v1 : fromNumCharS (2 ^ 31) c = (c : Int) - 48 := by
    unfold fromNumCharS
    simp only [hr]
    rw [if_neg (by omega)]
    omega
  have v2 : fromNumCharS (2 ^ 63) c = (c : Int) - 48 + 2 ^ 32 := by
    unfold fromNumCharS
    simp only [hr]
    rw [if_pos (by omega)]
    omega
  have key : ∀ M : Nat, 0 < M → -(M : Int) ≤ fromNumCharS M c ∧ fromNumCharS M c < M → parseInt M k [c] = pure (fromNumCharS M c) := by
    intro M h0 hM
    unfold parseInt parseUnsignedS
    rw [rd_some (show [c][0]? = some c by rfl), pure_bind, if_neg hm, pure_bind, if_neg hm, intLoop, if_neg (by omega)]
    unfold arithS
    rw [if_pos (by omega), pure_bind, if_pos (by omega), pure_bind, intLoop, Int.zero_mul, Int.zero_add]
  refine ⟨?_, ?_⟩
  · rw [key _ (by decide) (by rw [v1]; omega), v1]
  · rw [key _ (by decide) (by rw [v2]; omega), v2]

example := (C235_sign_violated (k := 9) (c := 43) (by decide) (by decide) (by decide)).1

/-- C235: a second minus sign is refused by an exception, whatever follows. -/
theorem C235_two_signs (M k : Nat) (s : List Nat) : parseInt M k (45 :: 45 :: s) = thrown := by
  unfold parseInt parseUnsignedS
  rw [rd_some (a := 45) rfl, pure_bind, if_pos rfl]
  show (do let r ← (do let c ← rd (45 :: s) 0; if c = 45 then thrown else intLoop M k (45 :: s) 0); arithS M (r * -1)) = _
  rw [rd_some (a := 45) rfl, pure_bind, if_pos rfl]
  rfl

example := C235_two_signs (2 ^ 31) 9 [53]

/-- C235, violated: characters above the digits can make the arithmetic of an `int` overflow. -/
theorem C235_overflow_violated : parseInt (2 ^ 31) 9 (List.replicate 9 255) = ub := by decide +kernel

/-- C235, violated: an empty text and a minus alone are read behind their end. -/
theorem C235_empty_violated (M k : Nat) : parseInt M k [] = ub ∧ parseInt M k [45] = ub := ⟨rfl, rfl⟩

/-! ### Quoted strings -/

theorem trimLeft_quote (pre rest : List Nat) :
    trimLeft isWs (pre ++ 34 :: rest) pre.length (pre ++ 34 :: rest).length = pure ⟨pre.length, (pre ++ 34 :: rest).length, false⟩ := by
  have hs : scan (fun c => !isWs c) (pre ++ 34 :: rest) (pre ++ 34 :: rest).length pre.length = pure (some pre.length) := by
    rw [scan, if_neg (by simp), dif_pos (by simp), getElem_mid, if_pos (by decide)]
  unfold trimLeft untilP
  rw [hs]
  rfl

/-- Quotes in the text come after a backslash. (Specification, no line of the source.) -/
def Escaped (prev : Nat) : List Nat → Prop
  | [] => True
  | c :: cs => (c = 34 → prev = 92) ∧ Escaped c cs

/-- The last character, `prev` if there is none. (Specification, no line of the source.) -/
def lastOf (prev : Nat) : List Nat → Nat
  | [] => prev
  | c :: cs => lastOf c cs

/-- The loop passes what is escaped, and `found` says whether the last character was a quote. -/
theorem litLoop_skip : ∀ (body pre : List Nat) (prev : Nat) (tail : List Nat) (m : List Nat) (b : Bool),
    m = pre ++ prev :: (body ++ tail) → Escaped prev body →
    litLoop 34 m m.length (pre.length + 1) pre.length b =
      litLoop 34 m m.length (pre.length + 1 + body.length) (pre.length + body.length)
        (if body = [] then b else decide (lastOf prev body = 34)) := by
  intro body
  induction body with
  | nil => intro pre prev tail m b _ _; rfl
  | cons c cs ih =>
    intro pre prev tail m b hm he
    have hlt : pre.length + 1 < m.length := by rw [hm]; simp
    have hg : m[pre.length + 1] = c := by simp [hm]
    have hp : rd m pre.length = pure prev := rd_some (by simp [hm])
    have hrec := ih (pre ++ [prev]) c tail m (decide (c = 34)) (by simp [hm]) he.2
    simp only [List.length_append, List.length_cons, List.length_nil] at hrec
    rw [show pre.length + (0 + 1) = pre.length + 1 by omega] at hrec
    rw [litLoop, if_neg (by omega), dif_pos hlt, hg]
    have e1 : pre.length + 1 + 1 + cs.length = pre.length + 1 + (cs.length + 1) := by omega
    have e2 : pre.length + 1 + cs.length = pre.length + (cs.length + 1) := by omega
    rw [e1, e2] at hrec
    have e3 : (if cs = [] then decide (c = 34) else decide (lastOf c cs = 34)) = decide (lastOf prev (c :: cs) = 34) := by
      show _ = decide (lastOf c cs = 34)
      cases cs with
      | nil => rw [if_pos rfl]; rfl
      | cons d ds => rw [if_neg (by simp)]
    rw [e3] at hrec
    by_cases hc : c = 34
    · rw [if_pos hc, hp, pure_bind, if_neg (by simp [he.1 hc])]
      rw [decide_eq_true hc] at hrec
      rw [hrec, if_neg (by simp)]
      rfl
    · rw [if_neg hc]
      rw [decide_eq_false hc] at hrec
      rw [hrec, if_neg (by simp)]
      rfl

theorem parseLiteral_eq (pre body : List Nat) (tail : List Nat) (he : Escaped 34 body) :
    parseLiteral (pre ++ 34 :: (body ++ tail)) pre.length (pre ++ 34 :: (body ++ tail)).length =
      (do
        let (it, found) ← litLoop 34 (pre ++ 34 :: (body ++ tail)) (pre ++ 34 :: (body ++ tail)).length (pre.length + 1 + body.length)
          (pre.length + body.length) (if body = [] then false else decide (lastOf 34 body = 34))
        if found = false then thrown else pure ⟨pre.length + 1, it, true⟩) := by
  unfold parseLiteral
  rw [trimLeft_quote, pure_bind, rd_some (a := 34) (by simp), pure_bind, if_neg (by simp)]
  dsimp only
  rw [litLoop_skip body pre 34 tail _ false rfl he]

theorem rd_last (pre body tail : List Nat) : rd (pre ++ 34 :: (body ++ tail)) (pre.length + body.length) = pure (lastOf 34 body) := by
  have : ∀ (body : List Nat) (pre : List Nat) (p : Nat), (pre ++ p :: (body ++ tail))[pre.length + body.length]? = some (lastOf p body) := by
    intro body
    induction body with
    | nil => intro pre p; simp [lastOf]
    | cons c cs ih =>
      intro pre p
      have := ih (pre ++ [p]) c
      simp only [List.length_append, List.length_cons, List.length_nil, List.append_assoc, List.singleton_append] at this
      rw [show pre.length + (0 + 1) + cs.length = pre.length + (cs.length + 1) by omega] at this
      exact this
  exact rd_some (this body pre 34)

/-- C236, for texts where every quote inside comes after a backslash and the last character is no backslash: the text between the quotes
is found, whatever comes before and after.  Missing: blanks before the quote, texts that end with a backslash, texts without end, see
the theorems beside this one. -/
theorem C236_literal_partial (pre body rest : List Nat) (he : Escaped 34 body) (hl : lastOf 34 body ≠ 92) :
    parseLiteral (pre ++ 34 :: (body ++ 34 :: rest)) pre.length (pre ++ 34 :: (body ++ 34 :: rest)).length =
      pure ⟨pre.length + 1, pre.length + 1 + body.length, true⟩ := by
  have hlt : pre.length + 1 + body.length < (pre ++ 34 :: (body ++ 34 :: rest)).length := by simp; omega
  have hg : (pre ++ 34 :: (body ++ 34 :: rest))[pre.length + 1 + body.length] = 34 := by
    rw [List.getElem_append_right (by omega)]
    simp only [show pre.length + 1 + body.length - pre.length = body.length + 1 by omega, List.getElem_cons_succ]
    rw [List.getElem_append_right (by omega)]
    simp
  rw [parseLiteral_eq pre body _ he, litLoop, if_neg (by omega), dif_pos hlt, hg, if_pos rfl, rd_last]
  simp only [pure_bind]
  rw [if_pos hl]
  rfl

/-- "a\"b" followed by c, after a blank that is not part of the range. -/
example : parseLiteral [32, 34, 97, 92, 34, 98, 34, 99] 1 8 = pure ⟨2, 6, true⟩ :=
  C236_literal_partial [32] [97, 92, 34, 98] [99] (by simp [Escaped]) (by decide)

/-- C236, violated: blanks before the quote are skipped, but the quote is looked for before them: every such text is refused. -/
theorem C236_blank_violated (pre rest : List Nat) (c : Nat) (hc : isWs c = true) :
    parseLiteral (pre ++ c :: rest) pre.length (pre ++ c :: rest).length = thrown := by
  have h34 : c ≠ 34 := by intro e; subst e; exact absurd hc (by decide)
  obtain ⟨r, e, hr⟩ := C63_until (pre ++ c :: rest) (fun c => !isWs c) pre.length (pre ++ c :: rest).length (by simp) (Nat.le_refl _)
  unfold parseLiteral trimLeft
  rw [e]
  simp only [pure_bind]
  by_cases h : r < (pre ++ c :: rest).length
  · rw [if_neg (by rw [decide_eq_true h]; decide)]
    rw [pure_bind, rd_some (a := c) (by simp), pure_bind, if_pos h34]
  · rw [if_pos (decide_eq_false h)]
    rw [pure_bind, rd_some (a := c) (by simp), pure_bind, if_pos h34]

example : parseLiteral [32, 34, 97, 34] 0 4 = thrown := C236_blank_violated [] [34, 97, 34] 32 (by decide)

/-- C236, violated: a text that is never closed is accepted if its last character is an escaped quote. -/
theorem C236_open_violated (pre body : List Nat) (he : Escaped 34 body) (hne : body ≠ []) (hl : lastOf 34 body = 34) :
    parseLiteral (pre ++ 34 :: (body ++ [])) pre.length (pre ++ 34 :: (body ++ [])).length =
      pure ⟨pre.length + 1, (pre ++ 34 :: body).length, true⟩ := by
  rw [parseLiteral_eq pre body [] he, if_neg hne, litLoop, if_pos (by simp; omega), hl]
  simp only [decide_true]
  rw [pure_bind]
  simp only [Bool.true_eq_false, if_false, List.length_append, List.length_cons]
  congr 2
  omega

/-- "a\" -/
example : parseLiteral [34, 97, 92, 34] 0 4 = pure ⟨1, 4, true⟩ := C236_open_violated [] [97, 92, 34] (by simp [Escaped]) (by decide) (by decide)

/-- C236, violated: in a text that ends with an escaped backslash the closing quote is not seen: without another quote the text is
refused. -/
theorem C236_backslash_violated (pre body rest : List Nat) (he : Escaped 34 (body ++ [92, 92])) (hne : rest ≠ []) (hr : 34 ∉ rest) :
    parseLiteral (pre ++ 34 :: ((body ++ [92, 92] ++ 34 :: rest) ++ [])) pre.length
      (pre ++ 34 :: ((body ++ [92, 92] ++ 34 :: rest) ++ [])).length = thrown := by
  have hlast : ∀ (xs : List Nat) (p y : Nat) (ys : List Nat), lastOf p (xs ++ y :: ys) = lastOf y ys := by
    intro xs
    induction xs with
    | nil => intro p y ys; rfl
    | cons x xs ih => intro p y ys; exact ih x y ys
  have hesc : ∀ (xs ys : List Nat) (p : Nat), Escaped p xs → Escaped (lastOf p xs) ys → Escaped p (xs ++ ys) := by
    intro xs
    induction xs with
    | nil => intro ys p _ h; exact h
    | cons x xs ih => intro ys p h h'; exact ⟨h.1, ih ys x h.2 h'⟩
  have hno : ∀ (ys : List Nat) (p : Nat), 34 ∉ ys → Escaped p ys := by
    intro ys
    induction ys with
    | nil => intro p _; trivial
    | cons y ys ih =>
      intro p h
      rw [List.mem_cons, not_or] at h
      exact ⟨fun e => absurd e.symm h.1, ih y h.2⟩
  have he' : Escaped 34 (body ++ [92, 92] ++ 34 :: rest) := by
    refine hesc _ _ _ he ?_
    rw [hlast body 34 92 [92]]
    exact ⟨fun _ => rfl, hno rest 34 hr⟩
  have hl : lastOf 34 (body ++ [92, 92] ++ 34 :: rest) ≠ 34 := by
    rw [hlast]
    have : ∀ (ys : List Nat) (p : Nat), ys ≠ [] → lastOf p ys ∈ ys := by
      intro ys
      induction ys with
      | nil => intro p h; exact absurd rfl h
      | cons y ys ih =>
        intro p _
        show lastOf y ys ∈ y :: ys
        cases ys with
        | nil => exact List.mem_cons_self
        | cons z zs => exact List.mem_cons_of_mem _ (ih y (by simp))
    intro e
    exact hr (e ▸ this rest 34 hne)
  rw [parseLiteral_eq pre _ [] he', if_neg (by simp), litLoop, if_pos (by simp; omega), decide_eq_false hl]
  rfl

/-- "a\\" followed by b -/
example : parseLiteral [34, 97, 92, 92, 34, 98] 0 6 = thrown :=
  C236_backslash_violated [] [97] [98] (by simp [Escaped]) (by decide) (by decide)

/-- C236, violated: an empty range is read. -/
theorem C236_empty_violated (m : List Nat) : parseLiteral m m.length m.length = ub := by
  unfold parseLiteral trimLeft untilP
  rw [scan, if_pos rfl]
  simp only [pure_bind]
  show (do let quote ← rd m m.length; _) = _
  rw [rd_oob (by omega), ub_bind]

end Verif.Parse.Addons
