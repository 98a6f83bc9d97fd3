import Verif.Base
import Verif.Containers.Lists

/-
Integers in include/daw/daw_parse_to.h.  A text is the list of its character codes.  The result types are the integer types of 8, 16,
32 and 64 bits.
-/

namespace Verif.Parse
open Cxx

/-- An integer type. (Rule of C++ or its library, no line of the source.) -/
structure Ty where
  signed : Bool
  bits : Nat

/-- The integer types. (Rule of C++ or its library, no line of the source.) -/
def Ty.Ok (t : Ty) : Prop := t.bits = 8 ∨ t.bits = 16 ∨ t.bits = 32 ∨ t.bits = 64

/-- `std::numeric_limits<Result>::digits`. (Rule of C++ or its library, no line of the source.) -/
def Ty.digits (t : Ty) : Nat := if t.signed then t.bits - 1 else t.bits

/-- The values of the type. (Rule of C++ or its library, no line of the source.) -/
def Ty.Holds (t : Ty) (v : Int) : Prop := if t.signed then -2 ^ (t.bits - 1) ≤ v ∧ v < 2 ^ (t.bits - 1) else 0 ≤ v ∧ v < 2 ^ t.bits

instance (t : Ty) (v : Int) : Decidable (t.Holds v) := by unfold Ty.Holds; infer_instance

/-- The value of the type that is congruent to `v`. (Rule of C++ or its library, no line of the source.) -/
def Ty.wrap (t : Ty) (v : Int) : Int := if t.signed then Int.bmod v (2 ^ t.bits) else v % 2 ^ t.bits

/-- The result `v` of `op=` in the type: signed types of 32 bits and more overflow, which is undefined; in all others, also where the operands
were promoted to `int`, the result is reduced. (Rule of C++ or its library, no line of the source.) -/
def Ty.arith (t : Ty) (v : Int) : Cxx Int :=
  if t.signed = true ∧ 32 ≤ t.bits then (if t.Holds v then pure v else ub) else pure (t.wrap v)

/-- `is_number`, daw_parser_helper.h 298-301. -/
def isNumber (c : Nat) : Bool := 48 ≤ c && c ≤ 57

/-- The loop of `parse_int`, daw_parse_to.h 56-61: the result and the rest of the text. -/
def intLoop (t : Ty) : Nat → List Nat → Int → Cxx (Int × List Nat)
  | 0, str, result => pure (result, str)
  | _ + 1, [], result => pure (result, [])
  | count + 1, c :: str, result =>
    if isNumber c then do
      let result ← t.arith (result * 10)
      let result ← t.arith (result + (c - 48 : Nat))
      intLoop t count str result
    else pure (result, c :: str)

/-- `parse_int`, daw_parse_to.h 43-69. -/
def parseInt (t : Ty) (str : List Nat) : Cxx Int :=
  match str with
  | [] => ub
  | c :: rest =>
    if c = 45 then
      if t.signed then do
        let (result, str) ← intLoop t t.digits rest 0
        if str = [] then t.arith (result * -1) else thrown
      else thrown
    else do
      let (result, str) ← intLoop t t.digits (c :: rest) 0
      if str = [] then pure result else thrown

/-- `parse_unsigned_int`, daw_parse_to.h 71-77. -/
def parseUnsigned (t : Ty) (str : List Nat) : Cxx Int :=
  match str with
  | [] => ub
  | c :: rest => if c = 45 then thrown else parseInt t (c :: rest)

/-- `parse_to_value` for integers, daw_parse_to.h 81-100. -/
def parseValue (t : Ty) (str : List Nat) : Cxx Int :=
  if str = [] then thrown else if t.signed then parseInt t str else parseUnsigned t str

/-! ### Decimal numbers -/

/-- The decimal rendering of a number. (Specification, no line of the source.) -/
def render (n : Nat) : List Nat := if n < 10 then [48 + n] else render (n / 10) ++ [48 + n % 10]

/-- The decimal rendering of an integer. (Specification, no line of the source.) -/
def renderInt (v : Int) : List Nat := if v < 0 then 45 :: render v.natAbs else render v.natAbs

example : render 1207 = "1207".toList.map Char.toNat ∧ renderInt (-45) = "-45".toList.map Char.toNat := by decide +kernel

/-- The number a string of digits stands for. (Specification, no line of the source.) -/
def value (ds : List Nat) : Nat := ds.foldl (fun n c => n * 10 + (c - 48)) 0

theorem value_append (ds : List Nat) (c : Nat) : value (ds ++ [c]) = value ds * 10 + (c - 48) := by simp [value]

theorem render_value (n : Nat) : value (render n) = n := by
  induction n using Nat.strongRecOn with
  | _ n ih =>
    rw [render]
    split
    · simp [value]
    · rw [value_append, ih (n / 10) (by omega)]
      omega

theorem render_digits (n : Nat) : ∀ c ∈ render n, isNumber c = true := by
  induction n using Nat.strongRecOn with
  | _ n ih =>
    rw [render]
    split
    · simp [isNumber]
      omega
    · intro c hc
      rcases List.mem_append.1 hc with h | h
      · exact ih (n / 10) (by omega) c h
      · rw [List.mem_singleton] at h
        subst h
        simp [isNumber]
        omega

theorem render_ne (n : Nat) : render n ≠ [] := by
  rw [render]
  split <;> simp

theorem render_length (k : Nat) : ∀ n, n < 10 ^ (k + 1) → (render n).length ≤ k + 1 := by
  induction k with
  | zero =>
    intro n h
    rw [render, if_pos (by simpa using h)]
    simp
  | succ k ih =>
    intro n h
    rw [render]
    split
    · simp
    · have := ih (n / 10) (by rw [Nat.pow_succ] at h; omega)
      simp
      omega

/-- A value never larger than `m` after reading more digits. -/
theorem value_mono (ds : List Nat) : ∀ n, n ≤ ds.foldl (fun n c => n * 10 + (c - 48)) n := by
  induction ds with
  | nil => intro n; simp
  | cons c ds ih =>
    intro n
    have := ih (n * 10 + (c - 48))
    simp only [List.foldl_cons]
    omega

/-! ### The loop -/

theorem wrap_congr (t : Ty) (v : Int) : t.wrap v % 2 ^ t.bits = v % 2 ^ t.bits := by
  unfold Ty.wrap
  split
  · have := Int.bmod_emod (x := v) (m := 2 ^ t.bits)
    simpa using this
  · exact Int.emod_emod _ _

theorem arith_congr {t : Ty} {v r : Int} (h : t.arith v = pure r) : r % 2 ^ t.bits = v % 2 ^ t.bits := by
  unfold Ty.arith at h
  split at h
  · split at h
    · rw [pure_inj.1 h]
    · exact absurd h (ub_ne_pure _)
  · rw [← pure_inj.1 h, wrap_congr]

theorem wrap_eq {t : Ty} {a b : Int} (h : a % 2 ^ t.bits = b % 2 ^ t.bits) : t.wrap a = t.wrap b := by
  unfold Ty.wrap
  split
  · unfold Int.bmod
    have hc : ((2 ^ t.bits : Nat) : Int) = 2 ^ t.bits := by simp
    simp only [hc, h]
  · exact h

/-- The number after reading digits. (Specification, no line of the source.) -/
def acc (r : Int) (ds : List Nat) : Int := ds.foldl (fun n c => n * 10 + (c - 48 : Nat)) r

theorem acc_value (ds : List Nat) : ∀ n : Nat, acc n ds = (ds.foldl (fun n c => n * 10 + (c - 48)) n : Nat) := by
  induction ds with
  | nil => intro n; rfl
  | cons c ds ih =>
    intro n
    have := ih (n * 10 + (c - 48))
    simp only [acc, List.foldl_cons] at this ⊢
    rw [← this]
    simp

theorem step_congr {m a b : Int} (d : Int) (h : a % m = b % m) : (a * 10 + d) % m = (b * 10 + d) % m := by
  rw [Int.add_emod, Int.mul_emod, h, ← Int.mul_emod, ← Int.add_emod]

theorem acc_congr {m : Int} (ds : List Nat) : ∀ {a b : Int}, a % m = b % m → acc a ds % m = acc b ds % m := by
  induction ds with
  | nil => intro a b h; exact h
  | cons c ds ih => intro a b h; exact ih (step_congr _ h)

theorem acc_mono (ds : List Nat) : ∀ r : Int, 0 ≤ r → r ≤ acc r ds := by
  induction ds with
  | nil => intro r _; exact Int.le_refl _
  | cons c ds ih =>
    intro r h
    have := ih (r * 10 + (c - 48 : Nat)) (by omega)
    simp only [acc, List.foldl_cons] at this ⊢
    omega

/-- The digits the loop reads. (Specification, no line of the source.) -/
def lead (count : Nat) (str : List Nat) : List Nat := (str.take count).takeWhile isNumber

theorem wide_loop (t : Ty) (hw : t.signed = true ∧ 32 ≤ t.bits) : ∀ (count : Nat) (str : List Nat) (r : Int), 0 ≤ r → t.Holds r →
    intLoop t count str r = if t.Holds (acc r (lead count str)) then pure (acc r (lead count str), str.drop (lead count str).length) else ub := by
  intro count
  have hold : ∀ v : Int, t.Holds v ↔ -2 ^ (t.bits - 1) ≤ v ∧ v < 2 ^ (t.bits - 1) := fun v => by simp [Ty.Holds, hw.1]
  have hpos : (0 : Int) < 2 ^ (t.bits - 1) := Int.pow_pos (by omega)
  induction count with
  | zero =>
    intro str r _ h
    simp only [lead, List.take_zero, List.takeWhile_nil, acc, List.foldl_nil, List.length_nil, List.drop_zero]
    rw [if_pos h]
    rfl
  | succ count ih =>
    intro str r h0 h
    cases str with
    | nil =>
      simp only [lead, List.take_nil, List.takeWhile_nil, acc, List.foldl_nil, List.length_nil, List.drop_zero]
      rw [if_pos h]
      rfl
    | cons c str =>
      rw [intLoop]
      by_cases hc : isNumber c = true
      · rw [if_pos hc]
        have hl : lead (count + 1) (c :: str) = c :: lead count str := by simp [lead, hc]
        rw [hl]
        have ea : acc r (c :: lead count str) = acc (r * 10 + (c - 48 : Nat)) (lead count str) := rfl
        rw [ea]
        unfold Ty.arith
        rw [if_pos hw]
        have hm := acc_mono (lead count str) (r * 10 + (c - 48 : Nat)) (by omega)
        by_cases h1 : t.Holds (r * 10)
        · rw [if_pos h1]
          simp only [pure_bind]
          rw [if_pos hw]
          by_cases h2 : t.Holds (r * 10 + (c - 48 : Nat))
          · rw [if_pos h2]
            simp only [pure_bind, List.length_cons, List.drop_succ_cons]
            exact ih str _ (by omega) h2
          · rw [if_neg h2, if_neg]
            · rfl
            · rw [hold] at h2 ⊢
              omega
        · rw [if_neg h1, if_neg]
          · rfl
          · rw [hold] at h1 ⊢
            omega
      · rw [if_neg hc]
        have hl : lead (count + 1) (c :: str) = [] := by simp [lead, hc]
        rw [hl]
        simp only [acc, List.foldl_nil, List.length_nil, List.drop_zero]
        rw [if_pos h]

theorem narrow_loop (t : Ty) (hw : ¬(t.signed = true ∧ 32 ≤ t.bits)) : ∀ (count : Nat) (str : List Nat) (r : Int), t.wrap r = r →
    intLoop t count str r = pure (t.wrap (acc r (lead count str)), str.drop (lead count str).length) := by
  intro count
  induction count with
  | zero =>
    intro str r h
    simp only [lead, List.take_zero, List.takeWhile_nil, acc, List.foldl_nil, List.length_nil, List.drop_zero]
    rw [h]
    rfl
  | succ count ih =>
    intro str r h
    cases str with
    | nil =>
      simp only [lead, List.take_nil, List.takeWhile_nil, acc, List.foldl_nil, List.length_nil, List.drop_zero]
      rw [h]
      rfl
    | cons c str =>
      rw [intLoop]
      by_cases hc : isNumber c = true
      · rw [if_pos hc]
        have hl : lead (count + 1) (c :: str) = c :: lead count str := by simp [lead, hc]
        rw [hl]
        have ea : acc r (c :: lead count str) = acc (r * 10 + (c - 48 : Nat)) (lead count str) := rfl
        rw [ea]
        unfold Ty.arith
        rw [if_neg hw]
        simp only [pure_bind]
        rw [if_neg hw]
        simp only [pure_bind, List.length_cons, List.drop_succ_cons]
        rw [ih str _ (wrap_eq (wrap_congr t _))]
        congr 2
        apply wrap_eq
        apply acc_congr
        rw [wrap_congr, Int.add_emod, wrap_congr, ← Int.add_emod]
      · rw [if_neg hc]
        have hl : lead (count + 1) (c :: str) = [] := by simp [lead, hc]
        rw [hl]
        simp only [acc, List.foldl_nil, List.length_nil, List.drop_zero]
        rw [h]

theorem wrap_holds {t : Ty} (ht : t.Ok) {v : Int} (h : t.Holds v) : t.wrap v = v := by
  unfold Ty.Holds at h
  unfold Ty.wrap
  by_cases hs : t.signed = true
  · rw [if_pos hs] at h ⊢
    apply Int.bmod_eq_of_le_mul_two
    all_goals
      rcases ht with e | e | e | e <;> rw [e] at h ⊢ <;> simp at h ⊢ <;> omega
  · rw [if_neg hs] at h ⊢
    exact Int.emod_eq_of_lt h.1 h.2

theorem holds_wrap {t : Ty} (ht : t.Ok) (v : Int) : t.Holds (t.wrap v) := by
  unfold Ty.Holds Ty.wrap
  by_cases hs : t.signed = true
  · rw [if_pos hs, if_pos hs]
    have h1 := Int.le_bmod (x := v) (m := 2 ^ t.bits) (Nat.two_pow_pos _)
    have h2 := Int.bmod_lt (x := v) (m := 2 ^ t.bits) (Nat.two_pow_pos _)
    rcases ht with e | e | e | e <;> rw [e] at h1 h2 ⊢ <;> simp at h1 h2 ⊢ <;> omega
  · rw [if_neg hs, if_neg hs]
    have hp : (0 : Int) < 2 ^ t.bits := Int.pow_pos (by omega)
    exact ⟨Int.emod_nonneg _ (by omega), Int.emod_lt_of_pos _ hp⟩

theorem takeWhile_self (p : Nat → Bool) : ∀ l : List Nat, l.takeWhile p = l ↔ ∀ c ∈ l, p c = true
  | [] => by simp
  | c :: l => by
    by_cases h : p c = true
    · simp [h, takeWhile_self p l]
    · simp [h]

theorem lead_all {t : Nat} {ds : List Nat} (h : ∀ c ∈ ds, isNumber c = true) (hl : ds.length ≤ t) : lead t ds = ds := by
  rw [lead, List.take_of_length_le hl]
  exact (takeWhile_self _ _).2 h

theorem lead_drop {t : Nat} {ds : List Nat} (h : ds.drop (lead t ds).length = []) : (∀ c ∈ ds, isNumber c = true) ∧ ds.length ≤ t := by
  have h1 : ds.length ≤ (lead t ds).length := by simpa using h
  have h2 : (lead t ds).length ≤ (ds.take t).length := by
    rw [lead]
    exact (List.takeWhile_prefix _).length_le
  have h3 : ds.length ≤ t := by
    rw [List.length_take] at h2
    omega
  rw [lead, List.take_of_length_le h3] at h1
  refine ⟨?_, h3⟩
  have h4 : ds.takeWhile isNumber = ds := (List.takeWhile_prefix _).eq_of_length (by
    have := (List.takeWhile_prefix isNumber (l := ds)).length_le
    omega)
  exact (takeWhile_self _ _).1 h4

/-- Reading digits only, as many as allowed, with a result that fits. -/
theorem loop_fits {t : Ty} (ht : t.Ok) {ds : List Nat} (h : ∀ c ∈ ds, isNumber c = true) (hl : ds.length ≤ t.digits)
    (hv : t.Holds (value ds)) : intLoop t t.digits ds 0 = pure ((value ds : Int), []) := by
  have h0 : t.Holds 0 := by
    unfold Ty.Holds
    split
    · exact ⟨by have : (0 : Int) < 2 ^ (t.bits - 1) := Int.pow_pos (by omega); omega, Int.pow_pos (by omega)⟩
    · exact ⟨by omega, Int.pow_pos (by omega)⟩
  have ea : acc 0 ds = value ds := acc_value ds 0
  by_cases hw : t.signed = true ∧ 32 ≤ t.bits
  · rw [wide_loop t hw _ _ _ (by omega) h0, lead_all h hl, ea, if_pos hv]
    simp
  · rw [narrow_loop t hw _ _ _ (wrap_holds ht h0), lead_all h hl, ea, wrap_holds ht hv]
    simp

/-- What the loop can return on any text. -/
theorem loop_pure {t : Ty} (ht : t.Ok) {str rest : List Nat} {r : Int} (h : intLoop t t.digits str 0 = pure (r, rest)) :
    rest = str.drop (lead t.digits str).length ∧ t.Holds r ∧ r % 2 ^ t.bits = (value (lead t.digits str) : Int) % 2 ^ t.bits ∧
      (t.signed = true ∧ 32 ≤ t.bits → r = value (lead t.digits str)) := by
  have h0 : t.Holds 0 := by
    have := holds_wrap ht 0
    rwa [show t.wrap 0 = 0 by simp [Ty.wrap]] at this
  have ea : acc 0 (lead t.digits str) = value (lead t.digits str) := acc_value _ 0
  by_cases hw : t.signed = true ∧ 32 ≤ t.bits
  · rw [wide_loop t hw _ _ _ (by omega) h0, ea] at h
    split at h
    · rename_i hh
      have := pure_inj.1 h
      simp only [Prod.mk.injEq] at this
      obtain ⟨rfl, rfl⟩ := this
      exact ⟨rfl, hh, rfl, fun _ => rfl⟩
    · exact absurd h (ub_ne_pure _)
  · rw [narrow_loop t hw _ _ _ (wrap_holds ht h0), ea] at h
    have := pure_inj.1 h
    simp only [Prod.mk.injEq] at this
    obtain ⟨rfl, rfl⟩ := this
    exact ⟨rfl, holds_wrap ht _, wrap_congr t _, fun h => absurd h hw⟩

theorem not_dash {c : Nat} (h : isNumber c = true) : c ≠ 45 := by
  rintro rfl
  simp [isNumber] at h

/-- Every integer of the type is read back from its decimal rendering, except the least value of signed types of 32 and 64 bits. -/
theorem C61_round_trip_partial (t : Ty) (ht : t.Ok) (v : Int) (hv : t.Holds v)
    (hmin : t.signed = true → 32 ≤ t.bits → v ≠ -2 ^ (t.bits - 1)) : parseValue t (renderInt v) = pure v := by
  have hlen : (v.natAbs : Int) < 2 ^ t.digits ∨ (t.signed = true ∧ t.bits < 32 ∧ v = -2 ^ (t.bits - 1)) := by
    unfold Ty.Holds at hv
    unfold Ty.digits
    by_cases hs : t.signed = true
    · rw [if_pos hs] at hv ⊢
      by_cases hb : 32 ≤ t.bits
      · left
        have := hmin hs hb
        omega
      · by_cases e : v = -2 ^ (t.bits - 1)
        · exact Or.inr ⟨hs, by omega, e⟩
        · left
          omega
    · rw [if_neg hs] at hv ⊢
      left
      omega
  have hd : ∀ c ∈ render v.natAbs, isNumber c = true := render_digits _
  have hl : (render v.natAbs).length ≤ t.digits := by
    have hdig : 7 ≤ t.digits := by
      unfold Ty.digits
      rcases ht with e | e | e | e <;> rw [e] <;> split <;> omega
    rcases hlen with h | ⟨hs, hb, rfl⟩
    · have h1 : v.natAbs < 2 ^ t.digits := by
        have : ((2 ^ t.digits : Nat) : Int) = 2 ^ t.digits := by simp
        omega
      have h2 : (2 : Nat) ^ t.digits ≤ 10 ^ t.digits := Nat.pow_le_pow_left (by omega) _
      have := render_length (t.digits - 1) v.natAbs (by rw [show t.digits - 1 + 1 = t.digits by omega]; omega)
      omega
    · have h3 : ((-2 ^ (t.bits - 1) : Int)).natAbs < 10 ^ 7 := by
        rcases ht with e | e | e | e <;> rw [e] at hb ⊢ <;> first | omega | decide
      have := render_length 6 _ h3
      omega
  have hval := render_value v.natAbs
  obtain ⟨c, rest, hcr⟩ : ∃ c rest, render v.natAbs = c :: rest := by
    cases h : render v.natAbs with
    | nil => exact absurd h (render_ne _)
    | cons c rest => exact ⟨c, rest, rfl⟩
  by_cases hneg : v < 0
  · have hs : t.signed = true := by
      unfold Ty.Holds at hv
      by_cases hs : t.signed = true
      · exact hs
      · rw [if_neg hs] at hv
        omega
    rw [renderInt, if_pos hneg, parseValue, if_neg (by simp), if_pos hs, parseInt, if_pos rfl, if_pos hs]
    rcases hlen with h | ⟨_, hb, e⟩
    · have hfit : t.Holds (value (render v.natAbs)) := by
        rw [hval]
        unfold Ty.Holds
        rw [if_pos hs]
        rw [Ty.digits, if_pos hs] at h
        have : (0 : Int) < 2 ^ (t.bits - 1) := Int.pow_pos (by omega)
        omega
      rw [loop_fits ht hd hl hfit]
      simp only [pure_bind]
      rw [if_pos trivial, hval]
      have e : ((v.natAbs : Int)) * -1 = v := by omega
      rw [e, Ty.arith]
      split
      · rfl
      · rw [wrap_holds ht hv]
    · have hw : ¬(t.signed = true ∧ 32 ≤ t.bits) := by omega
      have h0 : t.wrap 0 = 0 := by simp [Ty.wrap]
      rw [narrow_loop t hw _ _ _ h0, lead_all hd hl, show acc 0 (render v.natAbs) = value (render v.natAbs) from acc_value _ 0, hval]
      simp only [pure_bind, List.drop_length]
      rw [if_pos trivial, Ty.arith, if_neg hw]
      congr 1
      rw [show v = t.wrap v from (wrap_holds ht hv).symm]
      apply wrap_eq
      rw [Int.mul_emod, wrap_congr, ← Int.mul_emod]
      rw [wrap_holds ht hv]
      congr 1
      omega
  · have hnat : (v.natAbs : Int) = v := by omega
    have hfit : t.Holds (value (render v.natAbs)) := by rw [hval, hnat]; exact hv
    have hc : c ≠ 45 := not_dash (hd c (by rw [hcr]; simp))
    have key : parseInt t (render v.natAbs) = pure v := by
      have := loop_fits ht hd hl hfit
      rw [hcr] at this ⊢
      rw [parseInt, if_neg hc, this]
      simp only [pure_bind]
      rw [if_pos trivial, ← hcr, hval, hnat]
    rw [renderInt, if_neg hneg, parseValue, if_neg (render_ne _)]
    split
    · exact key
    · rw [hcr] at key ⊢
      rw [parseUnsigned, if_neg hc]
      exact key

example : (⟨true, 32⟩ : Ty).Ok ∧ (⟨true, 32⟩ : Ty).Holds (-2147483647) ∧ (-2147483647 : Int) ≠ -2 ^ ((⟨true, 32⟩ : Ty).bits - 1) :=
  ⟨Or.inr (Or.inr (Or.inl rfl)), by decide, by decide⟩

/-- A text that is accepted consists of a minus sign, for signed types, and digits, at most as many as the type has bits without the
sign, and the result is congruent to the number written; in signed types of 32 and 64 bits it is that number. -/
theorem C61_accepts_partial (t : Ty) (ht : t.Ok) (s : List Nat) (v : Int) (h : parseValue t s = pure v) :
    ∃ (neg : Bool) (ds : List Nat), s = (if neg then [45] else []) ++ ds ∧ s ≠ [] ∧ (neg = true → t.signed = true) ∧
      (∀ c ∈ ds, 48 ≤ c ∧ c ≤ 57) ∧ ds.length ≤ t.digits ∧ t.Holds v ∧
      (v - (if neg then -1 else 1) * value ds) % 2 ^ t.bits = 0 ∧
      (t.signed = true ∧ 32 ≤ t.bits → v = (if neg then -1 else 1) * value ds) := by
  have hnum : ∀ c, isNumber c = true → 48 ≤ c ∧ c ≤ 57 := fun c hc => by simpa [isNumber] using hc
  unfold parseValue at h
  split at h
  · exact absurd h (thrown_ne_pure _)
  rename_i hne
  cases s with
  | nil => exact absurd rfl hne
  | cons c rest =>
    -- both ways end in `parseInt`
    have hp : parseInt t (c :: rest) = pure v ∧ (c = 45 → t.signed = true) := by
      split at h
      · rename_i hs
        exact ⟨h, fun _ => hs⟩
      · rw [parseUnsigned] at h
        split at h
        · exact absurd h (thrown_ne_pure _)
        · rename_i hc
          exact ⟨h, fun e => absurd e hc⟩
    obtain ⟨hp, hsg⟩ := hp
    rw [parseInt] at hp
    by_cases hc : c = 45
    · rw [if_pos hc, if_pos (hsg hc)] at hp
      obtain ⟨⟨r, str⟩, e1, e2⟩ := bind_eq_pure.1 hp
      dsimp only at e2
      obtain ⟨a1, a2, a3, a4⟩ := loop_pure ht e1
      split at e2
      · rename_i hnil
        rw [hnil] at a1
        obtain ⟨b1, b2⟩ := lead_drop a1.symm
        rw [lead_all b1 b2] at a3 a4
        have hcong := arith_congr e2
        refine ⟨true, rest, by simp [hc], by simp, fun _ => hsg hc, fun c hc => hnum c (b1 c hc), b2, ?_, ?_, ?_⟩
        · unfold Ty.arith at e2
          split at e2
          · split at e2
            · rename_i hh
              rw [← pure_inj.1 e2]
              exact hh
            · exact absurd e2 (ub_ne_pure _)
          · rw [← pure_inj.1 e2]
            exact holds_wrap ht _
        · simp only [if_true]
          rw [Int.sub_emod, hcong, ← Int.sub_emod]
          have : r * -1 - -1 * (value rest : Int) = -(r - value rest) := by omega
          rw [this]
          have hd : (2 ^ t.bits : Int) ∣ r - value rest := Int.dvd_of_emod_eq_zero (by rw [Int.sub_emod, a3]; simp)
          exact Int.emod_eq_zero_of_dvd (Int.dvd_neg.2 hd)
        · intro hw
          rw [Ty.arith, if_pos hw] at e2
          split at e2
          · rw [← pure_inj.1 e2, a4 hw]
            simp only [if_true]
            omega
          · exact absurd e2 (ub_ne_pure _)
      · exact absurd e2 (thrown_ne_pure _)
    · rw [if_neg hc] at hp
      obtain ⟨⟨r, str⟩, e1, e2⟩ := bind_eq_pure.1 hp
      dsimp only at e2
      obtain ⟨a1, a2, a3, a4⟩ := loop_pure ht e1
      split at e2
      · rename_i hnil
        rw [hnil] at a1
        obtain ⟨b1, b2⟩ := lead_drop a1.symm
        rw [lead_all b1 b2] at a3 a4
        have hr := pure_inj.1 e2
        subst hr
        refine ⟨false, c :: rest, by simp, by simp, by simp, fun c hc => hnum c (b1 c hc), b2, a2, ?_, ?_⟩
        · simp only [Bool.false_eq_true, if_false, Int.one_mul]
          rw [Int.sub_emod, a3]
          simp
        · intro hw
          simpa using a4 hw
      · exact absurd e2 (thrown_ne_pure _)

example := C61_accepts_partial ⟨true, 32⟩ (.inr (.inr (.inl rfl))) [45, 49, 50] (-12) (by decide +kernel)

/-- Any other text is rejected with an exception if the type is unsigned or has less than 32 bits. -/
theorem C61_rejects_partial (t : Ty) (hw : ¬(t.signed = true ∧ 32 ≤ t.bits)) (s : List Nat)
    (hs : ¬∃ (neg : Bool) (ds : List Nat), s = (if neg then [45] else []) ++ ds ∧ s ≠ [] ∧ (neg = true → t.signed = true) ∧
      (∀ c ∈ ds, 48 ≤ c ∧ c ≤ 57) ∧ ds.length ≤ t.digits) : parseValue t s = thrown := by
  have h0 : t.wrap 0 = 0 := by simp [Ty.wrap]
  unfold parseValue
  split
  · rfl
  cases s with
  | nil => rename_i h; exact absurd rfl h
  | cons c rest =>
    have key : parseInt t (c :: rest) = thrown := by
      rw [parseInt]
      by_cases hc : c = 45
      · rw [if_pos hc]
        by_cases hsg : t.signed = true
        · rw [if_pos hsg, narrow_loop t hw _ _ _ h0]
          simp only [pure_bind]
          split
          · rename_i hd
            obtain ⟨b1, b2⟩ := lead_drop hd
            exact absurd ⟨true, rest, by simp [hc], by simp, fun _ => hsg, fun c hc => by simpa [isNumber] using b1 c hc, b2⟩ hs
          · rfl
        · rw [if_neg hsg]
      · rw [if_neg hc, narrow_loop t hw _ _ _ h0]
        simp only [pure_bind]
        split
        · rename_i hd
          obtain ⟨b1, b2⟩ := lead_drop hd
          exact absurd ⟨false, c :: rest, by simp, by simp, by simp, fun c hc => by simpa [isNumber] using b1 c hc, b2⟩ hs
        · rfl
    split
    · exact key
    · rw [parseUnsigned]
      split
      · rfl
      · exact key

example : ¬∃ (neg : Bool) (ds : List Nat), [49, 120] = (if neg then [45] else []) ++ ds ∧ [49, 120] ≠ [] ∧ (neg = true → (⟨false, 16⟩ : Ty).signed = true) ∧
    (∀ c ∈ ds, 48 ≤ c ∧ c ≤ 57) ∧ ds.length ≤ (⟨false, 16⟩ : Ty).digits := by
  rintro ⟨neg, ds, h, _, hn, hd, _⟩
  cases neg
  · simp only [Bool.false_eq_true, if_false, List.nil_append] at h
    subst h
    have := hd 120 (by simp)
    omega
  · simp at hn

/-- The least value of `int` and of `std::int64_t` overflows while it is read, which is undefined; a minus sign alone is read as zero;
unrepresentable numbers are reduced for unsigned and narrow types and are undefined for the others; and zeros in front of a number can make
it unreadable. -/
theorem C61_violated :
    parseValue ⟨true, 32⟩ (renderInt (-2147483648)) = ub ∧
      parseValue ⟨true, 64⟩ (renderInt (-9223372036854775808)) = ub ∧
      parseValue ⟨true, 32⟩ [45] = pure 0 ∧
      parseValue ⟨false, 32⟩ (renderInt 4294967296) = pure 0 ∧
      parseValue ⟨false, 8⟩ (renderInt 300) = pure 44 ∧
      parseValue ⟨true, 8⟩ (renderInt 200) = pure (-56) ∧
      parseValue ⟨true, 32⟩ (renderInt 2147483648) = ub ∧
      parseValue ⟨true, 8⟩ [48, 48, 48, 48, 48, 48, 48, 49] = thrown := by
  decide +kernel

end Verif.Parse
