import Verif.Algorithm.More
import Verif.Bits.Masks
import Verif.Hash.Bytes
import Verif.Containers.Lists

/-
include/daw/daw_utility.h: small functions on integers, characters, containers and parameter packs.
-/

namespace Verif.Util
open Cxx
open Verif.Bits (IntTy cppLt inRange)
open Verif.Bits.Masks (shl)
open Verif.Hash (Byte leNat)

/-! ## bitcount -/

/-- `bitcount`, daw_utility.h 408-416, for a value of an integer type; `value & ~1` is the greatest even number that is not above the value and
`value >>= 1` rounds down (for negative numbers the rule since C++20 and the behaviour of all compilers before).  The sum is a `size_t`. -/
def bitcount (value : Int) (result : BitVec 64) : Cxx Nat :=
  if value ≠ 0 then bitcount (value / 2) (result + BitVec.ofInt 64 (2 * (value / 2)))
  else pure result.toNat
partial_fixpoint

/-- The number of ones in the binary representation of `n`. (Specification, no line of the source.) -/
def ones : Nat → Nat
  | 0 => 0
  | n + 1 => (n + 1) % 2 + ones ((n + 1) / 2)

theorem ones_step (n : Nat) : ones n = n % 2 + ones (n / 2) := by
  cases n with
  | zero => simp [ones]
  | succ n => rw [ones]

theorem ones_le : ∀ (k n : Nat), n < 2 ^ k → ones n ≤ k := by
  intro k
  induction k with
  | zero => intro n h; have : n = 0 := by omega
            subst this; simp [ones]
  | succ k ih =>
    intro n h
    rw [ones_step]
    have := ih (n / 2) (by rw [Nat.pow_succ] at h; omega)
    omega

theorem ones_le_self : ∀ (b n : Nat), n < b → ones n ≤ n := by
  intro b
  induction b with
  | zero => intro n h; omega
  | succ b ih =>
    intro n h
    by_cases h0 : n = 0
    · subst h0; simp [ones]
    · rw [ones_step]
      have := ih (n / 2) (by omega)
      omega

theorem bitcount_nonneg : ∀ (b n : Nat), n < b → ∀ r : BitVec 64,
    bitcount n r = pure ((r + BitVec.ofNat 64 (2 * (n - ones n))).toNat) := by
  intro b
  induction b with
  | zero => intro n h; omega
  | succ b ih =>
    intro n h r
    rw [bitcount]
    by_cases h0 : n = 0
    · subst h0; simp
    · rw [if_pos (by omega)]
      have e : ((n : Int) / 2) = ((n / 2 : Nat) : Int) := by omega
      rw [e, ih (n / 2) (by omega)]
      congr 2
      have h1 := ones_le_self _ (n / 2) (Nat.lt_succ_self _)
      have h2 := ones_step n
      have h3 : (2 * ((n / 2 : Nat) : Int)) = ((2 * (n / 2) : Nat) : Int) := by omega
      rw [h3, BitVec.ofInt_natCast, BitVec.add_assoc, ← BitVec.ofNat_add]
      congr 2
      omega

theorem bitcount_negative (v : Int) (hv : v < 0) (r : BitVec 64) : bitcount v r = diverge := by
  have key : ∀ v r, v < 0 → bitcount v r = diverge := by
    refine bitcount.fixpoint_induct (motive := fun f => ∀ v r, v < 0 → f v r = diverge) ?_ ?_
    · exact Cxx.admissible2 (fun v r x => v < 0 → x = diverge) (fun _ _ _ => rfl)
    · intro f ih v r hv
      show (if v ≠ 0 then _ else _) = _
      rw [if_pos (by omega)]
      exact ih _ _ (by omega)
  exact key v r hv

/-- C183 does not hold: `bitcount` adds the even part of the value in every turn instead of its last bit.  It returns twice the difference of the
value and the number of ones (in 64 bits), so that 0 and 3 are the only values for which it is right, and never returns for negative values. -/
theorem C183_bitcount_violated (v : Int) (h : v < 2 ^ 64) :
    (v < 0 → bitcount v 0 = diverge) ∧
    (0 ≤ v → bitcount v 0 = pure ((2 * (v.toNat - ones v.toNat)) % 2 ^ 64)) ∧
    (bitcount v 0 = pure (ones v.toNat) → v = 0 ∨ v = 3) := by
  have hp : 0 ≤ v → bitcount v 0 = pure ((2 * (v.toNat - ones v.toNat)) % 2 ^ 64) := by
    intro h0
    have := bitcount_nonneg _ v.toNat (Nat.lt_succ_self _) 0
    rw [show ((v.toNat : Nat) : Int) = v by omega] at this
    rw [this]
    simp
  refine ⟨fun h0 => bitcount_negative v h0 0, hp, ?_⟩
  intro e
  by_cases h0 : 0 ≤ v
  · rw [hp h0] at e
    have e := Cxx.pure_inj.mp e
    have hn : v.toNat < 2 ^ 64 := by omega
    have h64 := ones_le 64 v.toNat hn
    have hs := ones_le_self _ v.toNat (Nat.lt_succ_self _)
    generalize hk : v.toNat = n at *
    have small : ∀ k, k < 97 → 2 * k = 3 * ones k → k = 0 ∨ k = 3 := by decide +kernel
    have large : ∀ k, k < 97 → 2 * k ≠ 3 * ones (2 ^ 63 + k) := by decide +kernel
    obtain ⟨d, hd⟩ : ∃ d, n = ones n + d := ⟨n - ones n, by omega⟩
    rw [show n - ones n = d by omega] at e
    have hd64 : d < 2 ^ 63 → 2 * d % 2 ^ 64 = 2 * d := fun h => Nat.mod_eq_of_lt (by omega)
    have hd63 : 2 ^ 63 ≤ d → 2 * d % 2 ^ 64 = 2 * d - 2 ^ 64 := by
      intro h
      rw [Nat.mod_eq_sub_mod (by omega), Nat.mod_eq_of_lt (by omega)]
    by_cases hl : n < 2 ^ 63
    · have e0 := hd64 (by omega)
      have := small n (by omega) (by omega)
      omega
    · have e0 : 2 ^ 63 ≤ d := by
        rcases Nat.lt_or_ge d (2 ^ 63) with h1 | h1
        · have := hd64 h1; omega
        · exact h1
      have e1 := hd63 e0
      obtain ⟨k, rfl⟩ : ∃ k, n = 2 ^ 63 + k := ⟨n - 2 ^ 63, by omega⟩
      exact absurd (show 2 * k = _ by omega) (large k (by omega))
  · rw [bitcount_negative v (by omega) 0] at e
    exact absurd e (Cxx.diverge_ne_pure _)

/-- C183, as far as it holds: 0 and 3.  Missing: all other values, see `C183_bitcount_violated`. -/
theorem C183_bitcount_partial : bitcount 0 0 = pure (ones 0) ∧ bitcount 3 0 = pure (ones 3) := by
  refine ⟨?_, ?_⟩
  · rw [(C183_bitcount_violated 0 (by decide)).2.1 (by decide)]; decide +kernel
  · rw [(C183_bitcount_violated 3 (by decide)).2.1 (by decide)]; decide +kernel

example : bitcount 255 0 = pure 494 := by rw [(C183_bitcount_violated 255 (by decide)).2.1 (by decide)]; decide +kernel
example : ones 255 = 8 := by decide +kernel

/-! ## can_fit, narrow_cast and in_range -/

/-- `can_fit<R>`, daw_utility.h 424-437. -/
def canFit (r t : IntTy) (x : Int) : Bool :=
  if !cppLt t .int x 0 then !cppLt r t r.max x
  else if r.signed then !cppLt t r x r.lowest
  else false

/-- `narrow_cast<R>`, daw_utility.h 868-878. -/
def narrowCast (r t : IntTy) (x : Int) : Cxx Int := if inRange r t x then pure (r.conv x) else thrown

/-- `in_range( value, lower, upper )`, daw_utility.h 807-814, for integers of any types. -/
def inBounds (tv tl tu : IntTy) (value lower upper : Int) : Bool := !cppLt tv tl value lower && cppLt tv tu value upper

theorem common_nonneg {t u : IntTy} {x : Int} (hx : t.Has x) (h0 : 0 ≤ x) : (t.common u).Has x := by
  have hp := hx.promote
  have hm : u.promote.signed = false → u.promote.bits < t.promote.bits ∨ t.promote.bits ≤ u.promote.bits := fun _ => by omega
  unfold IntTy.common
  simp only []
  generalize t.promote = t' at hp hm ⊢
  generalize u.promote = u' at hm ⊢
  by_cases hs : t'.signed = u'.signed
  · rw [if_pos hs]
    split
    · exact hp
    · exact hp.widen hs (by omega)
  · rw [if_neg hs]
    by_cases ht : t'.signed = true
    · have hu : u'.signed = false := by
        cases hu : u'.signed
        · rfl
        · exact absurd (ht.trans hu.symm) hs
      rw [if_pos ht]
      split
      · rename_i hb
        exact (hp.unsigned h0).widen (by simp [IntTy.unsigned, hu]) hb
      · exact hp
    · have ht : t'.signed = false := by simpa using ht
      have hu : u'.signed = true := by
        cases hu : u'.signed
        · exact absurd (ht.trans hu.symm) hs
        · rfl
      rw [if_neg (by simp [ht])]
      split
      · exact hp
      · exact hp.toSigned ht hu (by omega)

theorem common_comm_has {t u : IntTy} {y : Int} (hy : u.Has y) (h0 : 0 ≤ y) : (t.common u).Has y := by
  have h := common_nonneg (u := t) hy h0
  have e : ∀ z, (u.common t).Has z → (t.common u).Has z := by
    intro z hz
    unfold IntTy.common at hz ⊢
    simp only [] at hz ⊢
    generalize t.promote = t' at hz ⊢
    generalize u.promote = u' at hz ⊢
    by_cases hs : t'.signed = u'.signed
    · rw [if_pos hs.symm] at hz
      rw [if_pos hs]
      split at hz <;> split
      · exact hz.widen hs.symm (by assumption)
      · exact hz
      · exact hz
      · omega
    · rw [if_neg (fun h => hs h.symm)] at hz
      rw [if_neg hs]
      cases ht : t'.signed <;> cases hu : u'.signed
      · exact absurd (ht.trans hu.symm) hs
      · simp only [hu, if_true, Bool.false_eq_true, if_false] at hz ⊢
        exact hz
      · simp only [hu, if_true, Bool.false_eq_true, if_false] at hz ⊢
        exact hz
      · exact absurd (ht.trans hu.symm) hs
  exact e y h

theorem cppLt_nonneg {t u : IntTy} {x y : Int} (hx : t.Has x) (hy : u.Has y) (hx0 : 0 ≤ x) (hy0 : 0 ≤ y) :
    cppLt t u x y = decide (x < y) := by
  rw [cppLt, IntTy.conv_of_has (common_nonneg hx hx0), IntTy.conv_of_has (common_comm_has hy hy0)]

theorem max_nonneg (r : IntTy) : 0 ≤ r.max := by
  have h1 := Bits.two_pow_pos (r.bits - 1)
  have h2 := Bits.two_pow_pos r.bits
  unfold IntTy.max
  split <;> omega

theorem lowest_nonpos (r : IntTy) : r.lowest ≤ 0 := by
  have h1 := Bits.two_pow_pos (r.bits - 1)
  unfold IntTy.lowest
  split <;> omega

theorem negative_test (t : IntTy) (x : Int) (hx : t.Has x) : cppLt t .int x 0 = decide (x < 0) := by
  cases hs : t.signed
  · exact cppLt_nonneg hx (by decide) (hx.nonneg hs) (by omega)
  · exact Bits.cppLt_zero hx hs

/-- C184: `can_fit<R>( x )` tells whether the type `R` has the value `x`, for any two integer types. -/
theorem C184_can_fit (r t : IntTy) (x : Int) (hx : t.Has x) : canFit r t x = true ↔ r.Has x := by
  unfold canFit
  rw [negative_test t x hx]
  by_cases h0 : x < 0
  · have ht : t.signed = true := by
      cases ht : t.signed
      · exact absurd (hx.nonneg ht) (by omega)
      · rfl
    have hm := max_nonneg r
    rw [if_neg (by simp [h0])]
    cases hr : r.signed
    · simp only [Bool.false_eq_true, if_false, false_iff]
      intro h
      exact absurd (h.nonneg hr) (by omega)
    · rw [if_pos rfl, Bits.cppLt_of_same hx r.has_lowest (ht.trans hr.symm)]
      unfold IntTy.Has
      simp only [Bool.not_eq_true', decide_eq_false_iff_not]
      omega
  · rw [if_pos (by simp [h0]), cppLt_nonneg r.has_max hx (max_nonneg r) (by omega)]
    have hl := lowest_nonpos r
    unfold IntTy.Has
    simp only [Bool.not_eq_true', decide_eq_false_iff_not]
    omega

example : canFit ⟨8, false, by decide⟩ .int 255 = true := (C184_can_fit _ _ 255 (by decide)).2 (by decide)

/-- C184: `narrow_cast<R>( x )` returns `x` if the type `R` has this value and throws otherwise. -/
theorem C184_narrow_cast (r t : IntTy) (x : Int) (hx : t.Has x) :
    (r.Has x → narrowCast r t x = pure x) ∧ (¬ r.Has x → narrowCast r t x = thrown) := by
  unfold narrowCast
  rw [Bits.C40_in_range r t x hx]
  refine ⟨fun h => ?_, fun h => ?_⟩
  · rw [if_pos (by simpa using h), IntTy.conv_of_has h]
  · rw [if_neg (by simpa using h)]

example : canFit ⟨8, false, by decide⟩ .int 255 = true ∧ canFit ⟨8, false, by decide⟩ .int 256 = false ∧ canFit .int .uint 4294967295 = false ∧
    canFit .uint .int (-1) = false := by decide
example : narrowCast ⟨8, true, by decide⟩ .int (-128) = pure (-128) ∧ narrowCast ⟨8, true, by decide⟩ .uint 128 = thrown :=
  ⟨by decide +kernel, by decide +kernel⟩

/-- C191, as far as it holds: `in_range( value, lower, upper )` tells whether `lower <= value < upper` if the three types are all signed or all
unsigned, or no value is negative.  Missing: negative values compared with unsigned ones, see `C191_in_range_violated`. -/
theorem C191_in_range_partial (tv tl tu : IntTy) (v l u : Int) (hv : tv.Has v) (hl : tl.Has l) (hu : tu.Has u)
    (h : (tv.signed = tl.signed ∧ tv.signed = tu.signed) ∨ (0 ≤ v ∧ 0 ≤ l ∧ 0 ≤ u)) :
    inBounds tv tl tu v l u = true ↔ l ≤ v ∧ v < u := by
  unfold inBounds
  rcases h with ⟨h1, h2⟩ | ⟨h1, h2, h3⟩
  · rw [Bits.cppLt_of_same hv hl h1, Bits.cppLt_of_same hv hu h2]
    simp
  · rw [cppLt_nonneg hv hl h1 h2, cppLt_nonneg hv hu h1 h3]
    simp

example := C191_in_range_partial .int .int .int (-3) (-5) 4 (by decide) (by decide) (by decide) (.inl (by decide))

/-- C191 does not hold for all values: `in_range( 5u, -1, 10 )` is false, the lower bound becomes 4294967295. `in_range( -1, -5, 10u )` is false
too, the value becomes 4294967295. -/
theorem C191_in_range_violated :
    inBounds .uint .int .int 5 (-1) 10 = false ∧ inBounds .int .int .uint (-1) (-5) 10 = false ∧ inBounds .int .int .int 5 (-1) 10 = true := by
  decide

/-! ## Upper and lower case -/

/-- The value of a `char`, which is signed on some platforms. (Rule of C++ or its library, no line of the source.) -/
def charVal (signed : Bool) (c : Byte) : Int := if signed then c.toInt else c.toNat

/-- `AsciiUpper( char )`, daw_utility.h 298-304. -/
def asciiUpper (signed : Bool) (c : Byte) : Byte :=
  if 97 ≤ charVal signed c ∧ charVal signed c ≤ 122 then (c.setWidth 32 &&& ~~~32#32).setWidth 8 else c

/-- `AsciiLower( char )`, daw_utility.h 306-312. -/
def asciiLower (signed : Bool) (c : Byte) : Byte :=
  if 65 ≤ charVal signed c ∧ charVal signed c ≤ 90 then (c.setWidth 32 ||| 32#32).setWidth 8 else c

/-- A `char` as a character of a wider type. (Rule of C++ or its library, no line of the source.) -/
def widen (signed : Bool) (w : Nat) (c : Byte) : BitVec w := if signed then c.signExtend w else c.setWidth w

/-- `AsciiUpper` of a string whose characters have `w` bits, daw_utility.h 314-322: each character is converted to `char` for the call and the result
back. -/
def upperString (signed : Bool) {w : Nat} (s : List (BitVec w)) : Cxx (List (BitVec w)) := do
  let (s, _) ← Algorithm.transform (fun c => widen signed w (asciiUpper signed (c.setWidth 8))) s 0 s.length 0
  pure s

/-- `AsciiLower` of a string, daw_utility.h 324-332. -/
def lowerString (signed : Bool) {w : Nat} (s : List (BitVec w)) : Cxx (List (BitVec w)) := do
  let (s, _) ← Algorithm.transform (fun c => widen signed w (asciiLower signed (c.setWidth 8))) s 0 s.length 0
  pure s

/-- C185: `AsciiUpper` turns the small letters a to z into the capital letters A to Z and `AsciiLower` back; all other characters, also those
above 127, stay as they are. -/
theorem C185_ascii (signed : Bool) (c : Byte) :
    (asciiUpper signed c).toNat = (if 97 ≤ c.toNat ∧ c.toNat ≤ 122 then c.toNat - 32 else c.toNat) ∧
    (asciiLower signed c).toNat = (if 65 ≤ c.toNat ∧ c.toNat ≤ 90 then c.toNat + 32 else c.toNat) := by
  have h : ∀ (signed : Bool) (c : Byte),
    (asciiUpper signed c).toNat = (if 97 ≤ c.toNat ∧ c.toNat ≤ 122 then c.toNat - 32 else c.toNat) ∧
    (asciiLower signed c).toNat = (if 65 ≤ c.toNat ∧ c.toNat ≤ 90 then c.toNat + 32 else c.toNat) := by decide +kernel
  exact h signed c

theorem transform_whole {α : Type} (f : α → α) (s : List α) :
    Algorithm.transform f s 0 s.length 0 = pure (s.map f, s.length) := by
  obtain ⟨ys, h, hl, hk, _⟩ := Algorithm.C78_transform f s.length s.length s 0 0 (by omega) (by omega) (by omega) (by omega) (by omega)
  rw [h]
  have : ys = s.map f := by
    apply List.ext_getElem?
    intro i
    by_cases hi : i < s.length
    · have := hk i (by omega)
      simpa using this
    · rw [List.getElem?_eq_none (by omega), List.getElem?_eq_none (by simp; omega)]
  rw [this]
  simp

/-- C185, strings, as far as it holds: the characters are of type `char`, or have no values above 127: the small letters become capital letters, or
the other way round, all other characters stay.  Missing: other characters of wider types, see `C185_wide_violated`. -/
theorem C185_strings_partial (signed : Bool) {w : Nat} (s : List (BitVec w)) (h : w = 8 ∨ (8 ≤ w ∧ ∀ c ∈ s, c.toNat < 128)) :
    (∃ t, upperString signed s = pure t ∧
      t.map (·.toNat) = s.map fun c => if 97 ≤ c.toNat ∧ c.toNat ≤ 122 then c.toNat - 32 else c.toNat) ∧
    (∃ t, lowerString signed s = pure t ∧
      t.map (·.toNat) = s.map fun c => if 65 ≤ c.toNat ∧ c.toNat ≤ 90 then c.toNat + 32 else c.toNat) := by
  have hw8 : 8 ≤ w := by omega
  -- a byte that stays below 128 is widened without change
  have wid : ∀ b : Byte, (w = 8 ∨ b.toNat < 128) → (widen signed w b).toNat = b.toNat := by
    intro b hb
    unfold widen
    split
    · rcases hb with rfl | hb
      · simp
      · have : b.msb = false := by
          rw [BitVec.msb_eq_false_iff_two_mul_lt]; omega
        rw [BitVec.toNat_signExtend, this]
        simp only [Bool.false_eq_true, if_false, Nat.add_zero, BitVec.toNat_setWidth]
        exact Nat.mod_eq_of_lt (Nat.lt_of_lt_of_le b.isLt (Nat.pow_le_pow_right (by omega) hw8))
    · rw [BitVec.toNat_setWidth]
      exact Nat.mod_eq_of_lt (Nat.lt_of_lt_of_le b.isLt (Nat.pow_le_pow_right (by omega) hw8))
  have nar : ∀ c ∈ s, (c.setWidth 8).toNat = c.toNat ∧ (w = 8 ∨ c.toNat < 128) := by
    intro c hc
    rw [BitVec.toNat_setWidth]
    rcases h with rfl | ⟨_, h⟩
    · exact ⟨Nat.mod_eq_of_lt c.isLt, .inl rfl⟩
    · have := h c hc
      exact ⟨Nat.mod_eq_of_lt (by omega), .inr this⟩
  refine ⟨⟨s.map fun c => widen signed w (asciiUpper signed (c.setWidth 8)), ?_, ?_⟩,
    ⟨s.map fun c => widen signed w (asciiLower signed (c.setWidth 8)), ?_, ?_⟩⟩
  · unfold upperString
    rw [transform_whole]
    rfl
  · rw [List.map_map]
    apply List.map_congr_left
    intro c hc
    obtain ⟨e, hc⟩ := nar c hc
    have a := (C185_ascii signed (c.setWidth 8)).1
    rw [e] at a
    simp only [Function.comp]
    rw [wid _ (by rcases hc with hc | hc; exact .inl hc; right; rw [a]; split <;> omega), a]
  · unfold lowerString
    rw [transform_whole]
    rfl
  · rw [List.map_map]
    apply List.map_congr_left
    intro c hc
    obtain ⟨e, hc⟩ := nar c hc
    have a := (C185_ascii signed (c.setWidth 8)).2
    rw [e] at a
    simp only [Function.comp]
    rw [wid _ (by rcases hc with hc | hc; exact .inl hc; right; rw [a]; split <;> omega), a]

/-- C185 does not hold for wider characters: `AsciiUpper` of a string of 16 bit characters turns U+0161 into the letter A. -/
theorem C185_wide_violated (signed : Bool) :
    upperString signed [0x161#16, 0x62#16] = pure [0x41#16, 0x42#16] ∧ lowerString signed [0x141#16] = pure [0x61#16] := by
  unfold upperString lowerString
  rw [transform_whole, transform_whole]
  refine ⟨?_, ?_⟩
  · cases signed <;> decide +kernel
  · cases signed <;> decide +kernel

example (signed : Bool) : ∃ t, upperString signed [0x61#8, 0xE4#8] = pure t ∧ t.map (·.toNat) = [0x41, 0xE4] :=
  (C185_strings_partial signed [0x61#8, 0xE4#8] (.inl rfl)).1

/-! ## hex -/

/-- An output iterator for characters: a position of a block of characters, or a `std::back_insert_iterator` of a string.
(Rule of C++ or its library, no line of the source.) -/
inductive Sink
  | memory (mem : List Byte) (pos : Nat)
  | back (text : List Byte)
  deriving DecidableEq

/-- `*it = c`. (Rule of C++ or its library, no line of the source.) -/
def Sink.put : Sink → Byte → Cxx Sink
  | .memory mem pos, c => do
    let mem ← wr mem pos c
    pure (.memory mem pos)
  | .back text, c => pure (.back (text ++ [c]))

/-- `++it`; without effect for a `std::back_insert_iterator`. (Rule of C++ or its library, no line of the source.) -/
def Sink.next : Sink → Sink
  | .memory mem pos => .memory mem (pos + 1)
  | .back text => .back text

/-- `get_nibble`, daw_utility.h 469-475. -/
def getNibble (c : Byte) : Byte :=
  let c := c &&& 0x0F#8
  if c.toNat < 10 then 48#8 + c else 65#8 + (c - 10#8)

/-- `get_lc_nibble`, daw_utility.h 477-483. -/
def getLcNibble (c : Byte) : Byte :=
  let c := c &&& 0x0F#8
  if c.toNat < 10 then 48#8 + c else 97#8 + (c - 10#8)

/-- `hex( char, out )`, daw_utility.h 486-495. -/
def hexChar (c : Byte) (out : Sink) : Cxx Sink := do
  let out ← out.put (getNibble (c >>> 4))
  let out ← out.next.put (getNibble (c &&& 0x0F#8))
  pure out.next

/-- `hex_lc( char, out )`, daw_utility.h 497-506. -/
def hexLc (c : Byte) (out : Sink) : Cxx Sink := do
  let out ← out.put (getLcNibble (c >>> 4))
  let out ← out.next.put (getLcNibble (c &&& 0x0F#8))
  pure out.next

/-- `hex( T const &, out )` for integers of `n` bytes, daw_utility.h 508-516. -/
def hexInt (val : Int) : Nat → Sink → Cxx Sink
  | 0, out => pure out
  | n + 1, out => do
    let out ← hexChar (BitVec.ofInt 8 (val / 2 ^ (8 * n))) out
    hexInt val n out

/-- `hex( first, last, out )` for integers of `n` bytes, daw_utility.h 532-545; the input does not overlap the output here. -/
def hexInts (n : Nat) : List Int → Sink → Cxx Sink
  | [], out => pure out
  | v :: vs, out => do
    let out ← hexInt v n out
    hexInts n vs out

/-- `hex( str, len, out )`, daw_utility.h 547-554, from position `i` on, `k` characters to go. -/
def hexStr (str : List Byte) (i : Nat) : Nat → Sink → Cxx Sink
  | 0, out => pure out
  | k + 1, out => do
    let c ← rd str i
    let out ← hexChar c out
    hexStr str (i + 1) k out

/-- `hex( char const (&)[N], out )`, daw_utility.h 556-560. -/
def hexLiteral (str : List Byte) (out : Sink) : Cxx Sink := hexStr str 0 (str.length - 1) out

/-- `hex( T const &, out )` for other types, daw_utility.h 518-530, given the bytes of the object. -/
def hexObject : List Byte → Sink → Cxx Sink
  | [], out => pure out
  | b :: bs, out => do
    let out ← hexChar b out
    hexObject bs out.next

/-- `hex( first, last, out )` for other types, daw_utility.h 562-575, with `out` a position of a block of characters: `*first_out` is encoded. -/
def hexObjects : List (List Byte) → List Byte → Nat → Cxx (List Byte × Nat)
  | [], mem, pos => pure (mem, pos)
  | _ :: os, mem, pos => do
    let c ← rd mem pos
    match ← hexChar c (.memory mem pos) with
    | .memory mem pos => hexObjects os mem pos
    | .back _ => ub

/-- The value of a hexadecimal digit. (Specification, no line of the source.) -/
def digit? (letter : Nat) (c : Byte) : Option Nat :=
  if 48 ≤ c.toNat ∧ c.toNat ≤ 57 then some (c.toNat - 48)
  else if letter ≤ c.toNat ∧ c.toNat < letter + 6 then some (c.toNat - letter + 10)
  else none

/-- The bytes a text of hexadecimal digits stands for, two digits for each; `letter` is the code of the digit for ten: 65 for capital letters.
(Specification, no line of the source.) -/
def unhex (letter : Nat) : List Byte → Option (List Byte)
  | [] => some []
  | [_] => none
  | a :: b :: text =>
    match digit? letter a, digit? letter b, unhex letter text with
    | some x, some y, some bs => some (BitVec.ofNat 8 (16 * x + y) :: bs)
    | _, _, _ => none

/-- Storing a text at an output iterator. (Specification, no line of the source.) -/
def Stores (out : Sink) (text : List Byte) (r : Cxx Sink) : Prop :=
  match out with
  | .back old => r = pure (.back (old ++ text))
  | .memory mem pos =>
    if pos + text.length ≤ mem.length then
      r = pure (.memory (mem.take pos ++ text ++ mem.drop (pos + text.length)) (pos + text.length))
    else r = ub

theorem stores_nil (out : Sink) (h : ∀ mem pos, out = .memory mem pos → pos ≤ mem.length) : Stores out [] (pure out) := by
  cases out with
  | back t => simp [Stores]
  | memory mem pos =>
    have := h mem pos rfl
    simp [Stores, this]

theorem stores_put (out : Sink) (c : Byte) (text : List Byte) (r : Sink → Cxx Sink)
    (h : ∀ o, out.put c = pure o → Stores o.next text (r o.next)) : Stores out (c :: text) (out.put c >>= fun o => r o.next) := by
  cases out with
  | back t =>
    have := h _ rfl
    simp only [Sink.next, Stores] at this
    simp only [Stores, Sink.put, pure_bind, Sink.next]
    rw [this]
    simp
  | memory mem pos =>
    unfold Stores
    by_cases hp : pos < mem.length
    · have e : (Sink.memory mem pos).put c = pure (.memory (mem.set pos c) pos) := by
        simp only [Sink.put, wr_eq hp, pure_bind]
      have := h _ e
      rw [e, pure_bind]
      simp only [Sink.next, Stores, List.length_set] at this
      simp only [Sink.next, List.length_cons]
      by_cases hl : pos + 1 + text.length ≤ mem.length
      · rw [if_pos hl] at this
        rw [if_pos (by omega), this]
        have e1 : (mem.set pos c).take (pos + 1) = mem.take pos ++ [c] := by
          rw [List.take_set, List.set_eq_take_append_cons_drop, List.length_take, if_pos (by omega), List.take_take,
            List.drop_eq_nil_of_le (by rw [List.length_take]; omega)]
          simp [Nat.min_eq_left]
        have e2 : (mem.set pos c).drop (pos + 1 + text.length) = mem.drop (pos + (text.length + 1)) := by
          rw [List.drop_set_of_lt (by omega)]
          congr 1
          omega
        rw [e1, e2, show pos + 1 + text.length = pos + (text.length + 1) by omega]
        simp
      · rw [if_neg hl] at this
        rw [if_neg (by omega), this]
    · have e : (Sink.memory mem pos).put c = ub := by
        simp only [Sink.put, wr_oob (show mem.length ≤ pos by omega), ub_bind]
      rw [e, ub_bind]
      show (if pos + (c :: text).length ≤ mem.length then _ else _)
      rw [if_neg (by simp only [List.length_cons]; omega)]

/-- An output iterator that is no position behind the end of its block. (Specification, no line of the source.) -/
def Sink.Valid : Sink → Prop
  | .memory mem pos => pos ≤ mem.length
  | .back _ => True

theorem Sink.Valid.put {out o : Sink} {c : Byte} (h : out.put c = pure o) : o.next.Valid := by
  cases out with
  | back t =>
    rw [← Cxx.pure_inj.mp h]
    trivial
  | memory mem pos =>
    by_cases hp : pos < mem.length
    · rw [Sink.put, wr_eq hp, pure_bind] at h
      rw [← Cxx.pure_inj.mp h]
      show pos + 1 ≤ (mem.set pos c).length
      rw [List.length_set]; omega
    · rw [Sink.put, wr_oob (by omega), ub_bind] at h
      exact absurd h (Cxx.ub_ne_pure _)

theorem stores_nil' {out : Sink} (h : out.Valid) : Stores out [] (pure out) :=
  stores_nil out (by rintro mem pos rfl; exact h)

theorem stores_two {out : Sink} (a b : Byte) (text : List Byte) (r : Sink → Cxx Sink)
    (h : ∀ o : Sink, o.Valid → Stores o text (r o)) :
    Stores out (a :: b :: text) (out.put a >>= fun o => o.next.put b >>= fun o => r o.next) := by
  refine stores_put out a (b :: text) (fun o => o.put b >>= fun o => r o.next) ?_
  intro o _
  exact stores_put o.next b text r (fun o' h' => h _ (Sink.Valid.put h'))

/-- The text `hex` stores for one byte. (Specification, no line of the source.) -/
def pair (c : Byte) : List Byte := [getNibble (c >>> 4), getNibble (c &&& 0x0F#8)]

theorem hexChar_then {out : Sink} (c : Byte) (text : List Byte) (r : Sink → Cxx Sink)
    (h : ∀ o : Sink, o.Valid → Stores o text (r o)) : Stores out (pair c ++ text) (hexChar c out >>= r) := by
  have := stores_two (out := out) (getNibble (c >>> 4)) (getNibble (c &&& 0x0F#8)) text r h
  simpa [hexChar, pair, bind_assoc] using this

theorem unhex_pair (c : Byte) (text : List Byte) : unhex 65 (pair c ++ text) = (unhex 65 text).map (c :: ·) := by
  have h : ∀ c : Byte, (digit? 65 (getNibble (c >>> 4))) = some (c.toNat / 16) ∧
      (digit? 65 (getNibble (c &&& 0x0F#8))) = some (c.toNat % 16) := by decide +kernel
  obtain ⟨h1, h2⟩ := h c
  show unhex 65 (_ :: _ :: text) = _
  rw [unhex, h1, h2]
  cases unhex 65 text with
  | none => rfl
  | some bs =>
    simp only [Option.map_some]
    rw [show 16 * (c.toNat / 16) + c.toNat % 16 = c.toNat by omega]
    simp

theorem unhex_pairs (cs : List Byte) : unhex 65 (cs.flatMap pair) = some cs := by
  induction cs with
  | nil => rfl
  | cons c cs ih => rw [List.flatMap_cons, unhex_pair, ih]; rfl

theorem length_pairs (cs : List Byte) : (cs.flatMap pair).length = 2 * cs.length := by
  induction cs with
  | nil => rfl
  | cons c cs ih => simp only [List.flatMap_cons, List.length_append, ih, List.length_cons, pair, List.length_nil]; omega

/-- C186: `hex` and `hex_lc` of a character store the two hexadecimal digits of its code, with capital and with small letters. -/
theorem C186_char (c : Byte) (out : Sink) :
    (∃ text, unhex 65 text = some [c] ∧ text.length = 2 ∧ Stores out text (hexChar c out)) ∧
    (∃ text, unhex 97 text = some [c] ∧ text.length = 2 ∧ Stores out text (hexLc c out)) := by
  refine ⟨⟨[c].flatMap pair, unhex_pairs [c], by rw [length_pairs]; rfl, ?_⟩,
    ⟨[getLcNibble (c >>> 4), getLcNibble (c &&& 0x0F#8)], ?_, rfl, ?_⟩⟩
  · have := hexChar_then (out := out) c [] pure (fun o ho => stores_nil' ho)
    simpa using this
  · have h : ∀ c : Byte, unhex 97 [getLcNibble (c >>> 4), getLcNibble (c &&& 0x0F#8)] = some [c] := by decide +kernel
    exact h c
  · exact stores_two (out := out) _ _ [] pure (fun o ho => stores_nil' ho)

/-- The bytes of an integer, the most significant one first. (Specification, no line of the source.) -/
def bytesOf (val : Int) : Nat → List Byte
  | 0 => []
  | n + 1 => BitVec.ofInt 8 (val / 2 ^ (8 * n)) :: bytesOf val n

theorem length_bytesOf (val : Int) (n : Nat) : (bytesOf val n).length = n := by
  induction n with
  | zero => rfl
  | succ n ih => rw [bytesOf, List.length_cons, ih]

theorem leNat_bytesOf (val : Int) : ∀ n : Nat, ((leNat (bytesOf val n).reverse : Nat) : Int) = val % 2 ^ (8 * n) := by
  intro n
  induction n with
  | zero =>
    simp [bytesOf, leNat]
  | succ n ih =>
    rw [bytesOf, List.reverse_cons, Hash.leNat_append, List.length_reverse, length_bytesOf]
    have e : ((BitVec.ofInt 8 (val / 2 ^ (8 * n))).toNat : Int) = (val / 2 ^ (8 * n)) % 256 := by
      rw [BitVec.toNat_ofInt]
      have : (0 : Int) ≤ (val / 2 ^ (8 * n)) % 256 := Int.emod_nonneg _ (by decide)
      simp only [show ((2 ^ 8 : Nat) : Int) = 256 from rfl]
      omega
    have e2 : ((256 ^ n : Nat) : Int) = 2 ^ (8 * n) := by
      rw [Int.pow_mul]
      simp
    simp only [leNat, Nat.mul_zero, Nat.add_zero]
    rw [Int.natCast_add, ih, Int.natCast_mul, e, e2]
    have e3 : (2 : Int) ^ (8 * (n + 1)) = 2 ^ (8 * n) * 256 := by
      rw [show 8 * (n + 1) = 8 * n + 8 by omega, Int.pow_add]
      rfl
    rw [e3]
    have hP := Bits.two_pow_pos (8 * n)
    generalize (2 : Int) ^ (8 * n) = P at hP ⊢
    have h1 := Int.mul_ediv_add_emod val P
    have h2 := Int.mul_ediv_add_emod (val / P) 256
    have h3 := Int.emod_nonneg val (show P ≠ 0 by omega)
    have h4 := Int.emod_lt_of_pos val hP
    have h5 := Int.emod_nonneg (val / P) (show (256 : Int) ≠ 0 by decide)
    have h6 := Int.emod_lt_of_pos (val / P) (show (0 : Int) < 256 by decide)
    generalize val / P = q at h1 h2 h5 h6 ⊢
    generalize val % P = r at h1 h3 h4 ⊢
    generalize q % 256 = s at h2 h5 h6 ⊢
    generalize q / 256 = u at h2
    subst h2
    have hv : val = (r + P * s) + P * 256 * u := by
      rw [← h1, Int.mul_add, Int.mul_assoc]; omega
    rw [hv, Int.add_mul_emod_self_left, Int.emod_eq_of_lt]
    · have := Int.mul_nonneg (Int.le_of_lt hP) h5; omega
    · have := Int.mul_le_mul_of_nonneg_left (show s ≤ 255 by omega) (Int.le_of_lt hP)
      omega

theorem hexInt_stores (val : Int) : ∀ (n : Nat) (out : Sink), out.Valid → Stores out ((bytesOf val n).flatMap pair) (hexInt val n out) := by
  intro n
  induction n with
  | zero => intro out ho; exact stores_nil' ho
  | succ n ih =>
    intro out _
    rw [bytesOf, List.flatMap_cons, hexInt]
    exact hexChar_then _ _ _ ih

/-- C186: `hex` of an integer of `n` bytes stores `2 * n` hexadecimal digits with capital letters that stand for the value, modulo `2^(8n)`, the
most significant byte first. -/
theorem C186_integer (val : Int) (n : Nat) (out : Sink) (ho : out.Valid) :
    ∃ text bytes, unhex 65 text = some bytes ∧ text.length = 2 * n ∧ ((leNat bytes.reverse : Nat) : Int) = val % 2 ^ (8 * n) ∧
      Stores out text (hexInt val n out) :=
  ⟨(bytesOf val n).flatMap pair, bytesOf val n, unhex_pairs _, by rw [length_pairs, length_bytesOf], leNat_bytesOf val n,
    hexInt_stores val n out ho⟩

example := C186_integer (-2) 3 (.memory [0#8, 0#8, 0#8] 1) (by simp [Sink.Valid])

/-- C186: `hex` of a range of integers stores their texts one after the other. -/
theorem C186_integers (n : Nat) : ∀ (vs : List Int) (out : Sink), out.Valid →
    ∃ texts : List (List Byte), texts.length = vs.length ∧ Stores out texts.flatten (hexInts n vs out) ∧
      ∀ (i : Nat) (v : Int) (text : List Byte), vs[i]? = some v → texts[i]? = some text →
        ∃ bytes, unhex 65 text = some bytes ∧ text.length = 2 * n ∧ ((leNat bytes.reverse : Nat) : Int) = v % 2 ^ (8 * n) := by
  intro vs out ho
  have key : ∀ (vs : List Int) (out : Sink), out.Valid →
      Stores out (vs.map fun v => (bytesOf v n).flatMap pair).flatten (hexInts n vs out) := by
    intro vs
    induction vs with
    | nil => intro out ho; exact stores_nil' ho
    | cons v vs ih =>
      intro out _ho
      rw [List.map_cons, List.flatten_cons, hexInts]
      have step : ∀ (k : Nat) (out : Sink), out.Valid →
          Stores out ((bytesOf v k).flatMap pair ++ (vs.map fun v => (bytesOf v n).flatMap pair).flatten)
            (hexInt v k out >>= hexInts n vs) := by
        intro k
        induction k with
        | zero => intro out ho; simpa [bytesOf, hexInt] using ih out ho
        | succ k ihk =>
          intro out _
          rw [bytesOf, List.flatMap_cons, hexInt, bind_assoc, List.append_assoc]
          exact hexChar_then _ _ _ ihk
      exact step n out _ho
  refine ⟨vs.map fun v => (bytesOf v n).flatMap pair, by simp, key vs out ho, ?_⟩
  intro i v text hv ht
  rw [List.getElem?_map, hv] at ht
  injection ht with ht
  subst ht
  exact ⟨bytesOf v n, unhex_pairs _, by rw [length_pairs, length_bytesOf], leNat_bytesOf v n⟩

/-- C186: `hex` of the first `len` characters of a string, and of a literal without its terminating zero, stores the digits of all the characters. -/
theorem C186_string (str : List Byte) (len : Nat) (hl : len ≤ str.length) (out : Sink) (ho : out.Valid) :
    (∃ text, unhex 65 text = some (str.take len) ∧ text.length = 2 * len ∧ Stores out text (hexStr str 0 len out)) ∧
    (∀ z, ∃ text, unhex 65 text = some str ∧ text.length = 2 * str.length ∧ Stores out text (hexLiteral (str ++ [z]) out)) := by
  have key : ∀ (str : List Byte) (k i : Nat) (out : Sink), out.Valid → i + k ≤ str.length →
      Stores out (((str.drop i).take k).flatMap pair) (hexStr str i k out) := by
    intro str k
    induction k with
    | zero => intro i out ho _; simpa [hexStr] using stores_nil' ho
    | succ k ih =>
      intro i out _ h
      rw [hexStr, rd_eq (by omega), pure_bind, List.drop_eq_getElem_cons (by omega), List.take_succ_cons, List.flatMap_cons]
      exact hexChar_then _ _ _ (fun o ho => ih (i + 1) o ho (by omega))
  refine ⟨⟨(str.take len).flatMap pair, unhex_pairs _, by rw [length_pairs, List.length_take]; omega, ?_⟩, fun z =>
    ⟨str.flatMap pair, unhex_pairs _, length_pairs _, ?_⟩⟩
  · have := key str len 0 out ho (by omega)
    simpa using this
  · have := key (str ++ [z]) str.length 0 out ho (by simp)
    unfold hexLiteral
    simpa using this

example : hexInt 0xBEEF 2 (.back []) = pure (.back [0x42#8, 0x45#8, 0x45#8, 0x46#8]) := by decide +kernel
example : hexInt (-2) 1 (.memory [0#8, 0#8, 0#8] 1) = pure (.memory [0#8, 0x46#8, 0x45#8] 3) := by decide +kernel
example : hexLiteral [0x6A#8, 0#8] (.back []) = pure (.back [0x36#8, 0x41#8]) := by decide +kernel

theorem hexObject_back (bs : List Byte) : ∀ old : List Byte, hexObject bs (.back old) = pure (.back (old ++ bs.flatMap pair)) := by
  induction bs with
  | nil => intro old; simp [hexObject]
  | cons b bs ih =>
    intro old
    have h : hexChar b (.back old) = pure (.back (old ++ pair b)) := by
      simp [hexChar, Sink.put, Sink.next, pair]
    rw [hexObject, h, pure_bind]
    show hexObject bs (.back _) = _
    rw [ih]
    simp

/-- C187, as far as it holds: `hex` of an object that is no integer appends the digits of its bytes to a string.  Missing: output to memory and ranges
of objects, see `C187_object_violated` and `C187_objects_violated`. -/
theorem C187_object_partial (bs old : List Byte) :
    ∃ text, unhex 65 text = some bs ∧ hexObject bs (.back old) = pure (.back (old ++ text)) :=
  ⟨bs.flatMap pair, unhex_pairs bs, hexObject_back bs old⟩

/-- C187 does not hold for output to memory: `hex` of an object increments the output iterator once more after every byte; the digits of the bytes are
three places apart, and the result is past the end of a buffer that has exactly two places for each byte. -/
theorem C187_object_violated :
    hexObject [0xAB#8, 0xCD#8] (.memory (List.replicate 6 46#8) 0) =
      pure (.memory [0x41#8, 0x42#8, 46#8, 0x43#8, 0x44#8, 46#8] 6) ∧
    (∀ bs : List Byte, 2 ≤ bs.length → hexObject bs (.memory (List.replicate (2 * bs.length) 46#8) 0) = ub) := by
  refine ⟨by decide +kernel, ?_⟩
  have key : ∀ (bs mem : List Byte) (pos : Nat), bs ≠ [] → mem.length < pos + 3 * bs.length - 1 → hexObject bs (.memory mem pos) = ub := by
    intro bs
    induction bs with
    | nil => intro mem pos h; exact absurd rfl h
    | cons b bs ih =>
      intro mem pos _ h
      simp only [List.length_cons] at h
      rw [hexObject]
      by_cases hp : pos + 1 < mem.length
      · have e : ∃ m', m'.length = mem.length ∧ hexChar b (.memory mem pos) = pure (.memory m' (pos + 2)) := by
          refine ⟨(mem.set pos (getNibble (b >>> 4))).set (pos + 1) (getNibble (b &&& 0x0F#8)), by simp, ?_⟩
          simp only [hexChar, Sink.put, Sink.next, wr_eq (show pos < mem.length by omega), pure_bind,
            wr_eq (show pos + 1 < (mem.set pos (getNibble (b >>> 4))).length by rw [List.length_set]; omega)]
        obtain ⟨m', hm, e⟩ := e
        rw [e, pure_bind]
        refine ih m' (pos + 2 + 1) ?_ (by omega)
        intro h0
        subst h0
        simp at h
        omega
      · have e : hexChar b (.memory mem pos) = ub := by
          by_cases hp0 : pos < mem.length
          · simp only [hexChar, Sink.put, Sink.next, wr_eq hp0, pure_bind,
              wr_oob (show (mem.set pos (getNibble (b >>> 4))).length ≤ pos + 1 by rw [List.length_set]; omega), ub_bind]
          · simp only [hexChar, Sink.put, wr_oob (show mem.length ≤ pos by omega), ub_bind]
        rw [e, ub_bind]
  intro bs h
  refine key bs _ 0 (by intro h0; subst h0; simp at h) (by simp; omega)

/-- C187 does not hold for ranges of objects: `hex( first, last, out )` does not look at the objects, it stores the digits of what the output has at
this place: any two ranges with the same number of objects give the same text, and one object of any size two digits. -/
theorem C187_objects_violated :
    (∀ (os os' : List (List Byte)) (mem : List Byte) (pos : Nat), os.length = os'.length → hexObjects os mem pos = hexObjects os' mem pos) ∧
    hexObjects [[0xAB#8, 0xCD#8]] [46#8, 46#8, 46#8, 46#8] 0 = pure ([0x32#8, 0x45#8, 46#8, 46#8], 2) := by
  refine ⟨?_, by decide +kernel⟩
  intro os
  induction os with
  | nil =>
    intro os' mem pos h
    cases os' with
    | nil => rfl
    | cons => simp at h
  | cons o os ih =>
    intro os' mem pos h
    cases os' with
    | nil => simp at h
    | cons o' os' =>
      simp only [hexObjects]
      congr 1
      funext c
      congr 1
      funext s
      cases s with
      | back => rfl
      | memory m p => exact ih os' m p (by simpa using h)

/-! ## value_from_chars -/

/-- One more byte: `result |= static_cast<U>( ( *ptr ) << n )`, where the byte is promoted to `int`, as in daw_utility.h 748-752. -/
def orByteInt (cxx20 : Bool) (w : Nat) (result : BitVec w) (b : Byte) (n : Nat) : Cxx (BitVec w) := do
  let x ← shl cxx20 ⟨8, false, by decide⟩ b.toNat n
  pure (result ||| BitVec.ofInt w x)

/-- `value_from_chars` for `uint8_t`, daw_utility.h 725-730. -/
def valueFromChars1 (mem : List Byte) (ptr : Nat) : Cxx (BitVec 8) := rd mem ptr

/-- `value_from_chars` for `uint16_t`, daw_utility.h 732-740. -/
def valueFromChars2 (cxx20 : Bool) (mem : List Byte) (ptr : Nat) : Cxx (BitVec 16) := do
  let b ← rd mem ptr
  let result ← orByteInt cxx20 16 0#16 b 8
  let b ← rd mem (ptr + 1)
  orByteInt cxx20 16 result b 0

/-- `value_from_chars` for `uint32_t`, daw_utility.h 742-754. -/
def valueFromChars4 (cxx20 : Bool) (mem : List Byte) (ptr : Nat) : Cxx (BitVec 32) := do
  let b ← rd mem ptr
  let result ← orByteInt cxx20 32 0#32 b 24
  let b ← rd mem (ptr + 1)
  let result ← orByteInt cxx20 32 result b 16
  let b ← rd mem (ptr + 2)
  let result ← orByteInt cxx20 32 result b 8
  let b ← rd mem (ptr + 3)
  orByteInt cxx20 32 result b 0

/-- `value_from_chars` for `uint64_t`, daw_utility.h 756-777. -/
def valueFromChars8 (mem : List Byte) (ptr : Nat) : Cxx (BitVec 64) := do
  let b0 ← rd mem ptr
  let result := b0.setWidth 64 <<< 56
  let b1 ← rd mem (ptr + 1)
  let result := result ||| b1.setWidth 64 <<< 48
  let b2 ← rd mem (ptr + 2)
  let result := result ||| b2.setWidth 64 <<< 40
  let b3 ← rd mem (ptr + 3)
  let result := result ||| b3.setWidth 64 <<< 32
  let b4 ← rd mem (ptr + 4)
  let result := result ||| b4.setWidth 64 <<< 24
  let b5 ← rd mem (ptr + 5)
  let result := result ||| b5.setWidth 64 <<< 16
  let b6 ← rd mem (ptr + 6)
  let result := result ||| b6.setWidth 64 <<< 8
  let b7 ← rd mem (ptr + 7)
  pure (result ||| b7.setWidth 64)

theorem orByteInt_eq (cxx20 : Bool) (w : Nat) (result : BitVec w) (b : Byte) (n : Nat) (hn : n ≤ 24) (hw : w ≤ 32) :
    orByteInt cxx20 w result b n = pure (result ||| b.setWidth w <<< n) := by
  have hb := b.isLt
  have hp : (2 : Nat) ^ n ≤ 2 ^ 24 := Nat.pow_le_pow_right (by omega) hn
  have hprod : b.toNat * 2 ^ n < 2 ^ 32 := by
    calc b.toNat * 2 ^ n ≤ 255 * 2 ^ 24 := Nat.mul_le_mul (by omega) hp
      _ < 2 ^ 32 := by decide
  have hi : ((b.toNat : Int) * 2 ^ n) = ((b.toNat * 2 ^ n : Nat) : Int) := by simp
  unfold orByteInt shl
  have e1 : (IntTy.mk 8 false (by decide)).promote = .int := by decide
  rw [e1, if_neg (by simp only [IntTy.int]; omega), if_neg, pure_bind]
  · simp only [Int.toNat_natCast]
    rw [hi]
    have e2 : BitVec.ofInt w (IntTy.int.conv ((b.toNat * 2 ^ n : Nat) : Int)) = b.setWidth w <<< n := ?_
    · rw [e2]
    apply BitVec.eq_of_toNat_eq
    rw [BitVec.toNat_ofInt, BitVec.toNat_shiftLeft, BitVec.toNat_setWidth, Nat.shiftLeft_eq]
    have hd : ((2 ^ w : Nat) : Int) ∣ ((2 ^ 32 : Nat) : Int) := Int.natCast_dvd_natCast.mpr (Nat.pow_dvd_pow 2 hw)
    have : IntTy.int.conv ((b.toNat * 2 ^ n : Nat) : Int) % ((2 ^ w : Nat) : Int) = ((b.toNat * 2 ^ n : Nat) : Int) % ((2 ^ w : Nat) : Int) := by
      unfold IntTy.conv
      simp only [IntTy.int, if_true]
      rw [← Int.emod_emod_of_dvd _ hd, Int.bmod_emod, Int.emod_emod_of_dvd _ hd]
    rw [this, ← Int.natCast_emod, Int.toNat_natCast, Nat.mod_mul_mod]
  · rintro ⟨_, _, h | h⟩
    · omega
    · simp only [Int.toNat_natCast] at h
      rw [hi] at h
      have : IntTy.int.unsigned.max = 2 ^ 32 - 1 := by decide
      omega

theorem or_rev4 {w : Nat} (a b c d : BitVec w) : a ||| b ||| c ||| d = d ||| c ||| b ||| a := by ac_rfl

theorem or_rev8 {w : Nat} (a b c d e f g h : BitVec w) :
    a ||| b ||| c ||| d ||| e ||| f ||| g ||| h = h ||| g ||| f ||| e ||| d ||| c ||| b ||| a := by ac_rfl

theorem byte_word (w : Nat) (x : Byte) : BitVec.ofNat w (leNat [x]) = x.setWidth w := by
  apply BitVec.eq_of_toNat_eq
  simp [leNat]

theorem bytes8 (a b c d e f g h : Byte) :
    a.setWidth 64 <<< 56 ||| b.setWidth 64 <<< 48 ||| c.setWidth 64 <<< 40 ||| d.setWidth 64 <<< 32 ||| e.setWidth 64 <<< 24 |||
      f.setWidth 64 <<< 16 ||| g.setWidth 64 <<< 8 ||| h.setWidth 64 = BitVec.ofNat 64 (leNat [a, b, c, d, e, f, g, h].reverse) := by
  have h1 : BitVec.ofNat 64 (leNat [h]) ||| g.setWidth 64 <<< 8 = BitVec.ofNat 64 (leNat [h, g]) :=
    Hash.or_byte 64 [h] g (by simp)
  have h2 : BitVec.ofNat 64 (leNat [h, g]) ||| f.setWidth 64 <<< 16 = BitVec.ofNat 64 (leNat [h, g, f]) :=
    Hash.or_byte 64 [h, g] f (by simp)
  have h3 : BitVec.ofNat 64 (leNat [h, g, f]) ||| e.setWidth 64 <<< 24 = BitVec.ofNat 64 (leNat [h, g, f, e]) :=
    Hash.or_byte 64 [h, g, f] e (by simp)
  have h4 : BitVec.ofNat 64 (leNat [h, g, f, e]) ||| d.setWidth 64 <<< 32 = BitVec.ofNat 64 (leNat [h, g, f, e, d]) :=
    Hash.or_byte 64 [h, g, f, e] d (by simp)
  have h5 : BitVec.ofNat 64 (leNat [h, g, f, e, d]) ||| c.setWidth 64 <<< 40 = BitVec.ofNat 64 (leNat [h, g, f, e, d, c]) :=
    Hash.or_byte 64 [h, g, f, e, d] c (by simp)
  have h6 : BitVec.ofNat 64 (leNat [h, g, f, e, d, c]) ||| b.setWidth 64 <<< 48 = BitVec.ofNat 64 (leNat [h, g, f, e, d, c, b]) :=
    Hash.or_byte 64 [h, g, f, e, d, c] b (by simp)
  have h7 : BitVec.ofNat 64 (leNat [h, g, f, e, d, c, b]) ||| a.setWidth 64 <<< 56 = BitVec.ofNat 64 (leNat [h, g, f, e, d, c, b, a]) :=
    Hash.or_byte 64 [h, g, f, e, d, c, b] a (by simp)
  rw [byte_word 64 h] at h1
  rw [show [a, b, c, d, e, f, g, h].reverse = [h, g, f, e, d, c, b, a] from rfl, ← h7, ← h6, ← h5, ← h4, ← h3, ← h2, ← h1]
  exact or_rev8 _ _ _ _ _ _ _ _

/-- C188: `value_from_chars` for 1, 2, 4 and 8 bytes returns the number these bytes stand for, the most significant one first. -/
theorem C188_value_from_chars (cxx20 : Bool) (pre post : List Byte) :
    (∀ a, valueFromChars1 (pre ++ [a] ++ post) pre.length = pure (BitVec.ofNat 8 (leNat [a]))) ∧
    (∀ a b, valueFromChars2 cxx20 (pre ++ [a, b] ++ post) pre.length = pure (BitVec.ofNat 16 (leNat [a, b].reverse))) ∧
    (∀ a b c d, valueFromChars4 cxx20 (pre ++ [a, b, c, d] ++ post) pre.length = pure (BitVec.ofNat 32 (leNat [a, b, c, d].reverse))) ∧
    (∀ a b c d e f g h, valueFromChars8 (pre ++ [a, b, c, d, e, f, g, h] ++ post) pre.length =
      pure (BitVec.ofNat 64 (leNat [a, b, c, d, e, f, g, h].reverse))) := by
  have r : ∀ (mid : List Byte) (k : Nat) (x : Byte), mid[k]? = some x → rd (pre ++ mid ++ post) (pre.length + k) = pure x := by
    intro mid k x h
    have hk : k < mid.length := by
      by_cases hk : k < mid.length
      · exact hk
      · rw [List.getElem?_eq_none (by omega)] at h; cases h
    refine rd_some ?_
    rw [List.append_assoc, List.getElem?_append_right (by omega), Nat.add_sub_cancel_left, List.getElem?_append_left hk, h]
  have r0 : ∀ (mid : List Byte) (x : Byte), mid[0]? = some x → rd (pre ++ mid ++ post) pre.length = pure x := fun mid x h => r mid 0 x h
  have z : ∀ (w : Nat) (x : Byte), 8 ≤ w → BitVec.ofNat w (leNat [x]) = x.setWidth w := by
    intro w x hw
    apply BitVec.eq_of_toNat_eq
    simp [leNat]
  refine ⟨?_, ?_, ?_, ?_⟩
  · intro a
    rw [valueFromChars1, r0 [a] a rfl, z 8 a (by omega)]
    simp
  · intro a b
    unfold valueFromChars2
    rw [r0 [a, b] a rfl, pure_bind, orByteInt_eq _ _ _ _ _ (by omega) (by omega), pure_bind, r [a, b] 1 b rfl, pure_bind,
      orByteInt_eq _ _ _ _ _ (by omega) (by omega)]
    congr 1
    have h1 : BitVec.ofNat 16 (leNat [b]) ||| a.setWidth 16 <<< 8 = BitVec.ofNat 16 (leNat [b, a]) := Hash.or_byte 16 [b] a (by simp)
    rw [z 16 b (by omega)] at h1
    rw [show [a, b].reverse = [b, a] from rfl, ← h1, BitVec.shiftLeft_zero, BitVec.zero_or]
    exact BitVec.or_comm _ _
  · intro a b c d
    unfold valueFromChars4
    rw [r0 [a, b, c, d] a rfl, pure_bind, orByteInt_eq _ _ _ _ _ (by omega) (by omega), pure_bind, r [a, b, c, d] 1 b rfl, pure_bind,
      orByteInt_eq _ _ _ _ _ (by omega) (by omega), pure_bind, r [a, b, c, d] 2 c rfl, pure_bind,
      orByteInt_eq _ _ _ _ _ (by omega) (by omega), pure_bind, r [a, b, c, d] 3 d rfl, pure_bind,
      orByteInt_eq _ _ _ _ _ (by omega) (by omega)]
    congr 1
    have h1 : BitVec.ofNat 32 (leNat [d]) ||| c.setWidth 32 <<< 8 = BitVec.ofNat 32 (leNat [d, c]) := Hash.or_byte 32 [d] c (by simp)
    have h2 : BitVec.ofNat 32 (leNat [d, c]) ||| b.setWidth 32 <<< 16 = BitVec.ofNat 32 (leNat [d, c, b]) := Hash.or_byte 32 [d, c] b (by simp)
    have h3 : BitVec.ofNat 32 (leNat [d, c, b]) ||| a.setWidth 32 <<< 24 = BitVec.ofNat 32 (leNat [d, c, b, a]) :=
      Hash.or_byte 32 [d, c, b] a (by simp)
    rw [z 32 d (by omega)] at h1
    rw [show [a, b, c, d].reverse = [d, c, b, a] from rfl, ← h3, ← h2, ← h1, BitVec.shiftLeft_zero, BitVec.zero_or]
    exact or_rev4 _ _ _ _
  · intro a b c d e f g h
    unfold valueFromChars8
    rw [r0 [a, b, c, d, e, f, g, h] a rfl, pure_bind,
      r [a, b, c, d, e, f, g, h] 1 b rfl, pure_bind,
      r [a, b, c, d, e, f, g, h] 2 c rfl, pure_bind,
      r [a, b, c, d, e, f, g, h] 3 d rfl, pure_bind,
      r [a, b, c, d, e, f, g, h] 4 e rfl, pure_bind,
      r [a, b, c, d, e, f, g, h] 5 f rfl, pure_bind,
      r [a, b, c, d, e, f, g, h] 6 g rfl, pure_bind,
      r [a, b, c, d, e, f, g, h] 7 h rfl, pure_bind]
    exact congrArg pure (bytes8 a b c d e f g h)

example : valueFromChars4 false [0x80#8, 0x01#8, 0x02#8, 0xFF#8] 0 = pure 0x800102FF#32 := by decide +kernel

/-! ## equal_to_last -/

/-- The call operator of `equal_to_last`, daw_utility.h 118-133.  `objs` are the objects of the program, `none` for those that do not live any more;
`last` is the pointer kept from the previous call, `i` the argument. -/
def equalToLast {α : Type} [BEq α] (objs : List (Option α)) (last : Option Nat) (i : Nat) : Cxx (Bool × Option Nat) := do
  let value ← (match objs[i]? with
    | some (some v) => pure v
    | _ => ub : Cxx α)
  let result ← (match last with
    | none => pure false
    | some j => match objs[j]? with
      | some (some v) => pure (v == value)
      | _ => ub : Cxx Bool)
  pure (result, some i)

/-- The results of a sequence of calls, each with the objects as they are then. (Specification, no line of the source.) -/
def equalToLastRun {α : Type} [BEq α] : List (List (Option α) × Nat) → Option Nat → Cxx (List Bool)
  | [], _ => pure []
  | (objs, i) :: calls, last => do
    let (b, last) ← equalToLast objs last i
    let bs ← equalToLastRun calls last
    pure (b :: bs)

/-- The value given to a call. (Specification, no line of the source.) -/
def given {α : Type} (call : List (Option α) × Nat) : Option α := (call.1[call.2]?).join

/-- What the calls of `equal_to_last` are for: does the value equal that of the call before? (Specification, no line of the source.) -/
def asBefore {α : Type} [BEq α] : Option α → List α → List Bool
  | _, [] => []
  | none, v :: vs => false :: asBefore (some v) vs
  | some u, v :: vs => (u == v) :: asBefore (some v) vs

/-- C189, as far as it holds: if the argument of each call lives unchanged until the next call, the calls tell whether the value equals that of the
call before.  Missing: arguments that change or end between the calls, see `C189_equal_to_last_violated`. -/
theorem C189_equal_to_last_partial {α : Type} [BEq α] (calls : List (List (Option α) × Nat)) (vs : List α)
    (hv : calls.map given = vs.map some)
    (keep : ∀ (k : Nat) (c d : List (Option α) × Nat), calls[k]? = some c → calls[k + 1]? = some d → d.1[c.2]? = c.1[c.2]?) :
    equalToLastRun calls none = pure (asBefore none vs) := by
  have get : ∀ (objs : List (Option α)) (i : Nat) (v : α), given (objs, i) = some v → objs[i]? = some (some v) := by
    intro objs i v h
    unfold given at h
    simp only [] at h
    cases h' : objs[i]? with
    | none => rw [h'] at h; cases h
    | some o => rw [h'] at h; simp only [Option.join_some] at h; rw [h]
  have key : ∀ (calls : List (List (Option α) × Nat)) (vs : List α) (p : List (Option α) × Nat) (u : α),
      given p = some u → calls.map given = vs.map some →
      (∀ (k : Nat) (c d : List (Option α) × Nat), (p :: calls)[k]? = some c → (p :: calls)[k + 1]? = some d → d.1[c.2]? = c.1[c.2]?) →
      equalToLastRun calls (some p.2) = pure (asBefore (some u) vs) := by
    intro calls
    induction calls with
    | nil =>
      intro vs p u _ hv _
      cases vs with
      | nil => rfl
      | cons => simp at hv
    | cons c calls ih =>
      intro vs p u hp hv keep
      cases vs with
      | nil => simp at hv
      | cons v vs =>
        simp only [List.map_cons, List.cons.injEq] at hv
        have hk := keep 0 p c rfl rfl
        rw [get _ _ _ hp] at hk
        have hc := get _ _ _ hv.1
        obtain ⟨objs, i⟩ := c
        simp only [] at hk hc
        have e : equalToLast objs (some p.2) i = pure (u == v, some i) := by
          unfold equalToLast
          simp only [hc, hk, pure_bind]
        rw [equalToLastRun, e]
        simp only [pure_bind]
        rw [ih vs (objs, i) v hv.1 hv.2 (fun k c d h1 h2 => keep (k + 1) c d h1 h2), pure_bind]
        rfl
  cases calls with
  | nil =>
    cases vs with
    | nil => rfl
    | cons => simp at hv
  | cons c calls =>
    cases vs with
    | nil => simp at hv
    | cons v vs =>
      simp only [List.map_cons, List.cons.injEq] at hv
      have hc := get _ _ _ hv.1
      obtain ⟨objs, i⟩ := c
      simp only [] at hc
      have e : equalToLast objs none i = pure (false, some i) := by
        unfold equalToLast
        simp only [hc, pure_bind]
      rw [equalToLastRun, e]
      simp only [pure_bind]
      rw [key calls vs (objs, i) v hv.1 hv.2 keep, pure_bind]
      rfl

example := C189_equal_to_last_partial [([some 4, none], 0), ([some 4, some 4], 1), ([some 5, some 4], 0)] [4, 4, 5] rfl (by
  intro k c d hc hd
  rcases k with _ | _ | k
  · simp at hc hd; subst hc hd; rfl
  · simp at hc hd; subst hc hd; rfl
  · simp at hd)

/-- C189 does not hold for all arguments: only a pointer to the argument is kept.  A variable that is changed between the calls is compared with
itself, and an argument that does not live any more is read. -/
theorem C189_equal_to_last_violated :
    equalToLastRun [([some 1], 0), ([some 2], 0), ([some 3], 0)] none = pure [false, true, true] ∧
    equalToLastRun [([some 1, none], 0), ([none, some 1], 1)] none = ub ∧
    asBefore none [1, 2, 3] = [false, false, false] := ⟨by decide +kernel, by decide +kernel, by decide⟩

example : equalToLastRun [([some 1, some 1, some 2], 0), ([some 1, some 1, some 2], 1), ([some 1, some 1, some 2], 2)] none =
    pure [false, true, false] := by decide +kernel

/-! ## Containers and parameter packs -/

/-- `contains`, daw_utility.h 377-383. -/
def contains {α : Type} [BEq α] (xs : List α) (v : α) : Cxx Bool := do
  let r ← Algorithm.find xs 0 xs.length v
  pure (r != xs.length)

/-- `index_of`, daw_utility.h 385-391. -/
def indexOf {α : Type} [BEq α] (xs : List α) (v : α) : Cxx Nat := Algorithm.find xs 0 xs.length v

/-- `copy_vector`, daw_utility.h 268-278. -/
def copyVector {α : Type} (xs : List α) (n : Nat) : Cxx (List α) := if n ≤ xs.length then pure (xs.take n) else thrown

/-- The loop of `pack_index_of_v`, daw_utility.h 630-634, over the types that follow position `pos`. -/
def packLoop {T : Type} [DecidableEq T] (t : T) : List T → Nat → Nat → Nat
  | [], _, result => result
  | u :: us, pos, result => packLoop t us (pos + 1) (if u = t then pos else result)

/-- `pack_index_of_v`, daw_utility.h 626-635; types are values of a type `T` here. -/
def packIndexOf {T : Type} [DecidableEq T] (t : T) (us : List T) : Nat := packLoop t us 0 us.length

/-- `pack_get< N >`, daw_utility.h 880-888, from position `pos` on; `none`: no such argument, the program does not compile. -/
def packGet {α : Type} (N : Nat) : Nat → List α → Option α
  | _, [] => none
  | pos, a :: as => if pos = N then some a else packGet N (pos + 1) as

/-- `pack_apply`, daw_utility.h 890-916, from position `pos` on: the arguments for which the function is called; `invocable` tells with which ones
it can be called. -/
def packApplyFrom {α : Type} (invocable : α → Bool) (N : Nat) (args : List α) (pos : Nat) : List α :=
  if pos < args.length then
    if N = pos then
      match packGet pos 0 args with
      | some a => if invocable a then [a] else []
      | none => []
    else packApplyFrom invocable N args (pos + 1)
  else []
  termination_by args.length - pos

/-- C190: `contains` tells whether an element equals the item, `index_of` is the position of the first such element or the size. -/
theorem C190_contains {α : Type} [DecidableEq α] (xs : List α) (v : α) :
    contains xs v = pure (decide (v ∈ xs)) ∧ indexOf xs v = pure (xs.idxOf v) := by
  obtain ⟨r, hr, _, h2, h3, h4⟩ := Algorithm.C77_find xs v 0 xs.length (by omega) (by omega)
  have e : r = xs.idxOf v := by
    rcases Nat.lt_or_ge r xs.length with h | h
    · obtain ⟨a, ha, hq⟩ := h4 h
      have hav : a = v := by simpa using hq
      subst hav
      have hlt : xs.idxOf a ≤ r := by
        rcases Nat.lt_or_ge r (xs.idxOf a) with hlt | hge
        · have := List.not_of_lt_findIdx (p := (· == a)) (xs := xs) (i := r) hlt
          have hg : xs[r] = a := by rw [List.getElem?_eq_getElem h] at ha; exact Option.some.inj ha
          simp [hg] at this
        · exact hge
      rcases Nat.lt_or_ge (xs.idxOf a) r with hl | hl
      · have hl' : xs.idxOf a < xs.length := by omega
        have := h3 (xs.idxOf a) a (by omega) hl (by rw [List.getElem?_eq_getElem hl', List.getElem_idxOf hl'])
        simp at this
      · omega
    · have hr' : r = xs.length := by omega
      rw [hr', List.idxOf_eq_length]
      intro hm
      obtain ⟨i, hi, e⟩ := List.mem_iff_getElem.1 hm
      have := h3 i v (by omega) (by omega) (by rw [List.getElem?_eq_getElem hi, e])
      simp at this
  refine ⟨?_, by rw [indexOf, hr, e]⟩
  rw [contains, hr, pure_bind, e]
  congr 1
  by_cases hm : v ∈ xs
  · have := List.idxOf_lt_length_iff.mpr hm
    simp [hm, Nat.ne_of_lt this]
  · simp [hm, List.idxOf_eq_length hm]

/-- C190: `copy_vector` returns the first `n` elements, and throws if there are fewer. -/
theorem C190_copy_vector {α : Type} (xs : List α) (n : Nat) :
    (copyVector xs n = thrown ↔ xs.length < n) ∧
    (∀ ys, copyVector xs n = pure ys ↔ ys.length = n ∧ ys <+: xs) := by
  unfold copyVector
  by_cases h : n ≤ xs.length
  · rw [if_pos h]
    refine ⟨⟨fun e => absurd e.symm (Cxx.thrown_ne_pure _), fun e => by omega⟩, fun ys => ⟨?_, ?_⟩⟩
    · intro e
      rw [← Cxx.pure_inj.mp e]
      exact ⟨by rw [List.length_take]; omega, List.take_prefix n xs⟩
    · rintro ⟨hl, hp⟩
      rw [← hl]
      exact congrArg pure (List.prefix_iff_eq_take.mp hp).symm
  · rw [if_neg h]
    refine ⟨⟨fun _ => by omega, fun _ => rfl⟩, fun ys => ⟨fun e => absurd e (Cxx.thrown_ne_pure _), ?_⟩⟩
    rintro ⟨hl, hp⟩
    exact absurd hp.length_le (by omega)

theorem packLoop_spec {T : Type} [DecidableEq T] (t : T) : ∀ (us : List T) (pos result : Nat),
    (t ∉ us ∧ packLoop t us pos result = result) ∨
    (∃ k, us[k]? = some t ∧ packLoop t us pos result = pos + k ∧ ∀ j, k < j → us[j]? ≠ some t) := by
  intro us
  induction us with
  | nil => intro pos result; exact .inl ⟨by simp, rfl⟩
  | cons u us ih =>
    intro pos result
    rw [packLoop]
    rcases ih (pos + 1) (if u = t then pos else result) with ⟨hn, e⟩ | ⟨k, hk, e, hl⟩
    · by_cases hu : u = t
      · refine .inr ⟨0, by simp [hu], by rw [e, if_pos hu, Nat.add_zero], ?_⟩
        intro j hj h
        obtain ⟨j, rfl⟩ : ∃ i, j = i + 1 := ⟨j - 1, by omega⟩
        exact hn (List.mem_of_getElem? (by simpa using h))
      · refine .inl ⟨?_, by rw [e, if_neg hu]⟩
        simp only [List.mem_cons, not_or]
        exact ⟨fun h => hu h.symm, hn⟩
    · refine .inr ⟨k + 1, by simpa using hk, by rw [e]; omega, ?_⟩
      intro j hj
      obtain ⟨j, rfl⟩ : ∃ i, j = i + 1 := ⟨j - 1, by omega⟩
      simpa using hl j (by omega)

/-- C190: `pack_index_of_v` is an index with this type, the last one if there are several, or the number of types if there is none. -/
theorem C190_pack_index_of {T : Type} [DecidableEq T] (t : T) (us : List T) :
    (t ∉ us → packIndexOf t us = us.length) ∧
    (t ∈ us → us[packIndexOf t us]? = some t ∧ ∀ j, packIndexOf t us < j → us[j]? ≠ some t) := by
  unfold packIndexOf
  rcases packLoop_spec t us 0 us.length with ⟨hn, e⟩ | ⟨k, hk, e, hl⟩
  · exact ⟨fun _ => e, fun h => absurd h hn⟩
  · refine ⟨fun h => absurd (List.mem_of_getElem? hk) h, fun _ => ?_⟩
    rw [e, Nat.zero_add]
    exact ⟨hk, hl⟩

/-- C190: `pack_apply` calls the function once, with the argument number `N`, if it can be called with it, and not at all if there is no such
argument. -/
theorem C190_pack_apply {α : Type} (invocable : α → Bool) (N : Nat) (args : List α) :
    packApplyFrom invocable N args 0 = (args[N]?).toList.filter invocable := by
  have get : ∀ (as : List α) (pos : Nat), pos ≤ N → packGet N pos as = as[N - pos]? := by
    intro as
    induction as with
    | nil => intro pos _; simp [packGet]
    | cons a as ih =>
      intro pos h
      rw [packGet]
      by_cases hp : pos = N
      · rw [if_pos hp, hp]; simp
      · rw [if_neg hp, ih (pos + 1) (by omega), show N - pos = (N - (pos + 1)) + 1 by omega]
        simp
  have key : ∀ (k pos : Nat), args.length - pos = k → pos ≤ N →
      packApplyFrom invocable N args pos = (args[N]?).toList.filter invocable := by
    intro k
    induction k with
    | zero =>
      intro pos h hN
      rw [packApplyFrom, if_neg (by omega), List.getElem?_eq_none (by omega)]
      rfl
    | succ k ih =>
      intro pos h hN
      rw [packApplyFrom, if_pos (by omega)]
      by_cases hp : N = pos
      · rw [if_pos hp]
        subst hp
        rw [get args 0 (by omega), Nat.sub_zero, List.getElem?_eq_getElem (by omega)]
        simp only [Option.toList_some, List.filter_cons, List.filter_nil]
      · rw [if_neg hp]
        exact ih (pos + 1) (by omega) (by omega)
  exact key _ 0 rfl (by omega)

example : contains [3, 5, 7] 5 = pure true ∧ indexOf [3, 5, 7, 5] 5 = pure 1 := by
  rw [(C190_contains [3, 5, 7] 5).1, (C190_contains [3, 5, 7, 5] 5).2]; exact ⟨by decide +kernel, by decide +kernel⟩
example : packIndexOf 'c' ['a', 'c', 'i', 'c'] = 3 ∧ packIndexOf 'x' ['a', 'c'] = 2 := by decide
example : packApplyFrom (fun _ => true) 1 [10, 20, 30] 0 = [20] := by rw [C190_pack_apply]; rfl

end Verif.Util
