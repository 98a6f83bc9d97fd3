import Verif.Bits.IntCmp
import Verif.Containers.Lists

/-
Masks and single bits of integers, include/daw/daw_bit.h, and the classes of characters, include/daw/daw_ascii.h.

The objects of an integer type are its bits, `BitVec`.
-/

namespace Verif.Bits.Masks
open Cxx

/-- `mask_msb`, daw_bit.h 28-34.  `max_value<T>` is not negative, so that its shift to the right fills up with zeros, whether
done in `T` or in `int`; `get_left_mask`, 22-26, is the same without the test. -/
def maskMsb (t : IntTy) (n : Nat) : BitVec t.bits :=
  if n ≥ t.bits then 0#t.bits else BitVec.ofInt t.bits t.max >>> n

/-- The shift to the left `x << n` of a value of the type `t`, done in the promoted type: undefined for counts of at least the
number of bits, and before C++20 for a signed type also if the result does not fit the unsigned type.
(Rule of C++ or its library, no line of the source.) -/
def shl (cxx20 : Bool) (t : IntTy) (x n : Int) : Cxx Int :=
  if n < 0 ∨ (t.promote.bits : Int) ≤ n then ub
  else if cxx20 = false ∧ t.promote.signed = true ∧ (x < 0 ∨ t.promote.unsigned.max < x * 2 ^ n.toNat) then ub
  else pure (t.promote.conv (x * 2 ^ n.toNat))

/-- `mask_lsb`, daw_bit.h 42-48. -/
def maskLsb (cxx20 : Bool) (t : IntTy) (n : Nat) : Cxx (BitVec t.bits) :=
  if n ≥ t.bits then pure 0#t.bits
  else do
    let x ← shl cxx20 t t.max n
    pure (BitVec.ofInt t.bits x)

/-- `make_mask`, daw_bit.h 50-58.  All arguments have one type here. -/
def makeMask {w : Nat} (bit : BitVec w) : List (BitVec w) → BitVec w
  | [] => bit
  | b :: bits => makeMask (bit ||| b) bits

/-- `are_set`, daw_bit.h 60-74, once all arguments have the common type. -/
def areSet {w : Nat} (value bit : BitVec w) (bits : List (BitVec w)) : Bool := value &&& makeMask bit bits != 0#w

/-- `one << static_cast<Integer>( b )` brought back to `Integer`, daw_bit.h 79-80 (and 88-89, 97-98). -/
def bitAt (cxx20 : Bool) (t : IntTy) (b : Int) : Cxx (BitVec t.bits) := do
  let x ← shl cxx20 t 1 (t.conv b)
  pure (BitVec.ofInt t.bits x)

/-- `( ( one << static_cast<Integer>( bs ) ) | ... | result )`, daw_bit.h 81 (and 90, 99).  Each term is cut to `Integer` here,
the source cuts the whole. -/
def bitsAt (cxx20 : Bool) (t : IntTy) (result : BitVec t.bits) : List Int → Cxx (BitVec t.bits)
  | [] => pure result
  | b :: bs => do
    let x ← bitAt cxx20 t b
    let r ← bitsAt cxx20 t result bs
    pure (x ||| r)

/-- `set_bits`, daw_bit.h 76-83. -/
def setBits (cxx20 : Bool) (t : IntTy) (i : BitVec t.bits) (b : Int) (bs : List Int) : Cxx (BitVec t.bits) := do
  let result ← bitAt cxx20 t b
  let result ← bitsAt cxx20 t result bs
  pure (i ||| result)

/-- `unset_bits`, daw_bit.h 85-92. -/
def unsetBits (cxx20 : Bool) (t : IntTy) (i : BitVec t.bits) (b : Int) (bs : List Int) : Cxx (BitVec t.bits) := do
  let result ← bitAt cxx20 t b
  let result ← bitsAt cxx20 t result bs
  pure (i &&& ~~~result)

/-- `get_bits`, daw_bit.h 94-101. -/
def getBits (cxx20 : Bool) (t : IntTy) (i : BitVec t.bits) (b : Int) (bs : List Int) : Cxx (BitVec t.bits) := do
  let result ← bitAt cxx20 t b
  let result ← bitsAt cxx20 t result bs
  pure (i &&& result)

/-- Bit `i` of the number `2^k - 1`. -/
theorem getLsbD_ofInt_pred {w k : Nat} {m : Int} (hm : m = 2 ^ k - 1) (i : Nat) :
    (BitVec.ofInt w m).getLsbD i = (decide (i < w) && decide (i < k)) := by
  have h : m = ((2 ^ k - 1 : Nat) : Int) := by
    have := Nat.two_pow_pos k
    rw [hm, Int.natCast_sub (by omega)]
    simp
  rw [h, BitVec.ofInt_natCast, BitVec.getLsbD_ofNat, Nat.testBit_two_pow_sub_one]

/-- `mask_msb` of an unsigned type has exactly the lower bits: the `n` most significant ones are zero. -/
theorem C137_mask_msb_partial (t : IntTy) (hs : t.signed = false) (n i : Nat) (_ : i < t.bits) :
    (maskMsb t n).getLsbD i = decide (i < t.bits - n) := by
  unfold maskMsb
  split
  · next h => simp; omega
  · rw [BitVec.getLsbD_ushiftRight, getLsbD_ofInt_pred (k := t.bits) (by simp [IntTy.max, hs])]
    by_cases h : i < t.bits - n
    · simp [h]; omega
    · simp [h]; omega

example := C137_mask_msb_partial .uint rfl 5 7 (by decide)

/-- For a signed type the sign bit counts as masked from the start: one bit more is zero. -/
theorem C137_mask_msb_signed_partial (t : IntTy) (hs : t.signed = true) (n i : Nat) (_ : i < t.bits) :
    (maskMsb t n).getLsbD i = decide (i < t.bits - 1 - n) := by
  have := t.pos
  unfold maskMsb
  split
  · next h => simp; omega
  · rw [BitVec.getLsbD_ushiftRight, getLsbD_ofInt_pred (k := t.bits - 1) (by simp [IntTy.max, hs])]
    by_cases h : i < t.bits - 1 - n
    · simp [h]; omega
    · simp [h]; omega

example := C137_mask_msb_signed_partial .int rfl 5 7 (by decide)

/-- `mask_msb<int>( 0 )` should mask nothing and masks the sign bit. -/
theorem C137_mask_msb_violated : ∃ (t : IntTy) (i : Nat), i < t.bits ∧ (maskMsb t 0).getLsbD i = false :=
  ⟨.int, 31, by decide, by decide +kernel⟩

example : maskMsb ⟨8, false, by decide⟩ 3 = 0b00011111#8 := by decide
example : maskMsb ⟨8, true, by decide⟩ 3 = 0b00001111#8 := by decide

/-- Bits of a value go through a conversion to at least as many bits. -/
theorem ofInt_conv {w : Nat} (t : IntTy) (h : w ≤ t.bits) (x : Int) : BitVec.ofInt w (t.conv x) = BitVec.ofInt w x := by
  apply BitVec.eq_of_toInt_eq
  rw [BitVec.toInt_ofInt, BitVec.toInt_ofInt]
  have hd : 2 ^ w ∣ 2 ^ t.bits := Nat.pow_dvd_pow 2 h
  unfold IntTy.conv
  split
  · exact Int.bmod_bmod_of_dvd hd
  · have hd' : ((2 ^ w : Nat) : Int) ∣ 2 ^ t.bits := by
      have := Int.natCast_dvd_natCast.2 hd
      simpa using this
    rw [← Int.emod_bmod (x := x % 2 ^ t.bits), Int.emod_emod_of_dvd x hd', Int.emod_bmod]

theorem promote_bits_ge (t : IntTy) : t.bits ≤ t.promote.bits := by
  unfold IntTy.promote
  split
  · show t.bits ≤ 32; omega
  · exact Nat.le_refl _

theorem promote_signed {t : IntTy} (h : t.signed = false) (hb : 32 ≤ t.bits) : t.promote.signed = false := by
  unfold IntTy.promote
  rw [if_neg (by omega)]; exact h

/-- Bit `i` of `( 2^k - 1 ) * 2^n`. -/
theorem getLsbD_ofInt_pred_mul {w k n : Nat} {m : Int} (hm : m = 2 ^ k - 1) (i : Nat) :
    (BitVec.ofInt w (m * 2 ^ n)).getLsbD i = (decide (i < w) && decide (n ≤ i) && decide (i < k + n)) := by
  have h : m * 2 ^ n = (((2 ^ k - 1) * 2 ^ n : Nat) : Int) := by
    have := Nat.two_pow_pos k
    rw [hm, Int.natCast_mul, Int.natCast_sub (by omega)]
    simp
  rw [h, BitVec.ofInt_natCast, BitVec.getLsbD_ofNat, Nat.mul_comm, Nat.testBit_two_pow_mul, Nat.testBit_two_pow_sub_one]
  by_cases h1 : n ≤ i
  · by_cases h2 : i < k + n
    · simp [h1, h2, show i - n < k by omega]
    · simp [h1, h2, show ¬ i - n < k by omega]
  · simp [h1]

/-- A shifted value of a type of at most 16 bits fits `unsigned`. -/
theorem shl_small {t : IntTy} (hw : t.bits ≤ 16) {x : Int} (h : x ≤ 2 ^ t.bits) {n : Nat} (hn : n < t.bits) :
    x * 2 ^ n ≤ t.promote.unsigned.max := by
  have e : t.promote = .int := by unfold IntTy.promote; rw [if_pos (by omega)]
  rw [e]
  show x * 2 ^ n ≤ 4294967295
  have h1 : x * 2 ^ n ≤ 2 ^ t.bits * 2 ^ n := Int.mul_le_mul_of_nonneg_right h (Int.pow_nonneg (by omega))
  have h2 : (2 : Int) ^ t.bits * 2 ^ n = ((2 ^ (t.bits + n) : Nat) : Int) := by
    rw [Nat.pow_add, Int.natCast_mul, Int.natCast_pow, Int.natCast_pow]; rfl
  have h3 : 2 ^ (t.bits + n) ≤ 2 ^ 31 := Nat.pow_le_pow_right (by omega) (by omega)
  have h4 : (2 : Nat) ^ 31 = 2147483648 := by decide
  omega

/-- Shifts of an unsigned type, and all of C++20, are defined for counts below the number of bits. -/
theorem shl_eq {cxx20 : Bool} {t : IntTy} {x : Int} {n : Nat} (hn : n < t.promote.bits)
    (h : cxx20 = true ∨ t.promote.signed = false ∨ 0 ≤ x ∧ x * 2 ^ n ≤ t.promote.unsigned.max) :
    shl cxx20 t x n = pure (t.promote.conv (x * 2 ^ n)) := by
  unfold shl
  rw [if_neg (by omega), if_neg]
  · rfl
  · rintro ⟨h1, h2, h3⟩
    rcases h with h | h | ⟨h4, h5⟩
    · rw [h] at h1; cases h1
    · rw [h] at h2; cases h2
    · rw [show (n : Int).toNat = n from Int.toNat_natCast n] at h3
      omega

/-- `mask_lsb` of an unsigned type is defined for every count and has exactly the upper bits: the `n` least significant ones
are zero. -/
theorem C137_mask_lsb_partial (cxx20 : Bool) (t : IntTy) (hs : t.signed = false) (hw : t.bits ≤ 16 ∨ 32 ≤ t.bits) (n : Nat) :
    ∃ m, maskLsb cxx20 t n = pure m ∧ ∀ i, i < t.bits → m.getLsbD i = decide (n ≤ i) := by
  have hb := promote_bits_ge t
  unfold maskLsb
  by_cases h : n ≥ t.bits
  · rw [if_pos h]
    exact ⟨_, rfl, fun i hi => by simp; omega⟩
  · rw [if_neg h, shl_eq (by omega)]
    · refine ⟨_, rfl, fun i hi => ?_⟩
      rw [ofInt_conv _ hb, getLsbD_ofInt_pred_mul (k := t.bits) (by simp [IntTy.max, hs])]
      by_cases h1 : n ≤ i
      · simp [h1]; omega
      · simp [h1]
    · by_cases h32 : 32 ≤ t.bits
      · exact .inr (.inl (promote_signed hs h32))
      · have hm : t.max = 2 ^ t.bits - 1 := by simp [IntTy.max, hs]
        have hp : 0 < (2 : Int) ^ t.bits := Int.pow_pos (by omega)
        exact .inr (.inr ⟨by omega, shl_small (by omega) (by omega) (by omega)⟩)

example := C137_mask_lsb_partial false .uint rfl (.inr (by decide)) 5

/-- For a signed type in C++20 `mask_lsb` clears the right bits if at least one is to be cleared. -/
theorem C137_mask_lsb_signed_partial (t : IntTy) (hs : t.signed = true) (n : Nat) :
    ∃ m, maskLsb true t n = pure m ∧ ∀ i, i < t.bits → m.getLsbD i = decide (n ≤ i ∧ (i + 1 = t.bits → 0 < n)) := by
  have hb := promote_bits_ge t
  have := t.pos
  unfold maskLsb
  by_cases h : n ≥ t.bits
  · rw [if_pos h]
    exact ⟨_, rfl, fun i hi => by simp; omega⟩
  · rw [if_neg h, shl_eq (by omega) (.inl rfl)]
    refine ⟨_, rfl, fun i hi => ?_⟩
    rw [ofInt_conv _ hb, getLsbD_ofInt_pred_mul (k := t.bits - 1) (by simp [IntTy.max, hs])]
    rw [Bool.eq_iff_iff]
    simp only [Bool.and_eq_true, decide_eq_true_eq]
    omega

example := C137_mask_lsb_signed_partial .int rfl 5

/-- For a signed type of at least 32 bits C++17 leaves `mask_lsb` undefined as soon as two bits are to be cleared; and no bit to
be cleared costs the sign bit, as for `mask_msb`. -/
theorem C137_mask_lsb_violated :
    (∀ (t : IntTy) (n : Nat), t.signed = true → 32 ≤ t.bits → 2 ≤ n → n < t.bits → maskLsb false t n = ub) ∧
    ∃ (t : IntTy) (i : Nat) (m : BitVec t.bits), i < t.bits ∧ maskLsb true t 0 = pure m ∧ m.getLsbD i = false := by
  refine ⟨fun t n hs hb h2 hn => ?_, .int, 31, 0x7fffffff#32, by decide, by decide +kernel, by decide⟩
  have e : t.promote = t := by unfold IntTy.promote; rw [if_neg (by omega)]
  unfold maskLsb shl
  rw [if_neg (by omega), e, if_neg (by omega), if_pos]
  · rfl
  refine ⟨rfl, hs, .inr ?_⟩
  have hm : t.max = 2 ^ (t.bits - 1) - 1 := by simp [IntTy.max, hs]
  have hu : t.unsigned.max = 2 ^ t.bits - 1 := by simp [IntTy.max, IntTy.unsigned]
  rw [hm, hu, Int.toNat_natCast]
  have h1 : (2 : Int) ^ 2 ≤ 2 ^ n := by
    have := Nat.pow_le_pow_right (n := 2) (by omega) h2
    exact_mod_cast this
  have h3 : (2 : Int) ^ t.bits = 2 * 2 ^ (t.bits - 1) := by
    rw [show t.bits = (t.bits - 1) + 1 by omega, Int.pow_succ, Int.mul_comm]; rfl
  have h4 : (2 : Int) ^ 31 ≤ 2 ^ (t.bits - 1) := by
    have := Nat.pow_le_pow_right (n := 2) (by omega) (show 31 ≤ t.bits - 1 by omega)
    exact_mod_cast this
  have h5 : ((2 : Int) ^ (t.bits - 1) - 1) * 2 ^ 2 ≤ (2 ^ (t.bits - 1) - 1) * 2 ^ n :=
    Int.mul_le_mul_of_nonneg_left h1 (by omega)
  omega

example : maskLsb false ⟨8, false, by decide⟩ 3 = pure 0b11111000#8 := by decide +kernel
example : maskLsb true ⟨8, true, by decide⟩ 3 = pure 0b11111000#8 := by decide +kernel

/-! ## Single bits -/

/-- The position `p` is named by one of the arguments. (Specification, no line of the source.) -/
def Named (b : Int) (bs : List Int) (p : Nat) : Prop := (p : Int) = b ∨ (p : Int) ∈ bs

theorem bitAt_eq {cxx20 : Bool} {t : IntTy} {b : Int} (h0 : 0 ≤ b) (hb : b < t.bits) (hc : t.conv b = b) :
    ∃ m, bitAt cxx20 t b = pure m ∧ ∀ i, i < t.bits → (m.getLsbD i = true ↔ (i : Int) = b) := by
  have hp := promote_bits_ge t
  obtain ⟨n, rfl⟩ := Int.eq_ofNat_of_zero_le h0
  unfold bitAt
  rw [hc, shl_eq (by omega)]
  · refine ⟨_, rfl, fun i hi => ?_⟩
    rw [ofInt_conv _ hp, getLsbD_ofInt_pred_mul (k := 1) (by decide)]
    simp only [Bool.and_eq_true, decide_eq_true_eq]
    omega
  · refine .inr (.inr ⟨by omega, ?_⟩)
    have hu : t.promote.unsigned.max = 2 ^ t.promote.bits - 1 := by simp [IntTy.max, IntTy.unsigned]
    rw [hu]
    have : (2 : Nat) ^ n < 2 ^ t.promote.bits := Nat.pow_lt_pow_right (by omega) (by omega)
    have h2 : (2 : Int) ^ n < 2 ^ t.promote.bits := by exact_mod_cast this
    omega

theorem bitsAt_eq {cxx20 : Bool} {t : IntTy} {r : BitVec t.bits} {bs : List Int}
    (h : ∀ b ∈ bs, 0 ≤ b ∧ b < t.bits ∧ t.conv b = b) :
    ∃ m, bitsAt cxx20 t r bs = pure m ∧ ∀ i, i < t.bits → (m.getLsbD i = true ↔ (i : Int) ∈ bs ∨ r.getLsbD i = true) := by
  induction bs with
  | nil => exact ⟨r, rfl, fun i _ => by simp⟩
  | cons b bs ih =>
    obtain ⟨h0, h1, h2⟩ := h b (by simp)
    obtain ⟨m, hm, hs⟩ := bitAt_eq (cxx20 := cxx20) h0 h1 h2
    obtain ⟨m', hm', hs'⟩ := ih fun c hc => h c (by simp [hc])
    refine ⟨m ||| m', by simp only [bitsAt, hm, hm', pure_bind], fun i hi => ?_⟩
    rw [BitVec.getLsbD_or, Bool.or_eq_true, hs i hi, hs' i hi, List.mem_cons, or_assoc]

theorem bits_eq {cxx20 : Bool} {t : IntTy} {b : Int} {bs : List Int}
    (h : ∀ c ∈ b :: bs, 0 ≤ c ∧ c < t.bits) (hw : 8 ≤ t.bits) :
    ∃ m, (do let r ← bitAt cxx20 t b; bitsAt cxx20 t r bs) = pure m ∧
      ∀ i, i < t.bits → (m.getLsbD i = true ↔ Named b bs i) := by
  have hc : ∀ c ∈ b :: bs, 0 ≤ c ∧ c < t.bits ∧ t.conv c = c := by
    intro c hc
    obtain ⟨h0, h1⟩ := h c hc
    refine ⟨h0, h1, IntTy.conv_of_has ?_⟩
    have hp : t.bits ≤ 2 ^ (t.bits - 1) := by
      have := Nat.lt_two_pow_self (n := t.bits - 1)
      omega
    have hp' : (t.bits : Int) ≤ 2 ^ (t.bits - 1) := by exact_mod_cast hp
    have hq : (2 : Int) ^ (t.bits - 1) ≤ 2 ^ t.bits := by
      have := Nat.pow_le_pow_right (n := 2) (by omega) (show t.bits - 1 ≤ t.bits by omega)
      exact_mod_cast this
    unfold IntTy.Has IntTy.lowest IntTy.max
    split <;> omega
  obtain ⟨h0, h1, h2⟩ := hc b (by simp)
  obtain ⟨m, hm, hs⟩ := bitAt_eq (cxx20 := cxx20) h0 h1 h2
  obtain ⟨m', hm', hs'⟩ := bitsAt_eq (cxx20 := cxx20) (r := m) fun c h' => hc c (List.mem_cons_of_mem _ h')
  refine ⟨m', by rw [hm, pure_bind, hm'], fun i hi => ?_⟩
  rw [hs' i hi, hs i hi]
  exact or_comm

/-- `set_bits`, `unset_bits` and `get_bits` are defined for all positions inside the integer, in any number and order, and
change, respectively keep, exactly the named bits; the sign bit of a signed type is a position like the others. -/
theorem C138_bits (cxx20 : Bool) (t : IntTy) (hw : 8 ≤ t.bits) (i : BitVec t.bits) (b : Int) (bs : List Int)
    (h : ∀ c ∈ b :: bs, 0 ≤ c ∧ c < t.bits) :
    (∃ r, setBits cxx20 t i b bs = pure r ∧
      ∀ p, p < t.bits → (r.getLsbD p = true ↔ i.getLsbD p = true ∨ Named b bs p)) ∧
    (∃ r, unsetBits cxx20 t i b bs = pure r ∧
      ∀ p, p < t.bits → (r.getLsbD p = true ↔ i.getLsbD p = true ∧ ¬ Named b bs p)) ∧
    (∃ r, getBits cxx20 t i b bs = pure r ∧
      ∀ p, p < t.bits → (r.getLsbD p = true ↔ i.getLsbD p = true ∧ Named b bs p)) := by
  obtain ⟨m, hm, hs⟩ := bits_eq (cxx20 := cxx20) h hw
  refine ⟨⟨i ||| m, ?_, fun p hp => ?_⟩, ⟨i &&& ~~~m, ?_, fun p hp => ?_⟩, ⟨i &&& m, ?_, fun p hp => ?_⟩⟩
  · unfold setBits; rw [← bind_assoc, hm, pure_bind]
  · rw [BitVec.getLsbD_or, Bool.or_eq_true, hs p hp]
  · unfold unsetBits; rw [← bind_assoc, hm, pure_bind]
  · rw [BitVec.getLsbD_and, BitVec.getLsbD_not, Bool.and_eq_true, ← hs p hp]; simp [hp]
  · unfold getBits; rw [← bind_assoc, hm, pure_bind]
  · rw [BitVec.getLsbD_and, Bool.and_eq_true, hs p hp]

example : setBits false ⟨32, true, by decide⟩ 0b1#32 31 [0, 4] = pure 0x80000011#32 ∧
    unsetBits false ⟨8, true, by decide⟩ 0xff#8 7 [0] = pure 0x7e#8 ∧
    getBits false ⟨32, true, by decide⟩ 0xff#32 0 [2, 4] = pure 0x15#32 :=
  ⟨by decide +kernel, by decide +kernel, by decide +kernel⟩

/-- A position outside the promoted type leaves `set_bits` undefined; one between a narrow type and `int` is lost. -/
theorem C138_outside (cxx20 : Bool) (t : IntTy) (i : BitVec t.bits) (b : Int) (h : t.Has b) :
    ((b < 0 ∨ (t.promote.bits : Int) ≤ b) → setBits cxx20 t i b [] = ub) ∧
    ((t.bits : Int) ≤ b → b < t.promote.bits → setBits cxx20 t i b [] = pure i) := by
  have hc := IntTy.conv_of_has h
  constructor
  · intro hb
    unfold setBits bitAt shl
    rw [hc, if_pos hb]
    rfl
  · intro h1 h2
    obtain ⟨n, rfl⟩ := Int.eq_ofNat_of_zero_le (show 0 ≤ b by omega)
    have hu : t.promote.unsigned.max = 2 ^ t.promote.bits - 1 := by simp [IntTy.max, IntTy.unsigned]
    have hlt : (2 : Nat) ^ n < 2 ^ t.promote.bits := Nat.pow_lt_pow_right (by omega) (by omega)
    have h3 : (2 : Int) ^ n < 2 ^ t.promote.bits := by exact_mod_cast hlt
    unfold setBits bitAt
    rw [hc, shl_eq (by omega) (.inr (.inr ⟨by omega, by rw [hu]; omega⟩))]
    show (pure (i ||| _) : Cxx _) = _
    congr 1
    apply BitVec.eq_of_getLsbD_eq
    intro p hp
    rw [BitVec.getLsbD_or, ofInt_conv _ (promote_bits_ge t), getLsbD_ofInt_pred_mul (k := 1) (by decide)]
    simp [show ¬ n ≤ p by omega]

example : setBits false ⟨8, false, by decide⟩ 0b1#8 9 [] = pure 0b1#8 ∧ setBits false ⟨32, true, by decide⟩ 0b1#32 32 [] = ub :=
  ⟨by decide +kernel, by decide +kernel⟩

theorem makeMask_bit {w : Nat} (b : BitVec w) (bs : List (BitVec w)) (p : Nat) :
    (makeMask b bs).getLsbD p = true ↔ b.getLsbD p = true ∨ ∃ c ∈ bs, c.getLsbD p = true := by
  induction bs generalizing b with
  | nil => simp [makeMask]
  | cons c bs ih => simp [makeMask, ih, or_assoc]

/-- `make_mask` has exactly the bits of its arguments, and `are_set` tells whether the value has at least one bit in common with
one of the masks.
Missing: that all the asked bits are set, see `C139_all_violated`. -/
theorem C139_are_set_partial {w : Nat} (value b : BitVec w) (bs : List (BitVec w)) :
    (∀ p, (makeMask b bs).getLsbD p = true ↔ ∃ c ∈ b :: bs, c.getLsbD p = true) ∧
    (areSet value b bs = true ↔ ∃ c ∈ b :: bs, ∃ p, value.getLsbD p = true ∧ c.getLsbD p = true) := by
  have h : ∀ p, (makeMask b bs).getLsbD p = true ↔ ∃ c ∈ b :: bs, c.getLsbD p = true := by
    intro p
    rw [makeMask_bit]; simp
  refine ⟨h, ?_⟩
  have e : areSet value b bs = true ↔ ∃ p, (value &&& makeMask b bs).getLsbD p = true := by
    unfold areSet
    rw [bne_iff_ne]
    constructor
    · intro hne
      apply Classical.byContradiction
      intro hno
      exact hne (BitVec.eq_of_getLsbD_eq fun p _ => by
        rw [BitVec.getLsbD_zero]
        exact Bool.eq_false_iff.2 fun hp => hno ⟨p, hp⟩)
    · rintro ⟨p, hp⟩ hz
      rw [hz, BitVec.getLsbD_zero] at hp
      cases hp
  rw [e]
  constructor
  · rintro ⟨p, hp⟩
    rw [BitVec.getLsbD_and, Bool.and_eq_true, h] at hp
    obtain ⟨hv, c, hc, hp⟩ := hp
    exact ⟨c, hc, p, hv, hp⟩
  · rintro ⟨c, hc, p, hv, hp⟩
    exact ⟨p, by rw [BitVec.getLsbD_and, Bool.and_eq_true, h]; exact ⟨hv, c, hc, hp⟩⟩

/-- With several bits asked for, `are_set` does not tell whether they are all set, even if they come in one mask. -/
theorem C139_all_violated : ∃ value b : BitVec 8, areSet value b [] = true ∧ ¬ ∀ p, b.getLsbD p = true → value.getLsbD p = true :=
  ⟨0b1#8, 0b11#8, by decide, fun h => absurd (h 1 (by decide)) (by decide)⟩

example : areSet 0b1000#8 0b10000000#8 [0b1#8, 0b1000#8] = true ∧ areSet 0b1000#8 0b10000000#8 [0b1#8] = false := by decide

/-! ## Characters -/

/-- `is_ascii_digit_t::operator( )`, daw_ascii.h 21-27. -/
def isAsciiDigit (c : Int) : Bool := 48 ≤ c && c ≤ 57

/-- `is_ascii_alpha_t::operator( )`, daw_ascii.h 34-41. -/
def isAsciiAlpha (c : Int) : Bool := (65 ≤ c && c ≤ 90) || (97 ≤ c && c ≤ 122)

/-- `is_ascii_alphanum_t::operator( )`, daw_ascii.h 48-53. -/
def isAsciiAlphanum (c : Int) : Bool := isAsciiDigit c || isAsciiAlpha c

/-- `is_ascii_printable_t::operator( )`, daw_ascii.h 60-65. -/
def isAsciiPrintable (c : Int) : Bool := 32 ≤ c && c < 127

/-- `to_upper_ascii_t::operator( )`, daw_ascii.h 72-80. -/
def toUpperAscii (t : IntTy) (c : Int) : Int := if 97 ≤ c ∧ c ≤ 122 then t.conv (c - 32) else c

/-- `to_lower_ascii_t::operator( )`, daw_ascii.h 87-95. -/
def toLowerAscii (t : IntTy) (c : Int) : Int := if 65 ≤ c ∧ c ≤ 90 then t.conv (c + 32) else c

/-- The code of a character. (Specification, no line of the source.) -/
def code (c : Char) : Int := c.toNat

theorem class_of_codes {f : Int → Bool} {l : List Char} (hf : ∀ c, f c = true → 0 ≤ c ∧ c < 128)
    (hd : ∀ n, n < 128 → f (n : Nat) = l.any fun x => x.toNat == n) (hl : ∀ x ∈ l, x.toNat < 128) (c : Int) :
    f c = true ↔ ∃ x ∈ l, c = code x := by
  constructor
  · intro h
    obtain ⟨h0, h1⟩ := hf c h
    obtain ⟨n, rfl⟩ := Int.eq_ofNat_of_zero_le h0
    rw [hd n (by omega), List.any_eq_true] at h
    obtain ⟨x, hx, he⟩ := h
    exact ⟨x, hx, by unfold code; rw [eq_of_beq he]⟩
  · rintro ⟨x, hx, rfl⟩
    have : f (x.toNat : Int) = true := by
      rw [hd _ (hl x hx), List.any_eq_true]
      exact ⟨x, hx, by simp⟩
    exact this

/-- The predicates accept exactly the codes of the digits, letters and printable characters of ASCII, in every integer type and
also for values that are no code at all. -/
theorem C140_classes (c : Int) :
    (isAsciiDigit c = true ↔ ∃ x ∈ "0123456789".toList, c = code x) ∧
    (isAsciiAlpha c = true ↔ ∃ x ∈ "ABCDEFGHIJKLMNOPQRSTUVWXYZabcdefghijklmnopqrstuvwxyz".toList, c = code x) ∧
    (isAsciiAlphanum c = true ↔ isAsciiDigit c = true ∨ isAsciiAlpha c = true) ∧
    (isAsciiPrintable c = true ↔ code ' ' ≤ c ∧ c ≤ code '~') := by
  refine ⟨class_of_codes (fun c h => ?_) (by decide +kernel) (by decide +kernel) c,
    class_of_codes (fun c h => ?_) (by decide +kernel) (by decide +kernel) c, ?_, ?_⟩
  · simp only [isAsciiDigit, Bool.and_eq_true, decide_eq_true_eq] at h; omega
  · simp only [isAsciiAlpha, Bool.or_eq_true, Bool.and_eq_true, decide_eq_true_eq] at h; omega
  · simp only [isAsciiAlphanum, Bool.or_eq_true]
  · have h1 : code ' ' = 32 := rfl
    have h2 : code '~' = 126 := rfl
    simp only [isAsciiPrintable, Bool.and_eq_true, decide_eq_true_eq, h1, h2]; omega

example : isAsciiDigit 55 = true ∧ isAsciiAlpha 64 = false ∧ isAsciiPrintable (-10) = false := by decide

theorem upper_eq (t : IntTy) (hw : 8 ≤ t.bits) (c : Int) : toUpperAscii t c = if 97 ≤ c ∧ c ≤ 122 then c - 32 else c := by
  unfold toUpperAscii
  split
  · have hp : (2 : Nat) ^ 7 ≤ 2 ^ (t.bits - 1) := Nat.pow_le_pow_right (by omega) (by omega)
    have hq : (2 : Nat) ^ 7 ≤ 2 ^ t.bits := Nat.pow_le_pow_right (by omega) (by omega)
    have hp' : (128 : Int) ≤ 2 ^ (t.bits - 1) := by exact_mod_cast hp
    have hq' : (128 : Int) ≤ 2 ^ t.bits := by exact_mod_cast hq
    apply IntTy.conv_of_has
    unfold IntTy.Has IntTy.lowest IntTy.max
    split <;> omega
  · rfl

theorem lower_eq (t : IntTy) (hw : 8 ≤ t.bits) (c : Int) : toLowerAscii t c = if 65 ≤ c ∧ c ≤ 90 then c + 32 else c := by
  unfold toLowerAscii
  split
  · have hp : (2 : Nat) ^ 7 ≤ 2 ^ (t.bits - 1) := Nat.pow_le_pow_right (by omega) (by omega)
    have hq : (2 : Nat) ^ 7 ≤ 2 ^ t.bits := Nat.pow_le_pow_right (by omega) (by omega)
    have hp' : (128 : Int) ≤ 2 ^ (t.bits - 1) := by exact_mod_cast hp
    have hq' : (128 : Int) ≤ 2 ^ t.bits := by exact_mod_cast hq
    apply IntTy.conv_of_has
    unfold IntTy.Has IntTy.lowest IntTy.max
    split <;> omega
  · rfl

/-- The letters exchange with those of the other case and nothing else changes. -/
theorem C140_case_letters (t : IntTy) (hw : 8 ≤ t.bits) :
    "abcdefghijklmnopqrstuvwxyz".toList.map (toUpperAscii t <| code ·) = "ABCDEFGHIJKLMNOPQRSTUVWXYZ".toList.map code ∧
    "ABCDEFGHIJKLMNOPQRSTUVWXYZ".toList.map (toLowerAscii t <| code ·) = "abcdefghijklmnopqrstuvwxyz".toList.map code ∧
    (∀ c, (∀ x ∈ "abcdefghijklmnopqrstuvwxyz".toList, c ≠ code x) → toUpperAscii t c = c) ∧
    (∀ c, (∀ x ∈ "ABCDEFGHIJKLMNOPQRSTUVWXYZ".toList, c ≠ code x) → toLowerAscii t c = c) := by
  simp only [upper_eq t hw, lower_eq t hw]
  refine ⟨by decide +kernel, by decide +kernel, fun c h => ?_, fun c h => ?_⟩
  · rw [if_neg]
    intro hc
    obtain ⟨x, hx, he⟩ := (class_of_codes (f := fun c => decide (97 ≤ c ∧ c ≤ 122)) (l := "abcdefghijklmnopqrstuvwxyz".toList)
      (fun c h => by simp only [decide_eq_true_eq] at h; omega) (by decide +kernel) (by decide +kernel) c).1 (decide_eq_true hc)
    exact h x hx he
  · rw [if_neg]
    intro hc
    obtain ⟨x, hx, he⟩ := (class_of_codes (f := fun c => decide (65 ≤ c ∧ c ≤ 90)) (l := "ABCDEFGHIJKLMNOPQRSTUVWXYZ".toList)
      (fun c h => by simp only [decide_eq_true_eq] at h; omega) (by decide +kernel) (by decide +kernel) c).1 (decide_eq_true hc)
    exact h x hx he

example := C140_case_letters .int (by decide)

/-- Changing the case twice is changing it once, the last change counts, and comparing lower case is comparing upper case. -/
theorem C140_case_laws (t : IntTy) (hw : 8 ≤ t.bits) (c d : Int) :
    toUpperAscii t (toUpperAscii t c) = toUpperAscii t c ∧ toLowerAscii t (toLowerAscii t c) = toLowerAscii t c ∧
    toUpperAscii t (toLowerAscii t c) = toUpperAscii t c ∧ toLowerAscii t (toUpperAscii t c) = toLowerAscii t c ∧
    (toLowerAscii t c = toLowerAscii t d ↔ toUpperAscii t c = toUpperAscii t d) := by
  simp only [upper_eq t hw, lower_eq t hw]
  refine ⟨?_, ?_, ?_, ?_, ?_⟩ <;> (repeat' split) <;> omega

example : toUpperAscii ⟨8, true, by decide⟩ 104 = 72 ∧ toLowerAscii ⟨8, true, by decide⟩ (-60) = -60 := by decide +kernel

end Verif.Bits.Masks
