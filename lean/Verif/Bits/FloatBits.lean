import Verif.Bits.FloatPow
import Verif.Bits.Zeros

/-
The fields of a floating point number by arithmetic alone, for compilers without `bit_cast`, include/daw/daw_cxmath.h.
-/

namespace Verif.Bits.Float
open Cxx Verif.Bits.Zeros

/-- The least positive number of a type is two to the power of minus this. (Rule of C++ or its library, no line of the source.) -/
def ulpExp : Real → Nat
  | .double => 1074
  | .float => 149

/-- The absolute value of a finite number as a multiple of the least positive one; every finite number is one.
(Rule of C++ or its library, no line of the source.) -/
def units (r : Real) (v : BitVec r.width) : Nat :=
  if expOf r v = 0 then sigOf r v else (2 ^ sigBits r + sigOf r v) * 2 ^ (expOf r v - 1)

/-- The loop `while( abs_f < 0x1p87f )`, daw_cxmath.h 921-924 and 756-759, on multiples of the least positive number: `lim` is
the limit as such a multiple.  The product with a power of two that stays finite is exact. -/
def scaleUp (lim x : Nat) (e : Int) : Cxx (Nat × Int) :=
  if x < lim then scaleUp lim (x * 2 ^ 41) (e - 41) else pure (x, e)
partial_fixpoint

/-- `static_cast<std::uint64_t>` of a nonnegative number: undefined where the whole part is too great.
(Rule of C++ or its library, no line of the source.) -/
def castU64 (n : Nat) : Cxx (BitVec 64) := if n < 2 ^ 64 then pure (BitVec.ofNat 64 n) else ub

/-- `bits( float )` where `bit_cast` is not available, daw_cxmath.h 911-943: the raw value of the parts that it gives. -/
def bitsPortable (f : BitVec 32) : Cxx (BitVec 32) :=
  if ieee .float f = .zero then pure 0#32
  else if ieee .float f = .infinity ∧ signOf .float f = 0 then pure 0x7f800000#32
  else if ieee .float f = .infinity ∧ signOf .float f = 1 then pure 0xff800000#32
  else if ieee .float f = .nan then pure 0x7fc00000#32
  else do
    let (x, exponent) ← scaleUp (2 ^ (87 + 149)) (units .float f) 254
    let a ← castU64 (x / 2 ^ (64 + 149))
    let lz ← clz 64 a
    let exponent := exponent - lz
    let (exponent, lz) := if exponent ≤ 0 then ((0 : Int), (8 - 1 : Nat)) else (exponent, lz)
    let significand := ((a <<< (lz + 1)) >>> (64 - 23)).truncate 32
    pure ((BitVec.ofNat 32 (signOf .float f) <<< 31) ||| (BitVec.ofInt 32 exponent <<< 23) ||| significand)

/-- `intxp` where `bit_cast` is not available, daw_cxmath.h 739-768. -/
def intxpPortable (r : Real) (f : BitVec r.width) : Cxx (Option Int) :=
  if ieee r f = .zero then pure (some 0)
  else if ieee r f = .infinity then pure none
  else if ieee r f = .nan then pure none
  else do
    let (x, exponent) ← scaleUp (2 ^ (87 + ulpExp r)) (units r f) 254
    let a ← castU64 (x / 2 ^ (64 + ulpExp r))
    let lz ← clz 64 a
    let exponent := exponent - lz
    if exponent ≥ 0 then pure (some (exponent - 127)) else pure none

/-- `intxp` where `bit_cast` is available, daw_cxmath.h 735-737. -/
def intxpCast (r : Real) (f : BitVec r.width) : Cxx (Option Int) := pure (some (getExponent r f))

/-! ### Helpers -/

theorem value_units (r : Real) (v : BitVec r.width) :
    value r v = (if signOf r v = 1 then -1 else 1) * ((units r v : Rat) * 2 ^ (-(ulpExp r : Int))) := by
  unfold value units
  congr 1
  by_cases h : expOf r v = 0
  · rw [if_pos h, if_pos h]
    cases r <;> rfl
  · rw [if_neg h, if_neg h]
    have h1 : (expOf r v : Int) - exponentBias r - sigBits r = ((expOf r v - 1 : Nat) : Int) + -(ulpExp r : Int) := by
      cases r <;> simp [exponentBias, sigBits, ulpExp] <;> omega
    rw [h1, zpow_add₀ (by norm_num)]
    push_cast
    rw [zpow_natCast]
    ring

theorem units_pos (r : Real) (v : BitVec r.width) (h : ieee r v = .normal ∨ ieee r v = .subnormal) : 0 < units r v := by
  unfold ieee at h
  unfold units
  by_cases h0 : expOf r v = 0
  · rw [if_pos h0] at h ⊢
    by_cases h1 : sigOf r v = 0
    · simp [h1] at h
    · omega
  · rw [if_neg h0]
    positivity

theorem scaleUp_eq (lim : Nat) : ∀ (n x : Nat) (e : Int), 0 < x → lim - x ≤ n →
    ∃ k : Nat, scaleUp lim x e = pure (x * 2 ^ (41 * k), e - 41 * k) ∧ lim ≤ x * 2 ^ (41 * k) ∧
      (k = 0 ∨ x * 2 ^ (41 * k) < lim * 2 ^ 41) := by
  intro n
  induction n with
  | zero =>
    intro x e hx hn
    refine ⟨0, ?_, by simp; omega, .inl rfl⟩
    rw [scaleUp, if_neg (by omega)]
    simp
  | succ n ih =>
    intro x e hx hn
    by_cases hlt : x < lim
    · obtain ⟨k, hk, hle, hk2⟩ := ih (x * 2 ^ 41) (e - 41) (by omega) (by omega)
      have hp : x * 2 ^ 41 * 2 ^ (41 * k) = x * 2 ^ (41 * (k + 1)) := by rw [Nat.mul_assoc, ← Nat.pow_add]; congr 2; omega
      rw [hp] at hk hle hk2
      refine ⟨k + 1, ?_, hle, .inr ?_⟩
      · rw [scaleUp, if_pos hlt, hk]
        congr 2
        push_cast
        omega
      · rcases hk2 with hk2 | hk2
        · subst hk2
          have : x * 2 ^ (41 * (0 + 1)) = x * 2 ^ 41 := by simp
          omega
        · exact hk2
    · refine ⟨0, ?_, by simp; omega, .inl rfl⟩
      rw [scaleUp, if_neg hlt]
      simp

theorem log2_shift (m j : Nat) (h : 0 < m) : Nat.log2 (m * 2 ^ j) = Nat.log2 m + j := by
  rw [Nat.log2_eq_iff (by positivity)]
  have h1 := Nat.log2_self_le (n := m) (by omega)
  have h2 := Nat.lt_log2_self (n := m)
  rw [Nat.pow_add, show Nat.log2 m + j + 1 = (Nat.log2 m + 1) + j by omega, Nat.pow_add]
  exact ⟨Nat.mul_le_mul_right _ h1, Nat.mul_lt_mul_of_pos_right h2 (by positivity)⟩

/-- The loop, the cast and the count on a number that starts no greater than the type `float` has. -/
theorem scaled (u x : Nat) (hx : 0 < x) (hlt : x < 2 ^ (128 + u)) :
    ∃ k : Nat, scaleUp (2 ^ (87 + u)) x 254 = pure (x * 2 ^ (41 * k), 254 - 41 * (k : Int)) ∧
      87 + u ≤ Nat.log2 x + 41 * k ∧ Nat.log2 x + 41 * k < 128 + u ∧
      castU64 (x * 2 ^ (41 * k) / 2 ^ (64 + u)) = pure (BitVec.ofNat 64 (x * 2 ^ (41 * k) / 2 ^ (64 + u))) ∧
      x * 2 ^ (41 * k) / 2 ^ (64 + u) < 2 ^ 64 ∧
      clz 64 (BitVec.ofNat 64 (x * 2 ^ (41 * k) / 2 ^ (64 + u))) = pure (127 + u - (Nat.log2 x + 41 * k)) := by
  obtain ⟨k, hk, hle, hk2⟩ := scaleUp_eq (2 ^ (87 + u)) _ x 254 hx (Nat.le_refl _)
  have hup : x * 2 ^ (41 * k) < 2 ^ (128 + u) := by
    rcases hk2 with rfl | hk2
    · simpa using hlt
    · rwa [← Nat.pow_add, show 87 + u + 41 = 128 + u by omega] at hk2
  have hpos : x * 2 ^ (41 * k) ≠ 0 := by positivity
  have hlo := (Nat.le_log2 hpos).2 hle
  have hhi := (Nat.log2_lt hpos).2 hup
  rw [log2_shift _ _ hx] at hlo hhi
  have ha : x * 2 ^ (41 * k) / 2 ^ (64 + u) < 2 ^ 64 := by
    rw [Nat.div_lt_iff_lt_mul (by positivity), ← Nat.pow_add]
    rwa [show 64 + (64 + u) = 128 + u by omega]
  have ha0 : x * 2 ^ (41 * k) / 2 ^ (64 + u) ≠ 0 := by
    have : 2 ^ (64 + u) ≤ x * 2 ^ (41 * k) := Nat.le_trans (Nat.pow_le_pow_right (by omega) (by omega)) hle
    have := Nat.div_pos this (by positivity)
    omega
  have hlog : Nat.log2 (x * 2 ^ (41 * k) / 2 ^ (64 + u)) = Nat.log2 x + 41 * k - (64 + u) := by
    rw [Nat.log2_eq_iff ha0]
    have h1 := Nat.log2_self_le hpos
    have h2 := Nat.lt_log2_self (n := x * 2 ^ (41 * k))
    rw [log2_shift _ _ hx] at h1 h2
    constructor
    · rw [Nat.le_div_iff_mul_le (by positivity), ← Nat.pow_add]
      rwa [show Nat.log2 x + 41 * k - (64 + u) + (64 + u) = Nat.log2 x + 41 * k by omega]
    · rw [Nat.div_lt_iff_lt_mul (by positivity), ← Nat.pow_add]
      rwa [show Nat.log2 x + 41 * k - (64 + u) + 1 + (64 + u) = Nat.log2 x + 41 * k + 1 by omega]
  refine ⟨k, hk, hlo, hhi, by unfold castU64; rw [if_pos ha], ha, ?_⟩
  have hn : BitVec.ofNat 64 (x * 2 ^ (41 * k) / 2 ^ (64 + u)) ≠ 0 := by
    intro h
    have := congrArg BitVec.toNat h
    rw [BitVec.toNat_ofNat, Nat.mod_eq_of_lt ha] at this
    exact ha0 this
  unfold clz builtinClz
  rw [if_pos hn, if_neg hn, BitVec.toNat_ofNat, Nat.mod_eq_of_lt ha, hlog]
  congr 1
  omega

theorem units_lt_float (f : BitVec 32) (h : ieee .float f = .normal ∨ ieee .float f = .subnormal) : units .float f < 2 ^ (128 + 149) := by
  have hs : sigOf .float f < 2 ^ 23 := Nat.mod_lt _ (by decide)
  have he : expOf .float f < 256 := Nat.mod_lt _ (by decide)
  have he2 : expOf .float f ≠ 255 := by
    intro h2
    unfold ieee at h
    rw [if_neg (by omega), if_pos (by simpa [expBits] using h2)] at h
    split at h <;> simp at h
  unfold units
  by_cases h0 : expOf .float f = 0
  · rw [if_pos h0]
    exact Nat.lt_of_lt_of_le hs (Nat.pow_le_pow_right (by omega) (by omega))
  · rw [if_neg h0]
    show (2 ^ 23 + sigOf .float f) * 2 ^ (expOf .float f - 1) < _
    calc (2 ^ 23 + sigOf .float f) * 2 ^ (expOf .float f - 1) < 2 ^ 24 * 2 ^ (expOf .float f - 1) :=
          Nat.mul_lt_mul_of_pos_right (by omega) (by positivity)
      _ = 2 ^ (24 + (expOf .float f - 1)) := by rw [← Nat.pow_add]
      _ ≤ _ := Nat.pow_le_pow_right (by omega) (by omega)

theorem log2_units (r : Real) (f : BitVec r.width) (h : expOf r f ≠ 0) : Nat.log2 (units r f) = sigBits r + expOf r f - 1 := by
  have hs : sigOf r f < 2 ^ sigBits r := Nat.mod_lt _ (by positivity)
  unfold units
  rw [if_neg h, log2_shift _ _ (by positivity), (Nat.log2_eq_iff (k := sigBits r) (by positivity)).2
    ⟨by omega, by rw [Nat.pow_succ]; omega⟩]
  omega

theorem join32 (s e g : Nat) (hs : s < 2 ^ 23) (he : e < 2 ^ 8) (hg : g < 2) :
    ((BitVec.ofNat 32 g <<< 31) ||| (BitVec.ofInt 32 (e : Int) <<< 23) ||| BitVec.ofNat 32 s).toNat = s + 2 ^ 23 * (e + 2 ^ 8 * g) := by
  have h1 : (BitVec.ofNat 32 g <<< 31).toNat = 2 ^ 31 * g := by
    rw [BitVec.toNat_shiftLeft, BitVec.toNat_ofNat, Nat.shiftLeft_eq]
    omega
  have h2 : (BitVec.ofInt 32 (e : Int) <<< 23).toNat = 2 ^ 23 * e := by
    rw [BitVec.ofInt_natCast, BitVec.toNat_shiftLeft, BitVec.toNat_ofNat, Nat.shiftLeft_eq]
    omega
  have h3 : (BitVec.ofNat 32 s).toNat = s := by
    rw [BitVec.toNat_ofNat]
    omega
  rw [BitVec.toNat_or, BitVec.toNat_or, h1, h2, h3, ← Nat.two_pow_add_eq_or_of_lt (i := 31) (b := 2 ^ 23 * e) (by omega) g]
  have h4 : 2 ^ 31 * g + 2 ^ 23 * e = 2 ^ 23 * (2 ^ 8 * g + e) := by omega
  rw [h4, ← Nat.two_pow_add_eq_or_of_lt hs]
  omega

theorem takeSig (m j : Nat) (c : Nat) (hj : j + c = 41) :
    ((BitVec.ofNat 64 (m * 2 ^ j) <<< c) >>> 41).truncate 32 = BitVec.ofNat 32 (m % 2 ^ 23) := by
  apply BitVec.eq_of_toNat_eq
  simp only [BitVec.truncate_eq_setWidth, BitVec.toNat_setWidth, BitVec.toNat_ushiftRight, BitVec.toNat_shiftLeft,
    BitVec.toNat_ofNat, Nat.shiftLeft_eq, Nat.shiftRight_eq_div_pow]
  rw [← Nat.mod_mul_mod, Nat.mod_mod, Nat.mod_mul_mod, Nat.mul_assoc, ← Nat.pow_add, hj]
  omega

/-! ### C345 -/

/-- C345, as far as it holds: without `bit_cast` the raw value is that of the number, for every number but minus zero, normal,
subnormal or infinite. -/
theorem C345_bits_partial (f : BitVec 32) (hz : f ≠ 0x80000000#32) (hn : ieee .float f ≠ .nan) : bitsPortable f = pure f := by
  obtain ⟨hf, hs, he, hg⟩ := fields .float f
  unfold bitsPortable
  by_cases h0 : ieee .float f = .zero
  · rw [if_pos h0]
    congr 1
    apply BitVec.eq_of_toNat_eq
    have hz' : f.toNat ≠ 0x80000000 := fun h => hz (BitVec.eq_of_toNat_eq h)
    have h1 : expOf .float f = 0 ∧ sigOf .float f = 0 := by
      unfold ieee at h0
      split at h0
      · split at h0 <;> simp_all
      · split at h0
        · split at h0 <;> simp at h0
        · simp at h0
    rw [h1.1, h1.2] at hf
    simp only [sigBits, expBits] at hf
    show 0 = f.toNat
    omega
  rw [if_neg h0]
  by_cases h1 : ieee .float f = .infinity
  · have h2 : expOf .float f = 255 ∧ sigOf .float f = 0 := by
      unfold ieee at h1
      split at h1
      · split at h1 <;> simp at h1
      · split at h1
        · split at h1 <;> simp_all [expBits]
        · simp at h1
    rw [h2.1, h2.2] at hf
    simp only [sigBits, expBits] at hf
    by_cases hg0 : signOf .float f = 0
    · rw [if_pos ⟨h1, hg0⟩]
      congr 1
      apply BitVec.eq_of_toNat_eq
      show 0x7f800000 = f.toNat
      omega
    · rw [if_neg (fun h => hg0 h.2), if_pos ⟨h1, by omega⟩]
      congr 1
      apply BitVec.eq_of_toNat_eq
      show 0xff800000 = f.toNat
      omega
  rw [if_neg (fun h => h1 h.1), if_neg (fun h => h1 h.1), if_neg hn]
  have hfin : ieee .float f = .normal ∨ ieee .float f = .subnormal := by
    cases h : ieee .float f <;> simp_all
  have hu := units_pos .float f hfin
  obtain ⟨k, hk, hlo, hhi, hc, ha, hl⟩ := scaled 149 (units .float f) hu (units_lt_float f hfin)
  simp only [hk, pure_bind, hc, hl]
  have hlt : units .float f < 2 ^ (128 + 149) := units_lt_float f hfin
  have hres : ∀ (e : Nat) (lz : Nat), e = expOf .float f →
      ((BitVec.ofNat 64 (units .float f * 2 ^ (41 * k) / 2 ^ (64 + 149)) <<< (lz + 1)) >>> 41).truncate 32 =
        BitVec.ofNat 32 (sigOf .float f) →
      (pure ((BitVec.ofNat 32 (signOf .float f) <<< 31) ||| (BitVec.ofInt 32 (e : Int) <<< 23) |||
        ((BitVec.ofNat 64 (units .float f * 2 ^ (41 * k) / 2 ^ (64 + 149)) <<< (lz + 1)) >>> 41).truncate 32) : Cxx (BitVec 32)) = pure f := by
    intro e lz hee hsig
    congr 1
    apply BitVec.eq_of_toNat_eq
    rw [hsig, hee, join32 _ _ _ hs he hg]
    exact hf.symm
  by_cases hsub : expOf .float f = 0
  · have hx : units .float f = sigOf .float f := by unfold units; rw [if_pos hsub]
    have hlog : Nat.log2 (units .float f) < 23 := (Nat.log2_lt (by omega)).2 (by rw [hx]; exact hs)
    have hk6 : k = 6 := by omega
    rw [if_pos (by omega)]
    refine hres 0 7 hsub.symm ?_
    subst hk6
    rw [hx]
    have hdiv : sigOf .float f * 2 ^ (41 * 6) / 2 ^ (64 + 149) = sigOf .float f * 2 ^ 33 := by
      rw [show 41 * 6 = 33 + (64 + 149) by rfl, Nat.pow_add, ← Nat.mul_assoc, Nat.mul_div_cancel _ (by positivity)]
    rw [hdiv, takeSig _ _ _ (by rfl), Nat.mod_eq_of_lt hs]
  · have hlog := log2_units .float f hsub
    simp only [sigBits] at hlog
    rw [if_neg (by omega)]
    have hexp : (254 - 41 * (k : Int) - ((127 + 149 - (Nat.log2 (units .float f) + 41 * k) : Nat) : Int)) = (expOf .float f : Int) := by omega
    rw [hexp]
    refine hres _ _ rfl ?_
    have hx : units .float f = (2 ^ 23 + sigOf .float f) * 2 ^ (expOf .float f - 1) := by unfold units; rw [if_neg hsub]
    have hdiv : units .float f * 2 ^ (41 * k) / 2 ^ (64 + 149) = (2 ^ 23 + sigOf .float f) * 2 ^ (Nat.log2 (units .float f) + 41 * k - 236) := by
      have : units .float f * 2 ^ (41 * k) = (2 ^ 23 + sigOf .float f) * 2 ^ (Nat.log2 (units .float f) + 41 * k - 236) * 2 ^ (64 + 149) := by
        generalize Nat.log2 (units .float f) = l at *
        rw [hx]
        generalize hw : 64 + 149 = w
        rw [Nat.mul_assoc, ← Nat.pow_add, Nat.mul_assoc, ← Nat.pow_add,
          show expOf .float f - 1 + 41 * k = l + 41 * k - 236 + w by omega]
      rw [this, Nat.mul_div_cancel _ (by positivity)]
    simp only [sigBits] at hs
    rw [hdiv, takeSig _ _ _ (by omega)]
    congr 1
    omega

example : ieee .float 0xC0490FDB#32 = .normal ∧ ieee .float 0x00000001#32 = .subnormal := by decide

/-- C345 does not hold for minus zero, whose sign is lost, and for values that are no number, of which only one is given. -/
theorem C345_bits_violated :
    bitsPortable 0x80000000#32 = pure 0x00000000#32 ∧
    ∀ f, ieee .float f = .nan → bitsPortable f = pure 0x7fc00000#32 := by
  refine ⟨by unfold bitsPortable; rw [if_pos (by decide)], fun f h => ?_⟩
  unfold bitsPortable
  simp [h]

example : ieee .float 0xFFC00001#32 = .nan := by decide

/-! ### C346 -/

/-- C346, as far as it holds: without `bit_cast`, for every finite number but zero below two to the power of 128, `intxp` gives the
greatest power of two that is not above the number; or nothing, if this power is below minus 127. -/
theorem C346_intxp_partial (r : Real) (f : BitVec r.width) (h : ieee r f = .normal ∨ ieee r f = .subnormal) (hb : |value r f| < 2 ^ 128) :
    ∃ e : Int, (2 : Rat) ^ e ≤ |value r f| ∧ |value r f| < (2 : Rat) ^ (e + 1) ∧
      intxpPortable r f = pure (if -127 ≤ e then some e else none) := by
  have habs : |value r f| = (units r f : Rat) * 2 ^ (-(ulpExp r : Int)) := by
    rw [value_units, abs_mul, abs_of_nonneg (show (0 : Rat) ≤ (units r f : Rat) * 2 ^ (-(ulpExp r : Int)) by positivity)]
    split <;> simp
  have hu := units_pos r f h
  have hlt : units r f < 2 ^ (128 + ulpExp r) := by
    rw [habs, zpow_neg, ← div_eq_mul_inv, div_lt_iff₀ (by positivity), zpow_natCast, ← pow_add] at hb
    exact_mod_cast hb
  obtain ⟨k, hk, hlo, hhi, hc, ha, hl⟩ := scaled (ulpExp r) (units r f) hu hlt
  refine ⟨(Nat.log2 (units r f) : Int) - ulpExp r, ?_, ?_, ?_⟩
  · rw [habs, sub_eq_add_neg, zpow_add₀ (by norm_num), zpow_natCast]
    refine mul_le_mul_of_nonneg_right ?_ (by positivity)
    exact_mod_cast Nat.log2_self_le (by omega)
  · rw [habs, show (Nat.log2 (units r f) : Int) - ulpExp r + 1 = ((Nat.log2 (units r f) + 1 : Nat) : Int) + -(ulpExp r : Int) by push_cast; omega,
      zpow_add₀ (by norm_num), zpow_natCast]
    refine mul_lt_mul_of_pos_right ?_ (by positivity)
    exact_mod_cast Nat.lt_log2_self
  · unfold intxpPortable
    have hz : ieee r f ≠ .zero ∧ ieee r f ≠ .infinity ∧ ieee r f ≠ .nan := by rcases h with h | h <;> simp [h]
    rw [if_neg hz.1, if_neg hz.2.1, if_neg hz.2.2]
    simp only [hk, pure_bind, hc, hl]
    by_cases hneg : -127 ≤ (Nat.log2 (units r f) : Int) - ulpExp r
    · rw [if_pos (by omega), if_pos hneg]
      congr 2
      omega
    · rw [if_neg (by omega), if_neg hneg]

example : ieee .double 0x4045000000000000#64 = .normal ∧ |value .double 0x4045000000000000#64| < 2 ^ 128 := by
  refine ⟨by decide, ?_⟩
  have h1 : signOf .double 0x4045000000000000#64 = 0 := by decide
  have h2 : expOf .double 0x4045000000000000#64 = 1028 := by decide
  have h3 : sigOf .double 0x4045000000000000#64 = 1407374883553280 := by decide
  unfold value
  rw [h1, h2, h3]
  norm_num [exponentBias, sigBits]

/-- C346 does not hold for a `double` of two to the power of 128 or more: the cast is undefined. -/
theorem C346_intxp_violated (f : BitVec 64) (h : ieee .double f = .normal) (hb : 2 ^ 128 ≤ |value .double f|) :
    intxpPortable .double f = ub := by
  have habs : |value .double f| = (units .double f : Rat) * 2 ^ (-(ulpExp .double : Int)) := by
    rw [value_units, abs_mul, abs_of_nonneg (show (0 : Rat) ≤ (units .double f : Rat) * 2 ^ (-(ulpExp .double : Int)) by positivity)]
    split <;> simp
  have hle : 2 ^ (128 + ulpExp .double) ≤ units .double f := by
    rw [habs, zpow_neg, ← div_eq_mul_inv, le_div_iff₀ (by positivity), zpow_natCast, ← pow_add] at hb
    exact_mod_cast hb
  have hlim : (2 : Nat) ^ (87 + ulpExp .double) ≤ 2 ^ (128 + ulpExp .double) := Nat.pow_le_pow_right (by omega) (by omega)
  unfold intxpPortable
  rw [if_neg (by simp [h]), if_neg (by simp [h]), if_neg (by simp [h]), scaleUp, if_neg (by omega), pure_bind]
  have : ¬ units .double f / 2 ^ (64 + ulpExp .double) < 2 ^ 64 := by
    rw [Nat.div_lt_iff_lt_mul (by positivity), ← Nat.pow_add, show 64 + (64 + ulpExp .double) = 128 + ulpExp .double by omega]
    omega
  simp only [castU64, if_neg this, ub_bind]

example : ieee .double 0x4800000000000000#64 = .normal ∧ 2 ^ 128 ≤ |value .double 0x4800000000000000#64| := by
  refine ⟨by decide, ?_⟩
  have h1 : signOf .double 0x4800000000000000#64 = 0 := by decide
  have h2 : expOf .double 0x4800000000000000#64 = 1152 := by decide
  have h3 : sigOf .double 0x4800000000000000#64 = 0 := by decide
  unfold value
  rw [h1, h2, h3]
  norm_num [exponentBias, sigBits]

/-- C346: the two versions of `intxp` agree on every normal `float`. -/
theorem C346_versions_agree (f : BitVec 32) (h : ieee .float f = .normal) : intxpPortable .float f = intxpCast .float f := by
  have hu := units_pos .float f (.inl h)
  obtain ⟨k, hk, hlo, hhi, hc, ha, hl⟩ := scaled 149 (units .float f) hu (units_lt_float f (.inl h))
  have he : expOf .float f ≠ 0 := by
    intro h0
    unfold ieee at h
    rw [if_pos h0] at h
    split at h <;> simp at h
  have hlog := log2_units .float f he
  have hge := (C43_get .float f).2.2.1
  unfold intxpPortable intxpCast
  rw [if_neg (by simp [h]), if_neg (by simp [h]), if_neg (by simp [h])]
  simp only [ulpExp, hk, pure_bind, hc, hl]
  simp only [sigBits, expBits] at hlog hge
  rw [if_pos (by omega), hge]
  congr 2
  omega

example := C346_versions_agree 0x40490FDB#32 (by decide +kernel)

/-- C346: they disagree on zero, on the infinite values, on the values that are no number, and on the small subnormal numbers. -/
theorem C346_versions_differ :
    (∀ r f, ieee r f = .zero → intxpPortable r f = pure (some 0) ∧ intxpCast r f = pure (some (-exponentBias r))) ∧
    (∀ r f, ieee r f = .infinity ∨ ieee r f = .nan → intxpPortable r f = pure none ∧ intxpCast r f = pure (some (exponentBias r + 1))) ∧
    ∀ f : BitVec 32, ieee .float f = .subnormal → units .float f < 2 ^ 22 →
      intxpPortable .float f = pure none ∧ intxpCast .float f = pure (some (-127)) := by
  have hcast : ∀ (r : Real) (f : BitVec r.width), getExponent r f = (expOf r f : Int) - exponentBias r := by
    intro r f
    rw [(C43_get r f).2.2.1]
    cases r <;> rfl
  refine ⟨fun r f h => ⟨?_, ?_⟩, fun r f h => ⟨?_, ?_⟩, fun f h hs => ⟨?_, ?_⟩⟩
  · unfold intxpPortable
    rw [if_pos h]
  · have h0 : expOf r f = 0 := by
      unfold ieee at h
      split at h
      · assumption
      · split at h
        · split at h <;> simp at h
        · simp at h
    unfold intxpCast
    rw [hcast, h0]
    simp
  · unfold intxpPortable
    rcases h with h | h <;> simp [h]
  · have h0 : expOf r f = 2 ^ expBits r - 1 := by
      unfold ieee at h
      by_cases h1 : expOf r f = 0
      · rw [if_pos h1] at h
        split at h <;> simp at h
      · rw [if_neg h1] at h
        by_cases h2 : expOf r f = 2 ^ expBits r - 1
        · exact h2
        · rw [if_neg h2] at h
          simp at h
    unfold intxpCast
    rw [hcast, h0]
    cases r <;> rfl
  · obtain ⟨k, hk, hlo, hhi, hc, ha, hl⟩ := scaled 149 (units .float f) (units_pos .float f (.inr h)) (units_lt_float f (.inr h))
    have hlog : Nat.log2 (units .float f) < 22 := (Nat.log2_lt (by have := units_pos .float f (.inr h); omega)).2 hs
    unfold intxpPortable
    rw [if_neg (by simp [h]), if_neg (by simp [h]), if_neg (by simp [h])]
    simp only [ulpExp, hk, pure_bind, hc, hl]
    rw [if_neg (by omega)]
  · have h0 : expOf .float f = 0 := by
      unfold ieee at h
      split at h
      · assumption
      · split at h
        · split at h <;> simp at h
        · simp at h
    unfold intxpCast
    rw [hcast, h0]
    rfl

example : ieee .float 0x00000003#32 = .subnormal ∧ units .float 0x00000003#32 < 2 ^ 22 ∧ ieee .double 0x8000000000000000#64 = .zero := by
  decide

end Verif.Bits.Float
