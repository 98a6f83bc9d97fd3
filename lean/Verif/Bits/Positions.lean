import Verif.Base
import Verif.Containers.Lists

/-
Bit sets made of positions, include/daw/daw_bitset_helper.h, and literals for sizes, include/daw/daw_size_literals.h.
-/

namespace Verif.Bits.Positions
open Verif Verif.Cxx

/-- `static_cast<std::size_t>( position )`, daw_bitset_helper.h 32 and 63, for an integer or an enumeration of at most 64 bits. -/
def toSize (p : Int) : Nat := (p % 2 ^ 64).toNat

/-- `result.set( position )` of `std::bitset<N>`, which throws `std::out_of_range`. (Rule of C++ or its library, no line of the source.) -/
def setBit (bs : List Bool) (pos : Nat) : Cxx (List Bool) := if pos < bs.length then pure (bs.set pos true) else thrown

/-- The body of the loop, daw_bitset_helper.h 24-33, and of the fold over the comma, 56-65.  `debug`: `NDEBUG` is not defined.  For a type without
sign no position is negative, so that the test of the type, 28 and 59, does not matter. -/
def addPosition (debug : Bool) (bs : List Bool) (p : Int) : Cxx (List Bool) :=
  if debug = true ∧ ¬ 0 ≤ p then abort
  else if debug = true ∧ ¬ toSize p < bs.length then abort
  else setBit bs (toSize p)

/-- `create_bitset_from_set_positions<N>`, daw_bitset_helper.h 20-35 and 52-67: the bits with the numbers 0 to `N` - 1. -/
def create (debug : Bool) (n : Nat) (ps : List Int) : Cxx (List Bool) := ps.foldlM (addPosition debug) (List.replicate n false)

/-- `val * factor * ... * factor` with `times` factors in `unsigned long long`, daw_size_literals.h 12-60. -/
def scale (factor : Nat) : Nat → Nat → Nat
  | 0, val => val
  | times + 1, val => scale factor times (val * factor % 2 ^ 64)

/-- The literals `_KB`, `_MB`, `_GB`, `_TB`, `_PB` for 1 to 5, daw_size_literals.h 12-35. -/
def literalB (unit val : Nat) : Nat := scale 1024 unit val

/-- The literals `_KiB`, `_MiB`, `_GiB`, `_TiB`, `_PiB` for 1 to 5, daw_size_literals.h 37-60. -/
def literalIB (unit val : Nat) : Nat := scale 1000 unit val

/-! ## Proofs -/

theorem toSize_nonneg {p : Int} (h : 0 ≤ p) (h' : p < 2 ^ 64) : toSize p = p.toNat := by
  rw [toSize, Int.emod_eq_of_lt h h']

theorem toSize_neg {p : Int} (h : p < 0) (h' : -2 ^ 63 ≤ p) : 2 ^ 63 ≤ toSize p := by
  have : p % 2 ^ 64 = p + 2 ^ 64 := by
    rw [← Int.add_emod_right, Int.emod_eq_of_lt (by omega) (by omega)]
  rw [toSize, this]
  omega

theorem addPosition_good {debug : Bool} {bs : List Bool} {p : Int} (h : 0 ≤ p) (h' : p < bs.length) (h64 : p < 2 ^ 64) :
    addPosition debug bs p = pure (bs.set p.toNat true) := by
  have ht := toSize_nonneg h h64
  rw [addPosition, if_neg (by simp [h]), if_neg (by rw [ht]; omega), setBit, if_pos (by rw [ht]; omega), ht]

theorem addPosition_bad {debug : Bool} {bs : List Bool} {p : Int} (h : ¬ (0 ≤ p ∧ p < bs.length)) (hl : -2 ^ 63 ≤ p) (h64 : p < 2 ^ 64)
    (hn : bs.length ≤ 2 ^ 63) : addPosition debug bs p = if debug then abort else thrown := by
  have ht : ¬ toSize p < bs.length := by
    by_cases hp : 0 ≤ p
    · rw [toSize_nonneg hp h64]; omega
    · have := toSize_neg (by omega) hl
      omega
  cases debug
  · simp [addPosition, setBit, ht]
  · by_cases hp : 0 ≤ p <;> simp [addPosition, hp, ht]

theorem loop_good {debug : Bool} (n : Nat) (ps : List Int) (hp : ∀ p ∈ ps, 0 ≤ p ∧ p < n) (hb : ∀ p ∈ ps, p < 2 ^ 64) (q : Nat → Bool) :
    ps.foldlM (addPosition debug) ((List.range n).map q) = pure ((List.range n).map fun i => q i || decide ((i : Int) ∈ ps)) := by
  induction ps generalizing q with
  | nil => simp
  | cons p ps ih =>
    have h := hp p (by simp)
    rw [List.foldlM_cons, addPosition_good h.1 (by simpa using h.2) (hb p (by simp)), pure_bind]
    have : ((List.range n).map q).set p.toNat true = (List.range n).map fun i => q i || decide ((i : Int) = p) := by
      apply List.ext_getElem
      · simp
      · intro i h1 h2
        simp only [List.getElem_set, List.getElem_map, List.getElem_range]
        by_cases hi : p.toNat = i
        · rw [if_pos hi]
          have : (i : Int) = p := by omega
          simp [this]
        · rw [if_neg hi]
          have : (i : Int) ≠ p := by omega
          simp [this]
    rw [this, ih (fun x hx => hp x (by simp [hx])) (fun x hx => hb x (by simp [hx]))]
    congr 1
    apply List.map_congr_left
    intro i _
    rw [Bool.or_assoc]
    congr 1
    simp [List.mem_cons]

theorem length_loop {debug : Bool} (ps : List Int) (bs r : List Bool) (h : ps.foldlM (addPosition debug) bs = pure r) :
    r.length = bs.length := by
  induction ps generalizing bs with
  | nil => rw [List.foldlM_nil, pure_inj] at h; rw [h]
  | cons p ps ih =>
    rw [List.foldlM_cons, bind_eq_pure] at h
    obtain ⟨b, hb, h⟩ := h
    rw [ih b h]
    unfold addPosition setBit at hb
    split at hb
    · exact absurd hb (abort_ne_pure _)
    · split at hb
      · exact absurd hb (abort_ne_pure _)
      · split at hb
        · rw [pure_inj] at hb; rw [← hb]; simp
        · cases hb

theorem loop_bad {debug : Bool} (ps : List Int) (bs : List Bool) (hp : ¬ ∀ p ∈ ps, 0 ≤ p ∧ p < bs.length)
    (hb : ∀ p ∈ ps, -2 ^ 63 ≤ p ∧ p < 2 ^ 64) (hn : bs.length ≤ 2 ^ 63) :
    ps.foldlM (addPosition debug) bs = if debug then abort else thrown := by
  induction ps generalizing bs with
  | nil => simp at hp
  | cons p ps ih =>
    have h := hb p (by simp)
    rw [List.foldlM_cons]
    by_cases hg : 0 ≤ p ∧ p < bs.length
    · rw [addPosition_good hg.1 hg.2 h.2, pure_bind]
      apply ih
      · intro hall
        apply hp
        intro x hx
        rcases List.mem_cons.1 hx with rfl | hx
        · exact hg
        · simpa using hall x hx
      · exact fun x hx => hb x (by simp [hx])
      · simpa using hn
    · rw [addPosition_bad hg h.1 h.2 hn]
      cases debug <;> rfl

/-- If all positions are within the bit set, exactly the bits at the positions are set. -/
theorem C296_bits (debug : Bool) (n : Nat) (ps : List Int) (hp : ∀ p ∈ ps, 0 ≤ p ∧ p < n) (hb : ∀ p ∈ ps, p < 2 ^ 64) :
    create debug n ps = pure ((List.range n).map fun i : Nat => decide ((i : Int) ∈ ps)) := by
  have := loop_good (debug := debug) n ps hp hb fun _ => false
  rw [create, show List.replicate n false = (List.range n).map fun _ => false by simp [List.map_const'], this]
  simp

example : (∀ p ∈ [3, 0, 3], 0 ≤ p ∧ p < ((5 : Nat) : Int)) ∧ (∀ p ∈ [3, 0, 3], p < (2 ^ 64 : Int)) := by decide
example : create true 5 [3, 0, 3] = pure [true, false, false, true, false] := by decide +kernel

/-- If some position is not, a debug build ends the program and a release build throws, for negative positions too. -/
theorem C296_refused (debug : Bool) (n : Nat) (ps : List Int) (hn : n ≤ 2 ^ 63) (hb : ∀ p ∈ ps, -2 ^ 63 ≤ p ∧ p < 2 ^ 64)
    (hp : ¬ ∀ p ∈ ps, 0 ≤ p ∧ p < n) : create debug n ps = if debug then abort else thrown :=
  loop_bad ps _ (by simpa using hp) hb (by simpa using hn)

example : (5 ≤ 2 ^ 63) ∧ (∀ p ∈ [1, -1], (-2 ^ 63 : Int) ≤ p ∧ p < 2 ^ 64) ∧ ¬ ∀ p ∈ [1, -1], 0 ≤ p ∧ p < ((5 : Nat) : Int) := by decide
example : create false 5 [1, -1] = thrown ∧ create true 5 [1, 5] = abort := by decide +kernel

theorem scale_mod (factor times val : Nat) (hv : val < 2 ^ 64) : scale factor times val = val * factor ^ times % 2 ^ 64 := by
  induction times generalizing val with
  | zero => rw [scale, Nat.pow_zero, Nat.mul_one, Nat.mod_eq_of_lt hv]
  | succ t ih =>
    rw [scale, ih _ (Nat.mod_lt _ (by decide)), Nat.mod_mul_mod, Nat.mul_assoc, ← Nat.pow_succ']

/-- A literal is the number of bytes with the factor 1024 for `B` and 1000 for `iB`, exactly if this number has 64 bits.  Missing: that the
factors are those of the names, which is false. -/
theorem C297_literal_partial (unit val : Nat) (hv : val < 2 ^ 64) :
    (literalB unit val = val * 1024 ^ unit ↔ val * 1024 ^ unit < 2 ^ 64) ∧
    (literalIB unit val = val * 1000 ^ unit ↔ val * 1000 ^ unit < 2 ^ 64) := by
  unfold literalB literalIB
  rw [scale_mod _ _ _ hv, scale_mod _ _ _ hv]
  refine ⟨⟨fun h => ?_, fun h => Nat.mod_eq_of_lt h⟩, ⟨fun h => ?_, fun h => Nat.mod_eq_of_lt h⟩⟩
  · rw [← h]; exact Nat.mod_lt _ (by decide)
  · rw [← h]; exact Nat.mod_lt _ (by decide)

example : 3 < 2 ^ 64 ∧ literalB 2 3 = 3 * 1024 ^ 2 ∧ literalIB 2 3 = 3 * 1000 ^ 2 := by decide

/-- Kibibytes are 1024 bytes and kilobytes 1000, the literals have it the other way round. -/
theorem C297_names_violated : literalIB 1 1 = 1000 ∧ literalB 1 1 = 1024 ∧ ∀ unit val, 0 < unit → 0 < val → val * 1024 ^ unit < 2 ^ 64 →
    literalIB unit val ≠ val * 1024 ^ unit := by
  refine ⟨by decide, by decide, ?_⟩
  intro unit val hu hv h
  have hlt : 1000 ^ unit < 1024 ^ unit := Nat.pow_lt_pow_left (by decide) (by omega)
  have hlt' := Nat.mul_lt_mul_of_pos_left hlt hv
  have hv64 : val < 2 ^ 64 := Nat.lt_of_le_of_lt (Nat.le_mul_of_pos_right val (Nat.pow_pos (by decide))) h
  rw [literalIB, scale_mod _ _ _ hv64, Nat.mod_eq_of_lt (Nat.lt_trans hlt' h)]
  exact Nat.ne_of_lt hlt'

/-- Larger values wrap without an error: 16384 PB are 0. -/
theorem C297_wraps_violated : literalB 5 16384 = 0 ∧ 16384 < 2 ^ 64 := by decide

end Verif.Bits.Positions
