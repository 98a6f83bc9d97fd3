import Verif.Base
import Verif.Bits.BitQueue

/-
`daw::static_bitset<BitWidth>`, include/daw/daw_static_bitset.h.  `n` is `BitWidth`, which is positive; the elements have 64
bits (`uintmax_t`).
-/

namespace Verif.Bits.StaticBitset
open Cxx

/-- `get_elements_needed`, daw_static_bitset.h 76-87. -/
def elements (n : Nat) : Nat := if n ≤ 64 then 1 else if n % 64 != 0 then n / 64 + 1 else n / 64

/-- `mask_lsb<uint64_t>`, daw_bit.h 42-48. -/
def maskLsb (count : Nat) : BitVec 64 := if 64 ≤ count then 0 else BitVec.allOnes 64 <<< count

/-- `get_diff_mask`, daw_static_bitset.h 89-101. -/
def diffMask (n : Nat) : BitVec 64 :=
  let bw := if 64 < n then n % 64 else if n < 64 then 64 - n else n
  if bw = 0 then BitVec.allOnes 64 else maskMsb 64 bw

/-- `m_data`, daw_static_bitset.h 115. -/
abbrev Data := List (BitVec 64)

/-- The default constructor, daw_static_bitset.h 192. -/
def zero (n : Nat) : Data := List.replicate (elements n) 0

/-- The constructor from integers, daw_static_bitset.h 194-205; at most as many as there are elements, the others are zero. -/
def ofInts (n : Nat) (vs : List (BitVec 64)) : Data :=
  let d := vs ++ List.replicate (elements n - vs.length) 0
  d.set (elements n - 1) (d.getLastD 0 &&& diffMask n)

/-- The inner loop of the constructor from a string, daw_static_bitset.h 219-231: up to `k` characters from the end of the
text, given in reverse. -/
def readElement : Nat → List Char → BitVec 64 → BitVec 64 → Cxx (BitVec 64 × List Char)
  | 0, cs, tmp, _ => pure (tmp, cs)
  | _ + 1, [], tmp, _ => pure (tmp, [])
  | k + 1, c :: cs, tmp, cur =>
    if c = '1' then readElement k cs (tmp ||| cur) (cur * 2)
    else if c = '0' then readElement k cs tmp (cur * 2)
    else thrown

/-- The outer loop, daw_static_bitset.h 215-234: `k` elements are left. -/
def readElements : Nat → List Char → Cxx Data
  | 0, _ => pure []
  | k + 1, [] => pure (List.replicate (k + 1) 0)
  | k + 1, c :: cs => do
    let (tmp, cs) ← readElement 64 (c :: cs) 0 1
    let d ← readElements k cs
    pure (tmp :: d)

/-- The constructor from a string, daw_static_bitset.h 211-235. -/
def ofString (n : Nat) (text : List Char) : Cxx Data :=
  if n < text.length then thrown else readElements (elements n) text.reverse

/-- `set_bit`, daw_static_bitset.h 132-134 and 246-249, with `get_address`, 122-130. -/
def setBit (d : Data) (index : Nat) : Cxx Data := do
  let x ← rd d (index / 64)
  wr d (index / 64) (x ||| (BitVec.ofNat 64 (index - index / 64 * 64) <<< 1))

/-- `clear_bit`, daw_static_bitset.h 136-138 and 253-256. -/
def clearBit (d : Data) (index : Nat) : Cxx Data := do
  let x ← rd d (index / 64)
  wr d (index / 64) (x &&& ~~~(BitVec.ofNat 64 (index - index / 64 * 64) <<< 1))

/-- `get_bit`, daw_static_bitset.h 140-142 and 260-263. -/
def getBit (d : Data) (index : Nat) : Cxx Bool := do
  let x ← rd d (index / 64)
  pure ((x &&& (BitVec.ofNat 64 (index - index / 64 * 64) <<< 1)) != 0)

/-- `count_ones( value_t )`, daw_static_bitset.h 144-151; the argument `fuel` bounds the number of turns. -/
def countOnes : Nat → BitVec 64 → Nat
  | 0, _ => 0
  | fuel + 1, v => if v = 0 then 0 else countOnes fuel (v &&& (v - 1)) + 1

/-- `one_count`, daw_static_bitset.h 157-165 and 277-279.  The code passes `m_data`, which is no `std::array`, and does not
compile; the model reads it as the array it stands for. -/
def oneCount (d : Data) : Nat := (d.map (countOnes 64)).sum

/-- `zero_count`, daw_static_bitset.h 153-155, 167-175 and 281-283. -/
def zeroCount (d : Data) : Nat := (d.map fun v => 64 - countOnes 64 v).sum

/-- `operator|=`, daw_static_bitset.h 346-354. -/
def orAssign : Data → Data → Data
  | x :: xs, y :: ys => (x ||| y) :: orAssign xs ys
  | xs, _ => xs

/-- `operator|`, daw_static_bitset.h 356-368, for widths `n` and `m`. -/
def or (n m : Nat) (a b : Data) : Data := if m ≤ n then orAssign a b else orAssign b a

/-- `operator&=` and `operator&`, daw_static_bitset.h 370-390. -/
def and : Data → Data → Data
  | x :: xs, y :: ys => (x &&& y) :: and xs ys
  | xs, [] => xs.map fun _ => 0
  | [], _ => []

/-- `operator^`, daw_static_bitset.h 392-408. -/
def xor : Data → Data → Data
  | x :: xs, y :: ys => (x ^^^ y) :: xor xs ys
  | xs, [] => xs.map (· ^^^ 0)
  | [], ys => ys.map (0 ^^^ ·)

/-- `operator~`, daw_static_bitset.h 410-416. -/
def not (d : Data) : Data := d.map (~~~ ·)

/-- `operator==`, daw_static_bitset.h 418-439. -/
def eq : Data → Data → Bool
  | x :: xs, y :: ys => if x != y then false else eq xs ys
  | xs, [] => xs.all (· == 0)
  | [], ys => ys.all (0 == ·)

/-- `operator!=`, daw_static_bitset.h 441-462. -/
def ne : Data → Data → Bool
  | x :: xs, y :: ys => if x != y then true else ne xs ys
  | xs, [] => xs.any (· != 0)
  | [], ys => ys.any (0 != ·)

/-- The loop of `operator<<=` for fewer than 64 bits, daw_static_bitset.h 470-477. -/
def shlLoop (bits : Nat) (carry : BitVec 64) : Data → Data
  | [] => []
  | x :: xs => ((x <<< bits) ||| carry) :: shlLoop bits ((x &&& maskLsb bits) >>> (64 - bits)) xs

/-- `operator<<=`, daw_static_bitset.h 464-493.  No bits: line 473 shifts by 64, which is undefined.  64 bits: the last turn
of the loop of lines 481-484 reads the element before the first.  More bits start with that. -/
def shl (n : Nat) (d : Data) (bits : Nat) : Cxx Data :=
  if n ≤ bits then pure (d.map fun _ => 0)
  else if bits < 64 then (if bits = 0 then ub else pure (shlLoop bits 0 d))
  else ub

/-- The loop of `operator>>=` for fewer than 64 bits, daw_static_bitset.h 504-512, from the last element to the first: the
elements and the carry into the next lower one. -/
def shrLoop (bits : Nat) : Data → Data × BitVec 64
  | [] => ([], 0)
  | x :: xs =>
    let (ys, carry) := shrLoop bits xs
    (((x >>> bits) ||| carry) :: ys, (x &&& maskMsb 64 bits) <<< (64 - bits))

/-- `operator>>=`, daw_static_bitset.h 495-527.  64 bits: the last turn of the loop of lines 516-518 reads the element after
the last.  More bits start with that. -/
def shr (n : Nat) (d : Data) (bits : Nat) : Cxx Data :=
  if n ≤ bits then pure (d.map fun _ => 0)
  else if bits = 0 then pure d
  else if bits < 64 then pure (shrLoop bits d).1
  else ub

/-! ### Bits -/

/-- Bit `i` of the set; those beyond the elements are zero. (Specification, no line of the source.) -/
def bit : Data → Nat → Bool
  | [], _ => false
  | x :: xs, i => if i < 64 then x.getLsbD i else bit xs (i - 64)

theorem bit_of_ge {d : Data} {i : Nat} (h : 64 * d.length ≤ i) : bit d i = false := by
  induction d generalizing i with
  | nil => rfl
  | cons x xs ih =>
    rw [List.length_cons] at h
    rw [bit, if_neg (by omega)]
    exact ih (by omega)

theorem bit_map_zero (d : Data) (i : Nat) : bit (d.map fun _ => 0) i = false := by
  induction d generalizing i with
  | nil => rfl
  | cons x xs ih =>
    rw [List.map_cons, bit]
    split
    · simp
    · exact ih _

theorem bit_replicate (k i : Nat) : bit (List.replicate k 0) i = false := by
  induction k generalizing i with
  | zero => rfl
  | succ k ih =>
    rw [List.replicate_succ, bit]
    split
    · simp
    · exact ih _

theorem elements_mono {m n : Nat} (h : m ≤ n) : elements m ≤ elements n := by
  unfold elements
  simp only [bne_iff_ne, ne_eq]
  split <;> split <;> (try split) <;> (try split) <;> omega

/-- C38, the bitwise operators act bit by bit, for operands of any two widths; the missing bits of the shorter one count as
zero. -/
theorem C38_bitwise (n m : Nat) (a b : Data) (ha : a.length = elements n) (hb : b.length = elements m) (i : Nat) :
    bit (or n m a b) i = (bit a i || bit b i) ∧ bit (and a b) i = (bit a i && bit b i) ∧
    bit (xor a b) i = (bit a i ^^ bit b i) := by
  have hor : ∀ (a b : Data) (i : Nat), b.length ≤ a.length → bit (orAssign a b) i = (bit a i || bit b i) := by
    intro a
    induction a with
    | nil =>
      intro b i h
      have : b = [] := List.eq_nil_of_length_eq_zero (by simpa using h)
      subst this
      rfl
    | cons x xs ih =>
      intro b i h
      cases b with
      | nil => simp [orAssign, bit]
      | cons y ys =>
        rw [orAssign, bit, bit, bit]
        split
        · simp
        · exact ih ys (i - 64) (by simpa using h)
  refine ⟨?_, ?_, ?_⟩
  · unfold or
    split
    · exact hor a b i (by rw [ha, hb]; exact elements_mono (by assumption))
    · rw [Bool.or_comm]
      exact hor b a i (by rw [ha, hb]; exact elements_mono (by omega))
  · clear ha hb
    induction a generalizing b i with
    | nil => cases b <;> simp [and, bit]
    | cons x xs ih =>
      cases b with
      | nil =>
        rw [and, show bit [] i = false from rfl, Bool.and_false]
        · exact bit_map_zero _ _
      | cons y ys =>
        rw [and, bit, bit, bit]
        split
        · simp
        · exact ih ys (i - 64)
  · clear ha hb
    induction a generalizing b i with
    | nil =>
      cases b with
      | nil => simp [xor, bit]
      | cons y ys => simp [xor, bit]
    | cons x xs ih =>
      cases b with
      | nil => simp [xor, bit]
      | cons y ys =>
        rw [xor, bit, bit, bit]
        split
        · simp
        · exact ih ys (i - 64)

example : [0b1010#64].length = elements 64 ∧ [0b1100#64, 7#64].length = elements 128 ∧ or 128 64 [0b1100#64, 7#64] [0b1010#64] = [0b1110#64, 7#64] := by
  decide

/-- All elements are zero if all bits are. -/
theorem all_zero_iff (d : Data) : d.all (· == 0) = true ↔ ∀ i, bit d i = false := by
  induction d with
  | nil => simp [bit]
  | cons x xs ih =>
    rw [List.all_cons, Bool.and_eq_true, ih, beq_iff_eq]
    constructor
    · rintro ⟨rfl, h⟩ i
      rw [bit]
      split
      · simp
      · exact h _
    · intro h
      refine ⟨BitVec.eq_of_getLsbD_eq fun i hi => ?_, fun i => ?_⟩
      · have := h i
        rw [bit, if_pos hi] at this
        simpa using this
      · have := h (i + 64)
        rwa [bit, if_neg (by omega), Nat.add_sub_cancel] at this

/-- C38, comparison: two sets, of any widths, are equal exactly if they have the same bits, and `!=` is the negation. -/
theorem C38_equal (a b : Data) : (eq a b = true ↔ ∀ i, bit a i = bit b i) ∧ ne a b = !eq a b := by
  constructor
  · induction a generalizing b with
    | nil =>
      cases b with
      | nil => simp [eq]
      | cons y ys =>
        rw [eq]
        · have h0 := all_zero_iff (y :: ys)
          have e : (y :: ys).all (fun x => 0 == x) = (y :: ys).all (· == 0) := by
            congr 1; funext x; exact BEq.comm
          rw [e, h0]
          exact ⟨fun h i => (h i).symm ▸ rfl, fun h i => (h i).symm⟩
        · simp
    | cons x xs ih =>
      cases b with
      | nil =>
        rw [eq]
        · exact all_zero_iff (x :: xs)
      | cons y ys =>
        rw [eq]
        by_cases hxy : x = y
        · subst hxy
          rw [if_neg (by simp), ih]
          constructor
          · intro h i
            rw [bit, bit]
            split
            · rfl
            · exact h _
          · intro h i
            have := h (i + 64)
            rwa [bit, bit, if_neg (by omega), if_neg (by omega), Nat.add_sub_cancel] at this
        · rw [if_pos (by simpa using hxy)]
          constructor
          · intro h; cases h
          · intro h
            refine absurd (BitVec.eq_of_getLsbD_eq fun i hi => ?_) hxy
            have := h i
            rwa [bit, bit, if_pos hi, if_pos hi] at this
  · induction a generalizing b with
    | nil =>
      cases b with
      | nil => rfl
      | cons y ys =>
        rw [eq, ne]
        · rw [List.not_all_eq_any_not]; rfl
        · simp
        · simp
    | cons x xs ih =>
      cases b with
      | nil =>
        rw [eq, ne]
        · rw [List.not_all_eq_any_not]; rfl
      | cons y ys =>
        rw [eq, ne]
        by_cases hxy : x = y
        · rw [if_neg (by simpa using hxy), if_neg (by simpa using hxy)]; exact ih ys
        · rw [if_pos (by simpa using hxy), if_pos (by simpa using hxy)]; rfl

example : eq [5#64] [5#64, 0#64] = true ∧ eq [5#64] [5#64, 1#64] = false := by decide

/-! ### Complement and shifts -/

/-- C38, the complement, as far as it holds: each bit of the elements is complemented.  Missing: if the width is no multiple
of 64 the bits beyond it become one, see `C38_not_violated`. -/
theorem C38_not_partial (d : Data) (i : Nat) (h : i < 64 * d.length) : bit (not d) i = !bit d i := by
  unfold not
  induction d generalizing i with
  | nil => simp at h
  | cons x xs ih =>
    rw [List.map_cons, bit, bit]
    split
    · rename_i hi
      simp [hi]
    · rw [List.length_cons] at h
      exact ih _ (by omega)

example : bit (not [5#64]) 1 = true := (C38_not_partial [5#64] 1 (by decide)).trans (by decide)

/-- C38 does not hold for the complement: a set of 8 bits without any has, complemented, more bits than the full set. -/
theorem C38_not_violated : elements 8 = 1 ∧ bit (not (zero 8)) 8 = true ∧ eq (not (zero 8)) (ofInts 8 [0xFF#64]) = false := by
  decide

theorem maskLsb_bit {k i : Nat} (hk : k < 64) (hi : i < 64) : (maskLsb k).getLsbD i = decide (k ≤ i) := by
  unfold maskLsb
  rw [if_neg (by omega), BitVec.getLsbD_shiftLeft, BitVec.getLsbD_allOnes]
  rw [decide_eq_true hi, decide_eq_true (show i - k < 64 by omega), Bool.true_and, Bool.and_true, ← decide_not]
  congr 1
  simp

theorem maskMsb_bit {k i : Nat} (hk : k < 64) : (maskMsb 64 k).getLsbD i = decide (i + k < 64) := by
  unfold maskMsb
  rw [if_neg (by omega), BitVec.getLsbD_ushiftRight, BitVec.getLsbD_allOnes, Nat.add_comm]

/-- The part of an element carried upwards by a shift of at most 32 bits. -/
theorem carry_up {x : BitVec 64} {k j : Nat} (h0 : 0 < k) (hk : k ≤ 32) :
    ((x &&& maskLsb k) >>> (64 - k)).getLsbD j = (decide (j < k) && x.getLsbD (64 - k + j)) := by
  rw [BitVec.getLsbD_ushiftRight, BitVec.getLsbD_and]
  by_cases hj : j < k
  · rw [maskLsb_bit (by omega) (by omega), decide_eq_true hj, decide_eq_true (show k ≤ 64 - k + j by omega), Bool.and_true,
      Bool.true_and]
  · rw [BitVec.getLsbD_of_ge x _ (by omega), decide_eq_false hj]
    rfl

theorem shlLoop_bits (k : Nat) (h0 : 0 < k) (d : Data) (hk : k < 64) (hd : k ≤ 32 ∨ d.length ≤ 1) (carry : BitVec 64)
    (hc : ∀ j, k ≤ j → carry.getLsbD j = false) (i : Nat) (hi : i < 64 * d.length) :
    bit (shlLoop k carry d) i = if i < k then carry.getLsbD i else bit d (i - k) := by
  induction d generalizing carry i with
  | nil => simp at hi
  | cons x xs ih =>
    rw [shlLoop, bit]
    by_cases h64 : i < 64
    · rw [if_pos h64, BitVec.getLsbD_or, BitVec.getLsbD_shiftLeft, decide_eq_true h64, Bool.true_and]
      by_cases hik : i < k
      · rw [if_pos hik, decide_eq_true hik]; rfl
      · rw [if_neg hik, decide_eq_false hik, hc i (by omega), bit, if_pos (by omega)]
        simp
    · rw [if_neg h64, List.length_cons] at *
      have hk32 : k ≤ 32 := by
        rcases hd with h | h
        · exact h
        · omega
      rw [ih (Or.inl hk32) _ (fun j hj => by rw [carry_up h0 hk32, decide_eq_false (by omega)]; rfl) _ (by omega)]
      rw [if_neg (show ¬ i < k by omega), bit]
      by_cases h2 : i - 64 < k
      · rw [if_pos h2, carry_up h0 hk32, decide_eq_true h2, Bool.true_and, if_pos (by omega)]
        congr 1
        omega
      · rw [if_neg h2, if_neg (by omega)]
        congr 1
        omega

/-- C38, shifting left, as far as it holds: by 1 to 32 bits, or by 1 to 63 if there is one element, the elements are shifted
as one number.  Missing: no bits, more than 32 bits with several elements, 64 bits or more, and cutting the result to the
width; see the violations. -/
theorem C38_shl_partial (n : Nat) (d : Data) (k : Nat) (h0 : 0 < k) (hk : k < n) (hd : k ≤ 32 ∨ (k < 64 ∧ d.length ≤ 1)) :
    ∃ d', shl n d k = pure d' ∧ d'.length = d.length ∧
      ∀ i, i < 64 * d.length → bit d' i = (decide (k ≤ i) && bit d (i - k)) := by
  have hlen : ∀ (d : Data) (c : BitVec 64), (shlLoop k c d).length = d.length := by
    intro d
    induction d with
    | nil => intro c; rfl
    | cons x xs ih => intro c; rw [shlLoop, List.length_cons, ih, List.length_cons]
  refine ⟨shlLoop k 0 d, ?_, hlen _ _, fun i hi => ?_⟩
  · unfold shl
    rw [if_neg (by omega), if_pos (by omega), if_neg (by omega)]
  · rw [shlLoop_bits k h0 d (by omega) (by omega) 0 (by simp) i hi]
    by_cases hik : i < k
    · rw [if_pos hik, decide_eq_false (by omega)]; simp
    · rw [if_neg hik, decide_eq_true (by omega), Bool.true_and]

example : ∃ d', shl 128 [0x8000000000000001#64, 1#64] 4 = pure d' ∧ d' = [0x10#64, 0x18#64] := ⟨_, rfl, by decide⟩

/-- C38, shifting left by the width or more clears all bits. -/
theorem C38_shift_out (n : Nat) (d : Data) (k : Nat) (hk : n ≤ k) (i : Nat) :
    (∃ d', shl n d k = pure d' ∧ bit d' i = false) ∧ (∃ d', shr n d k = pure d' ∧ bit d' i = false) := by
  unfold shl shr
  rw [if_pos hk, if_pos hk]
  exact ⟨⟨_, rfl, bit_map_zero _ _⟩, ⟨_, rfl, bit_map_zero _ _⟩⟩

example := C38_shift_out 70 [5#64, 1#64] 70 (by decide) 3

/-- C38 does not hold for shifting left: by no bits and by 64 bits or more it is undefined, between 33 and 63 bits the carry
loses bits, and the result is not cut to the width. -/
theorem C38_shl_violated (n : Nat) (d : Data) :
    (0 < n → shl n d 0 = ub) ∧ (∀ k, 64 ≤ k → k < n → shl n d k = ub) ∧
    (∃ d', shl 128 [1#64 <<< 30, 0#64] 40 = pure d' ∧ bit d' (30 + 40) = false) ∧
    (∃ d', shl 8 [0xFF#64] 1 = pure d' ∧ bit d' 8 = true) := by
  refine ⟨fun h => ?_, fun k h1 h2 => ?_, ⟨_, rfl, by decide⟩, ⟨_, rfl, by decide⟩⟩
  · unfold shl; rw [if_neg (by omega), if_pos (by decide), if_pos rfl]
  · unfold shl; rw [if_neg (by omega), if_neg (by omega)]

/-- The bit the violation of the left shift is about is set before. -/
example : bit [1#64 <<< 30, 0#64] 30 = true := by decide

/-- The part of an element carried downwards by a shift of at most 32 bits. -/
theorem carry_down {x : BitVec 64} {k j : Nat} (h0 : 0 < k) (hk : k ≤ 32) (hj : j < 64) :
    ((x &&& maskMsb 64 k) <<< (64 - k)).getLsbD j = (decide (64 - k ≤ j) && x.getLsbD (j - (64 - k))) := by
  rw [BitVec.getLsbD_shiftLeft, BitVec.getLsbD_and, maskMsb_bit (by omega), decide_eq_true hj, Bool.true_and]
  by_cases h : 64 - k ≤ j
  · rw [decide_eq_false (show ¬ j < 64 - k by omega), decide_eq_true h, decide_eq_true (show j - (64 - k) + k < 64 by omega),
      Bool.and_true, Bool.true_and]
    rfl
  · rw [decide_eq_true (show j < 64 - k by omega), decide_eq_false h]
    rfl

theorem shrLoop_bits (k : Nat) (h0 : 0 < k) (hk : k < 64) (d : Data) (hd : k ≤ 32 ∨ d.length ≤ 1) :
    (∀ i, bit (shrLoop k d).1 i = bit d (i + k)) ∧
    (k ≤ 32 → ∀ j, j < 64 → (shrLoop k d).2.getLsbD j = (decide (64 - k ≤ j) && bit d (j - (64 - k)))) := by
  induction d with
  | nil =>
    refine ⟨fun i => rfl, fun _ j _ => ?_⟩
    simp [shrLoop, bit]
  | cons x xs ih =>
    have hxs : k ≤ 32 ∨ xs.length ≤ 1 := by
      rcases hd with h | h
      · exact .inl h
      · rw [List.length_cons] at h; exact .inr (by omega)
    obtain ⟨ih1, ih2⟩ := ih hxs
    refine ⟨fun i => ?_, fun hk32 j hj => ?_⟩
    · rw [shrLoop]
      show bit (_ :: _) i = _
      rw [bit, bit]
      by_cases h64 : i < 64
      · rw [if_pos h64, BitVec.getLsbD_or, BitVec.getLsbD_ushiftRight, Nat.add_comm k i]
        by_cases hx : i + k < 64
        · rw [if_pos hx]
          -- the carry does not reach this bit
          have hc : (shrLoop k xs).2.getLsbD i = false := by
            rcases hd with h | h
            · rw [ih2 h i h64, decide_eq_false (by omega)]; rfl
            · have : xs = [] := List.eq_nil_of_length_eq_zero (by rw [List.length_cons] at h; omega)
              subst this
              simp [shrLoop]
          rw [hc, Bool.or_false]
        · rw [if_neg hx, BitVec.getLsbD_of_ge _ _ (by omega), Bool.false_or]
          rcases hd with h | h
          · rw [ih2 h i h64, decide_eq_true (by omega), Bool.true_and]
            congr 1
            omega
          · have : xs = [] := List.eq_nil_of_length_eq_zero (by rw [List.length_cons] at h; omega)
            subst this
            simp [shrLoop, bit]
      · rw [if_neg h64, if_neg (by omega), ih1]
        congr 1
        omega
    · rw [shrLoop]
      show BitVec.getLsbD _ j = _
      rw [carry_down h0 hk32 hj, bit]
      by_cases h : 64 - k ≤ j
      · rw [if_pos (by omega)]
      · rw [decide_eq_false h]; rfl

/-- C38, shifting right, as far as it holds: by up to 32 bits, or by up to 63 if there is one element, the elements are
shifted as one number.  Missing: 33 to 63 bits with several elements, 64 bits or more; see `C38_shr_violated`. -/
theorem C38_shr_partial (n : Nat) (d : Data) (k : Nat) (hk : k < n) (hd : k ≤ 32 ∨ (k < 64 ∧ d.length ≤ 1)) :
    ∃ d', shr n d k = pure d' ∧ ∀ i, bit d' i = bit d (i + k) := by
  unfold shr
  rw [if_neg (by omega)]
  by_cases h0 : k = 0
  · subst h0
    rw [if_pos rfl]
    exact ⟨d, rfl, fun i => rfl⟩
  · rw [if_neg h0, if_pos (by omega)]
    exact ⟨_, rfl, (shrLoop_bits k (by omega) (by omega) d (by omega)).1⟩

example : ∃ d', shr 128 [0x10#64, 0x18#64] 4 = pure d' ∧ d' = [0x8000000000000001#64, 1#64] := ⟨_, rfl, by decide⟩

/-- C38 does not hold for shifting right by 64 bits or more, which is undefined, nor by 33 to 63 bits, where the carry loses
bits. -/
theorem C38_shr_violated (n : Nat) (d : Data) : (∀ k, 64 ≤ k → k < n → shr n d k = ub) ∧
    (∃ d', shr 128 [0#64, 1#64 <<< 35] 40 = pure d' ∧ bit d' (64 + 35 - 40) = false) := by
  refine ⟨fun k h1 h2 => ?_, ⟨_, rfl, by decide⟩⟩
  unfold shr; rw [if_neg (by omega), if_neg (by omega), if_neg (by omega)]

/-- The bit the violation of the right shift is about is set before. -/
example : bit [0#64, 1#64 <<< 35] (64 + 35) = true := by decide

/-! ### Construction -/

/-- C38, construction from an integer, as far as it holds: with fewer than 64 bits its low bits are kept.  Missing: more
bits, see `C38_construct_violated`. -/
theorem C38_construct_partial (n : Nat) (v : BitVec 64) (h0 : 0 < n) (hn : n < 64) (i : Nat) :
    bit (ofInts n [v]) i = (decide (i < n) && v.getLsbD i) := by
  have he : elements n = 1 := by unfold elements; rw [if_pos (by omega)]
  have hm : diffMask n = maskMsb 64 (64 - n) := by
    unfold diffMask
    simp only [if_neg (show ¬ 64 < n by omega), if_pos hn]
    rw [if_neg (by omega)]
  unfold ofInts
  simp only [he, hm]
  show bit [v &&& maskMsb 64 (64 - n)] i = _
  rw [bit]
  split
  · rw [BitVec.getLsbD_and, maskMsb_bit (by omega), Bool.and_comm]
    congr 1
    simp only [decide_eq_decide]
    omega
  · rw [decide_eq_false (by omega)]; rfl

example : ofInts 16 [0xDEADBEEF#64] = [0xBEEF#64] := by decide

/-- C38, construction from as many integers as there are elements, as far as it holds: if the width is a multiple of 64, but
not 64, all bits are kept. -/
theorem C38_construct_whole_partial (k : Nat) (vs : List (BitVec 64)) (hk : 2 ≤ k) (hv : vs.length = k) :
    ofInts (64 * k) vs = vs := by
  have he : elements (64 * k) = k := by
    unfold elements
    rw [if_neg (by omega), show 64 * k % 64 = 0 by omega, if_neg (by simp)]
    omega
  have hm : diffMask (64 * k) = BitVec.allOnes 64 := by
    unfold diffMask
    simp only [if_pos (show 64 < 64 * k by omega), show 64 * k % 64 = 0 by omega]
    rfl
  unfold ofInts
  simp only [he, hm]
  rw [hv, Nat.sub_self]
  rw [List.replicate_zero, List.append_nil, BitVec.and_allOnes]
  have hne : vs ≠ [] := by intro h; rw [h] at hv; simp at hv; omega
  apply List.ext_getElem?
  intro i
  rw [List.getElem?_set]
  split
  · rename_i e
    rw [if_pos (by omega), ← e, List.getLastD_eq_getLast?, List.getLast?_eq_getElem?, hv]
    rw [List.getElem?_eq_getElem (by omega)]
    rfl
  · rfl

example := C38_construct_whole_partial 2 [5#64, 1#64] (by decide) rfl

/-- C38 does not hold for construction: of exactly 64 bits none is kept, and of 70 bits the mask of the last element keeps 58
of 64 in place of 6. -/
theorem C38_construct_violated : (∀ v, ofInts 64 [v] = [0]) ∧
    ofInts 70 [0#64, 0xFFFFFFFFFFFFFFFF#64] = [0#64, 0x03FFFFFFFFFFFFFF#64] := by
  constructor
  · intro v
    unfold ofInts
    rw [show diffMask 64 = 0 by decide, show elements 64 = 1 by decide]
    simp
  · decide

/-- Reading characters, from the last to the first, into one element. -/
theorem readElement_spec (k j : Nat) (cs : List Char) (tmp : BitVec 64) (hkj : j + k = 64)
    (hcs : ∀ c ∈ cs, c = '0' ∨ c = '1') (htmp : ∀ i, j ≤ i → tmp.getLsbD i = false) :
    ∃ r, readElement k cs tmp (BitVec.twoPow 64 j) = pure (r, cs.drop k) ∧
      ∀ i, i < 64 → r.getLsbD i = if i < j then tmp.getLsbD i else decide (cs[i - j]? = some '1') := by
  induction k generalizing j cs tmp with
  | zero =>
    refine ⟨tmp, rfl, fun i hi => ?_⟩
    rw [if_pos (by omega)]
  | succ k ih =>
    cases cs with
    | nil =>
      refine ⟨tmp, rfl, fun i hi => ?_⟩
      split
      · rfl
      · rw [htmp i (by omega)]; simp
    | cons c cs =>
      have hcur : BitVec.twoPow 64 j * 2 = BitVec.twoPow 64 (j + 1) := by
        rw [show (2 : BitVec 64) = BitVec.twoPow 64 1 by decide, BitVec.mul_twoPow_eq_shiftLeft, BitVec.twoPow_eq, BitVec.twoPow_eq,
          ← BitVec.shiftLeft_add]
      rw [readElement, hcur]
      rcases hcs c (by simp) with rfl | rfl
      · rw [if_neg (by decide), if_pos rfl]
        obtain ⟨r, e, hr⟩ := ih (j + 1) cs tmp (by omega) (fun c hc => hcs c (by simp [hc])) (fun i hi => htmp i (by omega))
        refine ⟨r, by rw [e]; rfl, fun i hi => ?_⟩
        rw [hr i hi]
        by_cases h1 : i < j
        · rw [if_pos h1, if_pos (by omega)]
        · rw [if_neg h1]
          by_cases h2 : i = j
          · subst h2
            rw [if_pos (by omega), htmp i (by omega), Nat.sub_self]
            rfl
          · rw [if_neg (by omega), show i - j = (i - (j + 1)) + 1 by omega, List.getElem?_cons_succ]
      · rw [if_pos rfl]
        obtain ⟨r, e, hr⟩ := ih (j + 1) cs (tmp ||| BitVec.twoPow 64 j) (by omega) (fun c hc => hcs c (by simp [hc]))
          (fun i hi => by rw [BitVec.getLsbD_or, htmp i (by omega), BitVec.getLsbD_twoPow, decide_eq_false (show ¬ j = i by omega)]; simp)
        refine ⟨r, by rw [e]; rfl, fun i hi => ?_⟩
        rw [hr i hi]
        by_cases h1 : i < j
        · rw [if_pos h1, if_pos (by omega), BitVec.getLsbD_or, BitVec.getLsbD_twoPow, decide_eq_false (show ¬ j = i by omega)]
          simp
        · rw [if_neg h1]
          by_cases h2 : i = j
          · subst h2
            rw [if_pos (by omega), BitVec.getLsbD_or, BitVec.getLsbD_twoPow, Nat.sub_self]
            simp [hi]
          · rw [if_neg (by omega), show i - j = (i - (j + 1)) + 1 by omega, List.getElem?_cons_succ]

theorem readElements_spec (k : Nat) (cs : List Char) (hcs : ∀ c ∈ cs, c = '0' ∨ c = '1') (hlen : cs.length ≤ 64 * k) :
    ∃ d, readElements k cs = pure d ∧ d.length = k ∧ ∀ i, bit d i = decide (cs[i]? = some '1') := by
  induction k generalizing cs with
  | zero =>
    have : cs = [] := List.eq_nil_of_length_eq_zero (by omega)
    subst this
    exact ⟨[], rfl, rfl, fun i => by simp [bit]⟩
  | succ k ih =>
    cases cs with
    | nil =>
      refine ⟨_, rfl, by simp, fun i => ?_⟩
      rw [bit_replicate]
      simp
    | cons c cs =>
      obtain ⟨r, e, hr⟩ := readElement_spec 64 0 (c :: cs) 0 rfl hcs (by simp)
      obtain ⟨d, e', hl, hb⟩ := ih ((c :: cs).drop 64) (fun x hx => hcs x (List.mem_of_mem_drop hx))
        (by rw [List.length_drop]; omega)
      refine ⟨r :: d, ?_, by rw [List.length_cons, hl], fun i => ?_⟩
      · rw [readElements, show (1 : BitVec 64) = BitVec.twoPow 64 0 by decide, e, pure_bind]
        show (readElements k ((c :: cs).drop 64) >>= _) = _
        rw [e']
        rfl
      · rw [bit]
        split
        · rw [hr i (by assumption), if_neg (by omega), Nat.sub_zero]
        · rw [hb, List.getElem?_drop, show 64 + (i - 64) = i by omega]

theorem elements_bits (n : Nat) : n ≤ 64 * elements n := by
  unfold elements
  split
  · omega
  · split
    · omega
    · rename_i h; simp at h; omega

/-- C38, construction from a text of zeros and ones: bit `i` is the `i`-th character from the right, and bits beyond the text
are zero. -/
theorem C38_string (n : Nat) (text : List Char) (hcs : ∀ c ∈ text, c = '0' ∨ c = '1') (hlen : text.length ≤ n) :
    ∃ d, ofString n text = pure d ∧ d.length = elements n ∧
      ∀ i, bit d i = true ↔ i < text.length ∧ text[text.length - 1 - i]? = some '1' := by
  have hb := elements_bits n
  obtain ⟨d, e, hl, hd⟩ := readElements_spec (elements n) text.reverse (fun c hc => hcs c (by simpa using hc))
    (by rw [List.length_reverse]; omega)
  refine ⟨d, ?_, hl, fun i => ?_⟩
  · unfold ofString
    rw [if_neg (by omega), e]
  · rw [hd, decide_eq_true_iff]
    by_cases hi : i < text.length
    · rw [List.getElem?_reverse hi]
      exact ⟨fun h => ⟨hi, h⟩, fun h => h.2⟩
    · rw [List.getElem?_eq_none (by rw [List.length_reverse]; omega)]
      constructor
      · intro h; cases h
      · intro h; exact absurd h.1 hi

example : ofString 8 ['1', '0', '1', '1'] = pure [0b1011#64] := rfl

/-- C38, a text that is too long is reported. -/
theorem C38_string_long (n : Nat) (text : List Char) (hlen : n < text.length) : ofString n text = thrown := by
  unfold ofString
  rw [if_pos hlen]

example : ofString 3 ['1', '0', '1', '1'] = thrown := C38_string_long 3 _ (by decide)

/-! ### Single bits -/

/-- C38 does not hold for `set_bit`, `clear_bit` and `get_bit`: they use twice the number of the bit as the mask.  Setting
bit 0 changes nothing, setting bit 3 sets bits 1 and 2, and a set bit 5 is not seen. -/
theorem C38_set_violated : setBit [0#64] 0 = pure [0#64] ∧ setBit [0#64] 3 = pure [0b110#64] ∧
    getBit [0b100000#64] 5 = pure false := ⟨rfl, rfl, rfl⟩

/-- C38, single bits, as far as it holds: bits 1 and 2 of each element, where twice the number happens to be the mask.
Missing: all others, see `C38_set_violated`. -/
theorem C38_set_partial (d : Data) (index : Nat) (h : index < 64 * d.length) (hm : index % 64 = 1 ∨ index % 64 = 2) :
    (∃ d', setBit d index = pure d' ∧ ∀ i, bit d' i = (decide (i = index) || bit d i)) ∧
    (∃ d', clearBit d index = pure d' ∧ ∀ i, bit d' i = (!decide (i = index) && bit d i)) ∧
    getBit d index = pure (bit d index) := by
  -- bits of a changed element
  have hset : ∀ (d : Data) (k : Nat) (y : BitVec 64) (i : Nat), k < d.length →
      bit (d.set k y) i = if i / 64 = k then y.getLsbD (i % 64) else bit d i := by
    intro d
    induction d with
    | nil => intro k y i hk; simp at hk
    | cons x xs ih =>
      intro k y i hk
      cases k with
      | zero =>
        rw [List.set_cons_zero, bit, bit]
        by_cases hi : i < 64
        · rw [if_pos hi, if_pos (by omega), Nat.mod_eq_of_lt hi]
        · rw [if_neg hi, if_neg (by omega), if_neg hi]
      | succ k =>
        rw [List.set_cons_succ, bit, bit]
        by_cases hi : i < 64
        · rw [if_pos hi, if_neg (by omega), if_pos hi]
        · rw [if_neg hi, if_neg hi, ih k y (i - 64) (by simpa using hk)]
          rw [show (i - 64) % 64 = i % 64 by omega]
          congr 1
          simp only [eq_iff_iff]
          omega
  have hget : ∀ (d : Data) (i : Nat) (hi : i / 64 < d.length), bit d i = d[i / 64].getLsbD (i % 64) := by
    intro d
    induction d with
    | nil => intro i hi; simp at hi
    | cons x xs ih =>
      intro i hi
      rw [bit]
      by_cases h64 : i < 64
      · simp only [if_pos h64, show i / 64 = 0 by omega, Nat.mod_eq_of_lt h64, List.getElem_cons_zero]
      · rw [List.length_cons] at hi
        rw [if_neg h64, ih (i - 64) (by omega)]
        simp only [show i / 64 = (i - 64) / 64 + 1 by omega, show (i - 64) % 64 = i % 64 by omega, List.getElem_cons_succ]
  have hlt : index / 64 < d.length := by omega
  have hmask : BitVec.ofNat 64 (index - index / 64 * 64) <<< 1 = BitVec.twoPow 64 (index % 64) := by
    rw [show index - index / 64 * 64 = index % 64 by omega]
    rcases hm with e | e <;> rw [e] <;> decide
  have hpow : ∀ i, (BitVec.twoPow 64 (index % 64)).getLsbD (i % 64) = decide (i % 64 = index % 64) := by
    intro i
    rw [BitVec.getLsbD_twoPow, decide_eq_true (show index % 64 < 64 by omega), Bool.true_and]
    simp only [decide_eq_decide]
    omega
  refine ⟨?_, ?_, ?_⟩
  · unfold setBit
    rw [rd_eq hlt, pure_bind, wr_eq hlt, hmask]
    refine ⟨_, rfl, fun i => ?_⟩
    rw [hset _ _ _ _ hlt]
    split
    · rename_i hi
      rw [BitVec.getLsbD_or, hpow, hget d i (by omega), Bool.or_comm]
      congr 1
      · simp only [decide_eq_decide]; omega
      · simp only [hi]
    · rw [decide_eq_false (by intro h; subst h; omega), Bool.false_or]
  · unfold clearBit
    rw [rd_eq hlt, pure_bind, wr_eq hlt, hmask]
    refine ⟨_, rfl, fun i => ?_⟩
    rw [hset _ _ _ _ hlt]
    split
    · rename_i hi
      rw [BitVec.getLsbD_and, BitVec.getLsbD_not, hpow, hget d i (by omega), Bool.and_comm,
        decide_eq_true (show i % 64 < 64 by omega), Bool.true_and]
      congr 1
      · congr 1; simp only [decide_eq_decide]; omega
      · simp only [hi]
    · rw [decide_eq_false (by intro h; subst h; omega)]; rfl
  · unfold getBit
    rw [rd_eq hlt, pure_bind, hmask, hget d index hlt]
    congr 1
    cases hb : d[index / 64].getLsbD (index % 64)
    · have : d[index / 64] &&& BitVec.twoPow 64 (index % 64) = 0 := by
        rw [BitVec.and_twoPow, hb]; rfl
      rw [this]; rfl
    · have : d[index / 64] &&& BitVec.twoPow 64 (index % 64) = BitVec.twoPow 64 (index % 64) := by
        rw [BitVec.and_twoPow, hb]; rfl
      rw [this]
      rcases hm with e | e <;> rw [e] <;> decide

example : setBit [0#64, 0#64] 65 = pure [0#64, 2#64] := rfl

/-! ### Counting and text -/

/-- The number of ones among the lowest `n` bits. (Specification, no line of the source.) -/
def onesBelow (n v : Nat) : Nat := (List.range n).countP fun i => v.testBit i

theorem onesBelow_succ (n v : Nat) : onesBelow (n + 1) v = onesBelow n (v / 2) + (v % 2) := by
  unfold onesBelow
  rw [List.range_succ_eq_map, List.countP_cons, List.countP_map]
  congr 1
  · apply List.countP_congr
    intro i _
    simp [Nat.testBit_succ]
  · rw [Nat.testBit_zero]
    rcases Nat.mod_two_eq_zero_or_one v with h | h <;> simp [h]

/-- Clearing the lowest one. -/
theorem onesBelow_clear (n v : Nat) (h0 : 0 < v) (hv : v < 2 ^ n) : onesBelow n (v &&& (v - 1)) + 1 = onesBelow n v := by
  induction n generalizing v with
  | zero => simp at hv; omega
  | succ n ih =>
    rw [onesBelow_succ, onesBelow_succ, Nat.and_div_two]
    rw [Nat.pow_succ] at hv
    rcases Nat.mod_two_eq_zero_or_one v with h | h
    · have e : (v - 1) / 2 = v / 2 - 1 := by omega
      have e0 : (v &&& (v - 1)) % 2 = 0 := by
        have := Nat.testBit_and v (v - 1) 0
        rw [Nat.testBit_zero, Nat.testBit_zero, h] at this
        have hf := this.trans (Bool.false_and _)
        have := of_decide_eq_false hf
        omega
      rw [e, e0, h]
      have := ih (v / 2) (by omega) (by omega)
      omega
    · have e : (v - 1) / 2 = v / 2 := by omega
      have e0 : (v &&& (v - 1)) % 2 = 0 := by
        have := Nat.testBit_and v (v - 1) 0
        rw [Nat.testBit_zero, Nat.testBit_zero, Nat.testBit_zero, show (v - 1) % 2 = 0 by omega] at this
        have hf := this.trans (Bool.and_false _)
        have := of_decide_eq_false hf
        omega
      rw [e, Nat.and_self, e0, h]

theorem onesBelow_zero (n : Nat) : onesBelow n 0 = 0 := by
  unfold onesBelow
  simp

theorem onesBelow_le (n v : Nat) : onesBelow n v ≤ n := by
  unfold onesBelow
  exact Nat.le_trans List.countP_le_length (by simp)

theorem countOnes_eq (fuel : Nat) (v : BitVec 64) (h : onesBelow 64 v.toNat ≤ fuel) : countOnes fuel v = onesBelow 64 v.toNat := by
  induction fuel generalizing v with
  | zero => rw [countOnes]; omega
  | succ fuel ih =>
    rw [countOnes]
    split
    · rename_i h0
      subst h0
      exact (onesBelow_zero 64).symm
    · rename_i h0
      have hpos : 0 < v.toNat := by
        rcases Nat.eq_zero_or_pos v.toNat with h | h
        · exact absurd (BitVec.eq_of_toNat_eq (by simpa using h)) h0
        · exact h
      have hlt := v.isLt
      have e : (v &&& (v - 1)).toNat = v.toNat &&& (v.toNat - 1) := by
        rw [BitVec.toNat_and, BitVec.toNat_sub]
        congr 1
        have : (1 : BitVec 64).toNat = 1 := rfl
        rw [this]
        omega
      have hc := onesBelow_clear 64 v.toNat hpos hlt
      rw [ih _ (by rw [e]; omega), e, hc]

/-- Counting over a larger range, in parts of 64. -/
theorem countP_bits (d : Data) : (List.range (64 * d.length)).countP (bit d) = (d.map fun v => onesBelow 64 v.toNat).sum := by
  induction d with
  | nil => rfl
  | cons x xs ih =>
    rw [List.length_cons, show 64 * (xs.length + 1) = 64 + 64 * xs.length by omega, List.range_add, List.countP_append,
      List.countP_map, List.map_cons, List.sum_cons, ← ih]
    have h : (List.range 64).countP (bit (x :: xs)) = onesBelow 64 x.toNat := by
      apply List.countP_congr
      intro i hi
      rw [List.mem_range] at hi
      rw [bit, if_pos hi]
      rfl
    rw [h]
    congr 1
    apply List.countP_congr
    intro i _
    show bit (x :: xs) (64 + i) = true ↔ _
    rw [bit, if_neg (by omega), Nat.add_sub_cancel_left]

/-- C89, `one_count` is the number of bits that are one, `zero_count` of those of the elements that are zero. -/
theorem C89_counts (d : Data) : oneCount d = (List.range (64 * d.length)).countP (bit d) ∧
    zeroCount d = (List.range (64 * d.length)).countP fun i => !bit d i := by
  have h1 : ∀ v : BitVec 64, countOnes 64 v = onesBelow 64 v.toNat := fun v => countOnes_eq 64 v (onesBelow_le _ _)
  have h2 : oneCount d = (List.range (64 * d.length)).countP (bit d) := by
    rw [countP_bits]
    unfold oneCount
    congr 1
    exact List.map_congr_left fun v _ => h1 v
  refine ⟨h2, ?_⟩
  have hs : zeroCount d + oneCount d = 64 * d.length := by
    clear h2
    unfold zeroCount oneCount
    induction d with
    | nil => rfl
    | cons x xs ih =>
      simp only [List.map_cons, List.sum_cons, List.length_cons]
      have : countOnes 64 x ≤ 64 := by rw [h1]; exact onesBelow_le _ _
      omega
  have hl := List.length_eq_countP_add_countP (bit d) (l := List.range (64 * d.length))
  rw [List.length_range] at hl
  have e : (List.range (64 * d.length)).countP (fun i => !bit d i) =
      (List.range (64 * d.length)).countP (fun a => decide ¬bit d a = true) := by
    apply List.countP_congr
    intro i _
    simp
  rw [e]
  omega

example : oneCount [0b1011#64, 1#64] = 4 ∧ zeroCount [0b1011#64, 1#64] = 124 := by decide

/-- C89 does not hold for the zeros of a set whose width is no multiple of 64: those beyond the width are counted. -/
theorem C89_zero_count_violated : zeroCount (zero 8) = 64 := by decide

/-- `nibble_to_ascii`, daw_static_bitset.h 55-60. -/
def nibbleToAscii (v : Nat) : Char := if 10 ≤ v then Char.ofNat ('A'.toNat + (v - 10)) else Char.ofNat ('0'.toNat + v)

/-- `result[pos] = c` for a position kept as an integer; a negative one stands for the wrapped one of the code, which is far
beyond the end. (Used by daw_static_bitset.h 294-320.) -/
def put (text : List Char) (pos : Int) (c : Char) : Cxx (List Char) := if pos < 0 then ub else wr text pos.toNat c

/-- The bytes of one element, daw_static_bitset.h 315-320: `k` are left. -/
def hexElement : Nat → List Char → Int → BitVec 64 → Cxx (List Char × Int)
  | 0, text, pos, _ => pure (text, pos)
  | k + 1, text, pos, value => do
    let tmp := (value &&& 0xFF#64).toNat % 256
    let text ← put text pos (nibbleToAscii (tmp &&& 0x0F))
    let text ← put text (pos - 1) (nibbleToAscii ((tmp &&& 0xF0) >>> 4))
    hexElement k text (pos - 2) (value >>> 8)

/-- The loop over the elements, daw_static_bitset.h 309-321. -/
def hexLoop : Data → List Char → Int → Cxx (List Char)
  | [], text, _ => pure text
  | v :: vs, text, pos => do
    if v = 0 then hexLoop vs text (pos - 16)
    else do
      let (text, pos) ← hexElement 8 text pos v
      hexLoop vs text pos

/-- `to_string( fmt_hex )`, daw_static_bitset.h 306-323. -/
def toHex (d : Data) : Cxx (List Char) := hexLoop d (List.replicate (d.length * 16) '0') (d.length * 16 - 1)

/-- The bits of one element, daw_static_bitset.h 294-301; `fuel` bounds the number of turns. -/
def binElement : Nat → List Char → Int → BitVec 64 → Cxx (List Char × Int)
  | 0, text, pos, _ => pure (text, pos)
  | fuel + 1, text, pos, value => do
    if value = 0 then pure (text, pos)
    else do
      let text ← (if value &&& 1 = 1 then put text pos '1' else pure text : Cxx _)
      binElement fuel text (pos - 1) (value >>> 1)

/-- The loop over the elements, daw_static_bitset.h 288-302. -/
def binLoop : Data → List Char → Int → Cxx (List Char)
  | [], text, _ => pure text
  | v :: vs, text, pos => do
    if v = 0 then binLoop vs text (pos - 64)
    else do
      let (text, pos) ← binElement 64 text pos v
      binLoop vs text pos

/-- `to_string( fmt_binary )`, daw_static_bitset.h 285-304. -/
def toBinary (n : Nat) (d : Data) : Cxx (List Char) := binLoop d (List.replicate n '0') (elements n - 1)

/-- The number the elements stand for. (Specification, no line of the source.) -/
def value : Data → Nat
  | [] => 0
  | x :: xs => x.toNat + 2 ^ 64 * value xs

/-- The usual hexadecimal digit. (Specification, no line of the source.) -/
def hexDigit (v : Nat) : Char := ['0', '1', '2', '3', '4', '5', '6', '7', '8', '9', 'A', 'B', 'C', 'D', 'E', 'F'].getD v '?'

theorem nibble_digit : ∀ v, v < 16 → nibbleToAscii v = hexDigit v := by decide

/-- The low and the high nibble of the lowest byte. -/
theorem nibbles (v : BitVec 64) : nibbleToAscii ((v &&& 0xFF#64).toNat % 256 &&& 0x0F) = hexDigit (v.toNat % 16) ∧
    nibbleToAscii (((v &&& 0xFF#64).toNat % 256 &&& 0xF0) >>> 4) = hexDigit (v.toNat / 16 % 16) := by
  have h : (v &&& 0xFF#64).toNat = v.toNat % 256 := by
    rw [BitVec.toNat_and]
    exact Nat.and_two_pow_sub_one_eq_mod v.toNat 8
  rw [h, Nat.mod_mod]
  have h1 : v.toNat % 256 &&& 0x0F = v.toNat % 16 := by
    rw [show (0x0F : Nat) = 2 ^ 4 - 1 by rfl, Nat.and_two_pow_sub_one_eq_mod]
    omega
  have h2 : (v.toNat % 256 &&& 0xF0) >>> 4 = v.toNat / 16 % 16 := by
    rw [Nat.shiftRight_and_distrib, Nat.shiftRight_eq_div_pow, show (0xF0 : Nat) >>> 4 = 2 ^ 4 - 1 by rfl,
      Nat.and_two_pow_sub_one_eq_mod]
    omega
  rw [h1, h2]
  exact ⟨nibble_digit _ (by omega), nibble_digit _ (by omega)⟩

theorem put_eq {text : List Char} {m : Nat} (c : Char) (h : m < text.length) : put text (m : Int) c = pure (text.set m c) := by
  unfold put
  rw [if_neg (by omega), Int.toNat_natCast, wr_eq h]

/-- Writing `k` bytes into the `2 * k` places before `p`. -/
theorem hexElement_spec (k : Nat) (text : List Char) (p : Nat) (v : BitVec 64) (hk : 2 * k ≤ p) (hp : p ≤ text.length) :
    ∃ text', hexElement k text ((p : Int) - 1) v = pure (text', (p : Int) - 2 * k - 1) ∧ text'.length = text.length ∧
      ∀ i, text'[i]? = if p - 2 * k ≤ i ∧ i < p then some (hexDigit (v.toNat / 16 ^ (p - 1 - i) % 16)) else text[i]? := by
  induction k generalizing text p v with
  | zero =>
    refine ⟨text, by rw [hexElement]; congr 2, rfl, fun i => ?_⟩
    rw [if_neg (by omega)]
  | succ k ih =>
    obtain ⟨n1, n2⟩ := nibbles v
    have hs1 : ((text.set (p - 1) (hexDigit (v.toNat % 16))).set (p - 2) (hexDigit (v.toNat / 16 % 16))).length = text.length := by
      simp
    obtain ⟨t, e, hl, ht⟩ := ih ((text.set (p - 1) (hexDigit (v.toNat % 16))).set (p - 2) (hexDigit (v.toNat / 16 % 16))) (p - 2)
      (v >>> 8) (by omega) (by rw [hs1]; omega)
    refine ⟨t, ?_, by rw [hl, hs1], fun i => ?_⟩
    · rw [hexElement]
      simp only [n1, n2]
      rw [show (p : Int) - 1 = ((p - 1 : Nat) : Int) by omega, put_eq _ (by omega), pure_bind,
        show ((p - 1 : Nat) : Int) - 1 = ((p - 2 : Nat) : Int) by omega, put_eq _ (by rw [List.length_set]; omega), pure_bind,
        show ((p - 1 : Nat) : Int) - 2 = ((p - 2 : Nat) : Int) - 1 by omega, e]
      congr 2
      push_cast
      omega
    · rw [ht i]
      by_cases h1 : p - 2 - 2 * k ≤ i ∧ i < p - 2
      · rw [if_pos h1, if_pos (by omega), BitVec.toNat_ushiftRight, Nat.shiftRight_eq_div_pow, Nat.div_div_eq_div_mul]
        congr 3
        rw [show (2 : Nat) ^ 8 = 16 ^ 2 by rfl, ← Nat.pow_add]
        congr 2
        omega
      · rw [if_neg h1]
        by_cases h2 : i = p - 1
        · subst h2
          rw [if_pos (by omega), List.getElem?_set_ne (by omega), List.getElem?_set_self (by omega), Nat.sub_self, Nat.pow_zero,
            Nat.div_one]
        · by_cases h3 : i = p - 2
          · subst h3
            rw [if_pos (by omega), List.getElem?_set_self (by rw [List.length_set]; omega), show p - 1 - (p - 2) = 1 by omega,
              Nat.pow_one]
          · rw [if_neg (by omega), List.getElem?_set_ne (by omega), List.getElem?_set_ne (by omega)]

/-- Digits of a number in two parts. -/
theorem digit_low (x : BitVec 64) (y k : Nat) (hk : k < 16) : (x.toNat + 2 ^ 64 * y) / 16 ^ k % 16 = x.toNat / 16 ^ k % 16 := by
  rw [show (2 : Nat) ^ 64 = 16 ^ k * (16 * 16 ^ (15 - k)) by
    rw [show 16 * 16 ^ (15 - k) = 16 ^ (16 - k) by rw [← Nat.pow_succ']; congr 1; omega, ← Nat.pow_add,
      show k + (16 - k) = 16 by omega]]
  rw [Nat.mul_assoc, Nat.add_mul_div_left _ _ (Nat.pow_pos (by decide)), Nat.mul_assoc, Nat.add_mul_mod_self_left]

theorem digit_high (x : BitVec 64) (y k : Nat) : (x.toNat + 2 ^ 64 * y) / 16 ^ (k + 16) = y / 16 ^ k := by
  have := x.isLt
  rw [Nat.pow_add, Nat.mul_comm (16 ^ k), ← Nat.div_div_eq_div_mul, show (16 : Nat) ^ 16 = 2 ^ 64 by rfl,
    Nat.add_mul_div_left _ _ (by decide), Nat.div_eq_of_lt this, Nat.zero_add]

theorem hexLoop_spec (d : Data) (text : List Char) (hp : 16 * d.length ≤ text.length)
    (h0 : ∀ i, i < 16 * d.length → text[i]? = some '0') :
    ∃ text', hexLoop d text (((16 * d.length : Nat) : Int) - 1) = pure text' ∧ text'.length = text.length ∧
      ∀ i, text'[i]? = if i < 16 * d.length then some (hexDigit (value d / 16 ^ (16 * d.length - 1 - i) % 16)) else text[i]? := by
  induction d generalizing text with
  | nil => exact ⟨text, rfl, rfl, fun i => by simp⟩
  | cons v vs ih =>
    rw [List.length_cons] at *
    -- after this element
    have key : ∃ t1, (hexLoop (v :: vs) text (((16 * (vs.length + 1) : Nat) : Int) - 1) = hexLoop vs t1 (((16 * vs.length : Nat) : Int) - 1)) ∧
        t1.length = text.length ∧ ∀ i, t1[i]? = if 16 * vs.length ≤ i ∧ i < 16 * (vs.length + 1) then
          some (hexDigit (v.toNat / 16 ^ (16 * (vs.length + 1) - 1 - i) % 16)) else text[i]? := by
      by_cases hv : v = 0
      · refine ⟨text, ?_, rfl, fun i => ?_⟩
        · rw [hexLoop, if_pos hv]
          congr 1
          push_cast
          omega
        · split
          · rw [h0 i (by omega), hv]
            show _ = some (hexDigit (0 / _ % 16))
            rw [Nat.zero_div]
            rfl
          · rfl
      · obtain ⟨t, e, hl, ht⟩ := hexElement_spec 8 text (16 * (vs.length + 1)) v (by omega) hp
        refine ⟨t, ?_, hl, fun i => ?_⟩
        · rw [hexLoop, if_neg hv, e, pure_bind]
          show hexLoop vs t _ = _
          congr 1
          push_cast
          omega
        · rw [ht i, show 16 * (vs.length + 1) - 2 * 8 = 16 * vs.length by omega]
    obtain ⟨t1, e1, hl1, ht1⟩ := key
    obtain ⟨t2, e2, hl2, ht2⟩ := ih t1 (by omega) (fun i hi => by rw [ht1, if_neg (by omega)]; exact h0 i (by omega))
    refine ⟨t2, by rw [e1, e2], by omega, fun i => ?_⟩
    rw [ht2 i]
    by_cases hi : i < 16 * vs.length
    · rw [if_pos hi, if_pos (by omega), value, show 16 * (vs.length + 1) - 1 - i = (16 * vs.length - 1 - i) + 16 by omega, digit_high]
    · rw [if_neg hi, ht1 i]
      by_cases h2 : i < 16 * (vs.length + 1)
      · rw [if_pos ⟨by omega, h2⟩, if_pos h2, value, digit_low _ _ _ (by omega)]
      · rw [if_neg (by omega), if_neg h2]

/-- C89, the hexadecimal text of a set is that of the number its elements stand for: 16 digits for each element, the most
significant one first. -/
theorem C89_hex (d : Data) : ∃ text, toHex d = pure text ∧ text.length = 16 * d.length ∧
    ∀ k, k < 16 * d.length → text[16 * d.length - 1 - k]? = some (hexDigit (value d / 16 ^ k % 16)) := by
  obtain ⟨t, e, hl, ht⟩ := hexLoop_spec d (List.replicate (d.length * 16) '0') (by simp; omega)
    (fun i hi => by rw [List.getElem?_replicate, if_pos (by omega)])
  refine ⟨t, ?_, by rw [hl, List.length_replicate]; omega, fun k hk => ?_⟩
  · unfold toHex
    rw [← e]
    congr 1
    push_cast
    omega
  · rw [ht, if_pos (by omega)]
    rw [show 16 * d.length - 1 - (16 * d.length - 1 - k) = k by omega]

example : ∃ t, toHex [0xDEADBEEF#64] = pure t ∧ t = "00000000DEADBEEF".toList := ⟨_, rfl, by decide⟩

/-- The number the elements stand for has the bits of the set. -/
theorem C89_value (d : Data) (i : Nat) : (value d).testBit i = bit d i := by
  induction d generalizing i with
  | nil => simp [value, bit]
  | cons x xs ih =>
    rw [value, bit, Nat.add_comm, Nat.testBit_two_pow_mul_add _ x.isLt]
    split
    · rfl
    · exact ih _

/-- C89 does not hold for the binary text: it is written from the place numbered by the last element on, so one in 8 bits is
given as 128 would be, and three is undefined. -/
theorem C89_binary_violated : (∃ t, toBinary 8 [1#64] = pure t ∧ t = "10000000".toList) ∧ toBinary 8 [3#64] = ub :=
  ⟨⟨_, rfl, by decide⟩, rfl⟩

/-- C89, the binary text, as far as it holds: that of a set without ones.  Missing: all others but those of one bit, see
`C89_binary_violated`. -/
theorem C89_binary_partial (n : Nat) (d : Data) (h : ∀ i, bit d i = false) : toBinary n d = pure (List.replicate n '0') := by
  have : ∀ (d : Data) (text : List Char) (pos : Int), d.all (· == 0) = true → binLoop d text pos = pure text := by
    intro d
    induction d with
    | nil => intro text pos _; rfl
    | cons v vs ih =>
      intro text pos hd
      rw [List.all_cons, Bool.and_eq_true, beq_iff_eq] at hd
      rw [binLoop, if_pos hd.1]
      exact ih _ _ hd.2
  exact this d _ _ ((all_zero_iff d).2 h)

example : toBinary 4 [0#64] = pure ['0', '0', '0', '0'] := rfl

theorem binElement_neg (fuel : Nat) : ∀ (text : List Char) (pos : Int) (v : BitVec 64), pos < 0 → v ≠ 0 → v.toNat < 2 ^ fuel →
    binElement fuel text pos v = ub := by
  induction fuel with
  | zero =>
    intro text pos v _ hv hl
    exact absurd (BitVec.eq_of_toNat_eq (by simp; omega)) hv
  | succ fuel ih =>
    intro text pos v hp hv hl
    unfold binElement
    rw [if_neg hv]
    by_cases h1 : v &&& 1 = 1
    · rw [if_pos h1, put, if_pos hp]
      rfl
    · rw [if_neg h1, pure_bind]
      have hodd : v.toNat % 2 = 0 := by
        rcases Nat.mod_two_eq_zero_or_one v.toNat with h | h
        · exact h
        · exact absurd (BitVec.eq_of_toNat_eq (by simp [BitVec.toNat_and, Nat.and_one_is_mod, h])) h1
      have hs : (v >>> 1).toNat = v.toNat / 2 := by simp [BitVec.toNat_ushiftRight, Nat.shiftRight_succ]
      refine ih _ _ _ (by omega) (fun h0 => ?_) (by rw [hs]; rw [Nat.pow_succ] at hl; omega)
      have : v.toNat / 2 = 0 := by rw [← hs, h0]; rfl
      exact hv (BitVec.eq_of_toNat_eq (by simp; omega))

theorem binLoop_neg (d : Data) : ∀ (text : List Char) (pos : Int), pos < 0 → (∃ v ∈ d, v ≠ 0) → binLoop d text pos = ub := by
  induction d with
  | nil => rintro _ _ _ ⟨_, h, _⟩; cases h
  | cons v vs ih =>
    rintro text pos hp ⟨x, hx, hx0⟩
    unfold binLoop
    by_cases hv : v = 0
    · rw [if_pos hv]
      refine ih _ _ (by omega) ⟨x, ?_, hx0⟩
      rcases List.mem_cons.1 hx with h | h
      · exact absurd (h.trans hv) hx0
      · exact h
    · rw [if_neg hv, binElement_neg 64 _ _ _ hp hv v.isLt]
      rfl

/-- C89 (finding).  The binary text of a set of at most 64 elements whose first element is zero is undefined as soon as another one is not. -/
theorem C89_binary_zero_violated (n : Nat) (d : Data) (hn : elements n ≤ 64) (h : ∃ v ∈ d, v ≠ 0) : toBinary n (0 :: d) = ub := by
  unfold toBinary binLoop
  rw [if_pos rfl]
  exact binLoop_neg _ _ _ (by omega) h

example : toBinary 128 [0#64, 1#64] = ub := C89_binary_zero_violated 128 [1#64] (by decide) ⟨1#64, by simp, by decide⟩

end Verif.Bits.StaticBitset
