import Verif.Base
import Mathlib.Data.List.Forall2

/-
`daw::basic_bit_queue` and `daw::basic_nibble_queue`, include/daw/daw_bit_queues.h, and `daw::bit_stream`,
include/daw/daw_bit_stream.h.

`Q` and `V` are the numbers of bits of `queue_type` and `value_type`.
-/

namespace Verif.Bits
open Cxx

/-- `mask_msb<T>`, daw_bit.h 28-34, for a type of `w` bits. -/
def maskMsb (w count : Nat) : BitVec w := if w ≤ count then 0 else BitVec.allOnes w >>> count

/-- The number of bits of a type after the integer promotions: shifts are undefined from there on.
(Rule of C++ or its library, no line of the source.) -/
def promoted (w : Nat) : Nat := max w 32

/-- `a - b` of `size_t`. (Rule of C++ or its library, no line of the source.) -/
def subSize (a b : Nat) : Nat := (a + 2 ^ 64 - b) % 2 ^ 64

/-- The members of `basic_bit_queue`, daw_bit_queues.h 37-38. -/
structure BitQueue (Q : Nat) where
  /-- `m_size` -/
  size : Nat
  /-- `m_queue` -/
  queue : BitVec Q
  deriving DecidableEq

namespace BitQueue
variable {Q V : Nat}

/-- The default constructor, daw_bit_queues.h 37-41. -/
def empty (Q : Nat) : BitQueue Q := ⟨0, 0⟩

/-- The constructor from a value, daw_bit_queues.h 43-45. -/
def ofValue (v : BitVec Q) : BitQueue Q := ⟨Q, v⟩

/-- `can_pop`, daw_bit_queues.h 51-53. -/
def canPop (q : BitQueue Q) (bits : Nat) : Bool := decide (bits ≤ q.size)

/-- `full`, daw_bit_queues.h 63-65. -/
def full (q : BitQueue Q) : Bool := decide (q.size = Q)

/-- `push_back`, daw_bit_queues.h 82-94.  `source_to_native_endian` returns its argument for either byte order, see
`C39_to_native_violated`. -/
def pushBack (q : BitQueue Q) (value : BitVec V) (bits : Nat) : Cxx (BitQueue Q) :=
  if Q - q.size < bits then thrown
  else if promoted Q ≤ bits then ub
  else
    let value := value &&& maskMsb V (subSize V bits)
    pure ⟨q.size + bits, (q.queue <<< bits) ||| value.setWidth Q⟩

/-- `pop_front`, daw_bit_queues.h 96-105; it is `noexcept`, so that the exception ends the program. -/
def popFront (V : Nat) (q : BitQueue Q) (bits : Nat) : Cxx (BitVec V × BitQueue Q) :=
  if q.size < bits then abort
  else if promoted Q ≤ bits then ub
  else
    let mask := maskMsb Q (subSize Q bits)
    pure ((q.queue &&& mask).setWidth V, ⟨q.size - bits, q.queue >>> bits⟩)

/-- `pop_back`, daw_bit_queues.h 107-117.  `( 1 << bits ) - 1` is computed in `int`: from 31 bits on that is undefined
behaviour; the shift of line 113 is of the promoted `value_type`. -/
def popBack (V : Nat) (q : BitQueue Q) (bits : Nat) : Cxx (BitVec V × BitQueue Q) :=
  if q.size < bits then thrown
  else if 31 ≤ bits then ub
  else if promoted Q ≤ q.size - bits ∨ promoted V ≤ q.size - bits then ub
  else
    let mask := BitVec.ofNat Q (2 ^ bits - 1) <<< (q.size - bits)
    let result := (q.queue &&& mask).setWidth V
    pure (result >>> (q.size - bits), ⟨q.size - bits, q.queue &&& ~~~mask⟩)

/-- `clear`, daw_bit_queues.h 119-122. -/
def clear (_ : BitQueue Q) : BitQueue Q := ⟨0, 0⟩

/-- `pop_all`, daw_bit_queues.h 124-128. -/
def popAll (V : Nat) (q : BitQueue Q) : BitVec V × BitQueue Q := (q.queue.setWidth V, q.clear)

end BitQueue

/-! ### Bits of a number -/

/-- The lowest `n` bits of a number, most significant first. (Specification, no line of the source.) -/
def bitsOf : Nat → Nat → List Bool
  | 0, _ => []
  | n + 1, x => x.testBit n :: bitsOf n x

@[simp] theorem length_bitsOf (n x : Nat) : (bitsOf n x).length = n := by
  induction n with
  | zero => rfl
  | succ n ih => rw [bitsOf, List.length_cons, ih]

theorem bitsOf_add (a b x : Nat) : bitsOf (a + b) x = bitsOf a (x / 2 ^ b) ++ bitsOf b x := by
  induction a with
  | zero => rw [Nat.zero_add]; rfl
  | succ a ih =>
    rw [show a + 1 + b = (a + b) + 1 by omega, bitsOf, bitsOf, ih, Nat.testBit_div_two_pow]
    rfl

theorem bitsOf_congr {n x y : Nat} (h : ∀ i, i < n → x.testBit i = y.testBit i) : bitsOf n x = bitsOf n y := by
  induction n with
  | zero => rfl
  | succ n ih => rw [bitsOf, bitsOf, h n (by omega), ih fun i hi => h i (by omega)]

theorem bitsOf_mod {n m : Nat} (x : Nat) (h : n ≤ m) : bitsOf n (x % 2 ^ m) = bitsOf n x :=
  bitsOf_congr fun i hi => by rw [Nat.testBit_mod_two_pow, decide_eq_true (by omega), Bool.true_and]

theorem bitsOf_mul_add (a b x y : Nat) (h : y < 2 ^ b) : bitsOf (a + b) (x * 2 ^ b + y) = bitsOf a x ++ bitsOf b y := by
  rw [bitsOf_add]
  congr 1
  · rw [Nat.mul_comm, Nat.mul_add_div (Nat.two_pow_pos b), Nat.div_eq_of_lt h, Nat.add_zero]
  · rw [← bitsOf_mod (m := b) _ (Nat.le_refl _), Nat.mul_comm, Nat.mul_add_mod, Nat.mod_eq_of_lt h]

/-- A number below `2^n` is determined by its bits. -/
theorem bitsOf_inj {n x y : Nat} (hx : x < 2 ^ n) (hy : y < 2 ^ n) (h : bitsOf n x = bitsOf n y) : x = y := by
  have key : ∀ n, bitsOf n x = bitsOf n y → ∀ i, i < n → x.testBit i = y.testBit i := by
    intro n
    induction n with
    | zero => intro _ i hi; omega
    | succ n ih =>
      intro h i hi
      rw [bitsOf, bitsOf] at h
      injection h with h1 h2
      by_cases e : i = n
      · rw [e]; exact h1
      · exact ih h2 i (by omega)
  refine Nat.eq_of_testBit_eq fun i => ?_
  by_cases hi : i < n
  · exact key n h i hi
  · have hp : 2 ^ n ≤ 2 ^ i := Nat.pow_le_pow_right (by decide) (by omega)
    rw [Nat.testBit_lt_two_pow (by omega), Nat.testBit_lt_two_pow (by omega)]

namespace BitQueue
variable {Q V : Nat}

/-- What is in the queue, the oldest bit first. (Specification, no line of the source.) -/
def contents (q : BitQueue Q) : List Bool := bitsOf q.size q.queue.toNat

/-- The invariant of the queue: no bits above the size. (Specification, no line of the source.) -/
structure Inv (q : BitQueue Q) : Prop where
  size_le : q.size ≤ Q
  lt : q.queue.toNat < 2 ^ q.size

theorem subSize_eq {a b : Nat} (h : b ≤ a) (ha : a < 2 ^ 64) : subSize a b = a - b := by
  unfold subSize
  rw [show a + 2 ^ 64 - b = (a - b) + 2 ^ 64 by omega, Nat.add_mod_right, Nat.mod_eq_of_lt (by omega)]

/-- The mask of `bits` low bits cuts a number. -/
theorem and_mask {w : Nat} (v : BitVec w) (bits : Nat) (hb : bits ≤ w) (hw : w < 2 ^ 64) :
    (v &&& maskMsb w (subSize w bits)).toNat = v.toNat % 2 ^ bits := by
  rw [subSize_eq hb hw]
  unfold maskMsb
  split
  · have : bits = 0 := by omega
    subst this
    simp [Nat.mod_one]
  · rename_i h
    rw [BitVec.toNat_and, BitVec.toNat_ushiftRight, BitVec.toNat_allOnes, Nat.shiftRight_eq_div_pow]
    have : (2 ^ w - 1) / 2 ^ (w - bits) = 2 ^ bits - 1 := by
      have e : 2 ^ w = 2 ^ bits * 2 ^ (w - bits) := by rw [← Nat.pow_add]; congr 1; omega
      have hp := Nat.two_pow_pos (w - bits)
      have hq := Nat.two_pow_pos bits
      refine Nat.div_eq_of_lt_le ?_ ?_
      · rw [Nat.sub_mul, ← e]; omega
      · rw [show 2 ^ bits - 1 + 1 = 2 ^ bits by omega, ← e]
        have := Nat.two_pow_pos w
        omega
    rw [this, Nat.and_two_pow_sub_one_eq_mod]

theorem mul_pow_lt {x y a b : Nat} (hx : x < 2 ^ a) (hy : y < 2 ^ b) : x * 2 ^ b + y < 2 ^ (a + b) := by
  rw [Nat.pow_add]
  have : (x + 1) * 2 ^ b ≤ 2 ^ a * 2 ^ b := Nat.mul_le_mul_right _ hx
  rw [Nat.add_mul] at this
  omega

theorem inv_empty : (empty Q).Inv := ⟨Nat.zero_le _, by simp [empty]⟩

/-- The value a push puts into the queue. -/
theorem push_queue {q : BitQueue Q} (h : q.Inv) (v : BitVec V) (bits : Nat) (hb : bits ≤ V) (hV : V < 2 ^ 64)
    (hroom : q.size + bits ≤ Q) :
    ((q.queue <<< bits) ||| (v &&& maskMsb V (subSize V bits)).setWidth Q).toNat =
      q.queue.toNat * 2 ^ bits + v.toNat % 2 ^ bits := by
  have hm := Nat.mod_lt v.toNat (Nat.two_pow_pos bits)
  have hlt := mul_pow_lt h.lt hm
  have hQ : 2 ^ (q.size + bits) ≤ 2 ^ Q := Nat.pow_le_pow_right (by decide) hroom
  have hbQ : 2 ^ bits ≤ 2 ^ Q := Nat.pow_le_pow_right (by decide) (by omega)
  rw [BitVec.toNat_or, BitVec.toNat_shiftLeft, BitVec.toNat_setWidth, and_mask v bits hb hV, Nat.shiftLeft_eq,
    Nat.mod_eq_of_lt (show q.queue.toNat * 2 ^ bits < 2 ^ Q by omega), Nat.mod_eq_of_lt (show v.toNat % 2 ^ bits < 2 ^ Q by omega),
    Nat.mul_comm, Nat.two_pow_add_eq_or_of_lt hm]

/-- C35, `push_back`: with room for the bits, they are appended, most significant first; the queue keeps its form.  The
widths in use are far below 2^64. -/
theorem C35_push (q : BitQueue Q) (v : BitVec V) (bits : Nat) (h : q.Inv) (hb : bits ≤ V) (hV : V < 2 ^ 64)
    (hroom : q.size + bits ≤ Q) (hs : bits < promoted Q) :
    ∃ q', q.pushBack v bits = pure q' ∧ q'.Inv ∧ q'.size = q.size + bits ∧
      q'.contents = q.contents ++ bitsOf bits v.toNat := by
  have e := push_queue h v bits hb hV hroom
  have hm := Nat.mod_lt v.toNat (Nat.two_pow_pos bits)
  refine ⟨⟨q.size + bits, (q.queue <<< bits) ||| (v &&& maskMsb V (subSize V bits)).setWidth Q⟩, ?_, ⟨hroom, ?_⟩, rfl, ?_⟩
  · unfold pushBack
    rw [if_neg (by omega), if_neg (by omega)]
  · show BitVec.toNat _ < _
    rw [e]
    exact mul_pow_lt h.lt hm
  · unfold contents
    rw [e, bitsOf_mul_add _ _ _ _ hm, bitsOf_mod _ (Nat.le_refl _)]

example : (⟨3, 0b101#16⟩ : BitQueue 16).pushBack 0xFE#8 4 = pure ⟨7, 0b1011110#16⟩ := rfl

example : (⟨3, 0b101#16⟩ : BitQueue 16).Inv := ⟨by decide, by decide⟩

/-- C35, a push without room is reported. -/
theorem C35_push_full (q : BitQueue Q) (v : BitVec V) (bits : Nat) (h : q.Inv) (hroom : Q < q.size + bits) :
    q.pushBack v bits = thrown := by
  have := h.size_le
  unfold pushBack
  rw [if_pos (by omega)]

example := C35_push_full (⟨6, 0x2A#8⟩ : BitQueue 8) 0x5#8 3 ⟨by decide, by decide⟩ (by decide)

/-- C35 does not hold for a push of all bits of a queue of 32 or 64 bits at once: the shift is undefined. -/
theorem C35_push_all_violated (q : BitQueue Q) (v : BitVec V) (h : q.size = 0) (hQ : 32 ≤ Q) : q.pushBack v Q = ub := by
  unfold pushBack promoted
  rw [if_neg (by omega), if_pos (by omega)]

example := C35_push_all_violated (⟨0, 0#64⟩ : BitQueue 64) 0x5#64 rfl (by decide)

/-- C35, `pop_front`: the newest bits are returned and removed. -/
theorem C35_pop_front (q : BitQueue Q) (bits : Nat) (h : q.Inv) (hQ : Q < 2 ^ 64) (hb : bits ≤ q.size) (hV : bits ≤ V)
    (hs : bits < promoted Q) :
    ∃ r q', popFront V q bits = pure (r, q') ∧ q'.Inv ∧ q'.size = q.size - bits ∧ r.toNat < 2 ^ bits ∧
      q.contents = q'.contents ++ bitsOf bits r.toNat := by
  have hsz := h.size_le
  have hm := Nat.mod_lt q.queue.toNat (Nat.two_pow_pos bits)
  have hr : ((q.queue &&& maskMsb Q (subSize Q bits)).setWidth V).toNat = q.queue.toNat % 2 ^ bits := by
    have hp : 2 ^ bits ≤ 2 ^ V := Nat.pow_le_pow_right (by decide) hV
    rw [BitVec.toNat_setWidth, and_mask _ _ (by omega) hQ, Nat.mod_eq_of_lt (by omega)]
  refine ⟨(q.queue &&& maskMsb Q (subSize Q bits)).setWidth V, ⟨q.size - bits, q.queue >>> bits⟩, ?_,
    ⟨show q.size - bits ≤ Q by omega, ?_⟩, rfl, ?_, ?_⟩
  · unfold popFront
    rw [if_neg (by omega), if_neg (by omega)]
  · show BitVec.toNat _ < 2 ^ (q.size - bits)
    rw [BitVec.toNat_ushiftRight, Nat.shiftRight_eq_div_pow]
    apply Nat.div_lt_of_lt_mul
    rw [← Nat.pow_add, show bits + (q.size - bits) = q.size by omega]
    exact h.lt
  · rw [hr]; exact hm
  · unfold contents
    show bitsOf q.size _ = bitsOf (q.size - bits) (BitVec.toNat _) ++ _
    rw [hr, BitVec.toNat_ushiftRight, Nat.shiftRight_eq_div_pow, bitsOf_mod _ (Nat.le_refl _), ← bitsOf_add,
      show q.size - bits + bits = q.size by omega]

example : popFront 8 (⟨7, 0b1011110#16⟩ : BitQueue 16) 4 = pure (0b1110#8, ⟨3, 0b101#16⟩) := rfl

/-- C35, popping more bits than there are from the front ends the program; `can_pop` tells in advance. -/
theorem C35_pop_front_empty (q : BitQueue Q) (bits : Nat) :
    (q.canPop bits = false ↔ q.size < bits) ∧ (q.size < bits → popFront V q bits = abort) ∧
    (q.size < bits → popBack V q bits = thrown) := by
  refine ⟨by simp [canPop], fun h => ?_, fun h => ?_⟩
  · unfold popFront; rw [if_pos h]
  · unfold popBack; rw [if_pos h]

/-- The bits the mask of `pop_back` keeps and removes. -/
theorem pop_back_parts {q : BitQueue Q} (h : q.Inv) {bits : Nat} (hb : bits ≤ q.size) :
    (q.queue &&& (BitVec.ofNat Q (2 ^ bits - 1) <<< (q.size - bits))).toNat =
      q.queue.toNat / 2 ^ (q.size - bits) * 2 ^ (q.size - bits) ∧
    (q.queue &&& ~~~(BitVec.ofNat Q (2 ^ bits - 1) <<< (q.size - bits))).toNat = q.queue.toNat % 2 ^ (q.size - bits) := by
  have hsz := h.size_le
  have hmask : ∀ i, i < Q → (BitVec.ofNat Q (2 ^ bits - 1) <<< (q.size - bits)).getLsbD i =
      (decide (q.size - bits ≤ i) && decide (i < q.size)) := by
    intro i hi
    rw [BitVec.getLsbD_shiftLeft, BitVec.getLsbD_ofNat, Nat.testBit_two_pow_sub_one]
    by_cases h1 : q.size - bits ≤ i <;> by_cases h2 : i < q.size
    · rw [decide_eq_true hi, decide_eq_false (by omega : ¬ i < q.size - bits), decide_eq_true h1, decide_eq_true h2,
        decide_eq_true (show i - (q.size - bits) < Q by omega), decide_eq_true (show i - (q.size - bits) < bits by omega)]
      rfl
    · rw [decide_eq_false h2, decide_eq_false (show ¬ i - (q.size - bits) < bits by omega)]; simp
    · rw [decide_eq_true (show i < q.size - bits by omega), decide_eq_false h1]; simp
    · rw [decide_eq_true (show i < q.size - bits by omega), decide_eq_false h1]; simp
  have hq : ∀ i, q.size ≤ i → q.queue.toNat.testBit i = false := by
    intro i hi
    apply Nat.testBit_lt_two_pow
    exact Nat.lt_of_lt_of_le h.lt (Nat.pow_le_pow_right (by decide) hi)
  constructor
  · refine Nat.eq_of_testBit_eq fun i => ?_
    rw [Nat.testBit_mul_two_pow, Nat.testBit_div_two_pow]
    show BitVec.getLsbD _ i = _
    rw [BitVec.getLsbD_and]
    by_cases hi : i < Q
    · rw [hmask i hi]
      by_cases h1 : q.size - bits ≤ i
      · rw [show i - (q.size - bits) + (q.size - bits) = i by omega, decide_eq_true h1, Bool.true_and, Bool.true_and]
        by_cases h2 : i < q.size
        · rw [decide_eq_true h2, Bool.and_true]; rfl
        · rw [decide_eq_false h2, Bool.and_false, hq i (by omega)]
      · rw [decide_eq_false h1]; simp
    · rw [BitVec.getLsbD_of_ge _ _ (by omega), Bool.false_and]
      by_cases h1 : q.size - bits ≤ i
      · rw [show i - (q.size - bits) + (q.size - bits) = i by omega, hq i (by omega), Bool.and_false]
      · rw [decide_eq_false h1]; rfl
  · refine Nat.eq_of_testBit_eq fun i => ?_
    rw [Nat.testBit_mod_two_pow]
    show BitVec.getLsbD _ i = _
    rw [BitVec.getLsbD_and, BitVec.getLsbD_not]
    by_cases hi : i < Q
    · rw [hmask i hi, decide_eq_true hi, Bool.true_and]
      by_cases h1 : q.size - bits ≤ i
      · rw [decide_eq_true h1, decide_eq_false (show ¬ i < q.size - bits by omega), Bool.true_and, Bool.false_and]
        by_cases h2 : i < q.size
        · rw [decide_eq_true h2]; simp
        · rw [decide_eq_false h2]
          have := hq i (by omega)
          rw [BitVec.getLsbD, this]; rfl
      · rw [decide_eq_false h1, decide_eq_true (show i < q.size - bits by omega)]
        rw [BitVec.getLsbD]
        simp
    · rw [BitVec.getLsbD_of_ge _ _ (by omega), decide_eq_false (show ¬ i < q.size - bits by omega)]
      rfl

/-- C35, `pop_back`, as far as it holds: with at most 30 bits asked for, and at most as many bits in the queue as the value
type has, the oldest bits are returned and removed.  Missing: longer contents, see `C35_pop_back_violated`, and 31 bits or
more, see `C35_pop_back_wide_violated`. -/
theorem C35_pop_back_partial (q : BitQueue Q) (bits : Nat) (h : q.Inv) (hb : bits ≤ q.size) (h30 : bits ≤ 30)
    (hV : q.size ≤ V) (hs : q.size - bits < promoted V ∧ q.size - bits < promoted Q) :
    ∃ r q', popBack V q bits = pure (r, q') ∧ q'.Inv ∧ q'.size = q.size - bits ∧ r.toNat < 2 ^ bits ∧
      q.contents = bitsOf bits r.toNat ++ q'.contents := by
  have hsz := h.size_le
  obtain ⟨e1, e2⟩ := pop_back_parts h hb
  have hp := Nat.two_pow_pos (q.size - bits)
  have hr : (((q.queue &&& (BitVec.ofNat Q (2 ^ bits - 1) <<< (q.size - bits))).setWidth V) >>> (q.size - bits)).toNat =
      q.queue.toNat / 2 ^ (q.size - bits) := by
    rw [BitVec.toNat_ushiftRight, BitVec.toNat_setWidth, e1, Nat.shiftRight_eq_div_pow]
    have h1 : q.queue.toNat / 2 ^ (q.size - bits) * 2 ^ (q.size - bits) ≤ q.queue.toNat := Nat.div_mul_le_self _ _
    have h2 : 2 ^ q.size ≤ 2 ^ V := Nat.pow_le_pow_right (by decide) hV
    have := h.lt
    rw [Nat.mod_eq_of_lt (by omega), Nat.mul_div_cancel _ hp]
  refine ⟨((q.queue &&& (BitVec.ofNat Q (2 ^ bits - 1) <<< (q.size - bits))).setWidth V) >>> (q.size - bits),
    ⟨q.size - bits, q.queue &&& ~~~(BitVec.ofNat Q (2 ^ bits - 1) <<< (q.size - bits))⟩, ?_, ⟨?_, ?_⟩, ?_, ?_, ?_⟩
  · unfold popBack
    rw [if_neg (by omega), if_neg (by omega), if_neg (by omega)]
  · show q.size - bits ≤ Q
    omega
  · show BitVec.toNat _ < 2 ^ (q.size - bits)
    rw [e2]
    exact Nat.mod_lt _ hp
  · rfl
  · rw [hr]
    apply Nat.div_lt_of_lt_mul
    rw [← Nat.pow_add, show q.size - bits + bits = q.size by omega]
    exact h.lt
  · unfold contents
    show _ = _ ++ bitsOf (q.size - bits) (BitVec.toNat _)
    rw [hr, e2, bitsOf_mod _ (Nat.le_refl _), ← bitsOf_add, show bits + (q.size - bits) = q.size by omega]

example : popBack 8 (⟨7, 0b1011110#16⟩ : BitQueue 16) 3 = pure (0b101#8, ⟨4, 0b1110#16⟩) := rfl

/-- C35 does not hold for `pop_back` of `daw::bit_queue` (16 bits, values of 8 bits): with more than 8 bits in the queue the
result is cut before it is shifted, and the oldest byte comes back as zero. -/
theorem C35_pop_back_violated :
    popBack 8 (⟨16, 0xABCD#16⟩ : BitQueue 16) 8 = pure (0#8, ⟨8, 0xCD#16⟩) ∧
    (⟨16, 0xABCD#16⟩ : BitQueue 16).contents = bitsOf 8 0xAB ++ bitsOf 8 0xCD := ⟨rfl, rfl⟩

/-- C35 does not hold for `pop_back` of 31 bits or more: the mask overflows an `int`. -/
theorem C35_pop_back_wide_violated (q : BitQueue Q) (bits : Nat) (hb : 31 ≤ bits) (h : bits ≤ q.size) :
    popBack V q bits = ub := by
  unfold popBack
  rw [if_neg (by omega), if_pos hb]

/-- C35, the queue itself after any `pop_back` that is defined: the oldest bits are gone, the others are kept. -/
theorem C35_pop_back_rest (q q' : BitQueue Q) (bits : Nat) (r : BitVec V) (h : q.Inv) (hb : bits ≤ q.size)
    (hr : popBack V q bits = pure (r, q')) : q'.Inv ∧ q'.contents = q.contents.drop bits := by
  have hsz := h.size_le
  obtain ⟨_, e2⟩ := pop_back_parts h hb
  unfold popBack at hr
  rw [if_neg (by omega)] at hr
  split at hr
  · exact absurd hr (ub_ne_pure _)
  split at hr
  · exact absurd hr (ub_ne_pure _)
  obtain ⟨_, rfl⟩ := Prod.mk.injEq .. |>.mp (pure_inj.1 hr)
  refine ⟨⟨show q.size - bits ≤ Q by omega, ?_⟩, ?_⟩
  · show BitVec.toNat _ < 2 ^ (q.size - bits)
    rw [e2]
    exact Nat.mod_lt _ (Nat.two_pow_pos _)
  · unfold contents
    show bitsOf (q.size - bits) (BitVec.toNat _) = _
    rw [e2, bitsOf_mod _ (Nat.le_refl _)]
    conv => rhs; rw [show q.size = bits + (q.size - bits) by omega, bitsOf_add]
    rw [List.drop_append_of_le_length (by simp), List.drop_of_length_le (by simp), List.nil_append]

/-- C35, `pop_all`: everything at once, if the value type has room. -/
theorem C35_pop_all (q : BitQueue Q) (h : q.Inv) (hV : q.size ≤ V) :
    bitsOf q.size (popAll V q).1.toNat = q.contents ∧ (popAll V q).1.toNat < 2 ^ q.size ∧ (popAll V q).2.contents = [] ∧
    (popAll V q).2.Inv := by
  have hp : 2 ^ q.size ≤ 2 ^ V := Nat.pow_le_pow_right (by decide) hV
  have hl := h.lt
  have e : (popAll V q).1.toNat = q.queue.toNat := by
    show BitVec.toNat (q.queue.setWidth V) = _
    rw [BitVec.toNat_setWidth, Nat.mod_eq_of_lt (by omega)]
  exact ⟨by rw [e]; rfl, by rw [e]; exact hl, rfl, inv_empty⟩

/-- C35, the constructor from a value: the queue holds its bits, most significant first, and is full. -/
theorem C35_of_value (v : BitVec Q) : (ofValue v).Inv ∧ (ofValue v).contents = bitsOf Q v.toNat ∧ (ofValue v).full = true :=
  ⟨⟨Nat.le_refl _, v.isLt⟩, rfl, by simp [full, ofValue]⟩

/-! ### Histories -/

/-- The calls on a queue. (Members of `basic_bit_queue`, daw_bit_queues.h 33-133.) -/
inductive Op (V : Nat) where
  | push (v : BitVec V) (bits : Nat)
  | popFront (bits : Nat)
  | popBack (bits : Nat)
  | popAll
  | clear

/-- The model of a call: the queue afterwards and the value returned, if any.
(Members of `basic_bit_queue`, daw_bit_queues.h 33-133.) -/
def step (q : BitQueue Q) : Op V → Cxx (BitQueue Q × Option (BitVec V))
  | .push v bits => do
    let q ← q.pushBack v bits
    pure (q, none)
  | .popFront bits => do
    let (r, q) ← BitQueue.popFront V q bits
    pure (q, some r)
  | .popBack bits => do
    let (r, q) ← BitQueue.popBack V q bits
    pure (q, some r)
  | .popAll => pure ((BitQueue.popAll V q).2, some (BitQueue.popAll V q).1)
  | .clear => pure (q.clear, none)

/-- A call on a plain list of bits, oldest first: the list afterwards and the bits returned.
(Specification, no line of the source.) -/
def listStep (l : List Bool) : Op V → List Bool × List Bool
  | .push v bits => (l ++ bitsOf bits v.toNat, [])
  | .popFront bits => (l.take (l.length - bits), l.drop (l.length - bits))
  | .popBack bits => (l.drop bits, l.take bits)
  | .popAll => ([], l)
  | .clear => ([], [])

/-- When a call on a list of bits is in the range covered. (Specification, no line of the source.) -/
def Fits (Q : Nat) (l : List Bool) : Op V → Prop
  | .push _ bits => bits ≤ V ∧ l.length + bits ≤ Q ∧ bits < promoted Q
  | .popFront bits => bits ≤ l.length ∧ bits ≤ V ∧ bits < promoted Q
  | .popBack bits => bits ≤ l.length ∧ bits ≤ 30 ∧ l.length ≤ V ∧ l.length - bits < promoted V ∧ l.length - bits < promoted Q
  | .popAll => l.length ≤ V
  | .clear => True

/-- The value returned is that of the bits returned. (Specification, no line of the source.) -/
def Returns (r : Option (BitVec V)) (bits : List Bool) : Prop :=
  match r with
  | none => bits = []
  | some v => bitsOf bits.length v.toNat = bits ∧ v.toNat < 2 ^ bits.length

/-- Running calls, keeping the values returned. (Members of `basic_bit_queue`, daw_bit_queues.h 33-133.) -/
def run (q : BitQueue Q) : List (Op V) → Cxx (BitQueue Q × List (Option (BitVec V)))
  | [] => pure (q, [])
  | o :: os => do
    let (q, r) ← q.step o
    let (q, rs) ← run q os
    pure (q, r :: rs)

/-- Running calls on a list of bits. (Specification, no line of the source.) -/
def listRun (l : List Bool) : List (Op V) → List Bool × List (List Bool)
  | [] => (l, [])
  | o :: os => ((listRun (listStep l o).1 os).1, (listStep l o).2 :: (listRun (listStep l o).1 os).2)

/-- All calls of a history are in the range covered. (Specification, no line of the source.) -/
def AllFit (Q : Nat) (l : List Bool) : List (Op V) → Prop
  | [] => True
  | o :: os => Fits Q l o ∧ AllFit Q (listStep l o).1 os

theorem step_correct (q : BitQueue Q) (o : Op V) (h : q.Inv) (hQ : Q < 2 ^ 64) (hV : V < 2 ^ 64) (hf : Fits Q q.contents o) :
    ∃ q' r, q.step o = pure (q', r) ∧ q'.Inv ∧ q'.contents = (listStep q.contents o).1 ∧
      Returns r (listStep q.contents o).2 := by
  have hlen : q.contents.length = q.size := length_bitsOf _ _
  cases o with
  | push v bits =>
    obtain ⟨h1, h2, h3⟩ := hf
    rw [hlen] at h2
    obtain ⟨q', e, hi, _, hc⟩ := C35_push q v bits h h1 hV h2 h3
    exact ⟨q', none, by rw [step, e, pure_bind], hi, hc, rfl⟩
  | popFront bits =>
    obtain ⟨h1, h2, h3⟩ := hf
    rw [hlen] at h1
    obtain ⟨r, q', e, hi, hs, hr, hc⟩ := C35_pop_front (V := V) q bits h hQ h1 h2 h3
    have hl' : q'.contents.length = q.size - bits := (length_bitsOf _ _).trans hs
    refine ⟨q', some r, by rw [step, e]; rfl, hi, ?_, ?_⟩
    · show _ = List.take _ _
      rw [hlen, hc, List.take_append_of_le_length (by omega), List.take_of_length_le (by omega)]
    · show bitsOf (List.drop _ _).length _ = List.drop _ _ ∧ _ < 2 ^ (List.drop _ _).length
      rw [hlen, hc, List.drop_append_of_le_length (by omega), List.drop_of_length_le (by omega), List.nil_append,
        length_bitsOf]
      exact ⟨rfl, hr⟩
  | popBack bits =>
    obtain ⟨h1, h2, h3, h4, h5⟩ := hf
    rw [hlen] at h1 h3 h4 h5
    obtain ⟨r, q', e, hi, hs, hr, hc⟩ := C35_pop_back_partial (V := V) q bits h h1 h2 h3 ⟨h4, h5⟩
    refine ⟨q', some r, by rw [step, e]; rfl, hi, ?_, ?_⟩
    · show _ = List.drop _ _
      rw [hc, List.drop_append_of_le_length (by simp), List.drop_of_length_le (by simp), List.nil_append]
    · show bitsOf (List.take _ _).length _ = List.take _ _ ∧ _ < 2 ^ (List.take _ _).length
      rw [hc, List.take_append_of_le_length (by simp), List.take_of_length_le (by simp), length_bitsOf]
      exact ⟨rfl, hr⟩
  | popAll =>
    have hf : q.contents.length ≤ V := hf
    rw [hlen] at hf
    obtain ⟨e1, e2, e3, e4⟩ := C35_pop_all (V := V) q h hf
    refine ⟨_, _, rfl, e4, e3, ?_⟩
    show bitsOf q.contents.length _ = _ ∧ _ < 2 ^ q.contents.length
    rw [hlen]
    exact ⟨e1, e2⟩
  | clear => exact ⟨_, _, rfl, inv_empty, rfl, rfl⟩

/-- C35, histories, as far as it holds: every sequence of calls that stays in the range covered acts as on a plain list of
bits, and returns the same bits.  Missing: the calls of `C35_pop_back_violated` and `C35_pop_back_wide_violated`, and
pushes of all bits of a wide queue. -/
theorem C35_history_partial (q : BitQueue Q) (os : List (Op V)) (h : q.Inv) (hQ : Q < 2 ^ 64) (hV : V < 2 ^ 64)
    (hf : AllFit Q q.contents os) :
    ∃ q' rs, q.run os = pure (q', rs) ∧ q'.Inv ∧ q'.contents = (listRun q.contents os).1 ∧
      List.Forall₂ Returns rs (listRun q.contents os).2 := by
  induction os generalizing q with
  | nil => exact ⟨q, [], rfl, h, rfl, .nil⟩
  | cons o os ih =>
    obtain ⟨hf1, hf2⟩ := hf
    obtain ⟨q1, r, e1, hi1, hc1, hr⟩ := step_correct q o h hQ hV hf1
    rw [← hc1] at hf2
    obtain ⟨q', rs, e2, hi2, hc2, hrs⟩ := ih q1 hi1 hf2
    refine ⟨q', r :: rs, ?_, hi2, ?_, ?_⟩
    · rw [run, e1, pure_bind]
      show (q1.run os >>= _) = _
      rw [e2]
      rfl
    · rw [hc2, hc1]; rfl
    · rw [hc1] at hrs
      exact .cons hr hrs

example : AllFit 16 [] [Op.push 0xFE#8 5, .push 1#8 3, .popBack 4, .popFront 2] := by
  refine ⟨⟨by decide, by decide, by decide⟩, ⟨by decide, by decide, by decide⟩,
    ⟨by decide, by decide, by decide, by decide, by decide⟩, ⟨by decide, by decide, by decide⟩, trivial⟩

/-! ### Nibbles -/

/-- `basic_nibble_queue::push_back`, daw_bit_queues.h 160-167. -/
def nibblePush (q : BitQueue Q) (v : BitVec V) (n : Nat) : Cxx (BitQueue Q) := q.pushBack v (n * 4)

/-- `basic_nibble_queue::pop_front`, daw_bit_queues.h 178-181. -/
def nibblePop (V : Nat) (q : BitQueue Q) (n : Nat) : Cxx (BitVec V × BitQueue Q) := popFront V q (n * 4)

/-- `basic_nibble_queue::size`, daw_bit_queues.h 152-154. -/
def nibbleSize (q : BitQueue Q) : Nat := q.size / 4

/-- C35, nibbles: what was pushed last is popped first, whole nibbles at a time. -/
theorem C35_nibble (q : BitQueue Q) (v : BitVec V) (n : Nat) (h : q.Inv) (hQ : Q < 2 ^ 64) (hb : n * 4 ≤ V) (hV : V < 2 ^ 64)
    (hroom : q.size + n * 4 ≤ Q) (hs : n * 4 < promoted Q) :
    ∃ q', q.nibblePush v n = pure q' ∧ q'.nibbleSize = q.nibbleSize + n ∧
      nibblePop V q' n = pure (BitVec.ofNat V (v.toNat % 2 ^ (n * 4)), q) := by
  obtain ⟨q', e, hi, hsz, hc⟩ := C35_push q v (n * 4) h hb hV hroom hs
  obtain ⟨r, q2, e2, hi2, hs2, hr2, hc2⟩ := C35_pop_front (V := V) q' (n * 4) hi hQ (by omega) hb hs
  refine ⟨q', e, by unfold nibbleSize; omega, ?_⟩
  rw [hc] at hc2
  have hl : q.contents.length = q2.contents.length := by
    unfold contents
    rw [length_bitsOf, length_bitsOf]
    omega
  obtain ⟨c1, c2⟩ := List.append_inj hc2 hl
  have hm := Nat.mod_lt v.toNat (Nat.two_pow_pos (n * 4))
  have er : v.toNat % 2 ^ (n * 4) = r.toNat := by
    refine bitsOf_inj hm hr2 ?_
    rw [bitsOf_mod _ (Nat.le_refl _)]
    exact c2
  have es : q2.size = q.size := by omega
  have eq : q2 = q := by
    cases q2 with
    | mk s2 v2 =>
      cases q with
      | mk s v =>
        have es : s2 = s := es
        subst es
        congr 1
        apply BitVec.eq_of_toNat_eq
        exact bitsOf_inj hi2.lt h.lt c1.symm
  rw [er, BitVec.ofNat_toNat, BitVec.setWidth_eq]
  unfold nibblePop
  rw [e2, eq]

example := C35_nibble (⟨4, 0xA#16⟩ : BitQueue 16) 0x5C#8 2 ⟨by decide, by decide⟩ (by decide) (by decide) (by decide) (by decide) (by decide)

end BitQueue
end Verif.Bits
