import Verif.Bits.BitQueue

/-
`daw::bit_stream`, include/daw/daw_bit_stream.h, over values of `V` bits.

The header names `bit_count_t`, which does not exist (line 83), and so does not compile as it stands; the model reads
`bit_count_v`.
-/

namespace Verif.Bits
open Cxx

/-- The members of `bit_stream`, daw_bit_stream.h 32-34. -/
structure BitStream (V : Nat) where
  /-- the values in `[m_first, m_last)` -/
  data : List (BitVec V)
  /-- `m_left_overs` -/
  left : BitQueue V

namespace BitStream
variable {V : Nat}

/-- The constructor, daw_bit_stream.h 37-40. -/
def make (data : List (BitVec V)) : BitStream V := ⟨data, BitQueue.empty V⟩

/-- `valid`, daw_bit_stream.h 42-44. -/
def valid (s : BitStream V) : Bool := !s.data.isEmpty

/-- `pop_bits`, daw_bit_stream.h 50-73. -/
def popBits (s : BitStream V) (n : Nat) : Cxx (BitVec V × BitStream V) :=
  if V < n then thrown
  else if n = 0 then thrown
  else if s.left.size < n then
    let n' := if s.left.size = 0 then n else n - s.left.size
    let result : BitVec V := if s.left.size = 0 then 0 else (BitQueue.popAll V s.left).1 <<< n'
    let left := if s.left.size = 0 then s.left else (BitQueue.popAll V s.left).2
    match s.data with
    | [] => thrown
    | v :: vs => do
      let left ← left.pushBack v V
      let (r, left) ← BitQueue.popBack V left n'
      pure (result ||| r, ⟨vs, left⟩)
  else do
    let (r, left) ← BitQueue.popBack V s.left n
    pure (0#V ||| r, ⟨s.data, left⟩)

/-- The loop of `pop_value`, daw_bit_stream.h 88-92; `T` is the number of bits of the result type.  The loop gives way to the
rest of the function, lines 93-97. -/
def popValueLoop (T : Nat) : Nat → BitStream V → BitVec T → Nat → Cxx (BitVec T × BitStream V)
  | 0, _, _, _ => diverge
  | fuel + 1, s, result, n =>
    if V ≤ n then
      if promoted T ≤ V then ub
      else do
        let (r, s) ← s.popBits V
        popValueLoop T fuel s ((result <<< V) ||| r.setWidth T) (n - V)
    else if 0 < n then do
      let (r, s) ← s.popBits n
      pure ((result <<< n) ||| r.setWidth T, s)
    else pure (result, s)

/-- `pop_value<T>`, daw_bit_stream.h 80-98.  For `V` positive every turn of the loop consumes bits, so that `n + 1` turns
suffice (`C36_pop_value` shows the run ends). -/
def popValue (T : Nat) (s : BitStream V) (n : Nat) : Cxx (BitVec T × BitStream V) :=
  if T < n then thrown else popValueLoop T (n + 1) s 0 n

/-- `skip_bits`, daw_bit_stream.h 105-113; `skip_bytes`, daw_bit_stream.h 115-118, is the same with eight times the count. -/
def skipBits : Nat → BitStream V → Nat → Cxx (BitStream V)
  | 0, _, _ => diverge
  | fuel + 1, s, n =>
    if V ≤ n then do
      let (_, s) ← s.popBits V
      skipBits fuel s (n - V)
    else pure s

/-- The loop of `skip_until( bs, v )`, daw_bit_stream.h 139-143; each turn takes one value from the data. -/
def skipUntilLoop (v : BitVec V) : Nat → BitStream V → BitVec V → Cxx (BitStream V)
  | 0, _, _ => diverge
  | fuel + 1, s, cur =>
    if s.valid && cur != v then do
      let (r, s) ← s.popBits V
      skipUntilLoop v fuel s r
    else if cur != v then thrown
    else pure s

/-- `skip_until( bs, v )`, daw_bit_stream.h 136-144. -/
def skipUntil (s : BitStream V) (v : BitVec V) : Cxx (BitStream V) := do
  let (r, s) ← s.popBits V
  skipUntilLoop v (s.data.length + 1) s r

/-! ### What the stream holds -/

/-- The bits not yet read. (Specification, no line of the source.) -/
def rest (s : BitStream V) : List Bool := s.left.contents ++ s.data.flatMap fun v => bitsOf V v.toNat

/-- The queue of left overs is in order. (Specification, no line of the source.) -/
def Inv (s : BitStream V) : Prop := s.left.Inv

theorem length_contents {Q : Nat} (q : BitQueue Q) : q.contents.length = q.size := length_bitsOf _ _

/-- C36, one group, as far as it holds: for values of 8 or 16 bits (up to 30), a group of 1 to `V` bits consists of the next
bits of the stream, most significant first, and the others remain; an error is reported exactly if there are not enough.
Missing: wider values, see `C36_wide_violated`. -/
theorem C36_pop_partial (s : BitStream V) (n : Nat) (h : s.Inv) (hV : V ≤ 30) (hn : 0 < n) (hnV : n ≤ V) :
    (n ≤ s.rest.length → ∃ r s', s.popBits n = pure (r, s') ∧ s'.Inv ∧ r.toNat < 2 ^ n ∧
      s.rest = bitsOf n r.toNat ++ s'.rest) ∧
    (s.rest.length < n → s.popBits n = thrown) := by
  have hsz := h.size_le
  have hpv : promoted V = 32 := by unfold promoted; omega
  have hlen : s.rest.length = s.left.size + (s.data.flatMap fun v => bitsOf V v.toNat).length := by
    unfold rest; rw [List.length_append, length_contents]
  by_cases hl : s.left.size < n
  · -- a value must be read
    cases hd : s.data with
    | nil =>
      rw [hd] at hlen
      simp only [List.flatMap_nil, List.length_nil, Nat.add_zero] at hlen
      refine ⟨fun hc => by omega, fun _ => ?_⟩
      unfold popBits
      rw [if_neg (by omega), if_neg (by omega), if_pos hl, hd]
    | cons v vs =>
      refine ⟨fun _ => ?_, fun hc => ?_⟩
      · -- the first part
        have hpos := Nat.two_pow_pos n
        have hleft : ∃ left : BitQueue V, (if s.left.size = 0 then s.left else (BitQueue.popAll V s.left).2) = left ∧
            left.Inv ∧ left.size = 0 := by
          split
          · exact ⟨_, rfl, h, by assumption⟩
          · exact ⟨_, rfl, BitQueue.inv_empty, rfl⟩
        obtain ⟨left, eleft, hi0, hs0⟩ := hleft
        obtain ⟨q1, e1, hi1, hs1, hc1⟩ := BitQueue.C35_push left v V hi0 (Nat.le_refl _) (by omega) (by omega) (by omega)
        rw [hs0, Nat.zero_add] at hs1
        have hc0 : left.contents = [] := List.eq_nil_of_length_eq_zero (by rw [length_contents, hs0])
        rw [hc0, List.nil_append] at hc1
        obtain ⟨r, q2, e2, hi2, hs2, hr2, hc2⟩ := BitQueue.C35_pop_back_partial (V := V) q1 (n - s.left.size) hi1 (by omega)
          (by omega) (by omega) (by omega)
        rw [hc1] at hc2
        -- the bits left over, shifted
        have hres : ∃ x : BitVec V, (if s.left.size = 0 then (0 : BitVec V)
            else (BitQueue.popAll V s.left).1 <<< (n - s.left.size)) = x ∧
            x.toNat = s.left.queue.toNat * 2 ^ (n - s.left.size) := by
          split
          · rename_i e0
            refine ⟨_, rfl, ?_⟩
            have := h.lt
            rw [e0] at this
            have : s.left.queue.toNat = 0 := by omega
            rw [this]
            simp
          · refine ⟨_, rfl, ?_⟩
            have hlt := h.lt
            have hpV : 2 ^ n ≤ 2 ^ V := Nat.pow_le_pow_right (by decide) hnV
            have hm : s.left.queue.toNat * 2 ^ (n - s.left.size) < 2 ^ n := by
              have := BitQueue.mul_pow_lt hlt (show 0 < 2 ^ (n - s.left.size) from Nat.two_pow_pos _)
              rwa [show s.left.size + (n - s.left.size) = n by omega, Nat.add_zero] at this
            show BitVec.toNat ((s.left.queue.setWidth V) <<< _) = _
            rw [BitVec.setWidth_eq, BitVec.toNat_shiftLeft, Nat.shiftLeft_eq, Nat.mod_eq_of_lt (by omega)]
        obtain ⟨x, ex, hx⟩ := hres
        have hn' : (if s.left.size = 0 then n else n - s.left.size) = n - s.left.size := by split <;> omega
        have hor : (x ||| r).toNat = s.left.queue.toNat * 2 ^ (n - s.left.size) + r.toNat := by
          rw [BitVec.toNat_or, hx, Nat.mul_comm, Nat.two_pow_add_eq_or_of_lt hr2]
        refine ⟨x ||| r, ⟨vs, q2⟩, ?_, hi2, ?_, ?_⟩
        · unfold popBits
          rw [if_neg (by omega), if_neg (by omega), if_pos hl]
          simp only [hn', eleft, ex, hd]
          rw [e1, pure_bind, e2]
          rfl
        · rw [hor]
          have := BitQueue.mul_pow_lt h.lt hr2
          rwa [show s.left.size + (n - s.left.size) = n by omega] at this
        · rw [hor]
          have e := bitsOf_mul_add s.left.size (n - s.left.size) s.left.queue.toNat r.toNat hr2
          rw [show s.left.size + (n - s.left.size) = n by omega] at e
          rw [e]
          unfold rest
          rw [hd, List.flatMap_cons, hc2]
          simp only [List.append_assoc]
          rfl
      · rw [hd, List.flatMap_cons, List.length_append, length_bitsOf] at hlen
        omega
  · refine ⟨fun _ => ?_, fun hc => by omega⟩
    obtain ⟨r, q', e, hi, hs, hr, hc⟩ := BitQueue.C35_pop_back_partial (V := V) s.left n h (by omega) (by omega) hsz (by omega)
    refine ⟨r, ⟨s.data, q'⟩, ?_, hi, hr, ?_⟩
    · unfold popBits
      rw [if_neg (by omega), if_neg (by omega), if_neg hl, e, pure_bind]
      simp
    · unfold rest
      rw [hc, List.append_assoc]

theorem inv_make (data : List (BitVec V)) : (make data).Inv := BitQueue.inv_empty

example : ∃ s, (make [0b10110011#8, 0b01010101#8]).popBits 5 = pure (0b10110#8, s) := ⟨_, rfl⟩

/-- A sequence of groups. (Calls of `pop_bits`, daw_bit_stream.h 50-73.) -/
def popMany (s : BitStream V) : List Nat → Cxx (List (BitVec V) × BitStream V)
  | [] => pure ([], s)
  | n :: ns => do
    let (r, s) ← s.popBits n
    let (rs, s) ← popMany s ns
    pure (r :: rs, s)

/-- The groups, cut from a list of bits. (Specification, no line of the source.) -/
def groups (bits : List Bool) : List Nat → List (List Bool)
  | [] => []
  | n :: ns => bits.take n :: groups (bits.drop n) ns

/-- The numbers of bits of the values returned, as bits. (Specification, no line of the source.) -/
def shown (ns : List Nat) (rs : List (BitVec V)) : List (List Bool) := List.zipWith (fun n r => bitsOf n r.toNat) ns rs

/-- C36, all groups, as far as it holds: the groups read from a fresh stream are consecutive groups of the bits of the
values, most significant bit first, whatever their widths.  Missing: values wider than 30 bits. -/
theorem C36_groups_partial (data : List (BitVec V)) (ns : List Nat) (hV : V ≤ 30) (hns : ∀ n ∈ ns, 0 < n ∧ n ≤ V)
    (hsum : ns.sum ≤ data.length * V) :
    ∃ rs s', (make data).popMany ns = pure (rs, s') ∧
      shown ns rs = groups (data.flatMap fun v => bitsOf V v.toNat) ns ∧
      s'.rest = (data.flatMap fun v => bitsOf V v.toNat).drop ns.sum := by
  have key : ∀ (ns : List Nat) (s : BitStream V), s.Inv → (∀ n ∈ ns, 0 < n ∧ n ≤ V) → ns.sum ≤ s.rest.length →
      ∃ rs s', s.popMany ns = pure (rs, s') ∧ shown ns rs = groups s.rest ns ∧ s'.rest = s.rest.drop ns.sum := by
    intro ns
    induction ns with
    | nil => intro s _ _ _; exact ⟨[], s, rfl, rfl, rfl⟩
    | cons n ns ih =>
      intro s hi hns hsum
      rw [List.sum_cons] at hsum
      obtain ⟨r, s1, e, hi1, _, hc⟩ := (C36_pop_partial s n hi hV (hns n (by simp)).1 (hns n (by simp)).2).1 (by omega)
      have hdrop : s.rest.drop n = s1.rest := by
        rw [hc, List.drop_append_of_le_length (by simp), List.drop_of_length_le (by simp), List.nil_append]
      have htake : s.rest.take n = bitsOf n r.toNat := by
        rw [hc, List.take_append_of_le_length (by simp), List.take_of_length_le (by simp)]
      have hlen : s.rest.length = n + s1.rest.length := by rw [hc, List.length_append, length_bitsOf]
      obtain ⟨rs, s', e', hg, hr⟩ := ih s1 hi1 (fun m hm => hns m (by simp [hm])) (by omega)
      refine ⟨r :: rs, s', ?_, ?_, ?_⟩
      · rw [popMany, e, pure_bind]
        show (s1.popMany ns >>= _) = _
        rw [e']
        rfl
      · show _ :: shown ns rs = _ :: groups _ _
        rw [hg, hdrop, htake]
      · rw [hr, ← hdrop, List.drop_drop, List.sum_cons]
  have hrest : (make data).rest = data.flatMap fun v => bitsOf V v.toNat := rfl
  have hlen : (data.flatMap fun v => bitsOf V v.toNat).length = data.length * V := by
    induction data with
    | nil => simp
    | cons v vs ih =>
      rw [List.flatMap_cons, List.length_append, length_bitsOf, List.length_cons, Nat.add_mul, Nat.one_mul]
      have : (vs.flatMap fun v => bitsOf V v.toNat).length = vs.length * V := by
        simp [List.length_flatMap]
      omega
  obtain ⟨rs, s', e, h1, h2⟩ := key ns (make data) (inv_make _) hns (by rw [hrest, hlen]; exact hsum)
  exact ⟨rs, s', e, by rw [h1, hrest], by rw [h2, hrest]⟩

example := C36_groups_partial [0x12#8, 0x34#8] [3, 8, 4] (by decide) (by decide) (by decide)

/-- C36: no bits, and more bits than a value of the stream has, are refused by an exception, whatever the stream holds. -/
theorem C36_pop_refused (s : BitStream V) (n : Nat) (h : n = 0 ∨ V < n) : s.popBits n = thrown := by
  unfold popBits
  by_cases hv : V < n
  · rw [if_pos hv]
  · rw [if_neg hv, if_pos (by omega)]

example : (make [0x12#8, 0x34#8]).popBits 0 = thrown ∧ (make [0x12#8, 0x34#8]).popBits 9 = thrown :=
  ⟨C36_pop_refused _ 0 (by decide), C36_pop_refused _ 9 (by decide)⟩

example : ∃ s, (make [0b10110011#8, 0b01010101#8]).popMany [3, 7, 6] = pure ([0b101#8, 0b1001101#8, 0b010101#8], s) := ⟨_, rfl⟩

/-- C36 does not hold for values of 32 or 64 bits: whatever is asked for, reading a value shifts the whole word out, which
is undefined behaviour. -/
theorem C36_wide_violated (data : List (BitVec V)) (n : Nat) (hV : 32 ≤ V) (hn : 0 < n) (hnV : n ≤ V) (hd : data ≠ []) :
    (make data).popBits n = ub := by
  cases data with
  | nil => exact absurd rfl hd
  | cons v vs =>
    unfold popBits make
    have e : (BitQueue.empty V).size = 0 := rfl
    simp only [e]
    rw [if_neg (by omega), if_neg (by omega), if_pos hn]
    rw [if_pos trivial, BitQueue.C35_push_all_violated _ _ rfl hV, ub_bind]

/-! ### Longer values and skipping -/

theorem popValueLoop_correct (T : Nat) (hV : V ≤ 30) (hV0 : 0 < V) (fuel : Nat) (s : BitStream V) (result : BitVec T) (n k : Nat)
    (hi : s.Inv) (hf : n < fuel) (hk : result.toNat < 2 ^ k) (hT : k + n ≤ T) (hn : n ≤ s.rest.length) :
    ∃ r s', popValueLoop T fuel s result n = pure (r, s') ∧ s'.Inv ∧ r.toNat < 2 ^ (k + n) ∧
      bitsOf (k + n) r.toNat = bitsOf k result.toNat ++ s.rest.take n ∧ s'.rest = s.rest.drop n := by
  -- adding a group to the result
  have hjoin : ∀ (m : Nat) (result : BitVec T) (k : Nat) (r : BitVec V), result.toNat < 2 ^ k → k + m ≤ T → r.toNat < 2 ^ m →
      ((result <<< m) ||| r.setWidth T).toNat = result.toNat * 2 ^ m + r.toNat := by
    intro m result k r hk hT hr
    have h1 := BitQueue.mul_pow_lt hk hr
    have h2 : 2 ^ (k + m) ≤ 2 ^ T := Nat.pow_le_pow_right (by decide) hT
    rw [BitVec.toNat_or, BitVec.toNat_shiftLeft, BitVec.toNat_setWidth, Nat.shiftLeft_eq, Nat.mod_eq_of_lt (by omega),
      Nat.mod_eq_of_lt (by omega), Nat.mul_comm, Nat.two_pow_add_eq_or_of_lt hr]
  induction fuel generalizing s result n k with
  | zero => omega
  | succ fuel ih =>
    unfold popValueLoop
    by_cases hVn : V ≤ n
    · obtain ⟨r, s1, e, hi1, hr, hc⟩ := (C36_pop_partial s V hi hV hV0 (Nat.le_refl _)).1 (by omega)
      have hj := hjoin V result k r hk (by omega) hr
      have hlen : s.rest.length = V + s1.rest.length := by rw [hc, List.length_append, length_bitsOf]
      obtain ⟨r', s', e', hi', hr', hb, hd⟩ := ih s1 ((result <<< V) ||| r.setWidth T) (n - V) (k + V) hi1 (by omega)
        (by rw [hj]; exact BitQueue.mul_pow_lt hk hr) (by omega) (by omega)
      rw [show k + V + (n - V) = k + n by omega] at hr' hb
      refine ⟨r', s', ?_, hi', hr', ?_, ?_⟩
      · rw [if_pos hVn, if_neg (by unfold promoted; omega), e, pure_bind]
        exact e'
      · rw [hb, hj, bitsOf_mul_add _ _ _ _ hr, List.append_assoc]
        congr 1
        rw [hc, List.take_append, List.take_of_length_le (show (bitsOf V r.toNat).length ≤ n by simpa using hVn), length_bitsOf]
      · rw [hd, hc, List.drop_append, List.drop_of_length_le (show (bitsOf V r.toNat).length ≤ n by simpa using hVn), length_bitsOf,
          List.nil_append]
    · rw [if_neg hVn]
      by_cases h0 : 0 < n
      · obtain ⟨r, s1, e, hi1, hr, hc⟩ := (C36_pop_partial s n hi hV h0 (by omega)).1 hn
        have hj := hjoin n result k r hk hT hr
        refine ⟨(result <<< n) ||| r.setWidth T, s1, ?_, hi1, ?_, ?_, ?_⟩
        · rw [if_pos h0, e]; rfl
        · rw [hj]; exact BitQueue.mul_pow_lt hk hr
        · rw [hj, bitsOf_mul_add _ _ _ _ hr, hc, List.take_append_of_le_length (by simp), List.take_of_length_le (by simp)]
        · rw [hc, List.drop_append_of_le_length (by simp), List.drop_of_length_le (by simp), List.nil_append]
      · have : n = 0 := by omega
        subst this
        rw [if_neg h0]
        exact ⟨result, s, rfl, hi, hk, by simp, by simp⟩

/-- C36, `pop_value<T>`: a value of up to `T` bits is the number with the next bits of the stream, for streams of values of
up to 30 bits. -/
theorem C36_pop_value (T : Nat) (s : BitStream V) (n : Nat) (hi : s.Inv) (hV : V ≤ 30) (hV0 : 0 < V) (hT : n ≤ T)
    (hn : n ≤ s.rest.length) :
    ∃ r s', popValue T s n = pure (r, s') ∧ s'.Inv ∧ r.toNat < 2 ^ n ∧ bitsOf n r.toNat = s.rest.take n ∧
      s'.rest = s.rest.drop n := by
  obtain ⟨r, s', e, h1, h2, h3, h4⟩ := popValueLoop_correct T hV hV0 (n + 1) s 0 n 0 hi (by omega) (by simp) (by omega) hn
  rw [Nat.zero_add] at h2 h3
  exact ⟨r, s', by unfold popValue; rw [if_neg (by omega)]; exact e, h1, h2, h3, h4⟩

theorem popValueLoop_short (T : Nat) (hV : V ≤ 30) (hV0 : 0 < V) (fuel : Nat) (s : BitStream V) (result : BitVec T) (n : Nat)
    (hi : s.Inv) (hf : n < fuel) (hn : s.rest.length < n) : popValueLoop T fuel s result n = thrown := by
  induction fuel generalizing s result n with
  | zero => omega
  | succ fuel ih =>
    unfold popValueLoop
    by_cases hVn : V ≤ n
    · rw [if_pos hVn, if_neg (by unfold promoted; omega)]
      by_cases hs : s.rest.length < V
      · rw [(C36_pop_partial s V hi hV hV0 (Nat.le_refl _)).2 hs]
        rfl
      · obtain ⟨r, s1, e, hi1, hr, hc⟩ := (C36_pop_partial s V hi hV hV0 (Nat.le_refl _)).1 (by omega)
        have hlen : s.rest.length = V + s1.rest.length := by rw [hc, List.length_append, length_bitsOf]
        rw [e, pure_bind]
        exact ih s1 _ (n - V) hi1 (by omega) (by omega)
    · rw [if_neg hVn, if_pos (by omega), (C36_pop_partial s n hi hV (by omega) (by omega)).2 hn]
      rfl

/-- C36, `pop_value` refuses, by an exception, more bits than the type of the result has and more bits than are left. -/
theorem C36_pop_value_refused (T : Nat) (s : BitStream V) (n : Nat) (hi : s.Inv) (hV : V ≤ 30) (hV0 : 0 < V)
    (h : T < n ∨ s.rest.length < n) : popValue T s n = thrown := by
  unfold popValue
  by_cases hT : T < n
  · rw [if_pos hT]
  · rw [if_neg hT]
    exact popValueLoop_short T hV hV0 (n + 1) s 0 n hi (by omega) (by omega)

example : popValue 32 (make [0xAB#8, 0xCD#8]) 17 = thrown ∧ popValue 8 (make [0xAB#8, 0xCD#8]) 9 = thrown :=
  ⟨C36_pop_value_refused 32 _ 17 ⟨by decide, by decide⟩ (by decide) (by decide) (by decide),
    C36_pop_value_refused 8 _ 9 ⟨by decide, by decide⟩ (by decide) (by decide) (by decide)⟩

example : ∃ s, popValue 32 (make [0xAB#8, 0xCD#8]) 12 = pure (0xABC#32, s) := ⟨_, rfl⟩

/-- C36, `skip_bits`, as far as it holds: it skips the bits if their number is a multiple of the width of the values.
Missing: other numbers, where the remainder is not skipped, see `C36_skip_violated`. -/
theorem C36_skip_partial (s : BitStream V) (k : Nat) (hi : s.Inv) (hV : V ≤ 30) (hV0 : 0 < V) (hn : k * V ≤ s.rest.length) :
    ∃ s', skipBits (k * V + 1) s (k * V) = pure s' ∧ s'.Inv ∧ s'.rest = s.rest.drop (k * V) := by
  have key : ∀ (fuel k : Nat) (s : BitStream V), s.Inv → k * V ≤ s.rest.length → k < fuel →
      ∃ s', skipBits fuel s (k * V) = pure s' ∧ s'.Inv ∧ s'.rest = s.rest.drop (k * V) := by
    intro fuel
    induction fuel with
    | zero => intro k s _ _ h; omega
    | succ fuel ih =>
      intro k s hi hn hk
      unfold skipBits
      cases k with
      | zero =>
        rw [if_neg (by omega)]
        exact ⟨s, rfl, hi, by simp⟩
      | succ k =>
        rw [Nat.add_mul, Nat.one_mul] at hn ⊢
        obtain ⟨r, s1, e, hi1, hr, hc⟩ := (C36_pop_partial s V hi hV hV0 (Nat.le_refl _)).1 (by omega)
        have hlen : s.rest.length = V + s1.rest.length := by rw [hc, List.length_append, length_bitsOf]
        obtain ⟨s', e', hi', hd⟩ := ih k s1 hi1 (by omega) (by omega)
        refine ⟨s', ?_, hi', ?_⟩
        · rw [if_pos (by omega), e, pure_bind, show k * V + V - V = k * V by omega]
          exact e'
        · rw [hd, hc, List.drop_append, List.drop_of_length_le (show (bitsOf V r.toNat).length ≤ k * V + V by simp), length_bitsOf,
            List.nil_append,
            show k * V + V - V = k * V by omega]
  refine key (k * V + 1) k s hi hn ?_
  have : k * 1 ≤ k * V := Nat.mul_le_mul_left _ hV0
  omega

example := C36_skip_partial (V := 8) (make [0x12#8, 0x34#8]) 1 ⟨by decide, by decide⟩ (by decide) (by decide) (by decide)

/-- C36 does not hold for `skip_bits`: asked to skip three bits it skips none. -/
theorem C36_skip_violated (s : BitStream 8) : skipBits 4 s 3 = pure s := rfl

/-- C36, `skip_until`, on a fresh stream: it stops after the first value equal to `v`, or reports an error if there is none.
A value in the last place is found as well. -/
theorem C36_skip_until (data : List (BitVec V)) (v : BitVec V) (hV : V ≤ 30) (hV0 : 0 < V) :
    (∀ pre post, data = pre ++ v :: post → v ∉ pre →
      ∃ s', (make data).skipUntil v = pure s' ∧ s'.rest = post.flatMap fun v => bitsOf V v.toNat) ∧
    (v ∉ data → (make data).skipUntil v = thrown) := by
  -- reading a whole value from a stream without left overs
  have hpop : ∀ (x : BitVec V) (xs : List (BitVec V)) (q : BitQueue V), q.Inv → q.size = 0 →
      ∃ q', (⟨x :: xs, q⟩ : BitStream V).popBits V = pure (x, ⟨xs, q'⟩) ∧ q'.Inv ∧ q'.size = 0 := by
    intro x xs q hq hs
    have hpv : promoted V = 32 := by unfold promoted; omega
    obtain ⟨q1, e1, hi1, hs1, hc1⟩ := BitQueue.C35_push q x V hq (Nat.le_refl _) (by omega) (by omega) (by omega)
    have hs1' : q1.size = V := by omega
    obtain ⟨r, q2, e2, hi2, hs2, hr2, hc2⟩ := BitQueue.C35_pop_back_partial (V := V) q1 V hi1 (by omega)
      (by omega) (by omega) (by omega)
    have hc0 : q.contents = [] := List.eq_nil_of_length_eq_zero (by rw [length_contents, hs])
    have hc3 : q2.contents = [] := List.eq_nil_of_length_eq_zero (by rw [length_contents, hs2, hs1']; omega)
    rw [hc1, hc0, hc3, List.nil_append, List.append_nil] at hc2
    have hrx : r = x := BitVec.eq_of_toNat_eq (bitsOf_inj r.isLt x.isLt hc2.symm)
    refine ⟨q2, ?_, hi2, by omega⟩
    unfold popBits
    simp only [hs]
    rw [if_neg (by omega), if_neg (by omega), if_pos hV0, if_pos trivial, if_pos trivial, if_pos trivial, e1, pure_bind, e2, hrx]
    simp
  have hloop : ∀ (xs : List (BitVec V)) (fuel : Nat) (q : BitQueue V) (cur : BitVec V), q.Inv → q.size = 0 → xs.length < fuel →
      (cur = v → ∃ s', skipUntilLoop v fuel ⟨xs, q⟩ cur = pure s' ∧ s'.rest = xs.flatMap fun v => bitsOf V v.toNat) ∧
      (cur ≠ v → (∀ pre post, xs = pre ++ v :: post → v ∉ pre →
        ∃ s', skipUntilLoop v fuel ⟨xs, q⟩ cur = pure s' ∧ s'.rest = post.flatMap fun v => bitsOf V v.toNat) ∧
        (v ∉ xs → skipUntilLoop v fuel ⟨xs, q⟩ cur = thrown)) := by
    intro xs
    induction xs with
    | nil =>
      intro fuel q cur hq hs hf
      obtain ⟨fuel, rfl⟩ : ∃ m, fuel = m + 1 := ⟨fuel - 1, by simp at hf; omega⟩
      have hc0 : q.contents = [] := List.eq_nil_of_length_eq_zero (by rw [length_contents, hs])
      refine ⟨fun hc => ⟨⟨[], q⟩, ?_, ?_⟩, fun hc => ⟨fun pre post e => ?_, fun _ => ?_⟩⟩
      · subst hc
        simp [skipUntilLoop]
      · unfold rest; rw [hc0]; rfl
      · cases pre <;> cases e
      · unfold skipUntilLoop
        rw [if_neg (by simp [valid]), if_pos (by simpa using hc)]
    | cons x xs ih =>
      intro fuel q cur hq hs hf
      obtain ⟨fuel, rfl⟩ : ∃ m, fuel = m + 1 := ⟨fuel - 1, by simp at hf; omega⟩
      have hc0 : q.contents = [] := List.eq_nil_of_length_eq_zero (by rw [length_contents, hs])
      simp only [List.length_cons, Nat.add_lt_add_iff_right] at hf
      refine ⟨fun hc => ⟨⟨x :: xs, q⟩, ?_, ?_⟩, fun hc => ?_⟩
      · subst hc
        simp [skipUntilLoop]
      · unfold rest; rw [hc0]; rfl
      · obtain ⟨q', e, hq', hs'⟩ := hpop x xs q hq hs
        have estep : skipUntilLoop v (fuel + 1) ⟨x :: xs, q⟩ cur = skipUntilLoop v fuel ⟨xs, q'⟩ x := by
          rw [skipUntilLoop, if_pos (by simpa [valid] using hc), e, pure_bind]
        rw [estep]
        obtain ⟨i1, i2⟩ := ih fuel q' x hq' hs' hf
        constructor
        · intro pre post ep hp
          cases pre with
          | nil =>
            rw [List.nil_append] at ep
            injection ep with e1 e2
            subst e2
            exact i1 e1
          | cons p ps =>
            rw [List.cons_append] at ep
            injection ep with e1 e2
            simp only [List.mem_cons, not_or] at hp
            exact (i2 (by rw [e1]; exact fun h => hp.1 h.symm)).1 ps post e2 hp.2
        · intro hx
          simp only [List.mem_cons, not_or] at hx
          exact (i2 (fun h => hx.1 h.symm)).2 hx.2
  cases data with
  | nil =>
    refine ⟨fun pre post e => (by cases pre <;> cases e), fun _ => ?_⟩
    have := (C36_pop_partial (make ([] : List (BitVec V))) V (inv_make _) hV hV0 (Nat.le_refl _)).2
      (by simpa [rest, make, length_contents, BitQueue.empty] using hV0)
    unfold skipUntil
    rw [this]
    rfl
  | cons x xs =>
    obtain ⟨q', e, hq', hs'⟩ := hpop x xs (BitQueue.empty V) BitQueue.inv_empty rfl
    have estep : (make (x :: xs)).skipUntil v = skipUntilLoop v (xs.length + 1) ⟨xs, q'⟩ x := by
      unfold skipUntil make
      rw [e, pure_bind]
    rw [estep]
    obtain ⟨i1, i2⟩ := hloop xs (xs.length + 1) q' x hq' hs' (by omega)
    constructor
    · intro pre post ep hp
      cases pre with
      | nil =>
        rw [List.nil_append] at ep
        injection ep with e1 e2
        subst e2
        exact i1 e1
      | cons p ps =>
        rw [List.cons_append] at ep
        injection ep with e1 e2
        simp only [List.mem_cons, not_or] at hp
        exact (i2 (by rw [e1]; exact fun h => hp.1 h.symm)).1 ps post e2 hp.2
    · intro hx
      simp only [List.mem_cons, not_or] at hx
      exact (i2 (fun h => hx.1 h.symm)).2 hx.2

example : ∃ s, (make [1#8, 2#8, 3#8]).skipUntil 3#8 = pure s := ⟨_, rfl⟩

end BitStream
end Verif.Bits
