import Verif.Bits.Fnv

/-
`daw::generic_hash`, include/daw/daw_generic_hash.h.  A value is an integer of `n` bytes, signed or not; `uintmax_t` has 64
bits.  The hash has 64 bits (`generic_hash_t<8>`) or 32 (`generic_hash_t<4>`), which have the same text but for the constants.
-/

namespace Verif.Bits.GenericHash
open Cxx

variable {w : Nat}

/-- `fnv1a_prime`, daw_generic_hash.h 99 and 146. -/
def prime (w : Nat) : BitVec w := if w = 64 then 1099511628211#w else 16777619#w

/-- `hash_init`, daw_generic_hash.h 93 and 140. -/
def hashInit (w : Nat) : BitVec w := if w = 64 then 14695981039346656037#w else 2166136261#w

/-- `static_cast<uintmax_t>( value )`, daw_generic_hash.h 102 and 149: the sign of a signed value is copied. -/
def toMax (signed : Bool) {n : Nat} (v : BitVec (8 * n)) : BitVec 64 := if signed then v.signExtend 64 else v.setWidth 64

/-- The byte of one round, daw_generic_hash.h 101-104 and 148-151. -/
def piece (x : BitVec 64) (k : Nat) : BitVec 64 := (x &&& (0xFF#64 <<< (k * 8))) >>> (k * 8)

/-- The loop of `append_hash`, daw_generic_hash.h 100-106 and 147-153, from round `k` with `m` rounds left. -/
def rounds (x : BitVec 64) (h : BitVec w) (k : Nat) : Nat → BitVec w
  | 0 => h
  | m + 1 => rounds x ((h ^^^ (piece x k).setWidth w) * prime w) (k + 1) m

/-- `append_hash`, daw_generic_hash.h 95-108 and 142-155; shifts by 64 and more, for values of more than 8 bytes, are
undefined. -/
def appendHash (signed : Bool) (n : Nat) (h : BitVec w) (v : BitVec (8 * n)) : Cxx (BitVec w) :=
  if n ≤ 8 then pure (rounds (toMax signed v) h 0 n) else ub

/-- `generic_hash( value )`, daw_generic_hash.h 129-134, 176-181 and 194-198. -/
def hashInt (w : Nat) (signed : Bool) (n : Nat) (v : BitVec (8 * n)) : Cxx (BitVec w) := appendHash signed n (hashInit w) v

/-- The loop over a range, daw_generic_hash.h 114-117, 161-164 and 205-208, from hash `h`. -/
def hashLoop (signed : Bool) (n : Nat) (h : BitVec w) : List (BitVec (8 * n)) → Cxx (BitVec w)
  | [] => pure h
  | v :: vs => do
    let h ← appendHash signed n h v
    hashLoop signed n h vs

/-- `generic_hash( first, last )`, daw_generic_hash.h 110-119, 157-166 and 200-210. -/
def hashRange (w : Nat) (signed : Bool) (n : Nat) (vs : List (BitVec (8 * n))) : Cxx (BitVec w) :=
  hashLoop signed n (hashInit w) vs

/-- The loop of `generic_hash( first, len )`, daw_generic_hash.h 217-220: `m` is the memory from `first` on. -/
def lenLoop (signed : Bool) (n : Nat) (m : List (BitVec (8 * n))) (h : BitVec w) (k : Nat) : Nat → Cxx (BitVec w)
  | 0 => pure h
  | len + 1 => do
    let v ← rd m k
    let h ← appendHash signed n h v
    lenLoop signed n m h (k + 1) len

/-- `generic_hash( first, len )`, daw_generic_hash.h 212-222; also that of views, 224-229. -/
def hashLen (w : Nat) (signed : Bool) (n : Nat) (m : List (BitVec (8 * n))) (len : Nat) : Cxx (BitVec w) :=
  lenLoop signed n m (hashInit w) 0 len

/-- `generic_hash( char const ( & )[N] )`, daw_generic_hash.h 231-234: all characters of the array. -/
def hashArray (w : Nat) (signed : Bool) (cs : List (BitVec 8)) : Cxx (BitVec w) := hashLen w signed 1 cs cs.length

/-- The loop of `operator( )( T const * )`, daw_generic_hash.h 187-189, over the bytes: the result of `append_hash` is not
stored. -/
def ptrLoop (h : BitVec 64) : List (BitVec 8) → Cxx (BitVec 64)
  | [] => pure h
  | c :: cs => do
    let _ ← appendHash false 1 h c
    ptrLoop h cs

/-- `operator( )( T const * )` of `generic_hash_t<8>`, daw_generic_hash.h 183-191, over the bytes of the value pointed to. -/
def hashPtr (bytes : List (BitVec 8)) : Cxx (BitVec 64) := ptrLoop (hashInit 64) bytes

/-- `append_hash` of `generic_hash_t<2>`, daw_generic_hash.h 78-86. -/
def appendHash2 (n : Nat) (h : BitVec 16) (_ : BitVec (8 * n)) : BitVec 16 := h

/-- `generic_hash<2>( first, last )`, daw_generic_hash.h 200-210, with `hash_init` of 37. -/
def hashRange2 (n : Nat) (vs : List (BitVec (8 * n))) : BitVec 16 := vs.foldl (appendHash2 n) 0

/-! ### The bytes -/

theorem toMax_getLsbD (signed : Bool) {n : Nat} (hn : n ≤ 8) (v : BitVec (8 * n)) {i : Nat} (hi : i < 8 * n) :
    (toMax signed v).getLsbD i = v.getLsbD i := by
  unfold toMax
  cases signed
  · simp [BitVec.getLsbD_setWidth]; omega
  · simp [BitVec.getLsbD_signExtend, hi]; omega

theorem piece_eq (signed : Bool) {n : Nat} (hn : n ≤ 8) (v : BitVec (8 * n)) {k : Nat} (hk : k < n) :
    (piece (toMax signed v) k).setWidth w = (v.extractLsb' (8 * k) 8).setWidth w := by
  apply BitVec.eq_of_getLsbD_eq
  intro i hi
  unfold piece
  simp only [BitVec.getLsbD_setWidth, BitVec.getLsbD_ushiftRight, BitVec.getLsbD_and, BitVec.getLsbD_shiftLeft,
    BitVec.getLsbD_extractLsb', hi, decide_true, Bool.true_and]
  by_cases h8 : i < 8
  · have h1 : (0xFF#64).getLsbD i = true := by
      have : ∀ j, j < 8 → (0xFF#64).getLsbD j = true := by decide
      exact this i h8
    rw [toMax_getLsbD signed hn v (by omega)]
    simp only [show k * 8 + i < 64 by omega, show ¬ k * 8 + i < k * 8 by omega, show k * 8 + i - k * 8 = i by omega, h1, h8,
      decide_true, decide_false, Bool.not_false, Bool.and_true, Bool.true_and, show 8 * k + i = k * 8 + i by omega]
  · have h1 : (0xFF#64).getLsbD i = false := by
      rw [show (0xFF#64) = BitVec.setWidth 64 (0xFF#8) by decide, BitVec.getLsbD_setWidth,
        BitVec.getLsbD_of_ge _ _ (by omega), Bool.and_false]
    simp only [show ¬ k * 8 + i < k * 8 by omega, show k * 8 + i - k * 8 = i by omega, h1, h8,
      decide_false, Bool.and_false, Bool.false_and]

theorem prime_eq : prime w = Fnv.prime w := rfl

theorem rounds_eq (signed : Bool) {n : Nat} (hn : n ≤ 8) (v : BitVec (8 * n)) (m : Nat) : ∀ (k : Nat)
    (h : BitVec w), k + m = n → rounds (toMax signed v) h k m =
      Fnv.appendBytes h ((List.range' k m).map fun j => v.extractLsb' (8 * j) 8) := by
  induction m with
  | zero => intro k h _; rfl
  | succ m ih =>
    intro k h he
    rw [rounds, ih (k + 1) _ (by omega), piece_eq signed hn v (by omega)]
    rfl

theorem appendHash_eq (signed : Bool) {n : Nat} (hn : n ≤ 8) (h : BitVec w) (v : BitVec (8 * n)) :
    appendHash signed n h v = pure (Fnv.appendHash false h n v) := by
  rw [appendHash, if_pos hn, rounds_eq signed hn v n 0 h (by omega), Fnv.appendHash, Fnv.objectBytes,
    List.range_eq_range']
  rfl

theorem hashLoop_eq (signed : Bool) {n : Nat} (hn : n ≤ 8) (vs : List (BitVec (8 * n))) :
    ∀ h : BitVec w, hashLoop signed n h vs = pure (Fnv.hashRange false n h vs) := by
  induction vs with
  | nil => intro h; rfl
  | cons v vs ih =>
    intro h
    rw [hashLoop, appendHash_eq signed hn h v, pure_bind, ih]
    rfl

theorem lenLoop_eq (signed : Bool) {n : Nat} (m : List (BitVec (8 * n))) (len : Nat) :
    ∀ (h : BitVec w) (k : Nat), k + len ≤ m.length →
      lenLoop signed n m h k len = hashLoop signed n h ((m.drop k).take len) := by
  induction len with
  | zero => intro h k _; simp [lenLoop, hashLoop]
  | succ len ih =>
    intro h k hk
    rw [lenLoop, rd_eq (by omega), pure_bind, List.drop_eq_getElem_cons (by omega), List.take_succ_cons, hashLoop]
    congr 1
    funext h'
    exact ih h' (k + 1) (by omega)

theorem lenLoop_ub (signed : Bool) {n : Nat} (hn : n ≤ 8) (m : List (BitVec (8 * n))) (len : Nat) :
    ∀ (h : BitVec w) (k : Nat), m.length < k + len → k ≤ m.length → lenLoop signed n m h k len = ub := by
  induction len with
  | zero => intro h k h1 h2; omega
  | succ len ih =>
    intro h k h1 h2
    rw [lenLoop]
    by_cases hk : k < m.length
    · rw [rd_eq hk, pure_bind, appendHash, if_pos hn, pure_bind]
      exact ih _ _ (by omega) (by omega)
    · rw [rd_oob (by omega), ub_bind]

/-- C279: `generic_hash<8>` of an integer is 64 bit FNV-1a of its bytes, lowest first, on every machine, for signed and
unsigned integers alike. -/
theorem C279_integer (signed : Bool) {n : Nat} (hn : n ≤ 8) (v : BitVec (8 * n)) :
    ∃ h, hashInt 64 signed n v = pure h ∧ h.toNat = Fnv.fnv64 ((List.range n).map fun k => v.toNat / 256 ^ k % 256) :=
  ⟨_, appendHash_eq signed hn _ v, Fnv.C21_integer n v⟩

example : ∃ h, hashInt 64 true 4 (BitVec.ofInt 32 (-2)) = pure h ∧ h.toNat = Fnv.fnv64 [254, 255, 255, 255] :=
  C279_integer true (by omega) _

/-- C279, 32 bits: the same with the 32 bit function. -/
theorem C279_integer_32 (signed : Bool) {n : Nat} (hn : n ≤ 8) (v : BitVec (8 * n)) :
    ∃ h, hashInt 32 signed n v = pure h ∧ h.toNat = Fnv.fnv32 ((List.range n).map fun k => v.toNat / 256 ^ k % 256) := by
  refine ⟨_, appendHash_eq signed hn _ v, ?_⟩
  unfold Fnv.appendHash Fnv.fnv32
  rw [Fnv.appendBytes_32 _ _ 2166136261 (by decide)]
  congr 1
  unfold Fnv.objectBytes
  rw [List.map_map]
  refine List.map_congr_left fun k _ => ?_
  simp [BitVec.extractLsb', Nat.shiftRight_eq_div_pow, Nat.pow_mul]

example := C279_integer_32 true (n := 4) (by decide) 0xDEADBEEF#32

theorem hashRange_bytes {n : Nat} (vs : List (BitVec (8 * n))) : ∀ h : BitVec w,
    Fnv.hashRange false n h vs = Fnv.appendBytes h (vs.flatMap (Fnv.objectBytes false n)) := by
  induction vs with
  | nil => intro h; rfl
  | cons v vs ih => intro h; rw [Fnv.hashRange, ih, List.flatMap_cons, Fnv.appendBytes_append, Fnv.appendHash]

/-- C279, ranges: the hash of a range is FNV-1a of the bytes of all its elements; with a length it is that of the elements
counted, and undefined if there are fewer.
Missing: what pointers point to, see `C279_pointer_violated`, and two bytes, see `C279_two_bytes_violated`. -/
theorem C279_range_partial (signed : Bool) {n : Nat} (hn : n ≤ 8) (m : List (BitVec (8 * n))) (len : Nat) :
    (len ≤ m.length → ∃ h, hashLen 64 signed n m len = pure h ∧ hashRange 64 signed n (m.take len) = pure h ∧
      h.toNat = Fnv.fnv64 ((m.take len).flatMap fun v => (List.range n).map fun k => v.toNat / 256 ^ k % 256)) ∧
    (m.length < len → hashLen 64 signed n m len = ub) := by
  constructor
  · intro hl
    refine ⟨Fnv.hashRange false n (hashInit 64) (m.take len), ?_, ?_, ?_⟩
    · rw [hashLen, lenLoop_eq signed m len _ 0 (by omega), List.drop_zero, hashLoop_eq signed hn]
    · rw [hashRange, hashLoop_eq signed hn]
    · rw [hashRange_bytes, Fnv.appendBytes_64 _ _ 14695981039346656037 (by decide), Fnv.fnv64]
      congr 1
      rw [List.map_flatMap]
      congr 1
      funext v
      unfold Fnv.objectBytes
      rw [List.map_map]
      refine List.map_congr_left fun k _ => ?_
      simp [BitVec.extractLsb', Nat.shiftRight_eq_div_pow, Nat.pow_mul]
  · intro hl
    exact lenLoop_ub signed hn m len _ 0 (by omega) (by omega)

example : ∃ h, hashLen 64 false 2 [0x0201#16, 0x0403#16, 5#16] 2 = pure h ∧ h.toNat = Fnv.fnv64 [1, 2, 3, 4] := by
  obtain ⟨h, e, _, e2⟩ := (C279_range_partial false (n := 2) (by omega) [0x0201#16, 0x0403#16, 5#16] 2).1 (by decide)
  exact ⟨h, e, e2⟩

/-- C279: two ranges of bytes that differ in one place have different hashes. -/
theorem C279_one_byte (signed : Bool) (pre post : List (BitVec 8)) (c d : BitVec 8) (hcd : c ≠ d) :
    hashRange 64 signed 1 (pre ++ c :: post) ≠ hashRange 64 signed 1 (pre ++ d :: post) := by
  rw [hashRange, hashRange, hashLoop_eq signed (by omega), hashLoop_eq signed (by omega)]
  intro h
  exact Fnv.C21_one_byte pre post c d hcd ((Cxx.pure_inj).1 h)

/-- C279: values of the same type have the same hash only if they are equal or differ in more than one byte: two values of
one byte never share a hash. -/
theorem C279_byte_inj (signed : Bool) {c d : BitVec 8} (h : hashInt 64 signed 1 c = hashInt 64 signed 1 d) : c = d := by
  by_cases hcd : c = d
  · exact hcd
  · exfalso
    apply C279_one_byte signed [] [] c d hcd
    rw [hashRange, hashRange, List.nil_append, List.nil_append, hashLoop, hashLoop]
    rw [hashInt, hashInt] at h
    rw [h]

example (d : BitVec 8) := C279_byte_inj true (c := 200#8) (d := d)

/-- C279 does not hold for pointers: every value pointed to has the same hash. -/
theorem C279_pointer_violated (bytes : List (BitVec 8)) : hashPtr bytes = pure 14695981039346656037#64 := by
  unfold hashPtr
  have : ∀ h, ptrLoop h bytes = pure h := by
    induction bytes with
    | nil => intro h; rfl
    | cons c cs ih => intro h; rw [ptrLoop, appendHash, if_pos (by omega), pure_bind]; exact ih h
  rw [this]
  rfl

/-- C279 does not hold for hashes of two bytes: every range has the hash zero. -/
theorem C279_two_bytes_violated (n : Nat) (vs : List (BitVec (8 * n))) : hashRange2 n vs = 0 := by
  unfold hashRange2
  induction vs with
  | nil => rfl
  | cons v vs ih => rw [List.foldl_cons]; exact ih

/-- C279, literals: the hash of a literal is that of its text and the terminating zero. -/
theorem C279_literal_finding (signed : Bool) (cs : List (BitVec 8)) :
    ∃ h, hashArray 64 signed (cs ++ [0]) = pure h ∧ h.toNat = Fnv.fnv64 (cs.map BitVec.toNat ++ [0]) := by
  obtain ⟨h, e, _, eh⟩ := (C279_range_partial signed (n := 1) (by omega) (cs ++ [0]) (cs ++ [0]).length).1 (Nat.le_refl _)
  refine ⟨h, e, ?_⟩
  rw [eh, List.take_length]
  congr 1
  have hb : ∀ c : BitVec 8, (List.range 1).map (fun k => c.toNat / 256 ^ k % 256) = [c.toNat] := by
    intro c
    have := c.isLt
    simp [List.range_succ]
    omega
  have hf : ∀ xs : List (BitVec 8),
      (xs.flatMap fun v => (List.range 1).map fun k => v.toNat / 256 ^ k % 256) = xs.map BitVec.toNat := by
    intro xs
    induction xs with
    | nil => rfl
    | cons x xs ih => rw [List.flatMap_cons, hb, ih]; rfl
  rw [show cs.map BitVec.toNat ++ [0] = (cs ++ [0#8]).map BitVec.toNat by simp]
  exact hf _

end Verif.Bits.GenericHash
