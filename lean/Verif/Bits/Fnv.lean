import Verif.Base

/-
The FNV-1a hash, include/daw/daw_fnv1a_hash.h.

The hash type has `w` bits: 64 where `size_t` has 64 bits, otherwise 32 (daw_fnv1a_hash.h 28-38).
-/

namespace Verif.Bits.Fnv
open Cxx

variable {w : Nat}

/-- `fnv_prime`, daw_fnv1a_hash.h 42-44. -/
def prime (w : Nat) : BitVec w := if w = 64 then 1099511628211#w else 16777619#w

/-- `fnv_offset`, daw_fnv1a_hash.h 46-49. -/
def offset (w : Nat) : BitVec w := if w = 64 then 14695981039346656037#w else 2166136261#w

/-- The loop of `append_hash`, daw_fnv1a_hash.h 75-78, over the bytes of the object representation. -/
def appendBytes (h : BitVec w) : List (BitVec 8) → BitVec w
  | [] => h
  | c :: cs => appendBytes ((h ^^^ c.setWidth w) * prime w) cs

/-- The object representation of an integer of `n` bytes, `DAW_BIT_CAST( array_t, value )` in daw_fnv1a_hash.h 71-74, on a
little endian (`big = false`) or big endian machine. -/
def objectBytes (big : Bool) (n : Nat) (v : BitVec (8 * n)) : List (BitVec 8) :=
  (List.range n).map fun k => v.extractLsb' (8 * (if big then n - 1 - k else k)) 8

/-- `append_hash`, daw_fnv1a_hash.h 67-80. -/
def appendHash (big : Bool) (h : BitVec w) (n : Nat) (v : BitVec (8 * n)) : BitVec w := appendBytes h (objectBytes big n v)

/-- `operator( )( first, last )`, `operator( )( StringViewLike )` and `fnv1a_hash( ptr, len )`, daw_fnv1a_hash.h 82-107 and
170-182, for elements of `n` bytes, started from hash `h`. -/
def hashRange (big : Bool) (n : Nat) (h : BitVec w) : List (BitVec (8 * n)) → BitVec w
  | [] => h
  | v :: vs => hashRange big n (appendHash big h n v) vs

/-- `fnv1a_hash( value )` and `operator( )( value )`, daw_fnv1a_hash.h 119-124 and 153-157. -/
def hashInt (w : Nat) (big : Bool) (n : Nat) (v : BitVec (8 * n)) : BitVec w := appendHash big (offset w) n v

/-- `fnv1a_hash( char const * )`, daw_fnv1a_hash.h 159-168: `m` is the memory from `ptr` on. -/
def hashCStr (h : BitVec w) : List (BitVec 8) → Cxx (BitVec w)
  | [] => ub
  | c :: cs => if c != 0 then hashCStr (appendBytes h [c]) cs else pure h

/-- `fnv1a_hash_t::operator( )( char const * )`, daw_fnv1a_hash.h 126-137: here the character, which is signed on the usual
targets, is converted to the hash type, which copies its sign bit. -/
def opCStr (h : BitVec w) : List (BitVec 8) → Cxx (BitVec w)
  | [] => ub
  | c :: cs => if c != 0 then opCStr ((h ^^^ c.signExtend w) * prime w) cs else pure h

/-- `fnv1a_hash( char const ( &ptr )[N] )`, daw_fnv1a_hash.h 192-196, over all `N` characters of the array. -/
def hashArray (w : Nat) (cs : List (BitVec 8)) : BitVec w := hashRange false 1 (offset w) cs

/-- `std::hash` of a view, daw_string_view.h 2948-2953. -/
def hashView (w : Nat) (cs : List (BitVec 8)) : BitVec w := hashRange false 1 (offset w) cs

/-! ### The published function -/

/-- The 64 bit FNV-1a function as published: natural numbers, modulo 2^64. (Specification, no line of the source.) -/
def fnv64 (bytes : List Nat) : Nat :=
  bytes.foldl (fun h b => ((h ^^^ b) * 1099511628211) % 2 ^ 64) 14695981039346656037

/-- The 32 bit FNV-1a function as published. (Specification, no line of the source.) -/
def fnv32 (bytes : List Nat) : Nat :=
  bytes.foldl (fun h b => ((h ^^^ b) * 16777619) % 2 ^ 32) 2166136261

theorem appendBytes_append (h : BitVec w) (a b : List (BitVec 8)) :
    appendBytes h (a ++ b) = appendBytes (appendBytes h a) b := by
  induction a generalizing h with
  | nil => rfl
  | cons c cs ih => exact ih _

theorem appendBytes_64 (cs : List (BitVec 8)) (h : BitVec 64) (k : Nat) (hk : h.toNat = k) :
    (appendBytes h cs).toNat =
      (cs.map BitVec.toNat).foldl (fun h b => ((h ^^^ b) * 1099511628211) % 2 ^ 64) k := by
  induction cs generalizing h k with
  | nil => exact hk
  | cons c cs ih =>
    rw [appendBytes, List.map_cons, List.foldl_cons]
    apply ih
    rw [BitVec.toNat_mul, BitVec.toNat_xor, hk, BitVec.toNat_setWidth, Nat.mod_eq_of_lt (show c.toNat < 2 ^ 64 by omega),
      show (prime 64).toNat = 1099511628211 by decide]

theorem appendBytes_32 (cs : List (BitVec 8)) (h : BitVec 32) (k : Nat) (hk : h.toNat = k) :
    (appendBytes h cs).toNat =
      (cs.map BitVec.toNat).foldl (fun h b => ((h ^^^ b) * 16777619) % 2 ^ 32) k := by
  induction cs generalizing h k with
  | nil => exact hk
  | cons c cs ih =>
    rw [appendBytes, List.map_cons, List.foldl_cons]
    apply ih
    rw [BitVec.toNat_mul, BitVec.toNat_xor, hk, BitVec.toNat_setWidth, Nat.mod_eq_of_lt (show c.toNat < 2 ^ 32 by omega),
      show (prime 32).toNat = 16777619 by decide]

theorem objectBytes_one (big : Bool) (c : BitVec 8) : objectBytes big 1 c = [c] := by
  cases big <;> simp [objectBytes, List.range_succ]

theorem hashRange_one (big : Bool) (h : BitVec w) (cs : List (BitVec 8)) :
    hashRange big 1 h cs = appendBytes h cs := by
  induction cs generalizing h with
  | nil => rfl
  | cons c cs ih =>
    rw [hashRange]
    refine (ih _).trans ?_
    rw [appendHash, objectBytes_one]
    rfl

/-- C21: the hash of a view of bytes, in 64 and in 32 bits, is the published FNV-1a function of its bytes. -/
theorem C21_view (cs : List (BitVec 8)) :
    (hashView 64 cs).toNat = fnv64 (cs.map BitVec.toNat) ∧
    (hashView 32 cs).toNat = fnv32 (cs.map BitVec.toNat) := by
  unfold hashView fnv64 fnv32
  rw [hashRange_one, hashRange_one]
  exact ⟨appendBytes_64 _ _ _ (by decide), appendBytes_32 _ _ _ (by decide)⟩

/-- The published test vector for "foobar". -/
example : fnv64 [102, 111, 111, 98, 97, 114] = 0x85944171f73967e8 ∧ fnv32 [102, 111, 111, 98, 97, 114] = 0xbf9cf968 := by
  decide

/-- C21, `fnv1a_hash( char const * )`: the hash of the bytes before the terminating zero; nothing beyond it is read. -/
theorem C21_cstr (cs rest : List (BitVec 8)) (h0 : ∀ c ∈ cs, c ≠ 0) :
    ∃ r, hashCStr (offset 64) (cs ++ 0 :: rest) = pure r ∧ r.toNat = fnv64 (cs.map BitVec.toNat) := by
  have key : ∀ (cs : List (BitVec 8)) (h : BitVec 64), (∀ c ∈ cs, c ≠ 0) →
      hashCStr h (cs ++ 0 :: rest) = pure (appendBytes h cs) := by
    intro cs
    induction cs with
    | nil => intro h _; rfl
    | cons c cs ih =>
      intro h hc
      rw [List.cons_append, hashCStr, if_pos (by simpa using hc c (by simp)), ih _ (fun d hd => hc d (by simp [hd]))]
      rfl
  exact ⟨_, key cs _ h0, appendBytes_64 _ _ _ (by decide)⟩

example : ∃ r, hashCStr (offset 64) ([97, 200] ++ 0 :: [1]) = pure r ∧ r.toNat = fnv64 [97, 200] :=
  C21_cstr [97, 200] [1] (by decide)

/-- C21, hashing in pieces: appending a second text to the hash of the first gives the hash of both. -/
theorem C21_pieces (big : Bool) (n : Nat) (a b : List (BitVec (8 * n))) :
    hashRange big n (hashRange big n (offset w) a) b = hashRange big n (offset w) (a ++ b) := by
  have : ∀ h : BitVec w, hashRange big n (hashRange big n h a) b = hashRange big n h (a ++ b) := by
    induction a with
    | nil => intro h; rfl
    | cons v vs ih => intro h; exact ih _
  exact this _

example := C21_pieces (w := 64) false 2 [0x1234#16] [0x5678#16, 0x9abc#16]

/-- C21, integers: on a little endian machine `fnv1a_hash` of an integer is FNV-1a of its bytes, lowest first, given by
division. -/
theorem C21_integer (n : Nat) (v : BitVec (8 * n)) :
    (hashInt 64 false n v).toNat = fnv64 ((List.range n).map fun k => v.toNat / 256 ^ k % 256) := by
  unfold hashInt appendHash fnv64
  rw [appendBytes_64 _ _ 14695981039346656037 (by decide)]
  congr 1
  unfold objectBytes
  rw [List.map_map]
  refine List.map_congr_left fun k _ => ?_
  simp [BitVec.extractLsb', Nat.shiftRight_eq_div_pow, Nat.pow_mul]

example : (hashInt 64 false 4 0x04030201#32).toNat = fnv64 [1, 2, 3, 4] := C21_integer 4 0x04030201#32

/-- C21, integers on a big endian machine: highest byte first. -/
theorem C21_integer_big (n : Nat) (v : BitVec (8 * n)) :
    (hashInt 64 true n v).toNat = fnv64 ((List.range n).map fun k => v.toNat / 256 ^ (n - 1 - k) % 256) := by
  unfold hashInt appendHash fnv64
  rw [appendBytes_64 _ _ 14695981039346656037 (by decide)]
  congr 1
  unfold objectBytes
  rw [List.map_map]
  refine List.map_congr_left fun k _ => ?_
  simp [BitVec.extractLsb', Nat.shiftRight_eq_div_pow, Nat.pow_mul]

example := C21_integer_big 2 0x1234#16

/-! ### Texts that differ in one byte -/

theorem mul_prime_inj {a b : BitVec 64} (h : a * prime 64 = b * prime 64) : a = b := by
  have e : prime 64 * 0xce965057aff6957b#64 = 1#64 := by decide
  have := congrArg (· * 0xce965057aff6957b#64) h
  simpa only [BitVec.mul_assoc, e, BitVec.mul_one] using this

theorem xor_right_inj {a b c : BitVec w} (h : a ^^^ c = b ^^^ c) : a = b := by
  have := congrArg (· ^^^ c) h
  simpa only [BitVec.xor_assoc, BitVec.xor_self, BitVec.xor_zero] using this

theorem appendBytes_inj (cs : List (BitVec 8)) {a b : BitVec 64} (h : appendBytes a cs = appendBytes b cs) : a = b := by
  induction cs generalizing a b with
  | nil => exact h
  | cons c cs ih => exact xor_right_inj (mul_prime_inj (ih h))

/-- C21: two texts that differ in exactly one byte never have the same hash. -/
theorem C21_one_byte (pre post : List (BitVec 8)) (c d : BitVec 8) (hcd : c ≠ d) :
    hashView 64 (pre ++ c :: post) ≠ hashView 64 (pre ++ d :: post) := by
  unfold hashView
  rw [hashRange_one, hashRange_one, appendBytes_append, appendBytes_append]
  intro h
  have h1 := mul_prime_inj (appendBytes_inj post h)
  rw [BitVec.xor_comm, BitVec.xor_comm _ (d.setWidth 64)] at h1
  have h2 := congrArg BitVec.toNat (xor_right_inj h1)
  rw [BitVec.toNat_setWidth, BitVec.toNat_setWidth, Nat.mod_eq_of_lt (by omega), Nat.mod_eq_of_lt (by omega)] at h2
  exact hcd (BitVec.eq_of_toNat_eq h2)

example : hashView 64 ([1, 2] ++ 3 :: [4]) ≠ hashView 64 ([1, 2] ++ 131 :: [4]) := C21_one_byte _ _ _ _ (by decide)

/-! ### Where the entry points disagree -/

/-- C21 does not hold for the function object called with a `char const *`: a character from 128 on is sign extended. -/
theorem C21_op_cstr_violated : opCStr (offset 64) [0x80, 0] ≠ pure (hashView 64 [0x80]) := by
  intro h
  have : opCStr (offset 64) [0x80, 0] = pure ((offset 64 ^^^ (0x80#8).signExtend 64) * prime 64) := rfl
  rw [this] at h
  exact absurd (pure_inj.1 h) (by decide)

/-- C21, the function object called with a `char const *`, as far as it holds: characters below 128.  Missing: all others,
see `C21_op_cstr_violated`. -/
theorem C21_op_cstr_partial (cs rest : List (BitVec 8)) (h0 : ∀ c ∈ cs, c ≠ 0 ∧ c.toNat < 128) :
    ∃ r, opCStr (offset 64) (cs ++ 0 :: rest) = pure r ∧ r.toNat = fnv64 (cs.map BitVec.toNat) := by
  have key : ∀ (cs : List (BitVec 8)) (h : BitVec 64), (∀ c ∈ cs, c ≠ 0 ∧ c.toNat < 128) →
      opCStr h (cs ++ 0 :: rest) = pure (appendBytes h cs) := by
    intro cs
    induction cs with
    | nil => intro h _; rfl
    | cons c cs ih =>
      intro h hc
      have hc1 := hc c (by simp)
      rw [List.cons_append, opCStr, if_pos (by simpa using hc1.1), ih _ (fun d hd => hc d (by simp [hd])), appendBytes,
        BitVec.signExtend_eq_setWidth_of_msb_false]
      rw [BitVec.msb_eq_decide]
      simp
      omega
  exact ⟨_, key cs _ h0, appendBytes_64 _ _ _ (by decide)⟩

example : ∃ r, opCStr (offset 64) ([97, 98] ++ 0 :: []) = pure r ∧ r.toNat = fnv64 [97, 98] :=
  C21_op_cstr_partial [97, 98] [] (by decide)

/-- C21 does not hold for character arrays: the hash covers the terminating zero, so that it differs from the hash of the
same text as a view. -/
theorem C21_array_violated (cs : List (BitVec 8)) : (hashArray 64 (cs ++ [0])).toNat = fnv64 (cs.map BitVec.toNat ++ [0]) ∧
    hashArray 64 ([97] ++ [0]) ≠ hashView 64 [97] := by
  refine ⟨?_, by decide⟩
  have := (C21_view (cs ++ [0])).1
  simpa [hashArray, hashView] using this

example := C21_array_violated [97, 98]

end Verif.Bits.Fnv
