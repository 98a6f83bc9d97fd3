import Verif.Hash.Bytes
import Verif.Containers.Lists

/-
`daw::siphash24`, include/daw/daw_sip_hash.h.  The only byte type it compiles with is `char`, as line 95 makes a span of `char` of the
pointer; `char` is taken to be signed.  `big` says that the machine is big endian.
-/

namespace Verif.Hash
open Cxx

/-! ### The published function -/

/-- The state of SipHash (Aumasson and Bernstein, section 2). (Specification, no line of the source.) -/
structure Sip where
  v0 : BitVec 64
  v1 : BitVec 64
  v2 : BitVec 64
  v3 : BitVec 64
deriving DecidableEq

/-- SipRound, the paper's figure 2.1. (Specification, no line of the source.) -/
def Sip.round (s : Sip) : Sip :=
  let v0 := s.v0 + s.v1
  let v2 := s.v2 + s.v3
  let v1 := s.v1.rotateLeft 13
  let v3 := s.v3.rotateLeft 16
  let v1 := v1 ^^^ v0
  let v3 := v3 ^^^ v2
  let v0 := v0.rotateLeft 32
  let v2 := v2 + v1
  let v0 := v0 + v3
  let v1 := v1.rotateLeft 17
  let v3 := v3.rotateLeft 21
  let v1 := v1 ^^^ v2
  let v3 := v3 ^^^ v0
  let v2 := v2.rotateLeft 32
  ⟨v0, v1, v2, v3⟩

/-- Compression of one word by two rounds. (Specification, no line of the source.) -/
def Sip.absorb (s : Sip) (m : BitVec 64) : Sip :=
  let s := ({ s with v3 := s.v3 ^^^ m } : Sip).round.round
  { s with v0 := s.v0 ^^^ m }

/-- The little endian words of a byte string whose length is a multiple of eight. (Specification, no line of the source.) -/
def wordsOf (bs : List Byte) : List (BitVec 64) :=
  if bs.length < 8 then [] else leWord (bs.take 8) :: wordsOf (bs.drop 8)
termination_by bs.length
decreasing_by simp; omega

/-- The message with zero bytes up to one byte before the next multiple of eight and its length modulo 256.
(Specification, no line of the source.) -/
def padded (m : List Byte) : List Byte := m ++ List.replicate (7 - m.length % 8) 0 ++ [BitVec.ofNat 8 m.length]

/-- SipHash-2-4. -/
def sipSpec (k0 k1 : BitVec 64) (m : List Byte) : BitVec 64 :=
  let s : Sip := ⟨k0 ^^^ 0x736f6d6570736575, k1 ^^^ 0x646f72616e646f6d, k0 ^^^ 0x6c7967656e657261, k1 ^^^ 0x7465646279746573⟩
  let s := (wordsOf (padded m)).foldl Sip.absorb s
  let s := ({ s with v2 := s.v2 ^^^ 0xff } : Sip).round.round.round.round
  s.v0 ^^^ s.v1 ^^^ s.v2 ^^^ s.v3

/-- The bytes `0, 1, …, n - 1`. (Specification, no line of the source.) -/
def upTo (n : Nat) : List Byte := (List.range n).map (BitVec.ofNat 8)

/-- The test vector of the paper's appendix A. -/
example : sipSpec (leWord (upTo 8)) (leWord ((upTo 16).drop 8)) (upTo 15) = 0xa129ca6149be45e5 := by decide +kernel

/-! ### The code -/

/-- `rotate`, daw_sip_hash.h 28-32. -/
def rotate (value : BitVec 64) (bits : Nat) : BitVec 64 := value <<< bits ||| value >>> (64 - bits)

/-- `half_round`, daw_sip_hash.h 34-42: `a`, `b`, `c`, `d` afterwards. -/
def halfRound (a b c d : BitVec 64) (s t : Nat) : BitVec 64 × BitVec 64 × BitVec 64 × BitVec 64 :=
  let a := a + b
  let c := c + d
  let b := rotate b s ^^^ a
  let d := rotate d t ^^^ c
  let a := rotate a 32
  (a, b, c, d)

/-- `double_round`, daw_sip_hash.h 44-50. -/
def doubleRound (s : Sip) : Sip :=
  let (v0, v1, v2, v3) := halfRound s.v0 s.v1 s.v2 s.v3 13 16
  let (v2, v1, v0, v3) := halfRound v2 v1 v0 v3 17 21
  let (v0, v1, v2, v3) := halfRound v0 v1 v2 v3 13 16
  let (v2, v1, v0, v3) := halfRound v2 v1 v0 v3 17 21
  ⟨v0, v1, v2, v3⟩

/-- `to_u64`, daw_sip_hash.h 52-63, at position `i` of an array; `ext` converts a byte to `uint64_t`: sign extension for `char`, zero
extension for `uint8_t`. -/
def toU64 (ext : Byte → BitVec 64) (p : List Byte) (i : Nat) : Cxx (BitVec 64) := do
  let p0 ← rd p i
  let p1 ← rd p (i + 1)
  let p2 ← rd p (i + 2)
  let p3 ← rd p (i + 3)
  let p4 ← rd p (i + 4)
  let p5 ← rd p (i + 5)
  let p6 ← rd p (i + 6)
  let p7 ← rd p (i + 7)
  pure (ext p0 ||| ext p1 <<< 8 ||| ext p2 <<< 16 ||| ext p3 <<< 24 ||| ext p4 <<< 32 ||| ext p5 <<< 40 ||| ext p6 <<< 48 ||| ext p7 <<< 56)

/-- `char` converted to `uint64_t`. (Rule of C++ or its library, no line of the source.) -/
def charExt (b : Byte) : BitVec 64 := b.signExtend 64

/-- `uint8_t` converted to `uint64_t`. (Rule of C++ or its library, no line of the source.) -/
def u8Ext (b : Byte) : BitVec 64 := b.setWidth 64

/-- The bytes of a word in reverse order. (Rule of C++ or its library, no line of the source.) -/
def bswap (x : BitVec 64) : BitVec 64 :=
  BitVec.ofNat 64 (leNat ((List.range 8).map (fun i => x.extractLsb' (56 - 8 * i) 8)))

/-- `to_little_endian` of `uint64_t`, daw_endian.h 112-120; `swap_bytes` reverses the bytes. -/
def toLittle (big : Bool) (x : BitVec 64) : BitVec 64 := if big then bswap x else x

/-- The loop of `siphash24`, daw_sip_hash.h 96-102: the rest of the data and the state. -/
def sipLoop (d : List Byte) (s : Sip) : Cxx (List Byte × Sip) :=
  if 8 ≤ d.length then do
    let mi ← toU64 charExt d 0
    let s := { s with v3 := s.v3 ^^^ mi }
    let s := doubleRound s
    sipLoop (d.drop 8) { s with v0 := s.v0 ^^^ mi }
  else pure (d, s)
termination_by d.length
decreasing_by simp; omega

/-- The switch of `siphash24`, daw_sip_hash.h 104-129, with `set_pt`, 72-81. -/
def sipTail (d : List Byte) : Cxx (List Byte) := do
  let pt : List Byte := List.replicate 8 0
  let n := d.length
  let pt ← (if n = 7 then do wr pt 6 (← rd d 6) else pure pt : Cxx _)
  let pt ← (if n = 7 ∨ n = 6 then do wr pt 5 (← rd d 5) else pure pt : Cxx _)
  let pt ← (if n = 7 ∨ n = 6 ∨ n = 5 then do wr pt 4 (← rd d 4) else pure pt : Cxx _)
  if n = 7 ∨ n = 6 ∨ n = 5 ∨ n = 4 then
    let pt ← wr pt 0 (← rd d 0)
    let pt ← wr pt 1 (← rd d 1)
    let pt ← wr pt 2 (← rd d 2)
    wr pt 3 (← rd d 3)
  else
    let pt ← (if n = 3 then do wr pt 2 (← rd d 2) else pure pt : Cxx _)
    let pt ← (if n = 3 ∨ n = 2 then do wr pt 1 (← rd d 1) else pure pt : Cxx _)
    (if n = 3 ∨ n = 2 ∨ n = 1 then do wr pt 0 (← rd d 0) else pure pt : Cxx _)

/-- `siphash24`, daw_sip_hash.h 84-140, with `key_to_u64`, 65-70. -/
def siphash24 (big : Bool) (data key : List Byte) : Cxx (BitVec 64) := do
  let k0 ← toU64 charExt key 0
  let k1 ← toU64 charExt key 8
  let k0 := toLittle big k0
  let k1 := toLittle big k1
  let s : Sip := ⟨k0 ^^^ 0x736f6d6570736575, k1 ^^^ 0x646f72616e646f6d, k0 ^^^ 0x6c7967656e657261, k1 ^^^ 0x7465646279746573⟩
  let (rest, s) ← sipLoop data s
  let pt ← sipTail rest
  let b := BitVec.ofNat 64 data.length <<< 56
  let t ← toU64 u8Ext pt 0
  let b := b ||| toLittle big t
  let s := doubleRound { s with v3 := s.v3 ^^^ b }
  let s := { s with v0 := s.v0 ^^^ b, v2 := s.v2 ^^^ 0xff }
  let s := doubleRound (doubleRound s)
  pure ((s.v0 ^^^ s.v1) ^^^ (s.v2 ^^^ s.v3))

/-! ### Proofs -/

theorem rotate_eq (x : BitVec 64) (n : Nat) (hn : n < 64) : rotate x n = x.rotateLeft n := by
  rw [rotate, BitVec.rotateLeft_eq_rotateLeftAux_of_lt hn]
  rfl

theorem doubleRound_eq (s : Sip) : doubleRound s = s.round.round := by
  simp only [doubleRound, halfRound, Sip.round, rotate_eq _ 13 (by omega), rotate_eq _ 16 (by omega), rotate_eq _ 17 (by omega),
    rotate_eq _ 21 (by omega), rotate_eq _ 32 (by omega)]

/-- Eight bytes read by zero extension. -/
theorem join8 (a b c d e f g h : Byte) :
    u8Ext a ||| u8Ext b <<< 8 ||| u8Ext c <<< 16 ||| u8Ext d <<< 24 ||| u8Ext e <<< 32 ||| u8Ext f <<< 40 ||| u8Ext g <<< 48 ||| u8Ext h <<< 56 =
      leWord [a, b, c, d, e, f, g, h] := by
  have h0 : u8Ext a = BitVec.ofNat 64 (leNat [a]) := by
    apply BitVec.eq_of_toNat_eq
    simp [u8Ext, leNat]
  have h1 := or_byte 64 [a] b (by simp)
  have h2 := or_byte 64 [a, b] c (by simp)
  have h3 := or_byte 64 [a, b, c] d (by simp)
  have h4 := or_byte 64 [a, b, c, d] e (by simp)
  have h5 := or_byte 64 [a, b, c, d, e] f (by simp)
  have h6 := or_byte 64 [a, b, c, d, e, f] g (by simp)
  have h7 := or_byte 64 [a, b, c, d, e, f, g] h (by simp)
  simp only [List.length_cons, List.length_nil, List.cons_append, List.nil_append, Nat.zero_add, Nat.reduceAdd, Nat.reduceMul] at h1 h2 h3 h4 h5 h6 h7
  rw [h0]
  simp only [u8Ext]
  rw [h1, h2, h3, h4, h5, h6, h7]
  rfl

theorem eight (l : List Byte) (h : 8 ≤ l.length) : ∃ a b c d e f g i t, l = a :: b :: c :: d :: e :: f :: g :: i :: t := by
  rcases l with _ | ⟨a, _ | ⟨b, _ | ⟨c, _ | ⟨d, _ | ⟨e, _ | ⟨f, _ | ⟨g, _ | ⟨i, t⟩⟩⟩⟩⟩⟩⟩⟩ <;> simp at h
  exact ⟨a, b, c, d, e, f, g, i, t, rfl⟩

theorem toU64_u8 (l : List Byte) (h : 8 ≤ l.length) : toU64 u8Ext l 0 = pure (leWord (l.take 8)) := by
  obtain ⟨a, b, c, d, e, f, g, i, t, rfl⟩ := eight l h
  show (pure _ : Cxx _) = _
  congr 1
  exact join8 a b c d e f g i

theorem toU64_char (l : List Byte) (i : Nat) (h : i + 8 ≤ l.length) (hs : ∀ k b, i ≤ k → k < i + 8 → l[k]? = some b → b.toNat < 128) :
    toU64 charExt l i = pure (leWord ((l.drop i).take 8)) := by
  obtain ⟨a, b, c, d, e, f, g, j, t, ht⟩ := eight (l.drop i) (by simp; omega)
  have hk : ∀ k, l[i + k]? = (a :: b :: c :: d :: e :: f :: g :: j :: t)[k]? := fun k => by rw [← ht, List.getElem?_drop]
  have ex : ∀ k b, k < 8 → l[i + k]? = some b → charExt b = u8Ext b := fun k b hk' hb =>
    signExtend_small b (hs (i + k) b (by omega) (by omega) hb)
  have g0 := hk 0
  have g1 := hk 1
  have g2 := hk 2
  have g3 := hk 3
  have g4 := hk 4
  have g5 := hk 5
  have g6 := hk 6
  have g7 := hk 7
  simp only [Nat.add_zero, List.getElem?_cons_zero, List.getElem?_cons_succ] at g0 g1 g2 g3 g4 g5 g6 g7
  unfold toU64
  rw [rd_some g0, rd_some g1, rd_some g2, rd_some g3, rd_some g4, rd_some g5, rd_some g6, rd_some g7]
  simp only [pure_bind]
  rw [ex 0 a (by omega) g0, ex 1 b (by omega) g1, ex 2 c (by omega) g2, ex 3 d (by omega) g3, ex 4 e (by omega) g4, ex 5 f (by omega) g5,
    ex 6 g (by omega) g6, ex 7 j (by omega) g7, join8, ht]
  rfl

theorem sipTail_eq (d : List Byte) (h : d.length < 8) : sipTail d = pure (d ++ List.replicate (8 - d.length) 0) := by
  rcases d with _ | ⟨a, _ | ⟨b, _ | ⟨c, _ | ⟨d, _ | ⟨e, _ | ⟨f, _ | ⟨g, _ | ⟨i, t⟩⟩⟩⟩⟩⟩⟩⟩
  case cons.cons.cons.cons.cons.cons.cons.cons => simp at h; omega
  all_goals rfl

/-- The last word. -/
theorem last_word (p : List Byte) (n : Nat) (hp : p.length = 7) :
    BitVec.ofNat 64 n <<< 56 ||| leWord (p ++ [0]) = leWord (p ++ [BitVec.ofNat 8 n]) := by
  have h1 := or_byte 64 p (BitVec.ofNat 8 n) (by omega)
  rw [hp] at h1
  have h0 : leWord (p ++ [0]) = leWord p := by simp [leWord, leNat_append, leNat]
  rw [h0]
  show _ = BitVec.ofNat 64 _
  rw [← h1, BitVec.or_comm]
  have hx : BitVec.ofNat 64 n <<< 56 = (BitVec.ofNat 8 n).setWidth 64 <<< (8 * 7) := ?_
  · rw [hx]
    rfl
  apply BitVec.eq_of_toNat_eq
  simp only [BitVec.toNat_shiftLeft, BitVec.toNat_ofNat, BitVec.toNat_setWidth, Nat.shiftLeft_eq]
  omega

theorem wordsOf_step (l : List Byte) (h : 8 ≤ l.length) : wordsOf l = leWord (l.take 8) :: wordsOf (l.drop 8) := by
  rw [wordsOf, if_neg (by omega)]

theorem sipLoop_ok (n : Nat) : ∀ (d : List Byte) (s : Sip), d.length = n → (∀ k b, k < d.length / 8 * 8 → d[k]? = some b → b.toNat < 128) →
    ∃ r s', sipLoop d s = pure (r, s') ∧ r.length < 8 ∧ r.length % 8 = d.length % 8 ∧
      ∀ tail, (wordsOf (d ++ tail)).foldl Sip.absorb s = (wordsOf (r ++ tail)).foldl Sip.absorb s' := by
  induction n using Nat.strongRecOn with
  | _ n ih =>
    intro d s hn hs
    rw [sipLoop]
    by_cases h : 8 ≤ d.length
    · rw [if_pos h, toU64_char d 0 (by omega) (fun k b _ hk hb => hs k b (by omega) hb)]
      simp only [pure_bind, List.drop_zero]
      obtain ⟨r, s', e, h1, h2, h3⟩ := ih (d.length - 8) (by omega) (d.drop 8)
        { doubleRound { s with v3 := s.v3 ^^^ leWord (d.take 8) } with
          v0 := (doubleRound { s with v3 := s.v3 ^^^ leWord (d.take 8) }).v0 ^^^ leWord (d.take 8) } (by simp)
        (fun k b hk hb => by
          rw [List.getElem?_drop] at hb
          refine hs (8 + k) b ?_ hb
          simp only [List.length_drop] at hk
          omega)
      refine ⟨r, s', e, h1, ?_, fun tail => ?_⟩
      · simp only [List.length_drop] at h2
        omega
      · rw [wordsOf_step (d ++ tail) (by simp; omega), List.foldl_cons, ← h3 tail, List.take_append_of_le_length h, List.drop_append_of_le_length h]
        rw [doubleRound_eq]
        rfl
    · rw [if_neg h]
      exact ⟨d, s, rfl, by omega, rfl, fun tail => rfl⟩

/-- On a little endian machine, with a key and full blocks of bytes below 128, the function is SipHash-2-4.  The bytes after the last full
block are arbitrary.  Missing are larger bytes and big endian machines. -/
theorem C59_siphash_partial (data key : List Byte) (hkey : key.length = 16) (hk : ∀ b ∈ key, b.toNat < 128)
    (hd : ∀ b ∈ data.take (data.length / 8 * 8), b.toNat < 128) :
    siphash24 false data key = pure (sipSpec (leWord (key.take 8)) (leWord (key.drop 8)) data) := by
  have key1 := toU64_char key 0 (by omega) (fun k b _ _ hb => hk b (List.mem_of_getElem? hb))
  have key2 := toU64_char key 8 (by omega) (fun k b _ _ hb => hk b (List.mem_of_getElem? hb))
  rw [List.drop_zero] at key1
  rw [List.take_of_length_le (by simp; omega)] at key2
  unfold siphash24
  rw [key1, key2]
  simp only [pure_bind, toLittle, Bool.false_eq_true, if_false]
  obtain ⟨r, s, e, h1, h2, h3⟩ := sipLoop_ok _ data
    ⟨leWord (key.take 8) ^^^ 0x736f6d6570736575, leWord (key.drop 8) ^^^ 0x646f72616e646f6d, leWord (key.take 8) ^^^ 0x6c7967656e657261,
      leWord (key.drop 8) ^^^ 0x7465646279746573⟩ rfl (fun k b hk' hb => by
      refine hd b (List.mem_of_getElem? (i := k) ?_)
      rw [List.getElem?_take, if_pos hk', hb])
  rw [e]
  simp only [pure_bind]
  rw [sipTail_eq r h1]
  simp only [pure_bind]
  rw [toU64_u8 _ (by simp; omega)]
  simp only [pure_bind]
  congr 1
  have hp : padded data = data ++ (List.replicate (7 - r.length) 0 ++ [BitVec.ofNat 8 data.length]) := by
    rw [padded, List.append_assoc, ← h2, Nat.mod_eq_of_lt h1]
  have hl : (r ++ (List.replicate (7 - r.length) 0 ++ [BitVec.ofNat 8 data.length])).length = 8 := by simp; omega
  have hw : wordsOf (r ++ (List.replicate (7 - r.length) 0 ++ [BitVec.ofNat 8 data.length])) =
      [leWord (r ++ List.replicate (7 - r.length) 0 ++ [BitVec.ofNat 8 data.length])] := by
    rw [wordsOf_step _ (by omega), List.take_of_length_le (by omega), wordsOf, if_pos (by rw [List.length_drop, hl]; omega), List.append_assoc]
  have ht : (r ++ List.replicate (8 - r.length) 0).take 8 = r ++ List.replicate (7 - r.length) 0 ++ [0] := by
    rw [List.take_of_length_le (by simp; omega), show 8 - r.length = (7 - r.length) + 1 by omega, List.replicate_succ', List.append_assoc]
  rw [ht, last_word _ _ (by simp; omega)]
  simp only [sipSpec]
  rw [hp, h3, hw]
  simp only [List.foldl_cons, List.foldl_nil, doubleRound_eq, Sip.absorb]
  rw [BitVec.xor_assoc, BitVec.xor_assoc, BitVec.xor_assoc]

example : (∀ b ∈ upTo 16, b.toNat < 128) ∧ ∀ b ∈ (upTo 10 ++ [0xff]).take ((upTo 10 ++ [0xff]).length / 8 * 8), b.toNat < 128 := by decide +kernel

/-- A key or a full block with a byte from 128 gives another hash, and so does a big endian machine. -/
theorem C59_sign_violated :
    siphash24 false [] (0x80 :: List.replicate 15 0) ≠ pure (sipSpec (leWord (0x80 :: List.replicate 7 0)) (leWord (List.replicate 8 0)) []) ∧
      siphash24 false (0x80 :: List.replicate 7 0) (upTo 16) ≠
        pure (sipSpec (leWord (upTo 8)) (leWord ((upTo 16).drop 8)) (0x80 :: List.replicate 7 0)) ∧
      siphash24 true [] (upTo 16) ≠ pure (sipSpec (leWord (upTo 8)) (leWord ((upTo 16).drop 8)) []) := by
  decide +kernel

theorem charExt_or (a : Byte) (ha : 128 ≤ a.toNat) (y : BitVec 64) (n : Nat) (hn : 8 ≤ n) : charExt a ||| y <<< n = charExt a := by
  have hm : a.msb = true := by
    rw [BitVec.msb_eq_decide]
    simpa using ha
  apply BitVec.eq_of_getLsbD_eq
  intro i hi
  rw [BitVec.getLsbD_or, BitVec.getLsbD_shiftLeft, charExt, BitVec.getLsbD_signExtend]
  by_cases h8 : i < 8
  · simp [h8, show i < n by omega]
  · simp [h8, hm, hi]

/-- Different keys, same hashes: a byte from 128 at the start of a half of the key hides the seven bytes after it. -/
theorem C59_keys_collide_violated (a : Byte) (ha : 128 ≤ a.toNat) (h k : List Byte) (hh : h.length = 7) (big : Bool) (data : List Byte) :
    siphash24 big data (a :: h ++ k) = siphash24 big data (a :: List.replicate 7 0 ++ k) := by
  rcases h with _ | ⟨b, _ | ⟨c, _ | ⟨d, _ | ⟨e, _ | ⟨f, _ | ⟨g, _ | ⟨i, _ | ⟨j, t⟩⟩⟩⟩⟩⟩⟩⟩ <;> simp at hh
  have h1 : toU64 charExt (a :: [b, c, d, e, f, g, i] ++ k) 0 = toU64 charExt (a :: List.replicate 7 0 ++ k) 0 := by
    show (pure _ : Cxx _) = pure _
    simp only [charExt_or a ha _ _ (Nat.le_refl 8), charExt_or a ha _ _ (show 8 ≤ 16 by omega), charExt_or a ha _ _ (show 8 ≤ 24 by omega),
      charExt_or a ha _ _ (show 8 ≤ 32 by omega), charExt_or a ha _ _ (show 8 ≤ 40 by omega), charExt_or a ha _ _ (show 8 ≤ 48 by omega),
      charExt_or a ha _ _ (show 8 ≤ 56 by omega)]
  have h2 : toU64 charExt (a :: [b, c, d, e, f, g, i] ++ k) 8 = toU64 charExt (a :: List.replicate 7 0 ++ k) 8 := rfl
  unfold siphash24
  rw [h1, h2]

example := C59_keys_collide_violated 200#8 (by decide) [1#8, 2#8, 3#8, 4#8, 5#8, 6#8, 7#8] [9#8] rfl false [65#8]

end Verif.Hash
