import Verif.Hash.Bytes
import Verif.Containers.Lists

/-
`daw::metro::hash64`, include/daw/daw_metro_hash.h.  `char` is taken to be signed.
-/

namespace Verif.Hash
open Cxx

/-! ### The published function -/

/-- The constants of MetroHash64. (Specification, no line of the source.) -/
def m0 : BitVec 64 := 0xd6d018f5
/-- The second constant. (Specification, no line of the source.) -/
def m1 : BitVec 64 := 0xa2aa033b
/-- The third constant. (Specification, no line of the source.) -/
def m2 : BitVec 64 := 0x62992fc1
/-- The fourth constant. (Specification, no line of the source.) -/
def m3 : BitVec 64 := 0x30bc5b29

/-- The four accumulators. (Specification, no line of the source.) -/
structure Quad where
  v0 : BitVec 64
  v1 : BitVec 64
  v2 : BitVec 64
  v3 : BitVec 64

/-- MetroHash64 of a block of 32 bytes. (Specification, no line of the source.) -/
def Quad.block (v : Quad) (m : List Byte) : Quad :=
  let v0 := (v.v0 + leWord (m.take 8) * m0).rotateRight 29 + v.v2
  let v1 := (v.v1 + leWord ((m.drop 8).take 8) * m1).rotateRight 29 + v.v3
  let v2 := (v.v2 + leWord ((m.drop 16).take 8) * m2).rotateRight 29 + v0
  let v3 := (v.v3 + leWord ((m.drop 24).take 8) * m3).rotateRight 29 + v1
  ⟨v0, v1, v2, v3⟩

/-- All blocks of 32 bytes. (Specification, no line of the source.) -/
def Quad.blocks (v : Quad) (m : List Byte) : Quad :=
  if m.length < 32 then v else (v.block m).blocks (m.drop 32)
termination_by m.length
decreasing_by simp; omega

/-- The accumulators joined. (Specification, no line of the source.) -/
def Quad.join (v : Quad) : BitVec 64 :=
  let v2 := v.v2 ^^^ (((v.v0 + v.v3) * m0) + v.v1).rotateRight 37 * m1
  let v3 := v.v3 ^^^ (((v.v1 + v2) * m1) + v.v0).rotateRight 37 * m0
  let v0 := v.v0 ^^^ (((v.v0 + v2) * m0) + v3).rotateRight 37 * m1
  let v1 := v.v1 ^^^ (((v.v1 + v3) * m1) + v2).rotateRight 37 * m0
  v0 ^^^ v1

/-- A block of 16 bytes. (Specification, no line of the source.) -/
def half (h : BitVec 64) (m : List Byte) : BitVec 64 :=
  let v0 := (h + leWord (m.take 8) * m2).rotateRight 29 * m3
  let v1 := (h + leWord ((m.drop 8).take 8) * m2).rotateRight 29 * m3
  let v0 := v0 ^^^ ((v0 * m0).rotateRight 21 + v1)
  let v1 := v1 ^^^ ((v1 * m3).rotateRight 21 + v0)
  h + v1

/-- A word `x` mixed into the hash. (Specification, no line of the source.) -/
def mix (h x : BitVec 64) (r : Nat) : BitVec 64 :=
  let h := h + x * m3
  h ^^^ h.rotateRight r * m1

/-- MetroHash64. (Specification, no line of the source.) -/
def metroSpec (m : List Byte) (seed : BitVec 64) : BitVec 64 :=
  let n := m.length
  let h := (seed + m2) * m0
  let h := if 32 ≤ n then h + (Quad.blocks ⟨h, h, h, h⟩ m).join else h
  let m := m.drop (n - n % 32)
  let h := if 16 ≤ n % 32 then half h m else h
  let m := m.drop (n % 32 - n % 16)
  let h := if 8 ≤ n % 16 then mix h (leWord (m.take 8)) 55 else h
  let m := m.drop (n % 16 - n % 8)
  let h := if 4 ≤ n % 8 then mix h (leWord (m.take 4)) 26 else h
  let m := m.drop (n % 8 - n % 4)
  let h := if 2 ≤ n % 4 then mix h (leWord (m.take 2)) 48 else h
  let m := m.drop (n % 4 - n % 2)
  let h := if n % 2 = 1 then mix h (leWord m) 37 else h
  let h := h ^^^ h.rotateRight 28
  let h := h * m0
  h ^^^ h.rotateRight 29

/-- The test string of the published implementation. (Specification, no line of the source.) -/
def metroTest : List Byte := (List.range 63).map (fun i => BitVec.ofNat 8 (48 + i % 10))

example : metroSpec metroTest 0 = 0xad4b7006ae3d756b ∧ metroSpec metroTest 1 = 0xdfb8b9f41c480d3b := by decide +kernel

/-! ### The code -/

/-- The loop of `as_le_uint`, daw_metro_hash.h 26-33; `w` is the number of bits of the type. -/
def leLoop (w : Nat) (p : List Byte) (i : Nat) : Nat → Nat → BitVec w → Cxx (BitVec w)
  | 0, _, result => pure result
  | k + 1, n, result => do
    let tmp ← rd p (i + n)
    leLoop w p i k (n + 1) (result ||| tmp.setWidth w <<< (n * 8))

/-- `as_le_uint`, daw_metro_hash.h 21-35. -/
def asLe (w : Nat) (p : List Byte) (i : Nat) : Cxx (BitVec w) := leLoop w p i (w / 8) 0 0

/-- `rotr`, daw_metro_hash.h 37-47. -/
def rotr (n : Nat) (value : BitVec 64) : BitVec 64 := value >>> n ||| value <<< (64 - n)

/-- The loop of `hash64`, daw_metro_hash.h 64-74; the view has 32 bytes at least. -/
def metroLoop (buff : List Byte) (v0 v1 v2 v3 : BitVec 64) : Cxx (List Byte × Quad) := do
  let v0 := v0 + (← asLe 64 buff 0) * m0
  let v0 := rotr 29 v0 + v2
  let v1 := v1 + (← asLe 64 buff 8) * m1
  let v1 := rotr 29 v1 + v3
  let v2 := v2 + (← asLe 64 buff 16) * m2
  let v2 := rotr 29 v2 + v0
  let v3 := v3 + (← asLe 64 buff 24) * m3
  let v3 := rotr 29 v3 + v1
  if 32 ≤ (buff.drop 32).length then metroLoop (buff.drop 32) v0 v1 v2 v3 else pure (buff.drop 32, ⟨v0, v1, v2, v3⟩)
termination_by buff.length
decreasing_by simp at *; omega

/-- The blocks of 32 bytes in `hash64`, daw_metro_hash.h 61-81. -/
def metro32 (buff : List Byte) (hash : BitVec 64) : Cxx (List Byte × BitVec 64) :=
  if 32 ≤ buff.length then do
    let (buff, v) ← metroLoop buff hash hash hash hash
    let v2 := v.v2 ^^^ rotr 37 (((v.v0 + v.v3) * m0) + v.v1) * m1
    let v3 := v.v3 ^^^ rotr 37 (((v.v1 + v2) * m1) + v.v0) * m0
    let v0 := v.v0 ^^^ rotr 37 (((v.v0 + v2) * m0) + v3) * m1
    let v1 := v.v1 ^^^ rotr 37 (((v.v1 + v3) * m1) + v2) * m0
    pure (buff, hash + (v0 ^^^ v1))
  else pure (buff, hash)

/-- A block of 16 bytes in `hash64`, daw_metro_hash.h 83-94. -/
def metro16 (buff : List Byte) (hash : BitVec 64) : Cxx (List Byte × BitVec 64) :=
  if 16 ≤ buff.length then do
    let v0 := hash + (← asLe 64 buff 0) * m2
    let v0 := rotr 29 v0 * m3
    let v1 := hash + (← asLe 64 buff 8) * m2
    let v1 := rotr 29 v1 * m3
    let v0 := v0 ^^^ (rotr 21 (v0 * m0) + v1)
    let v1 := v1 ^^^ (rotr 21 (v1 * m3) + v0)
    pure (buff.drop 16, hash + v1)
  else pure (buff, hash)

/-- A word in `hash64`, daw_metro_hash.h 96-116: `w` bits and a rotation by `r`. -/
def metroWord (w r : Nat) (buff : List Byte) (hash : BitVec 64) : Cxx (List Byte × BitVec 64) :=
  if w / 8 ≤ buff.length then do
    let hash := hash + (← asLe w buff 0).setWidth 64 * m3
    pure (buff.drop (w / 8), hash ^^^ rotr r hash * m1)
  else pure (buff, hash)

/-- The last byte in `hash64`, daw_metro_hash.h 118-122: `front( )` is a `char`. -/
def metroByte (buff : List Byte) (hash : BitVec 64) : Cxx (BitVec 64) :=
  if buff ≠ [] then do
    let hash := hash + (← rd buff 0).signExtend 64 * m3
    pure (hash ^^^ rotr 37 hash * m1)
  else pure hash

/-- `hash64`, daw_metro_hash.h 54-129. -/
def hash64 (buff : List Byte) (seed : BitVec 64) : Cxx (BitVec 64) := do
  let (buff, hash) ← metro32 buff ((seed + m2) * m0)
  let (buff, hash) ← metro16 buff hash
  let (buff, hash) ← metroWord 64 55 buff hash
  let (buff, hash) ← metroWord 32 26 buff hash
  let (buff, hash) ← metroWord 16 48 buff hash
  let hash ← metroByte buff hash
  let hash := hash ^^^ rotr 28 hash
  let hash := hash * m0
  pure (hash ^^^ rotr 29 hash)

/-! ### Proofs -/

theorem rotr_eq (x : BitVec 64) (n : Nat) (hn : n < 64) : rotr n x = x.rotateRight n := by
  rw [rotr, BitVec.rotateRight_eq_rotateRightAux_of_lt hn]
  rfl

theorem leLoop_eq (w : Nat) (p : List Byte) (i k : Nat) : ∀ n, 8 * (n + k) ≤ w → i + n + k ≤ p.length →
    leLoop w p i k n (BitVec.ofNat w (leNat ((p.drop i).take n))) = pure (BitVec.ofNat w (leNat ((p.drop i).take (n + k)))) := by
  induction k with
  | zero => intro n _ _; rfl
  | succ k ih =>
    intro n hw hl
    have hx : p[i + n]? = some p[i + n] := List.getElem?_eq_getElem (by omega)
    have hlen : ((p.drop i).take n).length = n := by simp; omega
    rw [leLoop, rd_some hx]
    simp only [pure_bind]
    have ht : (p.drop i).take n ++ [p[i + n]] = (p.drop i).take (n + 1) := by
      rw [List.take_add_one, List.getElem?_drop, hx]
      rfl
    have := or_byte w ((p.drop i).take n) p[i + n] (by omega)
    rw [hlen, ht, Nat.mul_comm 8 n] at this
    rw [this, ih (n + 1) (by omega) (by omega)]
    rw [show n + 1 + k = n + (k + 1) by omega]

theorem asLe_eq (w : Nat) (hw : w % 8 = 0) (p : List Byte) (i : Nat) (h : i + w / 8 ≤ p.length) :
    asLe w p i = pure (BitVec.ofNat w (leNat ((p.drop i).take (w / 8)))) := by
  have := leLoop_eq w p i (w / 8) 0 (by omega) (by omega)
  simpa [leNat, asLe] using this

theorem asLe64 (p : List Byte) (i : Nat) (h : i + 8 ≤ p.length) : asLe 64 p i = pure (leWord ((p.drop i).take 8)) := asLe_eq 64 rfl p i h

theorem widen (w : Nat) (bs : List Byte) (h : 8 * bs.length ≤ w) (hw : w ≤ 64) : (BitVec.ofNat w (leNat bs)).setWidth 64 = leWord bs := by
  apply BitVec.eq_of_toNat_eq
  have h1 := leNat_lt bs
  have h2 : (256 : Nat) ^ bs.length ≤ 2 ^ w := by
    rw [show (256 : Nat) = 2 ^ 8 from rfl, ← Nat.pow_mul]
    exact Nat.pow_le_pow_right (by omega) h
  have h3 : (2 : Nat) ^ w ≤ 2 ^ 64 := Nat.pow_le_pow_right (by omega) hw
  rw [leWord, BitVec.toNat_setWidth, BitVec.toNat_ofNat, BitVec.toNat_ofNat, Nat.mod_eq_of_lt (show leNat bs < 2 ^ w by omega)]

theorem asLe32 (p : List Byte) (h : 4 ≤ p.length) : asLe 32 p 0 = pure (BitVec.ofNat 32 (leNat (p.take 4))) := by
  simpa using asLe_eq 32 rfl p 0 (by simpa using h)

theorem asLe16 (p : List Byte) (h : 2 ≤ p.length) : asLe 16 p 0 = pure (BitVec.ofNat 16 (leNat (p.take 2))) := by
  simpa using asLe_eq 16 rfl p 0 (by simpa using h)

theorem metroLoop_eq (n : Nat) : ∀ (m : List Byte) (v : Quad), m.length = n → 32 ≤ n →
    metroLoop m v.v0 v.v1 v.v2 v.v3 = pure (m.drop (n - n % 32), v.blocks m) := by
  induction n using Nat.strongRecOn with
  | _ n ih =>
    intro m v hn h
    rw [metroLoop, asLe64 m 0 (by omega), asLe64 m 8 (by omega), asLe64 m 16 (by omega), asLe64 m 24 (by omega)]
    simp only [pure_bind, rotr_eq _ 29 (by omega), List.drop_zero]
    by_cases h2 : 32 ≤ (m.drop 32).length
    · rw [if_pos h2, Quad.blocks, if_neg (show ¬m.length < 32 by omega)]
      rw [List.length_drop] at h2
      refine Eq.trans (ih (n - 32) (by omega) (m.drop 32) (v.block m) (by simp; omega) (by omega)) ?_
      rw [List.drop_drop, show 32 + (n - 32 - (n - 32) % 32) = n - n % 32 by omega]
    · rw [if_neg h2, Quad.blocks, if_neg (show ¬m.length < 32 by omega)]
      rw [List.length_drop] at h2
      rw [Quad.blocks, if_pos (by simp; omega), show n - n % 32 = 32 by omega]
      rfl

theorem metro32_eq (m : List Byte) (h : BitVec 64) : metro32 m h =
    pure (m.drop (m.length - m.length % 32), if 32 ≤ m.length then h + (Quad.blocks ⟨h, h, h, h⟩ m).join else h) := by
  unfold metro32
  split
  · rename_i hl
    rw [metroLoop_eq _ m ⟨h, h, h, h⟩ rfl hl]
    simp only [pure_bind, rotr_eq _ 37 (by omega)]
    rfl
  · rw [show m.length - m.length % 32 = 0 by omega, List.drop_zero]

theorem metro16_eq (m : List Byte) (h : BitVec 64) (hm : m.length < 32) : metro16 m h =
    pure (m.drop (m.length - m.length % 16), if 16 ≤ m.length then half h m else h) := by
  unfold metro16
  split
  · rename_i hl
    rw [asLe64 m 0 (by omega), asLe64 m 8 (by omega)]
    simp only [pure_bind, rotr_eq _ 29 (by omega), rotr_eq _ 21 (by omega), List.drop_zero]
    rw [show m.length - m.length % 16 = 16 by omega]
    rfl
  · rw [show m.length - m.length % 16 = 0 by omega, List.drop_zero]

theorem metroWord_eq (w r : Nat) (m : List Byte) (h : BitVec 64) (hw : w % 8 = 0) (hw' : 0 < w) (hw2 : w ≤ 64) (hr : r < 64) (hm : m.length < 2 * (w / 8)) :
    metroWord w r m h = pure (m.drop (m.length - m.length % (w / 8)), if w / 8 ≤ m.length then mix h (leWord (m.take (w / 8))) r else h) := by
  unfold metroWord
  have hpos : 0 < w / 8 := by omega
  split
  · rename_i hl
    have : m.length % (w / 8) = m.length - w / 8 := by
      rw [Nat.mod_eq_sub_mod hl, Nat.mod_eq_of_lt (by omega)]
    rw [asLe_eq w hw m 0 (by omega)]
    simp only [pure_bind, rotr_eq _ r hr, List.drop_zero]
    rw [widen w _ (by simp only [List.length_take]; omega) hw2, this, show m.length - (m.length - w / 8) = w / 8 by omega]
    rfl
  · rw [Nat.mod_eq_of_lt (by omega), Nat.sub_self, List.drop_zero]

theorem metroByte_eq (m : List Byte) (h : BitVec 64) (hm : m.length < 2) (hs : ∀ b, m = [b] → b.toNat < 128) :
    metroByte m h = pure (if m.length = 1 then mix h (leWord m) 37 else h) := by
  unfold metroByte
  rcases m with _ | ⟨b, _ | ⟨c, t⟩⟩
  · rfl
  · simp only [rotr_eq _ 37 (by omega)]
    rw [if_pos (by simp), if_pos (show [b].length = 1 from rfl), show (rd [b] 0 : Cxx Byte) = pure b from rfl]
    simp only [pure_bind]
    rw [signExtend_small b (hs b rfl)]
    have : b.setWidth 64 = leWord [b] := by
      apply BitVec.eq_of_toNat_eq
      simp [leWord, leNat]
    rw [this]
    rfl
  · simp at hm
    omega

/-- If the length is even or the last byte below 128, the function is MetroHash64, for every byte string and seed.  Missing are odd
lengths with a larger last byte. -/
theorem C60_metro_partial (m : List Byte) (seed : BitVec 64) (hlast : m.length % 2 = 1 → ∀ b, m[m.length - 1]? = some b → b.toNat < 128) :
    hash64 m seed = pure (metroSpec m seed) := by
  unfold hash64 metroSpec
  obtain ⟨n, hn⟩ : ∃ n, m.length = n := ⟨_, rfl⟩
  have l1 : (m.drop (n - n % 32)).length = n % 32 := by simp; omega
  have l2 : ((m.drop (n - n % 32)).drop (n % 32 - n % 16)).length = n % 16 := by simp; omega
  have l3 : (((m.drop (n - n % 32)).drop (n % 32 - n % 16)).drop (n % 16 - n % 8)).length = n % 8 := by simp; omega
  have l4 : ((((m.drop (n - n % 32)).drop (n % 32 - n % 16)).drop (n % 16 - n % 8)).drop (n % 8 - n % 4)).length = n % 4 := by simp; omega
  have l5 : (((((m.drop (n - n % 32)).drop (n % 32 - n % 16)).drop (n % 16 - n % 8)).drop (n % 8 - n % 4)).drop (n % 4 - n % 2)).length = n % 2 := by
    simp; omega
  rw [metro32_eq]
  simp only [pure_bind]
  rw [hn, metro16_eq _ _ (by omega)]
  simp only [pure_bind]
  rw [l1, show n % 32 % 16 = n % 16 by omega, metroWord_eq 64 55 _ _ rfl (by omega) (by omega) (by omega) (by omega)]
  simp only [pure_bind, Nat.reduceDiv]
  rw [l2, show n % 16 % 8 = n % 8 by omega, metroWord_eq 32 26 _ _ rfl (by omega) (by omega) (by omega) (by omega)]
  simp only [pure_bind, Nat.reduceDiv]
  rw [l3, show n % 8 % 4 = n % 4 by omega, metroWord_eq 16 48 _ _ rfl (by omega) (by omega) (by omega) (by omega)]
  simp only [pure_bind, Nat.reduceDiv]
  rw [l4, show n % 4 % 2 = n % 2 by omega, metroByte_eq _ _ (by omega) ?_]
  · simp only [pure_bind, rotr_eq _ 28 (by omega), rotr_eq _ 29 (by omega)]
    rw [l5]
  · intro b hb
    have h1 : n % 2 = 1 := by rw [← l5, hb]; rfl
    refine hlast (by omega) b ?_
    have h2 := congrArg (fun l => l[0]?) hb
    simp only [List.getElem?_drop, List.getElem?_cons_zero] at h2
    rw [← h2, hn]
    congr 1
    omega

example : metroTest.length % 2 = 1 ∧ ∀ b, metroTest[metroTest.length - 1]? = some b → b.toNat < 128 := by
  refine ⟨by decide, fun b hb => ?_⟩
  have : b = 0x32 := by
    have h : metroTest[metroTest.length - 1]? = some 0x32 := by decide
    rw [h] at hb
    exact (Option.some.inj hb).symm
  subst this
  decide

/-- An odd byte from 128 gives another hash. -/
theorem C60_sign_violated : hash64 [0x80] 0 ≠ pure (metroSpec [0x80] 0) ∧ hash64 (metroTest.take 62 ++ [0xff]) 1 ≠ pure (metroSpec (metroTest.take 62 ++ [0xff]) 1) := by
  decide +kernel

end Verif.Hash
