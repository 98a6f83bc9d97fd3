import Verif.StringView.History

/-
How a view keeps its size and the zero terminated flag in one 64 bit member, copying out of a view and writing a view to
a stream.
-/

namespace Verif.SV
open Cxx

variable {α : Type}

/-- The two members of `basic_string_view`, lines 652-653: `m_first` as an offset into the text, `none` for a null
pointer, and `m_last`. -/
structure Raw where
  first : Option Nat
  last : BitVec 64

namespace Raw

/-- `zt_offset`, lines 599-600. -/
def ztOffset : BitVec 64 := 0x8000000000000000#64

/-- `size( )`, lines 602-607. -/
def size (r : Raw) : BitVec 64 := r.last &&& (ztOffset - 1)

/-- `is_zero_terminated`, lines 609-615. -/
def isZeroTerminated (r : Raw) : Bool := if r.last < ztOffset then false else true

/-- `set_zero_terminated( f, l )`, lines 617-624, without the check of debug builds. -/
def setZeroTerminatedL (f : Option Nat) (l : BitVec 64) : BitVec 64 :=
  if f.isNone || decide (l ≥ ztOffset) then l else l + ztOffset

/-- `unset_zero_terminated( l )`, lines 626-630. -/
def unsetZeroTerminatedL (l : BitVec 64) : BitVec 64 := l &&& (ztOffset - 1)

/-- `dec_front`, lines 632-635. -/
def decFront (r : Raw) (n : BitVec 64) : Raw := ⟨r.first.map (· + n.toNat), r.last - n⟩

/-- `dec_back`, lines 637-640. -/
def decBack (r : Raw) (n : BitVec 64) : Raw := ⟨r.first, unsetZeroTerminatedL (r.last - n)⟩

/-- `inc_front`, lines 642-645. -/
def incFront (r : Raw) (n : BitVec 64) : Raw := ⟨r.first.map (· - n.toNat), r.last + n⟩

/-- `inc_back`, lines 647-650. -/
def incBack (r : Raw) (n : BitVec 64) : Raw := ⟨r.first, unsetZeroTerminatedL (r.last + n)⟩

/-- The constructor from pointer, count and `zero_terminated`, lines 696-702. -/
def makeZ (off : Nat) (count : BitVec 64) : Raw := ⟨some off, setZeroTerminatedL (some off) count⟩

/-- The constructor from pointer and count, lines 683-687. -/
def make (off : Nat) (count : BitVec 64) : Raw := ⟨some off, count⟩

/-- The member `set_zero_terminated( )`, lines 704-708. -/
def setZeroTerminated (r : Raw) : Raw :=
  if !r.isZeroTerminated then ⟨r.first, setZeroTerminatedL r.first r.last⟩ else r

/-- `clear`, lines 1042-1044. -/
def clear (r : Raw) : Raw := ⟨r.first, 0⟩

/-- `resize`, lines 1783-1789. -/
def resize (r : Raw) (n : BitVec 64) : Raw := if n ≠ r.size then ⟨r.first, n⟩ else r

/-- The view the members stand for: offset, number of characters, flag. (Specification, no line of the source.) -/
def view (r : Raw) : View := ⟨r.first.getD 0, r.last.toNat % 2 ^ 63, decide (2 ^ 63 ≤ r.last.toNat)⟩

theorem mask_toNat (x : BitVec 64) : (x &&& (ztOffset - 1)).toNat = x.toNat % 2 ^ 63 := by
  rw [BitVec.toNat_and, show (ztOffset - 1).toNat = 2 ^ 63 - 1 by decide, Nat.and_two_pow_sub_one_eq_mod]

theorem ztOffset_toNat : ztOffset.toNat = 2 ^ 63 := by decide

/-- **C84**: what the two accessors say is what the members stand for. -/
theorem C84_accessors (r : Raw) : r.size.toNat = r.view.len ∧ r.isZeroTerminated = r.view.zt := by
  refine ⟨?_, ?_⟩
  · unfold size view
    simp only []
    exact mask_toNat _
  unfold isZeroTerminated view
  simp only [BitVec.lt_def, ztOffset_toNat]
  split
  · symm; rw [decide_eq_false_iff_not]; omega
  · symm; rw [decide_eq_true_iff]; omega

theorem setZ_eq {off : Nat} {l : BitVec 64} (h : l.toNat < 2 ^ 63) :
    (setZeroTerminatedL (some off) l).toNat = l.toNat + 2 ^ 63 := by
  have hc : ¬ ztOffset ≤ l := by
    rw [BitVec.le_def, ztOffset_toNat]; omega
  unfold setZeroTerminatedL
  rw [if_neg (by simpa using hc), BitVec.toNat_add, ztOffset_toNat]
  omega

/-- **C84**: constructing. -/
theorem C84_make (off : Nat) (count : BitVec 64) (h : count.toNat < 2 ^ 63) :
    (make off count).view = ⟨off, count.toNat, false⟩ ∧ (makeZ off count).view = ⟨off, count.toNat, true⟩ := by
  constructor
  · unfold make view
    simp only [Option.getD_some, View.mk.injEq, true_and]
    exact ⟨by omega, by rw [decide_eq_false_iff_not]; omega⟩
  · unfold makeZ view
    simp only [Option.getD_some, View.mk.injEq, true_and, setZ_eq h]
    exact ⟨by omega, by rw [decide_eq_true_iff]; omega⟩

example := C84_make 3 9#64 (by decide)

/-- **C84**: removing characters at the front keeps the flag and takes them off the size. -/
theorem C84_dec_front (r : Raw) (off : Nat) (hf : r.first = some off) (n : BitVec 64) (h : n.toNat ≤ r.size.toNat) :
    (r.decFront n).view = r.view.removePrefix (some n.toNat) := by
  rw [show r.size.toNat = r.last.toNat % 2 ^ 63 from mask_toNat _] at h
  have hb := r.last.isLt
  have hs : (r.last - n).toNat = r.last.toNat - n.toNat := by rw [BitVec.toNat_sub]; omega
  unfold view View.removePrefix View.clip decFront
  simp only [hf, Option.map_some, Option.getD_some, hs, View.mk.injEq, Nat.min_eq_left h, true_and]
  refine ⟨by omega, ?_⟩
  rw [decide_eq_decide]; omega

example := C84_dec_front (make 3 9#64) 3 rfl 4#64 (by decide)

/-- **C84**: removing characters at the back drops the flag and takes them off the size. -/
theorem C84_dec_back (r : Raw) (n : BitVec 64) (h : n.toNat ≤ r.size.toNat) :
    (r.decBack n).view = r.view.removeSuffix (some n.toNat) := by
  rw [show r.size.toNat = r.last.toNat % 2 ^ 63 from mask_toNat _] at h
  have hb := r.last.isLt
  have hs : (r.last - n).toNat = r.last.toNat - n.toNat := by rw [BitVec.toNat_sub]; omega
  unfold view View.removeSuffix View.clip decBack unsetZeroTerminatedL
  simp only [mask_toNat, hs, View.mk.injEq, Nat.min_eq_left h, true_and]
  refine ⟨by omega, ?_⟩
  rw [decide_eq_false_iff_not]; omega

example := C84_dec_back (make 3 9#64) 4#64 (by decide)

/-- **C84**: adding characters at either end, as long as the size stays below 2^63. -/
theorem C84_expand (m : List α) (r : Raw) (off : Nat) (hf : r.first = some off) (n : BitVec 64)
    (h : r.size.toNat + n.toNat < 2 ^ 63) :
    (n.toNat ≤ off → r.view.expandPrefix n.toNat = pure (r.incFront n).view) ∧
    (off + r.size.toNat + n.toNat ≤ m.length → r.view.expandSuffix m n.toNat = pure (r.incBack n).view) := by
  rw [show r.size.toNat = r.last.toNat % 2 ^ 63 from mask_toNat _] at *
  have hb := r.last.isLt
  have hs : (r.last + n).toNat = r.last.toNat + n.toNat := by rw [BitVec.toNat_add]; omega
  constructor
  · intro hn
    unfold View.expandPrefix view incFront
    simp only [hf, Option.map_some, Option.getD_some, hs]
    rw [if_pos hn, pure_inj, View.mk.injEq]
    refine ⟨rfl, by omega, ?_⟩
    rw [decide_eq_decide]; omega
  · intro hn
    unfold View.expandSuffix view incBack unsetZeroTerminatedL
    simp only [hf, Option.getD_some, mask_toNat, hs]
    rw [if_pos hn, pure_inj, View.mk.injEq]
    refine ⟨rfl, by omega, ?_⟩
    symm; rw [decide_eq_false_iff_not]; omega

example := C84_expand (List.replicate 20 'a') (make 3 9#64) 3 rfl 2#64 (by decide)

/-- **C84**: emptying, shortening and marking. -/
theorem C84_others (r : Raw) (off : Nat) (hf : r.first = some off) (n : BitVec 64) :
    r.clear.view = r.view.clear ∧
    (n.toNat ≤ r.size.toNat → r.view.resize n.toNat = pure (r.resize n).view) ∧
    r.setZeroTerminated.view = { r.view with zt := true } := by
  have hsz : r.size.toNat = r.last.toNat % 2 ^ 63 := mask_toNat _
  refine ⟨?_, fun h => ?_, ?_⟩
  · simp [clear, view, View.clear]
  · unfold View.resize resize
    by_cases hn : n = r.size
    · subst hn
      rw [if_neg (by simp [view, hsz]), if_neg (by simp)]
    · have hne : n.toNat ≠ r.size.toNat := fun h => hn (BitVec.eq_of_toNat_eq h)
      rw [if_pos hn, if_pos (by simpa [view, ← hsz] using hne), if_pos (by simpa [view, ← hsz] using h)]
      unfold view
      rw [pure_inj, View.mk.injEq]
      refine ⟨rfl, by simp only []; omega, ?_⟩
      symm; rw [decide_eq_false_iff_not]; simp only []; omega
  · have hz := (C84_accessors r).2
    unfold setZeroTerminated
    by_cases h : r.view.zt = true
    · rw [hz, h]
      simp only [Bool.not_true, Bool.false_eq_true, if_false]
      rw [← h]
    · have hlt : r.last.toNat < 2 ^ 63 := by
        simp only [view, decide_eq_true_eq] at h; omega
      rw [hz]
      simp only [Bool.not_eq_true] at h
      rw [h]
      have he : (⟨r.first, setZeroTerminatedL r.first r.last⟩ : Raw).view =
          ⟨off, (r.last.toNat + 2 ^ 63) % 2 ^ 63, decide (2 ^ 63 ≤ r.last.toNat + 2 ^ 63)⟩ := by
        unfold view
        simp only [hf, Option.getD_some, setZ_eq hlt]
      rw [Bool.not_false, if_pos rfl, he]
      unfold view
      simp only [hf, Option.getD_some, View.mk.injEq, true_and]
      exact ⟨by omega, by rw [decide_eq_true_iff]; omega⟩

example : ((makeZ 0 5#64).decFront 2#64).view = ⟨2, 3, true⟩ ∧ ((makeZ 0 5#64).decBack 2#64).view = ⟨0, 3, false⟩ := by
  decide

end Raw

/-! ### Copying out -/

/-- The loop of `daw::algorithm::copy` from positions `f` to `l` of the text to positions `d` of the destination, as used
in `copy`, lines 1798-1811. -/
def copyLoop (xs : List α) : Nat → Nat → Nat → List α → Cxx (List α)
  | 0, _, _, dest => pure dest
  | n + 1, f, d, dest => do
    let c ← rd xs f
    let dest ← wr dest d c
    copyLoop xs n (f + 1) (d + 1) dest

/-- `copy( dest, count, pos )`, lines 1798-1811; `pos > size( )` violates its precondition. -/
def copyTo (xs dest : List α) (count pos : Nat) : Cxx (List α × Nat) :=
  if pos ≤ xs.length then do
    let rlen := min count (xs.length - pos)
    let dest ← (if rlen > 0 then copyLoop xs rlen pos 0 dest else pure dest : Cxx (List α))
    pure (dest, rlen)
  else ub

theorem copyLoop_eq (xs : List α) : ∀ n f d dest, f + n ≤ xs.length → d + n ≤ dest.length →
    copyLoop xs n f d dest = pure (dest.take d ++ (xs.drop f).take n ++ dest.drop (d + n)) := by
  intro n
  induction n with
  | zero => intro f d dest _ _; simp [copyLoop]
  | succ n ih =>
    intro f d dest h1 h2
    have hf : f < xs.length := by omega
    rw [copyLoop, rd_eq hf, pure_bind, wr_eq (by omega), pure_bind, ih _ _ _ (by omega) (by simp; omega)]
    congr 1
    rw [List.drop_eq_getElem_cons hf, List.take_succ_cons]
    rw [List.drop_set_of_lt (by omega), List.take_add_one, List.take_set_of_le (Nat.le_refl _),
      List.getElem?_set_self (by omega)]
    simp [Nat.add_assoc, Nat.add_comm 1 n]

/-- **C87**: `copy( dest, count, pos )` writes the at most `count` characters from `pos` on to the start of the
destination, leaves the rest of it alone and returns how many it wrote. -/
theorem C87_copy (xs dest : List α) (count pos : Nat) (hpos : pos ≤ xs.length)
    (hroom : min count (xs.length - pos) ≤ dest.length) :
    copyTo xs dest count pos =
      pure ((xs.drop pos).take count ++ dest.drop (min count (xs.length - pos)), min count (xs.length - pos)) := by
  unfold copyTo
  rw [if_pos hpos]
  have ht : (xs.drop pos).take (min count (xs.length - pos)) = (xs.drop pos).take count := by
    rw [← List.length_drop, ← List.take_eq_take_min]
  by_cases h : min count (xs.length - pos) > 0
  · simp only [if_pos h]
    rw [copyLoop_eq _ _ _ _ _ (by omega) (by omega), pure_bind]
    simp [ht]
  · simp only [if_neg h, pure_bind]
    rw [show min count (xs.length - pos) = 0 by omega] at ht ⊢
    rw [← ht]
    simp

example : copyTo [1, 2, 3, 4] [9, 9, 9] 2 1 = pure ([2, 3, 9], 2) := C87_copy [1, 2, 3, 4] [9, 9, 9] 2 1 (by decide) (by decide)

/-- C87: a destination with less room than that is written past its end. -/
theorem C87_copy_room (xs : List α) (hx : xs ≠ []) : copyTo xs [] xs.length 0 = ub := by
  obtain ⟨x, xs, rfl⟩ := List.exists_cons_of_ne_nil hx
  unfold copyTo
  rw [if_pos (Nat.zero_le _)]
  simp [copyLoop, rd, wr]
  rfl

example : copyTo [1, 2, 3, 4] [0, 0, 0, 0] 2 1 = pure ([2, 3, 0, 0], 2) := rfl

/-! ### Writing to a stream -/

/-- What `operator<<` uses of an output stream.  `fate` tells for the coming writes whether each fails; when it is used
up, writes succeed.  Simplification: a write appends all its characters or, if it fails, none.
(Used by `operator<<`, daw_string_view.h 2929-2942.) -/
structure OStream (α : Type) where
  good : Bool
  width : Nat
  fillChar : α
  left : Bool
  out : List α
  fate : List Bool

namespace OStream

/-- `write` of a stream; on a stream that is not good it does nothing. (Used by `operator<<`, daw_string_view.h 2929-2942.) -/
def write (os : OStream α) (cs : List α) : OStream α :=
  if os.good then
    match os.fate with
    | [] => { os with out := os.out ++ cs }
    | true :: fate => { os with good := false, fate := fate }
    | false :: fate => { os with out := os.out ++ cs, fate := fate }
  else os

/-- `sv_insert_fill_chars`, lines 2878-2898. -/
def insertFill (os : OStream α) (n : Nat) : OStream α :=
  if h : n ≥ 8 ∧ os.good then (os.write (List.replicate 8 os.fillChar)).insertFill (n - 8)
  else if n > 0 ∧ os.good then os.write ((List.replicate 8 os.fillChar).take n) else os
termination_by n

/-- `sv_insert_aligned`, lines 2903-2923. -/
def insertAligned (os : OStream α) (text : List α) : OStream α :=
  let n := os.width - text.length
  if !os.left then
    let os := os.insertFill n
    if os.good then os.write text else os
  else
    let os := os.write text
    if os.good then os.insertFill n else os

/-- `operator<<`, lines 2929-2942. -/
def insert (os : OStream α) (text : List α) : OStream α :=
  if os.good then
    let os := if os.width ≤ text.length then os.write text else os.insertAligned text
    { os with width := 0 }
  else os

/-- The stream `os'` is `os` after writing `cs`: all of it if it is still good, else a front part.
(Specification, no line of the source.) -/
def Wrote (os os' : OStream α) (cs : List α) : Prop :=
  os'.width = os.width ∧ os'.fillChar = os.fillChar ∧ os'.left = os.left ∧
  ∃ p, os'.out = os.out ++ p ∧ p <+: cs ∧ (os'.good = true → p = cs)

theorem wrote_refl (os : OStream α) : Wrote os os [] := ⟨rfl, rfl, rfl, [], by simp, List.prefix_rfl, fun _ => rfl⟩

theorem wrote_bad (os : OStream α) (cs : List α) (h : os.good = false) : Wrote os os cs :=
  ⟨rfl, rfl, rfl, [], by simp, List.nil_prefix, fun h' => by rw [h] at h'; cases h'⟩

theorem write_wrote (os : OStream α) (cs : List α) : Wrote os (os.write cs) cs := by
  unfold write
  split
  · split
    · exact ⟨rfl, rfl, rfl, cs, rfl, List.prefix_rfl, fun _ => rfl⟩
    · exact ⟨rfl, rfl, rfl, [], by simp, List.nil_prefix, fun h => by cases h⟩
    · exact ⟨rfl, rfl, rfl, cs, rfl, List.prefix_rfl, fun _ => rfl⟩
  · rename_i h
    exact wrote_bad os cs (by simpa using h)

theorem Wrote.trans {a b c : OStream α} {cs ds : List α} (h : Wrote a b cs) (hb : b.good = true) (h' : Wrote b c ds) :
    Wrote a c (cs ++ ds) := by
  obtain ⟨h1, h2, h3, p, h4, h5, h6⟩ := h
  obtain ⟨g1, g2, g3, q, g4, g5, g6⟩ := h'
  have := h6 hb
  subst this
  refine ⟨by rw [g1, h1], by rw [g2, h2], by rw [g3, h3], p ++ q, by rw [g4, h4, List.append_assoc], ?_,
    fun h => by rw [g6 h]⟩
  obtain ⟨t, rfl⟩ := g5
  exact ⟨t, by simp⟩

theorem Wrote.of_bad {a b : OStream α} {cs ds : List α} (h : Wrote a b cs) (hb : b.good = false) :
    Wrote a b (cs ++ ds) := by
  obtain ⟨h1, h2, h3, p, h4, h5, h6⟩ := h
  exact ⟨h1, h2, h3, p, h4, h5.trans (List.prefix_append _ _), fun h => by rw [hb] at h; cases h⟩

theorem insertFill_wrote (n : Nat) : ∀ os : OStream α, Wrote os (os.insertFill n) (List.replicate n os.fillChar) := by
  induction n using Nat.strongRecOn with
  | _ n ih =>
    intro os
    rw [insertFill]
    split
    · rename_i h
      have h1 := write_wrote os (List.replicate 8 os.fillChar)
      have h2 := ih (n - 8) (by omega) (os.write (List.replicate 8 os.fillChar))
      rw [h1.2.1] at h2
      have e : List.replicate n os.fillChar = List.replicate 8 os.fillChar ++ List.replicate (n - 8) os.fillChar := by
        rw [List.replicate_append_replicate]; congr 1; omega
      rw [e]
      cases hg : (os.write (List.replicate 8 os.fillChar)).good
      · have : (os.write (List.replicate 8 os.fillChar)).insertFill (n - 8) = os.write (List.replicate 8 os.fillChar) := by
          generalize os.write (List.replicate 8 os.fillChar) = os' at hg
          rw [insertFill]; simp [hg]
        rw [this]
        exact h1.of_bad hg
      · exact h1.trans hg h2
    · rename_i h
      split
      · rename_i h'
        have hn : n ≤ 8 := by
          by_cases h8 : n ≥ 8
          · exact absurd ⟨h8, h'.2⟩ h
          · omega
        have := write_wrote os ((List.replicate 8 os.fillChar).take n)
        rwa [List.take_replicate, Nat.min_eq_left hn] at this ⊢
      · rename_i h'
        by_cases hg : os.good = true
        · have : n = 0 := by
            rcases Nat.eq_zero_or_pos n with h0 | h0
            · exact h0
            · exact absurd ⟨h0, hg⟩ h'
          subst this
          exact wrote_refl os
        · exact wrote_bad os _ (by simpa using hg)

/-- **C88**: `operator<<` writes the text, filled up to the width on the side asked for, and resets the width; if the
stream fails on the way a front part of it has been written; a stream that is not good is left alone. -/
theorem C88_insert (os : OStream α) (text : List α) :
    (os.good = false → os.insert text = os) ∧
    (os.good = true → (os.insert text).width = 0 ∧ ∃ p, (os.insert text).out = os.out ++ p ∧
      p <+: (if os.left then text ++ List.replicate (os.width - text.length) os.fillChar
        else List.replicate (os.width - text.length) os.fillChar ++ text) ∧
      ((os.insert text).good = true → p = (if os.left then text ++ List.replicate (os.width - text.length) os.fillChar
        else List.replicate (os.width - text.length) os.fillChar ++ text))) := by
  constructor
  · intro h; unfold insert; simp [h]
  · intro hg
    have key : Wrote os (if os.width ≤ text.length then os.write text else os.insertAligned text)
        (if os.left then text ++ List.replicate (os.width - text.length) os.fillChar
          else List.replicate (os.width - text.length) os.fillChar ++ text) := by
      split
      · rename_i hw
        rw [show os.width - text.length = 0 by omega]
        have := write_wrote os text
        split <;> simpa using this
      · unfold insertAligned
        cases hl : os.left
        · simp only [Bool.not_false, if_true, Bool.false_eq_true, if_false]
          have h1 := insertFill_wrote (os.width - text.length) os
          cases hg' : (os.insertFill (os.width - text.length)).good
          · simp only [Bool.false_eq_true, if_false]
            exact h1.of_bad hg'
          · simp only [if_true]
            exact h1.trans hg' (write_wrote _ _)
        · simp only [Bool.not_true, Bool.false_eq_true, if_false, if_true]
          have h1 := write_wrote os text
          cases hg' : (os.write text).good
          · simp only [Bool.false_eq_true, if_false]
            exact h1.of_bad hg'
          · simp only [if_true]
            have h2 := insertFill_wrote (os.width - text.length) (os.write text)
            rw [h1.2.1] at h2
            exact h1.trans hg' h2
    obtain ⟨_, _, _, p, h1, h2, h3⟩ := key
    unfold insert
    rw [if_pos hg]
    exact ⟨rfl, p, h1, h2, h3⟩

example : (insert ⟨true, 12, 9, false, [], []⟩ [1, 2]).out = List.replicate 10 9 ++ [1, 2] := by
  have h := (C88_insert (⟨true, 12, 9, false, [], []⟩ : OStream Nat) [1, 2]).2 rfl
  obtain ⟨_, p, h1, _, h3⟩ := h
  have hg : (insert ⟨true, 12, 9, false, [], []⟩ [1, 2] : OStream Nat).good = true := by
    simp [insert, insertAligned, insertFill, write]
  rw [h1, h3 hg]
  rfl

end OStream

end Verif.SV
