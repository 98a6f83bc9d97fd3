import Verif.StringView.Packed

/-
Writing to a stream whose width is negative: `operator<<` of the views, include/daw/daw_string_view.h 2929-2942 and
deprecated/daw_string_view1.h 1647-1662, and of bounded strings, deprecated/daw_bounded_string.h 1352-1368.
-/

namespace Verif.SV.SignedWidth
open Verif Verif.SV

/-- `operator<<` of a view, daw_string_view.h 2929-2942 and deprecated/daw_string_view1.h 1647-1662, on a stream with the width `w`, a
`streamsize`: it is converted to `size_t` in line 2932, and again in line 2907. -/
def insertView (os : OStream α) (w : Int) (text : List α) : OStream α := { os with width := (w % 2 ^ 64).toNat }.insert text

/-- `operator<<` of a bounded string, deprecated/daw_bounded_string.h 1352-1368: the width is compared as a `ptrdiff_t`, and converted to
`size_t` in impl/daw_string_impl.h 253-254 only. -/
def insertBounded (os : OStream α) (w : Int) (text : List α) : OStream α :=
  if os.good then
    let os := { os with width := (w % 2 ^ 64).toNat }
    let os := if w ≤ text.length then os.write text else os.insertAligned text
    { os with width := 0 }
  else os

/-- The text filled up to a width, on the side asked for; a negative width fills nothing. (Specification, no line of the source.) -/
def filled (left : Bool) (fill : α) (w : Int) (text : List α) : List α :=
  let pad := List.replicate (w.toNat - text.length) fill
  if left then text ++ pad else pad ++ text

/-- No write fails. (Specification, no line of the source.) -/
def Healthy (os : OStream α) : Prop := os.good = true ∧ os.fate = []

theorem write_healthy (os : OStream α) (cs : List α) (h : Healthy os) : Healthy (os.write cs) := by
  unfold OStream.write
  simp [h.1, h.2, Healthy]

theorem fill_healthy (n : Nat) : ∀ os : OStream α, Healthy os → Healthy (os.insertFill n) := by
  induction n using Nat.strongRecOn with
  | _ n ih =>
    intro os h
    rw [OStream.insertFill]
    split
    · rename_i hn
      exact ih (n - 8) (by omega) _ (write_healthy _ _ h)
    · split
      · exact write_healthy _ _ h
      · exact h

theorem aligned_healthy (os : OStream α) (text : List α) (h : Healthy os) : Healthy (os.insertAligned text) := by
  unfold OStream.insertAligned
  cases os.left
  · simp only [Bool.not_false, if_true]
    have h1 := fill_healthy (os.width - text.length) os h
    rw [if_pos h1.1]
    exact write_healthy _ _ h1
  · simp only [Bool.not_true, Bool.false_eq_true, if_false]
    have h1 := write_healthy os text h
    rw [if_pos h1.1]
    exact fill_healthy _ _ h1

theorem insert_healthy (os : OStream α) (text : List α) (h : Healthy os) : Healthy (os.insert text) := by
  unfold OStream.insert
  rw [if_pos h.1]
  split
  · exact ⟨(write_healthy os text h).1, (write_healthy os text h).2⟩
  · exact ⟨(aligned_healthy os text h).1, (aligned_healthy os text h).2⟩

/-- What a healthy stream has got after `operator<<` with a width that is not negative. -/
theorem insert_out (os : OStream α) (text : List α) (h : Healthy os) :
    (os.insert text).out = os.out ++ (if os.left then text ++ List.replicate (os.width - text.length) os.fillChar
      else List.replicate (os.width - text.length) os.fillChar ++ text) := by
  obtain ⟨-, p, h1, -, h3⟩ := (OStream.C88_insert os text).2 h.1
  rw [h1, h3 (insert_healthy os text h).1]

theorem mod_of_nonneg (w : Int) (h0 : 0 ≤ w) (h1 : w < 2 ^ 63) : (w % 2 ^ 64).toNat = w.toNat := by
  rw [Int.emod_eq_of_lt h0 (by omega)]

/-- C356, as far as it holds: with a width that is not negative a view is written filled up to it.  Missing: negative widths, see
`C356_view_violated`. -/
theorem C356_view_partial (os : OStream α) (w : Int) (text : List α) (h : Healthy os) (h0 : 0 ≤ w) (h1 : w < 2 ^ 63) :
    (insertView os w text).out = os.out ++ filled os.left os.fillChar w text := by
  unfold insertView
  rw [mod_of_nonneg w h0 h1]
  exact insert_out { os with width := w.toNat } text ⟨h.1, h.2⟩

example : Healthy (⟨true, 0, 32, false, [], []⟩ : OStream Nat) := ⟨rfl, rfl⟩

/-- C356 does not hold for a view and a negative width, with which `std::string` is written as it is: more than 2^62 characters of
filling are written with every text of less than 2^62 characters. -/
theorem C356_view_violated (os : OStream α) (w : Int) (text : List α) (h : Healthy os) (h0 : w < 0) (h1 : -2 ^ 63 ≤ w)
    (ht : text.length < 2 ^ 62) :
    ∃ n : Nat, 2 ^ 62 < n ∧ (insertView os w text).out =
      os.out ++ (if os.left then text ++ List.replicate n os.fillChar else List.replicate n os.fillChar ++ text) ∧
    filled os.left os.fillChar w text = text := by
  refine ⟨(w % 2 ^ 64).toNat - text.length, ?_, ?_, ?_⟩
  · have : w % 2 ^ 64 = w + 2 ^ 64 := by omega
    omega
  · unfold insertView
    exact insert_out { os with width := (w % 2 ^ 64).toNat } text ⟨h.1, h.2⟩
  · unfold filled
    rw [show w.toNat - text.length = 0 by omega]
    simp

/-- C356: a bounded string is written filled up to the width, for every width. -/
theorem C356_bounded (os : OStream α) (w : Int) (text : List α) (h : Healthy os) (h0 : -2 ^ 63 ≤ w) (h1 : w < 2 ^ 63) :
    (insertBounded os w text).out = os.out ++ filled os.left os.fillChar w text ∧ (insertBounded os w text).width = 0 := by
  by_cases hw : w ≤ text.length
  · constructor
    · unfold insertBounded
      rw [if_pos h.1]
      simp only [hw, if_true]
      unfold filled
      rw [show w.toNat - text.length = 0 by omega]
      have : ({ os with width := (w % 2 ^ 64).toNat }.write text).out = os.out ++ text := by simp [OStream.write, h.1, h.2]
      rw [this]
      simp
    · unfold insertBounded
      rw [if_pos h.1]
  · have hb : insertBounded os w text = insertView os w text := by
      unfold insertBounded insertView OStream.insert
      rw [if_pos h.1]
      have : ¬ (w % 2 ^ 64).toNat ≤ text.length := by rw [mod_of_nonneg w (by omega) h1]; omega
      simp only [hw, this, if_false, h.1, if_true]
    constructor
    · rw [hb]
      exact C356_view_partial os w text h (by omega) h1
    · unfold insertBounded
      rw [if_pos h.1]

example : (insertBounded (⟨true, 0, 32, false, [7], []⟩ : OStream Nat) (-5) [1, 2]).out = [7, 1, 2] := by decide

end Verif.SV.SignedWidth
