import Verif.Parse.Split

/-
Values from streams, include/daw/daw_parse_to.h 481-535, and functions applied to the values of a text, 329-479.
-/

namespace Verif.Parse
open Cxx SV SV.View

variable {α β γ : Type}

/-- A stream: its characters, how many were read before, and whether it has a member `str( )`.
(Rule of C++ or its library, no line of the source.) -/
structure Stream (α : Type) where
  text : List α
  pos : Nat
  hasStr : Bool
  deriving DecidableEq

/-- The characters that a reader of the stream gets from here on. (Specification, no line of the source.) -/
def Stream.left (s : Stream α) : List α := s.text.drop s.pos

/-- `parse_to` of a whole text at a delimiter, as `values_from_stream` calls it, daw_parse_to.h 501-502, 520-521 and 533-534. -/
def parseText [DecidableEq α] (d : List α) (fs : List (List α → Cxx β)) (m : List α) : Cxx (List β) :=
  parseTo (defaultSplitter m d) m fs ⟨0, m.length, true⟩

/-- `values_from_stream`, daw_parse_to.h 493-503 for streams without `str( )`, 514-522 for those with, by way of 530-535: the values and
the stream afterwards.  `str( )` gives all the characters and reads none. -/
def valuesFromStream [DecidableEq α] (d : List α) (fs : List (List α → Cxx β)) (s : Stream α) : Cxx (List β × Stream α) := do
  if s.hasStr then
    let vs ← parseText d fs s.text
    pure (vs, s)
  else
    let vs ← parseText d fs (s.text.drop s.pos)
    pure (vs, { s with pos := s.text.length })

/-- `values_from_stream<daw::string_view, …>`: the places of the parts in the string that was read, and the memory once the call has
returned and the string is gone, daw_parse_to.h 499-502 and 520-521. -/
def viewsFromStream [DecidableEq α] (d : List α) (n : Nat) (s : Stream α) : Cxx (List View × List α) := do
  let m := if s.hasStr then s.text else s.text.drop s.pos
  let vs ← getPositions (defaultSplitter m d) n ⟨0, m.length, true⟩
  pure (vs, [])

/-- `apply_string` and `construct_from`, daw_parse_to.h 329-364 and 425-479: the function is called with the values. -/
def applyString [DecidableEq α] (call : List β → Cxx γ) (d : List α) (fs : List (List α → Cxx β)) (m : List α) : Cxx γ := do
  let vs ← parseText d fs m
  call vs

/-- The converters give these values for these parts. (Specification, no line of the source.) -/
def Converts (fs : List (List α → Cxx β)) (ps : List (List α)) (vs : List β) : Prop :=
  vs.length = fs.length ∧ fs.length ≤ ps.length ∧
  ∀ (k : Nat) (f : List α → Cxx β) (p : List α) (x : β), fs[k]? = some f → ps[k]? = some p → vs[k]? = some x → f p = pure x

theorem parseText_eq [DecidableEq α] (d : List α) (hd : d ≠ []) (fs : List (List α → Cxx β)) (m : List α) (ps : List (List α)) (vs : List β)
    (hps : Splits d m ps) (hc : Converts fs ps vs) : parseText d fs m = pure vs := by
  refine C62_parse_to m d hd _ (by simp) ps ?_ fs hc.2.1 vs hc.1 hc.2.2
  simpa [View.text] using hps

/-- C351, as far as it holds: on a stream without `str( )`, and on one with it of which nothing was read, the values are those of the
parts of what is left.  Missing: streams with `str( )` after something was read, see `C351_position_violated`. -/
theorem C351_stream_partial [DecidableEq α] (d : List α) (hd : d ≠ []) (fs : List (List α → Cxx β)) (s : Stream α) (ps : List (List α))
    (vs : List β) (hps : Splits d s.left ps) (hc : Converts fs ps vs) (h : s.hasStr = false ∨ s.pos = 0) :
    ∃ s', valuesFromStream d fs s = pure (vs, s') ∧ (s.hasStr = false → s'.left = []) := by
  unfold valuesFromStream
  by_cases hs : s.hasStr = true
  · have hp : s.pos = 0 := by
      rcases h with h | h
      · rw [hs] at h; cases h
      · exact h
    refine ⟨s, ?_, fun h' => by rw [hs] at h'; cases h'⟩
    rw [if_pos hs, parseText_eq d hd fs s.text ps vs (by simpa [Stream.left, hp] using hps) hc]
    rfl
  · refine ⟨{ s with pos := s.text.length }, ?_, fun _ => by simp [Stream.left]⟩
    rw [if_neg hs, parseText_eq d hd fs (s.text.drop s.pos) ps vs hps hc]
    rfl

example : Splits [32] [49, 32, 50] [[49], [50]] ∧ Converts [parseValue ⟨true, 32⟩, parseValue ⟨true, 32⟩] [[49], [50]] [1, 2] := by
  refine ⟨?_, rfl, by decide, fun k f p x hf hp hx => ?_⟩
  · refine Splits.cons [49] [50] [[50]] (fun j hj h => ?_) (Splits.last [50] fun j h => ?_)
    · have : j = 0 := by simp at hj; omega
      subst this
      simp [Occurs] at h
    · have h1 := occurs_length h
      simp at h1
      subst h1
      simp [Occurs] at h
  · rcases k with _ | _ | k
    · cases hf; cases hp; cases hx; decide +kernel
    · cases hf; cases hp; cases hx; decide +kernel
    · simp at hf

/-- C351 does not hold for a stream with `str( )` of which something was read: the values are those of the whole text, and as nothing
is read by the call, the next call gives them again. -/
theorem C351_position_violated [DecidableEq α] (d : List α) (hd : d ≠ []) (fs : List (List α → Cxx β)) (s : Stream α) (ps : List (List α))
    (vs : List β) (hs : s.hasStr = true) (hps : Splits d s.text ps) (hc : Converts fs ps vs) :
    valuesFromStream d fs s = pure (vs, s) := by
  unfold valuesFromStream
  rw [if_pos hs, parseText_eq d hd fs s.text ps vs hps hc]
  rfl

/-- C351, a case in full: "1 2 3", of which "1 " was read; asked for a number, one stream gives 2, the other 1. -/
theorem C351_position_witness :
    (do let r ← valuesFromStream [32] [parseValue ⟨true, 32⟩] ⟨[49, 32, 50, 32, 51], 2, false⟩; pure r.1) = pure [2] ∧
    (do let r ← valuesFromStream [32] [parseValue ⟨true, 32⟩] ⟨[49, 32, 50, 32, 51], 2, true⟩; pure r.1) = pure [1] := by
  decide +kernel

/-- C351 does not hold for views as the values: every character of every part is gone when the call returns. -/
theorem C351_views_violated [DecidableEq α] (d : List α) (hd : d ≠ []) (n : Nat) (s : Stream α) :
    ∃ vs, viewsFromStream d n s = pure (vs, []) ∧ vs.length = n ∧ ∀ v ∈ vs, ∀ k, rd ([] : List α) (v.off + k) = ub := by
  unfold viewsFromStream
  generalize (if s.hasStr then s.text else s.text.drop s.pos) = m
  obtain ⟨ps, hps⟩ := splits_exist d hd _ m rfl
  obtain ⟨items, e, ht⟩ := C62_parts m d hd ⟨0, m.length, true⟩ (by simp) n ps (by simpa [View.text] using hps)
  refine ⟨items, by simp only [e, pure_bind], ?_, fun v _ k => rd_oob (by simp)⟩
  have := congrArg List.length ht
  simp at this
  omega

example := C351_views_violated [','] (by decide) 2 ⟨['a', ',', 'b'], 0, true⟩

/-- C351, `apply_string` and `construct_from`: the function is called once, with the values of the parts in order, and its result is
the result. -/
theorem C351_apply [DecidableEq α] (call : List β → Cxx γ) (d : List α) (hd : d ≠ []) (fs : List (List α → Cxx β)) (m : List α)
    (ps : List (List α)) (vs : List β) (hps : Splits d m ps) (hc : Converts fs ps vs) : applyString call d fs m = call vs := by
  unfold applyString
  rw [parseText_eq d hd fs m ps vs hps hc, pure_bind]

end Verif.Parse
