import Verif.Containers.BoundedVector
import Verif.StringView.View1Ops

/-
`daw::basic_bounded_string<CharT, Capacity>`, include/daw/deprecated/daw_bounded_string.h.  The characters are in a
`bounded_vector_t` with room for one more than the capacity, for the terminator, which is `z` here; it is also the value
of a character initialised with `{ }`.

Two members do not compile when they are used: `swap` (342-344), which finds only itself, and the assignment from
`std::string` (195-199), which assigns a string to the vector.
-/

namespace Verif.Containers
namespace BStr
open Cxx BVec Verif.SV

variable {α : Type}

/-! ### The members -/

/-- `m_data{ }`, daw_bounded_string.h 60, with the default constructor, 67. -/
def empty (z : α) (C : Nat) : BVec α := BVec.empty z (C + 1)

/-- The constructor from a pointer and a count, daw_bounded_string.h 73-74; that from a `std::string`, 82-85, from a
pointer, 91-92, and from an array of characters, 94-96, pass the length of the text, and so does the conversion to
another capacity, 317-320. -/
def ofPtr (z : α) (C : Nat) (src : List α) (count : Nat) : Cxx (BVec α) := BVec.ofPtr z (C + 1) src count

/-- The constructor from a string of capacity `N` and a count, daw_bounded_string.h 76-79: it passes the smaller of the
count and the capacity. -/
def ofStr (z : α) (C N : Nat) (str : BVec α) (count : Nat) : Cxx (BVec α) :=
  ofPtr z C (str.stack.drop str.first) (min count N)

/-- `make_bounded_string` of an array of characters, daw_bounded_string.h 783-787: all of them, for a literal with the
terminator. -/
def makeLiteral (z : α) (C : Nat) (lit : List α) : Cxx (BVec α) := ofPtr z C (lit ++ [z]) (lit.length + 1)

/-- `full`, daw_bounded_string.h 116-118. -/
def full (C : Nat) (v : BVec α) : Bool := v.size == C

/-- `has_room`, daw_bounded_string.h 120-122. -/
def hasRoom (C : Nat) (v : BVec α) (count : Nat) : Bool := BVec.hasRoom (C + 1) v (addSize count 1)

/-- `*m_data.end( ) = 0`, as in daw_bounded_string.h 129. -/
def terminate (z : α) (v : BVec α) : Cxx (BVec α) := do
  let s ← wr v.stack v.index z
  pure ⟨v.index, v.first, s⟩

/-- `push_back`, daw_bounded_string.h 124-130. -/
def pushBack (z : α) (C : Nat) (v : BVec α) (c : α) : Cxx (BVec α) :=
  if full C v then thrown
  else do
    let v ← BVec.pushBack (C + 1) v c
    terminate z v

/-- `append( c )`, daw_bounded_string.h 132-138. -/
def appendChar (z : α) (C : Nat) (v : BVec α) (c : α) : Cxx (BVec α) :=
  if BVec.full (C + 1) v then thrown else pushBack z C v c

/-- Copying to a `back_inserter`, as in daw_bounded_string.h 145. -/
def insertAll (C : Nat) : List α → BVec α → Cxx (BVec α)
  | [], v => pure v
  | x :: xs, v => do
    let v ← BVec.pushBack (C + 1) v x
    insertAll C xs v

/-- `append`, daw_bounded_string.h 140-148, 151-158, 160-167 and 170-183. -/
def append (z : α) (C : Nat) (v : BVec α) (xs : List α) : Cxx (BVec α) :=
  if addSize v.size xs.length ≤ C then do
    let v ← insertAll C xs v
    terminate z v
  else thrown

/-- `append( t, pos, count )`, daw_bounded_string.h 185-191. -/
def appendPart (z : α) (C : Nat) (v : BVec α) (t : List α) (pos : Nat) (count : Option Nat) : Cxx (BVec α) := do
  let w ← (⟨0, t.length⟩ : SV1.View).substr pos count
  append z C v (w.text t)

/-- `remove_suffix( n )`, daw_bounded_string.h 322-325. -/
def removeSuffix (z : α) (C : Nat) (v : BVec α) (n : Nat) : Cxx (BVec α) := do
  let v ← BVec.resize z (C + 1) v (subSize v.size n)
  terminate z v

/-- `clear`, daw_bounded_string.h 331-334. -/
def clear (z : α) (v : BVec α) : Cxx (BVec α) := terminate z v.clear

/-- `pop_back`, daw_bounded_string.h 336-340. -/
def popBack (z : α) (v : BVec α) : Cxx (α × BVec α) := do
  let (result, v) ← BVec.popBack v
  let v ← terminate z v
  pure (result, v)

/-- `substr`, daw_bounded_string.h 356-364; `none` is `npos`. -/
def substr (z : α) (C : Nat) (v : BVec α) (pos : Nat) (count : Option Nat) : Cxx (BVec α) :=
  if pos < v.size then
    let rcount := match count with
      | some n => min n (v.size - pos)
      | none => v.size - pos
    ofPtr z C (v.stack.drop (v.first + pos)) rcount
  else thrown

/-- `copy( dest, count, pos )`, daw_bounded_string.h 346-354: the characters written. -/
def copyOut (v : BVec α) (count pos : Nat) : Cxx (List α) :=
  if pos < v.size then pure ((v.stack.drop (v.first + pos)).take (min count (v.size - pos))) else thrown

/-- `erase( pos )`, daw_bounded_string.h 714-716. -/
def erase (z : α) (C : Nat) (v : BVec α) (pos : Nat) : Cxx (Nat × BVec α) := BVec.erase z (C + 1) v pos

/-- `erase( index, count )`, daw_bounded_string.h 722-734; a position outside the array is undefined. -/
def eraseAt (z : α) (C : Nat) (v : BVec α) (index : Nat) (count : Option Nat) : Cxx (BVec α) := do
  if v.stack.length < v.first + index then ub
  else
    let last := match count with
      | some n => index + n
      | none => v.size
    if last < index then ub
    else
      let (_, v) ← BVec.eraseRange z (C + 1) v index last
      pure v

/-- What a reader of `c_str( )`, daw_bounded_string.h 289-291, gets: the characters up to the first terminator; beyond the
array it is undefined. -/
def readC [DecidableEq α] (z : α) : List α → Cxx (List α)
  | [] => ub
  | x :: xs => if x = z then pure [] else do
    let r ← readC z xs
    pure (x :: r)

/-- `c_str( )`, daw_bounded_string.h 289-291, with `data`, daw_bounded_vector.h 130-136. -/
def cstr [DecidableEq α] (z : α) (v : BVec α) : Cxx (List α) := readC z (v.stack.drop v.first)

/-- `operator+( CharT const *, str )`, daw_bounded_string.h 1255-1261. -/
def plus (z : α) (C : Nat) (lhs : List α) (rhs : BVec α) : Cxx (BVec α) := do
  let result ← ofPtr z C lhs lhs.length
  append z C result rhs.contents

/-- `find_first_of( s, pos )` for a pointer, daw_bounded_string.h 579-582, with 520-525: the set is first made a bounded
string. -/
def findFirstOf [DecidableEq α] (z : α) (C : Nat) (v : BVec α) (s : List α) (pos : Nat) : Cxx (Option Nat) := do
  let s ← ofPtr z C s s.length
  pure (SV1.findFirstOf v.contents s.contents pos)

/-- `find( s, pos )` for a pointer, daw_bounded_string.h 494-497, with 478-482. -/
def find [DecidableEq α] (z : α) (C : Nat) (v : BVec α) (s : List α) (pos : Nat) : Cxx (Option Nat) := do
  let s ← ofPtr z C s s.length
  SV1.find v.contents s.contents pos

/-- `starts_with( s )` for a pointer, daw_bounded_string.h 694-696, with 689-692. -/
def startsWith [DecidableEq α] (z : α) (C : Nat) (v : BVec α) (s : List α) : Cxx Bool := do
  let s ← ofPtr z C s s.length
  SV1.startsWith v.contents s.contents

/-- `operator==`, `<`, `<=`, `>` and `>=`, daw_bounded_string.h 791-837, all from `compare`. -/
def opRel [DecidableEq α] (lt : α → α → Bool) (rel : Int → Bool) (v w : BVec α) : Cxx Bool := do
  let c ← SV1.compare lt v.contents w.contents
  pure (rel c)

/-! ### The state -/

/-- A string within its capacity and with its terminator. (Specification, no line of the source.) -/
structure Ok (z : α) (C : Nat) (v : BVec α) : Prop where
  inv : v.Inv (C + 1)
  size : v.index ≤ C
  zero : v.stack[v.index]? = some z

theorem terminate_ok {z : α} {C : Nat} {v : BVec α} (h : v.Inv (C + 1)) (hs : v.index ≤ C) :
    ∃ v', terminate z v = pure v' ∧ Ok z C v' ∧ v'.contents = v.contents := by
  have hl := h.length
  refine ⟨⟨v.index, v.first, v.stack.set v.index z⟩, ?_, ⟨⟨h.first, h.index, by simpa using hl⟩, hs, ?_⟩, ?_⟩
  · unfold terminate
    rw [wr_eq (by omega), pure_bind]
  · show (v.stack.set v.index z)[v.index]? = some z
    rw [List.getElem?_set_self (by omega)]
  · have hi : (⟨v.index, v.first, v.stack.set v.index z⟩ : BVec α).Inv (C + 1) := ⟨h.first, h.index, by simpa using hl⟩
    rw [contents_eq hi, contents_eq h]
    show (v.stack.set v.index z).take v.index = _
    rw [List.take_set_of_le (Nat.le_refl _)]

theorem insertAll_ok {C : Nat} (hC : C + 1 < 2 ^ 64) : ∀ (xs : List α) {v : BVec α}, v.Inv (C + 1) → v.index + xs.length ≤ C + 1 →
    ∃ v', insertAll C xs v = pure v' ∧ v'.Inv (C + 1) ∧ v'.contents = v.contents ++ xs := by
  intro xs
  induction xs with
  | nil => intro v h _; exact ⟨v, rfl, h, by simp⟩
  | cons x xs ih =>
    intro v h hx
    rw [List.length_cons] at hx
    obtain ⟨v', e, h', hc⟩ := step_push (d := x) hC h x (by omega)
    have hi : v'.index = v.index + 1 := by
      rw [← contents_length h', hc, List.length_append, contents_length h]
      rfl
    obtain ⟨v'', e', h'', hc'⟩ := ih h' (by omega)
    refine ⟨v'', ?_, h'', by rw [hc', hc, List.append_assoc]; rfl⟩
    rw [insertAll, e, pure_bind, e']

theorem index_eq {z : α} {C : Nat} {v : BVec α} (h : Ok z C v) : v.index = v.contents.length := (contents_length h.inv).symm

theorem empty_ok (z : α) (C : Nat) : Ok z C (empty z C) ∧ (empty z C).contents = [] := by
  have hi : (empty z C).Inv (C + 1) := ⟨rfl, Nat.zero_le _, by simp [empty, BVec.empty]⟩
  refine ⟨⟨hi, Nat.zero_le _, by simp [empty, BVec.empty]⟩, ?_⟩
  rw [contents_eq hi]
  rfl

/-- The constructors as they are: they keep as many characters as the array holds, one more than the capacity. -/
theorem ofPtr_eq (z : α) (C : Nat) (src : List α) (count : Nat) (h : count ≤ src.length) :
    ∃ v, ofPtr z C src count = pure v ∧ v.Inv (C + 1) ∧ v.contents = (src.take count).take (C + 1) ∧
      (count ≤ C → Ok z C v) := by
  have e : copyLoop (min count (C + 1)) src (List.replicate (C + 1) z) 0 =
      pure (src.take (min count (C + 1)) ++ List.replicate (C + 1 - min count (C + 1)) z) := by
    rw [copyLoop_eq _ _ _ _ (by omega) (by simp; omega)]
    simp
  have hl : (src.take (min count (C + 1))).length = min count (C + 1) := by rw [List.length_take]; omega
  have hi : (⟨min count (C + 1), 0, src.take (min count (C + 1)) ++ List.replicate (C + 1 - min count (C + 1)) z⟩ :
      BVec α).Inv (C + 1) := ⟨rfl, Nat.min_le_right _ _, by rw [List.length_append, hl, List.length_replicate]; omega⟩
  refine ⟨_, by unfold ofPtr BVec.ofPtr; rw [e, pure_bind], hi, ?_, fun hc => ⟨hi, by simp only; omega, ?_⟩⟩
  · rw [contents_eq hi]
    show List.take (min count (C + 1)) (_ ++ _) = _
    rw [List.take_append_of_le_length (by omega), List.take_of_length_le (by omega), List.take_take, Nat.min_comm]
  · show (src.take (min count (C + 1)) ++ List.replicate (C + 1 - min count (C + 1)) z)[min count (C + 1)]? = some z
    rw [List.getElem?_append_right (by omega), hl, Nat.sub_self, List.getElem?_replicate]
    rw [if_pos (by omega)]

/-! ### Histories -/

/-- The calls. (Members of `basic_bounded_string`, daw_bounded_string.h 124-340.) -/
inductive Op (α : Type) where
  | push (c : α)
  | appendChar (c : α)
  | append (xs : List α)
  | removeSuffix (n : Nat)
  | popBack
  | clear

/-- The model of a call. (Members of `basic_bounded_string`, daw_bounded_string.h 124-340.) -/
def step (z : α) (C : Nat) (v : BVec α) : Op α → Cxx (BVec α)
  | .push c => pushBack z C v c
  | .appendChar c => BStr.appendChar z C v c
  | .append xs => BStr.append z C v xs
  | .removeSuffix n => BStr.removeSuffix z C v n
  | .popBack => do
    let (_, v) ← BStr.popBack z v
    pure v
  | .clear => BStr.clear z v

/-- The call on a text of at most `C` characters: it throws if the result would be longer, or if more is removed than there
is; taking a character from an empty text is undefined. (Specification, no line of the source.) -/
def textStep (C : Nat) (l : List α) : Op α → Cxx (List α)
  | .push c => if l.length < C then pure (l ++ [c]) else thrown
  | .appendChar c => if l.length < C then pure (l ++ [c]) else thrown
  | .append xs => if l.length + xs.length ≤ C then pure (l ++ xs) else thrown
  | .removeSuffix n => if n ≤ l.length then pure (l.take (l.length - n)) else thrown
  | .popBack => if l = [] then ub else pure l.dropLast
  | .clear => pure []

/-- The arguments are sizes of objects. (Specification, no line of the source.) -/
def Op.Sane : Op α → Prop
  | .append xs => xs.length < 2 ^ 63
  | .removeSuffix n => n < 2 ^ 63
  | _ => True

theorem pushBack_ok {z : α} {C : Nat} (hC : C + 1 < 2 ^ 63) {v : BVec α} (h : Ok z C v) (c : α) :
    (v.contents.length < C → ∃ v', pushBack z C v c = pure v' ∧ Ok z C v' ∧ v'.contents = v.contents ++ [c]) ∧
    (C ≤ v.contents.length → pushBack z C v c = thrown) := by
  have hi := index_eq h
  have hs := h.size
  have hsz := size_eq h.inv (by omega)
  refine ⟨fun hl => ?_, fun hl => ?_⟩
  · obtain ⟨v', e, h', hc⟩ := step_push (d := c) (N := C + 1) (by omega) h.inv c (by omega)
    have hx : v'.index = v.index + 1 := by
      rw [← contents_length h', hc, List.length_append, ← hi]
      rfl
    obtain ⟨v'', e', h'', hc'⟩ := terminate_ok (z := z) h' (by omega)
    refine ⟨v'', ?_, h'', by rw [hc', hc]⟩
    unfold pushBack full
    rw [hsz, if_neg (by simp; omega), e, pure_bind, e']
  · unfold pushBack full
    rw [hsz, if_pos (by simp; omega)]

theorem append_ok {z : α} {C : Nat} (hC : C + 1 < 2 ^ 63) {v : BVec α} (h : v.Inv (C + 1)) (xs : List α)
    (hx : xs.length < 2 ^ 63) :
    (v.contents.length + xs.length ≤ C → ∃ v', append z C v xs = pure v' ∧ Ok z C v' ∧ v'.contents = v.contents ++ xs) ∧
    (C < v.contents.length + xs.length → append z C v xs = thrown) := by
  have hi := contents_length h
  have hidx := h.index
  have hsz := size_eq h (by omega)
  unfold append
  rw [hsz, addSize_of_lt (by omega)]
  refine ⟨fun hl => ?_, fun hl => by rw [if_neg (by omega)]⟩
  obtain ⟨v', e, h', hc⟩ := insertAll_ok (by omega) xs h (by omega)
  have hx : v'.index = v.index + xs.length := by
    rw [← contents_length h', hc, List.length_append, hi]
  obtain ⟨v'', e', h'', hc'⟩ := terminate_ok (z := z) h' (by omega)
  refine ⟨v'', ?_, h'', by rw [hc', hc]⟩
  rw [if_pos (by omega), e, pure_bind, e']

/-- One call. -/
theorem step_ok (z : α) {C : Nat} (hC : C + 1 < 2 ^ 63) {v : BVec α} (h : Ok z C v) (o : Op α) (ho : o.Sane) :
    (∃ v' l, textStep C v.contents o = pure l ∧ step z C v o = pure v' ∧ Ok z C v' ∧ v'.contents = l) ∨
    (textStep C v.contents o = thrown ∧ step z C v o = thrown) ∨ (textStep C v.contents o = ub ∧ step z C v o = ub) := by
  have hi := index_eq h
  have hs := h.size
  have hsz := size_eq h.inv (by omega)
  have hpush : ∀ c, (∃ v' l, (if v.contents.length < C then pure (v.contents ++ [c]) else thrown : Cxx (List α)) = pure l ∧
      pushBack z C v c = pure v' ∧ Ok z C v' ∧ v'.contents = l) ∨
      ((if v.contents.length < C then pure (v.contents ++ [c]) else thrown : Cxx (List α)) = thrown ∧ pushBack z C v c = thrown) := by
    intro c
    by_cases hl : v.contents.length < C
    · obtain ⟨v', e, h', hc⟩ := (pushBack_ok hC h c).1 hl
      exact Or.inl ⟨v', _, by rw [if_pos hl], e, h', hc⟩
    · exact Or.inr ⟨by rw [if_neg hl], (pushBack_ok hC h c).2 (by omega)⟩
  cases o with
  | push c =>
    rcases hpush c with hh | hh
    · exact Or.inl hh
    · exact Or.inr (Or.inl hh)
  | appendChar c =>
    have e : BStr.appendChar z C v c = pushBack z C v c := by
      unfold BStr.appendChar BVec.full
      rw [show subSize v.index v.first = v.size from rfl, hsz, if_neg (by simp; omega)]
    simp only [step, textStep, e]
    rcases hpush c with hh | hh
    · exact Or.inl hh
    · exact Or.inr (Or.inl hh)
  | append xs =>
    simp only [step, textStep]
    by_cases hl : v.contents.length + xs.length ≤ C
    · obtain ⟨v', e, h', hc⟩ := (append_ok hC h.inv xs ho).1 hl
      exact Or.inl ⟨v', _, by rw [if_pos hl], e, h', hc⟩
    · exact Or.inr (Or.inl ⟨by rw [if_neg hl], (append_ok hC h.inv xs ho).2 (by omega)⟩)
  | removeSuffix n =>
    have ho : n < 2 ^ 63 := ho
    simp only [step, textStep]
    unfold BStr.removeSuffix
    rw [hsz]
    by_cases hn : n ≤ v.contents.length
    · obtain ⟨v', e, h', hc⟩ := resize_ok (d := z) (N := C + 1) (by omega) h.inv (n := v.index - n) (by omega)
      have hx : v'.index = v.index - n := by
        rw [← contents_length h', hc]
        simp
        omega
      obtain ⟨v'', e', h'', hc'⟩ := terminate_ok (z := z) h' (by omega)
      refine Or.inl ⟨v'', _, by rw [if_pos hn], ?_, h'', ?_⟩
      · rw [subSize_of_le (by omega) (by omega), e, pure_bind, e']
      · rw [hc', hc, hi, show v.contents.length - n - v.contents.length = 0 by omega]
        simp
    · refine Or.inr (Or.inl ⟨by rw [if_neg hn], ?_⟩)
      have hw : C + 1 < subSize v.index n := by
        unfold subSize
        omega
      unfold BVec.resize
      rw [if_pos hw]
      rfl
  | popBack =>
    simp only [step, textStep]
    by_cases hn : v.contents = []
    · refine Or.inr (Or.inr ⟨by rw [if_pos hn], ?_⟩)
      have h0 : v.index = 0 := by rw [hi, hn]; rfl
      unfold BStr.popBack BVec.popBack
      have hl := h.inv.length
      rw [h0, rd_oob (by rw [hl]; unfold subSize; omega), ub_bind]
      rfl
    · have h0 : v.index ≠ 0 := fun hz => hn (List.length_eq_zero_iff.1 (by omega))
      obtain ⟨v', e, h', hc⟩ := BVec.step_ok z (N := C + 1) (by omega) h.inv (.popBack : BVec.Op α) hn
      have hp : ∃ x, BVec.popBack v = pure (x, v') := by
        simp only [BVec.step] at e
        obtain ⟨⟨x, w⟩, e1, e2⟩ := bind_eq_pure.mp e
        have := Cxx.pure_inj.mp e2
        rw [Prod.mk.injEq] at this
        rw [← this.1]
        exact ⟨x, e1⟩
      obtain ⟨x, e1⟩ := hp
      have hx : v'.index = v.index - 1 := by
        rw [← contents_length h', hc, hi]
        simp [listStep]
      obtain ⟨v'', e', h'', hc'⟩ := terminate_ok (z := z) h' (by omega)
      refine Or.inl ⟨v'', _, by rw [if_neg hn], ?_, h'', by rw [hc', hc]; rfl⟩
      unfold BStr.popBack
      rw [e1, pure_bind]
      simp only [e', pure_bind]
  | clear =>
    obtain ⟨v', e, h', hc⟩ := terminate_ok (z := z) (clear_inv h.inv) (Nat.zero_le C)
    refine Or.inl ⟨v', [], rfl, e, h', ?_⟩
    rw [hc, contents_eq (clear_inv h.inv)]
    rfl

/-- A history of calls. (Members of `basic_bounded_string`, daw_bounded_string.h 124-340.) -/
def run (z : α) (C : Nat) (v : BVec α) : List (Op α) → Cxx (BVec α)
  | [] => pure v
  | o :: os => do
    let v ← step z C v o
    run z C v os

/-- The history on a text. (Specification, no line of the source.) -/
def textRun (C : Nat) (l : List α) : List (Op α) → Cxx (List α)
  | [] => pure l
  | o :: os => do
    let l ← textStep C l o
    textRun C l os

theorem readC_eq [DecidableEq α] (z : α) (xs rest : List α) (h : z ∉ xs) : readC z (xs ++ z :: rest) = pure xs := by
  induction xs with
  | nil => simp [readC]
  | cons x xs ih =>
    rw [List.cons_append, readC, if_neg (fun e => h (by simp [e])), ih (fun hm => h (List.mem_cons_of_mem _ hm)), pure_bind]

/-- C219, histories, as far as it holds: a string made from a text within the capacity, and changed by any calls of
`push_back`, `append`, `remove_suffix`, `pop_back` and `clear`, holds what the same calls make of the text, never more than
the capacity, and throws exactly if a call would exceed it or removes too much; `c_str` is terminated, and gives the text
if no character is the terminator.  Missing: texts longer than the capacity, and `erase`; see the theorems below. -/
theorem C219_history_partial [DecidableEq α] (z : α) (C : Nat) (hC : C + 1 < 2 ^ 63) (src : List α) (hsrc : src.length ≤ C)
    (os : List (Op α)) (hos : ∀ o ∈ os, o.Sane) :
    ∃ v, ofPtr z C src src.length = pure v ∧ v.contents = src ∧
      ((∃ v' l, textRun C src os = pure l ∧ run z C v os = pure v' ∧ v'.contents = l ∧ l.length ≤ C ∧ v'.size = l.length ∧
          (z ∉ l → cstr z v' = pure l)) ∨
        (textRun C src os = thrown ∧ run z C v os = thrown) ∨ (textRun C src os = ub ∧ run z C v os = ub)) := by
  obtain ⟨v, e, _, hc, hok⟩ := ofPtr_eq z C src src.length (Nat.le_refl _)
  rw [List.take_length, List.take_of_length_le (by omega)] at hc
  refine ⟨v, e, hc, ?_⟩
  have key : ∀ (os : List (Op α)), (∀ o ∈ os, o.Sane) → ∀ (v : BVec α), Ok z C v →
      (∃ v' l, textRun C v.contents os = pure l ∧ run z C v os = pure v' ∧ v'.contents = l ∧ Ok z C v') ∨
        (textRun C v.contents os = thrown ∧ run z C v os = thrown) ∨ (textRun C v.contents os = ub ∧ run z C v os = ub) := by
    intro os
    induction os with
    | nil => intro _ v h; exact Or.inl ⟨v, v.contents, rfl, rfl, rfl, h⟩
    | cons o os ih =>
      intro ho v h
      rw [textRun, run]
      rcases step_ok z hC h o (ho o List.mem_cons_self) with ⟨v', l, e1, e2, h', hc⟩ | ⟨e1, e2⟩ | ⟨e1, e2⟩
      · rw [e1, e2, pure_bind, pure_bind, ← hc]
        exact ih (fun o hm => ho o (List.mem_cons_of_mem _ hm)) v' h'
      · rw [e1, e2]
        exact Or.inr (Or.inl ⟨rfl, rfl⟩)
      · rw [e1, e2]
        exact Or.inr (Or.inr ⟨rfl, rfl⟩)
  have := key os hos v (hok hsrc)
  rw [hc] at this
  rcases this with ⟨v', l, e1, e2, hl, h'⟩ | hh
  · refine Or.inl ⟨v', l, e1, e2, hl, ?_, ?_, fun hz => ?_⟩
    · rw [← hl, ← index_eq h']; exact h'.size
    · rw [size_eq h'.inv (by omega), index_eq h', hl]
    · have hlen := h'.inv.length
      have hsz := h'.size
      have hs : v'.stack = l ++ z :: v'.stack.drop (v'.index + 1) := by
        have hz' := h'.zero
        rw [List.getElem?_eq_getElem (by omega)] at hz'
        have hz' := Option.some.inj hz'
        rw [← hz', List.getElem_cons_drop, ← hl, contents_eq h'.inv, List.take_append_drop]
      unfold cstr
      rw [h'.inv.first, List.drop_zero, hs]
      exact readC_eq z l _ hz
  · exact Or.inr hh

example : (∀ o ∈ [Op.push 1, .append [2, 3], .removeSuffix 2, .popBack], o.Sane) ∧
    textRun 4 [7] [Op.push 1, .append [2, 3], .removeSuffix 2, .popBack] = pure [7] ∧
    textRun 2 [7, 8] [Op.push 1] = thrown := by
  refine ⟨by simp [Op.Sane], rfl, rfl⟩

/-- C219 does not hold for texts longer than the capacity: the constructor keeps one character more than the capacity and
no terminator; `full` is not noticed, so that `push_back` writes outside the array, and a reader of `c_str` leaves it. -/
theorem C219_truncate_violated [DecidableEq α] (z : α) (C : Nat) (hC : C + 1 < 2 ^ 63) (src : List α) (hsrc : C < src.length) :
    ∃ v, ofPtr z C src src.length = pure v ∧ v.contents = src.take (C + 1) ∧ v.size = C + 1 ∧ full C v = false ∧
      (∀ c, pushBack z C v c = ub) ∧ (z ∉ src → cstr z v = ub) := by
  obtain ⟨v, e, hi, hc, _⟩ := ofPtr_eq z C src src.length (Nat.le_refl _)
  rw [List.take_length] at hc
  have hidx : v.index = C + 1 := by
    rw [← contents_length hi, hc, List.length_take]
    omega
  have hsz := size_eq hi (by omega)
  have hf : full C v = false := by
    unfold full
    rw [hsz, hidx]
    simp
  refine ⟨v, e, hc, by omega, hf, fun c => ?_, fun hz => ?_⟩
  · unfold pushBack BVec.pushBack
    rw [hf, prepare_eq hi, pure_bind, wr_oob (by have := hi.length; omega)]
    rfl
  · unfold cstr
    have hs : v.stack = src.take (C + 1) := by
      rw [← hc, contents_eq hi, List.take_of_length_le (by have := hi.length; omega)]
    rw [hi.first, List.drop_zero, hs]
    have : ∀ xs : List α, z ∉ xs → readC z xs = ub := by
      intro xs
      induction xs with
      | nil => intro _; rfl
      | cons x xs ih =>
        intro hm
        rw [readC, if_neg (fun e => hm (by simp [e])), ih (fun h => hm (List.mem_cons_of_mem _ h))]
        rfl
    exact this _ (fun hm => hz (List.mem_of_mem_take hm))

example : ofPtr 0 2 [1, 2, 3, 4] 4 = pure ⟨3, 0, [1, 2, 3]⟩ := by rfl

/-- C219: removing the largest number of characters from a text that is not full appends one. -/
theorem C219_remove_npos_finding (z : α) (C : Nat) (hC : C + 1 < 2 ^ 63) (v : BVec α) (h : Ok z C v) (hl : v.contents.length < C) :
    ∃ v', removeSuffix z C v (2 ^ 64 - 1) = pure v' ∧ v'.contents = v.contents ++ [z] := by
  have hi := index_eq h
  obtain ⟨v', e, h', hc⟩ := resize_ok (d := z) (N := C + 1) (by omega) h.inv (n := v.index + 1) (by omega)
  have hx : v'.index = v.index + 1 := by
    rw [← contents_length h', hc, List.length_append, List.length_take, List.length_replicate, hi]
    omega
  obtain ⟨v'', e', _, hc'⟩ := terminate_ok (z := z) h' (by omega)
  refine ⟨v'', ?_, ?_⟩
  · unfold removeSuffix
    have hs := h.size
    rw [size_eq h.inv (by omega), show subSize v.index (2 ^ 64 - 1) = v.index + 1 by unfold subSize; omega, e, pure_bind, e']
  · rw [hc', hc, hi, List.take_of_length_le (by omega), show v.contents.length + 1 - v.contents.length = 1 by omega]
    rfl

example := C219_remove_npos_finding '0' 4 (by decide) ⟨2, 0, ['a', 'b', '0', '0', '0']⟩ ⟨⟨rfl, by decide, rfl⟩, by decide, rfl⟩ (by decide)

/-- C219 does not hold for `erase`: the contents are right, but the erased character takes the place of the terminator. -/
theorem C219_erase_violated (z : α) (C : Nat) (hC : C + 1 < 2 ^ 63) (v : BVec α) (h : Ok z C v) (pos : Nat) (x : α)
    (hx : v.contents[pos]? = some x) :
    ∃ r v', erase z C v pos = pure (r, v') ∧ v'.contents = v.contents.take pos ++ v.contents.drop (pos + 1) ∧
      v'.stack[v'.index]? = some x := by
  have hi := index_eq h
  have hs := h.size
  have hl := h.inv.length
  have hp : pos < v.index := by
    rw [hi]
    exact (List.getElem?_eq_some_iff.1 hx).1
  obtain ⟨v', e, h', hc, hidx⟩ := erase_ok (d := z) (N := C + 1) (by omega) h.inv hp
  refine ⟨_, v', e, hc, ?_⟩
  have loop : ∀ (b a r : List α), eraseLoop b.length a.length (a.length + 1) (a ++ x :: (b ++ r)) = pure (a ++ (b ++ x :: r)) := by
    intro b
    induction b with
    | nil => intro a r; simp [eraseLoop]
    | cons y b ih =>
      intro a r
      rw [List.length_cons, eraseLoop]
      have h1 := swapAt_mid a x [] y (b ++ r)
      simp only [List.nil_append, List.length_nil, Nat.zero_add] at h1
      rw [List.cons_append, h1, pure_bind]
      have h2 := ih (a ++ [y]) r
      rw [show (a ++ [y]).length = a.length + 1 by simp] at h2
      simpa using h2
  have hst : v.stack = v.contents.take pos ++ x :: (v.contents.drop (pos + 1) ++ v.stack.drop v.index) := by
    obtain ⟨hlt, rfl⟩ := List.getElem?_eq_some_iff.1 hx
    have e1 : v.contents.take pos ++ v.contents[pos] :: v.contents.drop (pos + 1) = v.contents := by
      rw [List.getElem_cons_drop, List.take_append_drop]
    have e2 : v.contents ++ v.stack.drop v.index = v.stack := by rw [contents_eq h.inv, List.take_append_drop]
    rw [← List.cons_append, ← List.append_assoc, e1, e2]
  have hloop := loop (v.contents.drop (pos + 1)) (v.contents.take pos) (v.stack.drop v.index)
  rw [← hst, List.length_drop, List.length_take, ← hi, Nat.min_eq_left (by omega)] at hloop
  unfold BVec.erase at e
  rw [h.inv.first, Nat.zero_add, if_neg (by omega), hloop, pure_bind] at e
  rw [size_eq h.inv (by omega), subSize_of_le (by omega) (by omega)] at e
  unfold BVec.resize at e
  have hsz : (⟨v.index, 0, v.contents.take pos ++ (v.contents.drop (pos + 1) ++ x :: v.stack.drop v.index)⟩ : BVec α).size =
      v.index := by
    show subSize v.index 0 = v.index
    rw [subSize_of_le (Nat.zero_le _) (by omega), Nat.sub_zero]
  rw [if_neg (by omega), hsz, if_neg (by omega), pure_bind] at e
  have hv : v' = ⟨v.index - 1, 0, v.contents.take pos ++ (v.contents.drop (pos + 1) ++ x :: v.stack.drop v.index)⟩ := by
    split at e <;>
    · have := Cxx.pure_inj.mp e
      rw [Prod.mk.injEq] at this
      exact this.2.symm
  rw [hv]
  show (v.contents.take pos ++ (v.contents.drop (pos + 1) ++ x :: v.stack.drop v.index))[v.index - 1]? = some x
  have l1 : (v.contents.take pos).length = pos := by rw [List.length_take]; omega
  have l2 : (v.contents.drop (pos + 1)).length = v.index - (pos + 1) := by rw [List.length_drop]; omega
  rw [List.getElem?_append_right (by omega), l1, List.getElem?_append_right (by omega), l2,
    show v.index - 1 - pos - (v.index - (pos + 1)) = 0 by omega]
  rfl

/-- The text a, b, c without its first character reads as b, c, a. -/
example : erase 0 4 ⟨3, 0, [1, 2, 3, 0, 0]⟩ 0 = pure (1, ⟨2, 0, [2, 3, 1, 0, 0]⟩) ∧
    cstr 0 ⟨2, 0, [2, 3, 1, 0, 0]⟩ = pure [2, 3, 1] := ⟨rfl, rfl⟩

/-- C219: `erase( )`, which is to erase everything, ends the program. -/
theorem C219_erase_all_finding (z : α) (C : Nat) (hC : C + 1 < 2 ^ 63) (v : BVec α) (h : Ok z C v) :
    eraseAt z C v 0 none = abort := by
  have hs := h.size
  have hl := h.inv.length
  have hsz := size_eq h.inv (by omega)
  unfold eraseAt
  simp only [Nat.add_zero]
  rw [if_neg (by rw [h.inv.first]; omega)]
  simp only [hsz]
  rw [if_neg (by omega)]
  unfold eraseRange
  rw [h.inv.first, if_neg (by omega)]
  simp only [Nat.zero_add, Nat.sub_self, Nat.sub_zero, eraseLoop, pure_bind, hsz]
  rw [if_neg (by omega)]
  rfl

example := C219_erase_all_finding '0' 4 (by decide) ⟨2, 0, ['a', 'b', '0', '0', '0']⟩ ⟨⟨rfl, by decide, rfl⟩, by decide, rfl⟩

/-- C219, `erase( index, count )` as far as it holds: the characters from `index` on are gone, `count` of them or all that follow, if
that is not the whole text; more characters than there are, or an index behind the text, are undefined.  Missing: the whole text, see
`C219_erase_all_finding`, and the terminator, see `C219_erase_violated`. -/
theorem C219_erase_at_partial (z : α) (C : Nat) (hC : C + 1 < 2 ^ 63) (v : BVec α) (h : Ok z C v) (index n : Nat) :
    (index + n ≤ v.contents.length → n < v.contents.length →
      ∃ v', eraseAt z C v index (some n) = pure v' ∧ v'.contents = v.contents.take index ++ v.contents.drop (index + n)) ∧
    (0 < index → index ≤ v.contents.length → ∃ v', eraseAt z C v index none = pure v' ∧ v'.contents = v.contents.take index) ∧
    (v.contents.length < index + n → eraseAt z C v index (some n) = ub) ∧
    (v.contents.length < index → eraseAt z C v index none = ub) := by
  have hs := h.size
  have hl := h.inv.length
  have hf := h.inv.first
  have hi := index_eq h
  have hsz := size_eq h.inv (by omega)
  refine ⟨fun h1 h2 => ?_, fun h1 h2 => ?_, fun h1 => ?_, fun h1 => ?_⟩
  · obtain ⟨v', e, _, hc, _⟩ := eraseRange_ok (d := z) (N := C + 1) (by omega) h.inv (a := index) (b := index + n) (by omega) (by omega)
      (by omega)
    refine ⟨v', ?_, hc⟩
    unfold eraseAt
    rw [if_neg (by omega)]
    simp only
    rw [if_neg (by omega), e, pure_bind]
  · obtain ⟨v', e, _, hc, _⟩ := eraseRange_ok (d := z) (N := C + 1) (by omega) h.inv (a := index) (b := v.index) (by omega) (by omega)
      (by omega)
    refine ⟨v', ?_, ?_⟩
    · unfold eraseAt
      rw [if_neg (by omega)]
      simp only [hsz]
      rw [if_neg (by omega), e, pure_bind]
    · rw [hc, List.drop_of_length_le (by omega), List.append_nil]
  · unfold eraseAt
    split
    · rfl
    · simp only
      rw [if_neg (by omega)]
      unfold eraseRange
      rw [if_pos (by omega)]
      rfl
  · unfold eraseAt
    split
    · rfl
    · simp only [hsz]
      rw [if_pos (by omega)]

example := (C219_erase_at_partial '0' 4 (by decide) ⟨3, 0, ['a', 'b', 'c', '0', '0']⟩ ⟨⟨rfl, by decide, rfl⟩, by decide, rfl⟩ 1 1).1
  (by decide) (by decide)

/-- C219, the constructor from another bounded string and a count, as far as it holds: the first `count` characters, if there are that
many and the new string has room for them.  For larger counts it is as many of the array of the other one, whatever its size, but not
more than its capacity.  Missing: larger counts, see `C219_construct_violated`. -/
theorem C219_of_str_partial (z : α) (C N : Nat) (str : BVec α) (h : Ok z N str) (count : Nat) :
    (count ≤ str.contents.length → count ≤ C → ∃ v, ofStr z C N str count = pure v ∧ v.contents = str.contents.take count) ∧
    (min count N ≤ C → ∃ v, ofStr z C N str count = pure v ∧ v.contents = str.stack.take (min count N)) := by
  have hs := h.size
  have hl := h.inv.length
  have hi := index_eq h
  have hc := contents_eq h.inv
  have key : min count N ≤ C → ∃ v, ofStr z C N str count = pure v ∧ v.contents = str.stack.take (min count N) := by
    intro h2
    unfold ofStr
    rw [h.inv.first, List.drop_zero]
    obtain ⟨v, e, -, hv, -⟩ := ofPtr_eq z C str.stack (min count N) (by omega)
    refine ⟨v, e, ?_⟩
    rw [hv, List.take_take, Nat.min_eq_right (by omega)]
  refine ⟨fun h1 h2 => ?_, key⟩
  obtain ⟨v, e, hv⟩ := key (by omega)
  refine ⟨v, e, ?_⟩
  rw [hv, hc, List.take_take, Nat.min_eq_left (by omega), Nat.min_eq_left (by omega)]

example := (C219_of_str_partial '0' 2 4 ⟨3, 0, ['a', 'b', 'c', '0', '0']⟩ ⟨⟨rfl, by decide, rfl⟩, by decide, rfl⟩ 2).1 (by decide) (by decide)

/-- C219: the constructor from another bounded string and a count takes characters from behind the text, if the count is
larger than its size; and `make_bounded_string` of a literal counts the terminator. -/
theorem C219_construct_violated : ofStr 0 4 4 ⟨2, 0, [1, 2, 0, 0, 0]⟩ 3 = pure ⟨3, 0, [1, 2, 0, 0, 0]⟩ ∧
    makeLiteral 0 4 [1, 2] = pure ⟨3, 0, [1, 2, 0, 0, 0]⟩ := ⟨rfl, rfl⟩

/-- C219: `has_room` says the opposite, except that it is right when the text would exactly be full. -/
theorem C219_has_room_violated (z : α) (C : Nat) (hC : C + 1 < 2 ^ 63) (v : BVec α) (h : Ok z C v) (n : Nat) (hn : n < 2 ^ 62) :
    hasRoom C v n = decide (C ≤ v.contents.length + n) := by
  have hi := index_eq h
  have hs := h.size
  unfold hasRoom BVec.hasRoom
  rw [size_eq h.inv (by omega), addSize_of_lt (a := n) (by omega), addSize_of_lt (by omega), hi]
  congr 1
  rw [eq_iff_iff]
  omega

example := C219_has_room_violated '0' 4 (by decide) ⟨2, 0, ['a', 'b', '0', '0', '0']⟩ ⟨⟨rfl, by decide, rfl⟩, by decide, rfl⟩ 3 (by decide)

/-! ### Parts, searching and comparing -/

theorem contents_drop {z : α} {C : Nat} {v : BVec α} (h : Ok z C v) (pos n : Nat) (hn : pos + n ≤ v.index) :
    (v.stack.drop (v.first + pos)).take n = (v.contents.drop pos).take n := by
  rw [h.inv.first, Nat.zero_add, contents_eq h.inv, List.drop_take, List.take_take, Nat.min_eq_left (by omega)]

/-- C220, `substr` and `copy` from a position within the text.  Missing: the end of the text, where they throw. -/
theorem C220_substr_partial (z : α) (C : Nat) (hC : C + 1 < 2 ^ 63) (v : BVec α) (h : Ok z C v) (pos count : Nat)
    (hp : pos < v.contents.length) :
    (∃ v', substr z C v pos (some count) = pure v' ∧ Ok z C v' ∧ v'.contents = (v.contents.drop pos).take count) ∧
    (∃ v', substr z C v pos none = pure v' ∧ Ok z C v' ∧ v'.contents = v.contents.drop pos) ∧
    copyOut v count pos = pure ((v.contents.drop pos).take count) := by
  have hi := index_eq h
  have hs := h.size
  have hl := h.inv.length
  have hsz := size_eq h.inv (by omega)
  have key : ∀ n, n ≤ v.index - pos → ∃ v', ofPtr z C (v.stack.drop (v.first + pos)) n = pure v' ∧ Ok z C v' ∧
      v'.contents = (v.contents.drop pos).take n := by
    intro n hn
    obtain ⟨v', e, _, hc, hok⟩ := ofPtr_eq z C (v.stack.drop (v.first + pos)) n (by rw [List.length_drop, h.inv.first]; omega)
    refine ⟨v', e, hok (by omega), ?_⟩
    rw [hc, contents_drop h pos n (by omega), List.take_of_length_le (by rw [List.length_take]; omega)]
  have hmin : (v.contents.drop pos).take (min count (v.index - pos)) = (v.contents.drop pos).take count := by
    by_cases hcnt : count ≤ v.index - pos
    · rw [Nat.min_eq_left hcnt]
    · rw [Nat.min_eq_right (by omega), List.take_of_length_le (by rw [List.length_drop]; omega),
        List.take_of_length_le (by rw [List.length_drop]; omega)]
  refine ⟨?_, ?_, ?_⟩
  · obtain ⟨v', e, hok, hc⟩ := key (min count (v.index - pos)) (Nat.min_le_right _ _)
    refine ⟨v', ?_, hok, by rw [hc, hmin]⟩
    unfold substr
    rw [hsz, if_pos (by omega)]
    exact e
  · obtain ⟨v', e, hok, hc⟩ := key (v.index - pos) (Nat.le_refl _)
    refine ⟨v', ?_, hok, by rw [hc, List.take_of_length_le (by rw [List.length_drop]; omega)]⟩
    unfold substr
    rw [hsz, if_pos (by omega)]
    exact e
  · unfold copyOut
    rw [hsz, if_pos (by omega), contents_drop h pos _ (by omega), hmin]

example := C220_substr_partial '0' 4 (by decide) ⟨2, 0, ['a', 'b', '0', '0', '0']⟩ ⟨⟨rfl, by decide, rfl⟩, by decide, rfl⟩ 1 1 (by decide)

/-- C220: the part from the end of the text on is empty, but `substr` and `copy` throw; so does each part of an empty text. -/
theorem C220_substr_violated (z : α) (C : Nat) (hC : C + 1 < 2 ^ 63) (v : BVec α) (h : Ok z C v) (count : Nat) :
    substr z C v v.contents.length (some count) = thrown ∧ copyOut v count v.contents.length = thrown := by
  have hi := index_eq h
  have hs := h.size
  have hsz := size_eq h.inv (by omega)
  refine ⟨?_, ?_⟩
  · unfold substr
    rw [hsz, if_neg (by omega)]
  · unfold copyOut
    rw [hsz, if_neg (by omega)]

example := C220_substr_violated '0' 4 (by decide) ⟨2, 0, ['a', 'b', '0', '0', '0']⟩ ⟨⟨rfl, by decide, rfl⟩, by decide, rfl⟩ 1

/-- **C220**, `append( t, pos, count )`: the part of the text is appended, if it is one and the result fits. -/
theorem C220_append_part (z : α) (C : Nat) (hC : C + 1 < 2 ^ 63) (v : BVec α) (h : Ok z C v) (t : List α) (ht : t.length < 2 ^ 63)
    (pos count : Nat) :
    (t.length < pos → appendPart z C v t pos (some count) = thrown) ∧
    (pos ≤ t.length → v.contents.length + ((t.drop pos).take count).length ≤ C → ∃ v',
      appendPart z C v t pos (some count) = pure v' ∧ Ok z C v' ∧ v'.contents = v.contents ++ (t.drop pos).take count) ∧
    (pos ≤ t.length → C < v.contents.length + ((t.drop pos).take count).length →
      appendPart z C v t pos (some count) = thrown) := by
  have hin : SV1.Inside t ⟨0, t.length⟩ := by simp [SV1.Inside]
  obtain ⟨_, _, _, _, _, _, h1, h2⟩ := SV1.C217_cut t ⟨0, t.length⟩ hin 0 pos count
  have htx : (⟨0, t.length⟩ : SV1.View).text t = t := by simp [SV1.View.text]
  rw [htx] at h1
  have hlen : ((t.drop pos).take count).length < 2 ^ 63 := by rw [List.length_take, List.length_drop]; omega
  refine ⟨fun hp => ?_, fun hp hfit => ?_, fun hp hfit => ?_⟩
  · unfold appendPart
    rw [h2 hp]
    rfl
  · obtain ⟨w, e, _, hw⟩ := h1 hp
    obtain ⟨v', e', hok, hc⟩ := (append_ok hC h.inv _ hlen).1 hfit
    refine ⟨v', ?_, hok, hc⟩
    unfold appendPart
    rw [e, pure_bind, hw, e']
  · obtain ⟨w, e, _, hw⟩ := h1 hp
    unfold appendPart
    rw [e, pure_bind, hw]
    exact (append_ok hC h.inv _ hlen).2 hfit

example := C220_append_part '0' 4 (by decide) ⟨2, 0, ['a', 'b', '0', '0', '0']⟩ ⟨⟨rfl, by decide, rfl⟩, by decide, rfl⟩ ['x', 'y'] (by decide) 1 1

/-- **C220**, `operator+` of a pointer and a string: the concatenation if it fits, otherwise it throws, also if the left text
alone is too long and was cut. -/
theorem C220_plus (z : α) (C : Nat) (hC : C + 1 < 2 ^ 63) (lhs : List α) (v : BVec α) (h : Ok z C v) :
    (lhs.length + v.contents.length ≤ C → ∃ v', plus z C lhs v = pure v' ∧ Ok z C v' ∧ v'.contents = lhs ++ v.contents) ∧
    (C < lhs.length + v.contents.length → plus z C lhs v = thrown) := by
  obtain ⟨w, e, hi, hc, _⟩ := ofPtr_eq z C lhs lhs.length (Nat.le_refl _)
  rw [List.take_length] at hc
  have hidx := index_eq h
  have hs := h.size
  have happ := append_ok (z := z) hC hi v.contents (by omega)
  have hlen : w.contents.length = min (C + 1) lhs.length := by rw [hc, List.length_take]
  unfold plus
  rw [e, pure_bind]
  refine ⟨fun hl => ?_, fun hl => happ.2 (by omega)⟩
  obtain ⟨v', e', hok, hc'⟩ := happ.1 (by omega)
  refine ⟨v', e', hok, ?_⟩
  rw [hc', hc, List.take_of_length_le (by omega)]

example := C220_plus '0' 4 (by decide) ['x', 'y'] ⟨2, 0, ['a', 'b', '0', '0', '0']⟩ ⟨⟨rfl, by decide, rfl⟩, by decide, rfl⟩

/-- **C220**, `find` and `starts_with` with any text: a text longer than the capacity is cut, but then it is still too long
to occur. -/
theorem C220_find [DecidableEq α] (z : α) (C : Nat) (v : BVec α) (h : Ok z C v) (s : List α) (pos : Nat)
    (hp : pos ≤ v.contents.length) :
    (∃ r, find z C v s pos = pure r ∧ FirstIn (Occurs s v.contents) pos (v.contents.length + 1) r) ∧
    startsWith z C v s = pure (decide (s <+: v.contents)) := by
  obtain ⟨w, e, _, hc, _⟩ := ofPtr_eq z C s s.length (Nat.le_refl _)
  rw [List.take_length] at hc
  have hidx := index_eq h
  have hs := h.size
  have cut : ∀ i, Occurs (s.take (C + 1)) v.contents i ↔ Occurs s v.contents i := by
    intro i
    by_cases hl : s.length ≤ C + 1
    · rw [List.take_of_length_le hl]
    · refine ⟨fun ho => ?_, fun ho => ?_⟩
      · have := SV1.occurs_bound ho
        rw [List.length_take] at this
        omega
      · have := SV1.occurs_bound ho
        omega
  have cutp : s.take (C + 1) <+: v.contents ↔ s <+: v.contents := by
    have := cut 0
    unfold Occurs at this
    simpa using this
  refine ⟨?_, ?_⟩
  · obtain ⟨r, er, hr⟩ := SV1.C216_find_partial v.contents w.contents pos hp
    refine ⟨r, by unfold find; rw [e, pure_bind, er], ?_⟩
    rw [hc] at hr
    exact hr.congr cut
  · unfold startsWith
    rw [e, pure_bind, (SV1.C217_affix v.contents w.contents).1, hc]
    simp only [cutp]

example := C220_find '0' 4 ⟨2, 0, ['a', 'b', '0', '0', '0']⟩ ⟨⟨rfl, by decide, rfl⟩, by decide, rfl⟩ ['b'] 1 (by decide)

/-- C220, `find_first_of` with a set of at most one character more than the capacity.  Missing: larger sets, which are cut. -/
theorem C220_find_first_of_partial [DecidableEq α] (z : α) (C : Nat) (v : BVec α) (s : List α) (hs : s.length ≤ C + 1) (pos : Nat) :
    ∃ r, findFirstOf z C v s pos = pure r ∧ FirstIn (At (fun x => s.contains x) v.contents) pos v.contents.length r := by
  obtain ⟨w, e, _, hc, _⟩ := ofPtr_eq z C s s.length (Nat.le_refl _)
  rw [List.take_length, List.take_of_length_le hs] at hc
  refine ⟨_, by unfold findFirstOf; rw [e, pure_bind], ?_⟩
  rw [hc]
  exact (SV1.C216_first v.contents s (fun _ => true) pos).1

example := fun v => C220_find_first_of_partial 0 8 v [1, 2] (by decide) 3

/-- C220: a character of a larger set is not found. -/
theorem C220_find_first_of_violated : findFirstOf 0 1 ⟨1, 0, [3, 0]⟩ [1, 2, 3] 0 = pure none := rfl

/-- **C220**, the comparison operators: equality of the texts and their lexicographic order. -/
theorem C220_compare [DecidableEq α] {lt : α → α → Bool} (sw : StrictWeak lt) (tot : ∀ a b, a ≠ b → lt a b = true ∨ lt b a = true)
    (v w : BVec α) [Decidable (LexLt lt v.contents w.contents)] [Decidable (LexLt lt w.contents v.contents)] :
    opRel lt (fun c => c == 0) v w = pure (decide (v.contents = w.contents)) ∧
    opRel lt (fun c => c != 0) v w = pure (decide (v.contents ≠ w.contents)) ∧
    opRel lt (fun c => decide (c < 0)) v w = pure (decide (LexLt lt v.contents w.contents)) ∧
    opRel lt (fun c => decide (0 < c)) v w = pure (decide (LexLt lt w.contents v.contents)) ∧
    opRel lt (fun c => decide (c ≤ 0)) v w = pure (!decide (LexLt lt w.contents v.contents)) ∧
    opRel lt (fun c => decide (0 ≤ c)) v w = pure (!decide (LexLt lt v.contents w.contents)) := by
  obtain ⟨c, e, h1, h2, h3⟩ := SV1.C217_compare sw tot v.contents w.contents
  unfold opRel
  rw [e]
  simp only [pure_bind]
  refine ⟨?_, ?_, ?_, ?_, ?_, ?_⟩
  · congr 1
    rw [Bool.eq_iff_iff]
    simp [h1]
  · congr 1
    rw [Bool.eq_iff_iff]
    simp [h1]
  · simp only [h2]
  · simp only [h3]
  · congr 1
    rw [Bool.eq_iff_iff]
    simp [← h3]
  · congr 1
    rw [Bool.eq_iff_iff]
    simp [← h2]

example : opRel (fun a b : Nat => decide (a < b)) (fun c => decide (c < 0)) ⟨2, 0, [1, 2, 0]⟩ ⟨1, 0, [3, 0]⟩ = pure true ∧
    plus 0 4 [1, 2] ⟨2, 0, [3, 4, 0, 0, 0]⟩ = pure ⟨4, 0, [1, 2, 3, 4, 0]⟩ ∧
    plus 0 3 [1, 2] ⟨2, 0, [3, 4, 0, 0]⟩ = thrown ∧ Ok 0 4 ⟨2, 0, [3, 4, 0, 0, 0]⟩ :=
  ⟨rfl, rfl, rfl, ⟨⟨rfl, by decide, rfl⟩, by decide, rfl⟩⟩

end BStr
end Verif.Containers
