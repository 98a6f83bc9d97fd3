import Verif.Containers.Views

/-
include/daw/daw_span.h.
-/

namespace Verif.Views
open Cxx
variable {α : Type}

/-- `span`, daw_span.h 51-52 and 234-235: `m_first` is a position of the array `mem` the span is of, or null. The lines cited below are those of the span of `const`
elements, with those of the other one in brackets. -/
structure Span where
  first : Option Nat
  size : Nat
  deriving DecidableEq

/-- The pointer, which may not be null. (Rule of C++ or its library, no line of the source.) -/
def nonNull : Option Nat → Cxx Nat
  | none => ub
  | some p => pure p

/-- `m_size - n` in `size_t`. (Rule of C++ or its library, no line of the source.) -/
def subSize (a n : Nat) : Nat := (a + 2 ^ 64 - n % 2 ^ 64) % 2 ^ 64

/-- The pointer `p + n`; a null pointer stays null for `n = 0`. (Rule of C++ or its library, no line of the source.) -/
def spanAdd (mem : List α) (p : Option Nat) (n : Nat) : Cxx (Option Nat) :=
  match p with
  | none => if n = 0 then pure none else ub
  | some p => do
    let q ← ptrAdd mem p n
    pure (some q)

/-- The constructor from pointer and count, daw_span.h 59-61 (251-253). -/
def Span.make (ptr : Option Nat) (count : Nat) : Span := ⟨ptr, if ptr = none then 0 else count⟩

/-- The constructor from two pointers into the same array, daw_span.h 63-67 (255-260). -/
def Span.makeRange (first last : Nat) : Span := ⟨some first, if (last : Int) - first > 0 then last - first else 0⟩

/-- `empty`, daw_span.h 148-150 (409-411). -/
def Span.empty (s : Span) : Bool := s.first = none ∨ s.size = 0

/-- `operator[]`, daw_span.h 117-119 (356-362). -/
def Span.index (mem : List α) (s : Span) (pos : Nat) : Cxx α := do
  let p ← nonNull s.first
  rd mem (p + pos)

/-- `at`, daw_span.h 121-126 (364-375). -/
def Span.atPos (mem : List α) (s : Span) (pos : Nat) : Cxx α :=
  if pos < s.size then s.index mem pos else thrown

/-- `front`, daw_span.h 128-130 (377-383). -/
def Span.front (mem : List α) (s : Span) : Cxx α := s.index mem 0

/-- `back`, daw_span.h 132-134 (385-391), for sizes up to half of the range of `size_t`; before the array, which `m_size` zero leads to, the pointer is undefined
if the span starts there. -/
def Span.back (mem : List α) (s : Span) : Cxx α := do
  let p ← nonNull s.first
  if s.size = 0 then do
    let q ← ptrSub p 1
    rd mem q
  else rd mem (p + (s.size - 1))

/-- `remove_prefix( n )`, daw_span.h 152-155 (413-416). -/
def Span.removePrefix (mem : List α) (s : Span) (n : Nat) : Cxx Span := do
  let first ← spanAdd mem s.first n
  pure ⟨first, subSize s.size n⟩

/-- `remove_suffix( n )`, daw_span.h 161-163 (422-424). -/
def Span.removeSuffix (s : Span) (n : Nat) : Span := { s with size := subSize s.size n }

/-- `subspan`, daw_span.h 205-213 (466-474). That of a `const` span of elements that are not, 476-484, does not compile. -/
def Span.subspan (mem : List α) (s : Span) (pos count : Nat) : Cxx Span :=
  if pos ≤ s.size then do
    let count := min count (s.size - pos)
    let first ← spanAdd mem s.first pos
    pure (.make first count)
  else thrown

/-- `pop_front( )`, daw_span.h 169-174 (430-435). -/
def Span.popFront (mem : List α) (s : Span) : Cxx (α × Span) := do
  let result ← s.front mem
  let s ← s.removePrefix mem 1
  pure (result, s)

/-- `pop_front( n )`, daw_span.h 176-180 (437-441). -/
def Span.popFrontN (mem : List α) (s : Span) (n : Nat) : Cxx (Span × Span) := do
  let result ← s.subspan mem 0 n
  let s ← s.removePrefix mem n
  pure (result, s)

/-- `pop_back( )`, daw_span.h 182-187 (443-448). -/
def Span.popBack (mem : List α) (s : Span) : Cxx (α × Span) := do
  let result ← s.back mem
  pure (result, s.removeSuffix 1)

/-- `pop_back( n )`, daw_span.h 189-193 (450-454). -/
def Span.popBackN (mem : List α) (s : Span) (n : Nat) : Cxx (Span × Span) := do
  let result ← s.subspan mem (subSize s.size n) n
  pure (result, s.removeSuffix n)

/-- `pop( value )`, daw_span.h 456-464: that of the span of `const` elements does not compile. -/
def Span.pop (mem : List α) (s : Span) : Cxx (Option α × Span) :=
  if s.empty then pure (none, s)
  else do
    let value ← s.back mem
    pure (some value, s.removeSuffix 1)

/-- A loop with two `std::reverse_iterator`s whose bases are `rbegin` and `rend`. (Rule of C++ or its library, no line of the source.) -/
def revLoop (mem : List α) (rbegin rend : Nat) : Cxx (List α) :=
  if rbegin = rend then pure []
  else
    match rbegin with
    | 0 => ub
    | p + 1 => do
      let a ← rd mem p
      let rest ← revLoop mem p rend
      pure (a :: rest)

/-- A loop from `rbegin` to `rend`, daw_span.h 101-103 and 109-111 (332-338, 344-350), or from `crbegin` to `crend` of a span of elements that are not `const`, 340-342 and 352-354. -/
def Span.reverse (mem : List α) (s : Span) : Cxx (List α) := do
  let p ← nonNull s.first
  revLoop mem (p + s.size) p

/-- A loop from `crbegin` to `crend` of a span of `const` elements, daw_span.h 105-107 and 113-115. -/
def Span.creverse (mem : List α) (s : Span) : Cxx (List α) := do
  let p ← nonNull s.first
  revLoop mem (p + s.size) (p + s.size)

/-- What a program does with a span. (Specification, no line of the source.) -/
inductive SpanOp where
  | removePrefix (n : Nat)
  | removeSuffix (n : Nat)
  | popFront
  | popFrontN (n : Nat)
  | popBack
  | popBackN (n : Nat)
  | pop
  | sub (pos count : Nat)

/-- The elements of a span. (Specification, no line of the source.) -/
def Span.elems (mem : List α) (s : Span) : List α :=
  match s.first with
  | none => []
  | some p => (mem.drop p).take s.size

/-- One operation, with the elements it returns; `sub` puts the part in place of the span. (Specification, no line of the source.) -/
def Span.step (mem : List α) (s : Span) : SpanOp → Cxx (List α × Span)
  | .removePrefix n => do let s ← s.removePrefix mem n; pure ([], s)
  | .removeSuffix n => pure ([], s.removeSuffix n)
  | .popFront => do let (a, s) ← s.popFront mem; pure ([a], s)
  | .popFrontN n => do let (r, s) ← s.popFrontN mem n; pure (r.elems mem, s)
  | .popBack => do let (a, s) ← s.popBack mem; pure ([a], s)
  | .popBackN n => do let (r, s) ← s.popBackN mem n; pure (r.elems mem, s)
  | .pop => do let (a, s) ← s.pop mem; pure (a.toList, s)
  | .sub pos count => do let s ← s.subspan mem pos count; pure ([], s)

/-- The operation on a list; `none` if the program may not ask for it. (Specification, no line of the source.) -/
def listStep (l : List α) : SpanOp → Option (List α × List α)
  | .removePrefix n => if n ≤ l.length then some ([], l.drop n) else none
  | .removeSuffix n => if n ≤ l.length then some ([], l.take (l.length - n)) else none
  | .popFront => match l with
    | [] => none
    | a :: l => some ([a], l)
  | .popFrontN n => if n ≤ l.length then some (l.take n, l.drop n) else none
  | .popBack => match l.getLast? with
    | none => none
    | some a => some ([a], l.dropLast)
  | .popBackN n => if n ≤ l.length then some (l.drop (l.length - n), l.take (l.length - n)) else none
  | .pop => some (l.getLast?.toList, l.dropLast)
  | .sub pos count => if pos ≤ l.length then some ([], (l.drop pos).take count) else none

/-- The span is of the elements from `p` to `p + size` of the array. (Specification, no line of the source.) -/
def Span.Ok (mem : List α) (s : Span) : Prop :=
  mem.length < 2 ^ 63 ∧ match s.first with
    | none => s.size = 0
    | some p => p + s.size ≤ mem.length

theorem subSize_of_le {a n : Nat} (h : n ≤ a) (ha : a < 2 ^ 63) : subSize a n = a - n := by
  unfold subSize
  rw [Nat.mod_eq_of_lt (a := n) (by omega), show a + 2 ^ 64 - n = (a - n) + 2 ^ 64 by omega, Nat.add_mod_right]
  exact Nat.mod_eq_of_lt (by omega)

theorem elems_length {mem : List α} {s : Span} (h : s.Ok mem) : (s.elems mem).length = s.size := by
  obtain ⟨_, h⟩ := h
  unfold Span.elems
  cases e : s.first with
  | none => rw [e] at h; exact h.symm
  | some p => rw [e] at h; simp only [List.length_take, List.length_drop]; simp only [] at h; omega

theorem spanAdd_ok {mem : List α} {s : Span} (h : s.Ok mem) {n : Nat} (hn : n ≤ s.size) :
    spanAdd mem s.first n = pure (s.first.map (· + n)) := by
  obtain ⟨_, h⟩ := h
  cases e : s.first with
  | none => rw [e] at h; simp only [] at h; simp only [spanAdd]; rw [if_pos (by omega)]; rfl
  | some p =>
    rw [e] at h; simp only [] at h
    simp only [spanAdd]
    rw [ptrAdd_ok (by omega)]; rfl

theorem part_ok {mem : List α} {s : Span} (h : s.Ok mem) {n m : Nat} (hn : n + m ≤ s.size) :
    Span.Ok mem ⟨s.first.map (· + n), m⟩ ∧ Span.elems mem ⟨s.first.map (· + n), m⟩ = ((s.elems mem).drop n).take m := by
  obtain ⟨h0, h⟩ := h
  cases e : s.first with
  | none =>
    rw [e] at h; simp only [] at h
    refine ⟨⟨h0, by simp only [Option.map_none]; omega⟩, ?_⟩
    unfold Span.elems; rw [e]; simp
  | some p =>
    rw [e] at h; simp only [] at h
    refine ⟨⟨h0, by simp only [Option.map_some]; omega⟩, ?_⟩
    unfold Span.elems
    rw [e]
    simp only [Option.map_some]
    rw [List.drop_take, List.drop_drop, List.take_take]
    congr 1
    omega

theorem index_ok {mem : List α} {s : Span} (h : s.Ok mem) {pos : Nat} {a : α} (ha : (s.elems mem)[pos]? = some a) : s.index mem pos = pure a := by
  have hl : pos < s.size := by
    rw [← elems_length h]
    rcases Nat.lt_or_ge pos (s.elems mem).length with g | g
    · exact g
    · rw [List.getElem?_eq_none g] at ha; cases ha
  unfold Span.index
  unfold Span.elems at ha
  cases e : s.first with
  | none => rw [e] at ha; simp at ha
  | some p =>
    rw [e] at ha
    simp only [] at ha
    rw [List.getElem?_take_of_lt hl, List.getElem?_drop] at ha
    exact rd_some ha

theorem back_ok {mem : List α} {s : Span} (h : s.Ok mem) {a : α} (ha : (s.elems mem).getLast? = some a) : s.back mem = pure a := by
  have hl := elems_length h
  rw [List.getLast?_eq_getElem?, hl] at ha
  have hi := index_ok h ha
  have hpos : s.size ≠ 0 := by
    intro e
    rw [List.getElem?_eq_none (by omega)] at ha; cases ha
  unfold Span.back
  unfold Span.index at hi
  cases e : s.first with
  | none => rw [e] at hi; exact absurd hi (ub_ne_pure _)
  | some p =>
    rw [e] at hi
    simp only [nonNull, pure_bind] at hi ⊢
    rw [if_neg hpos]; exact hi

theorem span_step {mem : List α} {s : Span} (h : s.Ok mem) (op : SpanOp) {out l' : List α} (hz : listStep (s.elems mem) op = some (out, l')) :
    ∃ s', s.step mem op = pure (out, s') ∧ s'.Ok mem ∧ s'.elems mem = l' := by
  have hl := elems_length h
  have hsz : s.size < 2 ^ 63 := by
    obtain ⟨h0, h⟩ := h
    cases e : s.first with
    | none => rw [e] at h; simp only [] at h; omega
    | some p => rw [e] at h; simp only [] at h; omega
  have hfull : (s.elems mem).take s.size = s.elems mem := List.take_of_length_le (by omega)
  have hpre : ∀ n, n ≤ s.size → s.removePrefix mem n = pure ⟨s.first.map (· + n), s.size - n⟩ ∧
      Span.Ok mem ⟨s.first.map (· + n), s.size - n⟩ ∧ Span.elems mem ⟨s.first.map (· + n), s.size - n⟩ = (s.elems mem).drop n := by
    intro n hn
    obtain ⟨h1, h2⟩ := part_ok h (n := n) (m := s.size - n) (by omega)
    refine ⟨?_, h1, ?_⟩
    · unfold Span.removePrefix
      rw [spanAdd_ok h hn, pure_bind, subSize_of_le hn hsz]
    · rw [h2]
      exact List.take_of_length_le (by rw [List.length_drop]; omega)
  have hsuf : ∀ n, n ≤ s.size → Span.Ok mem (s.removeSuffix n) ∧ (s.removeSuffix n).elems mem = (s.elems mem).take ((s.elems mem).length - n) := by
    intro n hn
    obtain ⟨h1, h2⟩ := part_ok h (n := 0) (m := s.size - n) (by omega)
    have e : (⟨s.first.map (· + 0), s.size - n⟩ : Span) = s.removeSuffix n := by
      unfold Span.removeSuffix
      rw [subSize_of_le hn hsz]
      cases s.first <;> rfl
    rw [e] at h1 h2
    exact ⟨h1, by rw [h2, hl]; simp⟩
  have hsub : ∀ pos count, pos ≤ s.size → ∃ r, s.subspan mem pos count = pure r ∧ r.Ok mem ∧ r.elems mem = ((s.elems mem).drop pos).take count := by
    intro pos count hp
    obtain ⟨h1, h2⟩ := part_ok h (n := pos) (m := min count (s.size - pos)) (by omega)
    have e : Span.make (s.first.map (· + pos)) (min count (s.size - pos)) = ⟨s.first.map (· + pos), min count (s.size - pos)⟩ := by
      unfold Span.make
      cases e : s.first with
      | some p => simp
      | none =>
        obtain ⟨_, h⟩ := h
        rw [e] at h; simp only [] at h
        simp [h]
    refine ⟨_, ?_, h1, ?_⟩
    · unfold Span.subspan
      rw [if_pos hp]
      simp only []
      rw [spanAdd_ok h hp, pure_bind, e]
    · rw [h2]
      rcases Nat.le_total count (s.size - pos) with g | g
      · rw [Nat.min_eq_left g]
      · rw [Nat.min_eq_right g, List.take_of_length_le (by rw [List.length_drop]; omega), List.take_of_length_le (by rw [List.length_drop]; omega)]
  cases op with
  | removePrefix n =>
    simp only [listStep] at hz
    split at hz
    · rename_i g
      injection hz with hz; injection hz with ho hz; subst ho hz
      obtain ⟨e, h1, h2⟩ := hpre n (by omega)
      exact ⟨_, by simp only [Span.step]; rw [e]; rfl, h1, h2⟩
    · cases hz
  | removeSuffix n =>
    simp only [listStep] at hz
    split at hz
    · rename_i g
      injection hz with hz; injection hz with ho hz; subst ho hz
      obtain ⟨h1, h2⟩ := hsuf n (by omega)
      exact ⟨_, rfl, h1, h2⟩
    · cases hz
  | popFront =>
    cases el : s.elems mem with
    | nil => rw [el] at hz; cases hz
    | cons a l =>
      rw [el] at hz
      injection hz with hz; injection hz with ho hz; subst ho hz
      have h1 : 1 ≤ s.size := by rw [el] at hl; simp at hl; omega
      obtain ⟨e, h1, h2⟩ := hpre 1 h1
      refine ⟨_, ?_, h1, by rw [h2, el]; rfl⟩
      simp only [Span.step, Span.popFront, Span.front]
      rw [index_ok h (a := a) (by rw [el]; rfl), pure_bind, e]
      rfl
  | popFrontN n =>
    simp only [listStep] at hz
    split at hz
    · rename_i g
      injection hz with hz; injection hz with ho hz; subst ho hz
      obtain ⟨e, h1, h2⟩ := hpre n (by omega)
      obtain ⟨r, e', _, h4⟩ := hsub 0 n (by omega)
      refine ⟨_, ?_, h1, h2⟩
      simp only [Span.step, Span.popFrontN]
      rw [e', pure_bind, e]
      simp only [pure_bind]
      rw [h4, List.drop_zero]
    · cases hz
  | popBack =>
    simp only [listStep] at hz
    split at hz
    · cases hz
    · rename_i a ha
      injection hz with hz; injection hz with ho hz; subst ho hz
      have hne : s.elems mem ≠ [] := by intro e; rw [e] at ha; cases ha
      have hpos : 0 < s.size := by rw [← hl]; exact List.length_pos_iff.mpr hne
      obtain ⟨h1, h2⟩ := hsuf 1 (by omega)
      refine ⟨_, ?_, h1, by rw [h2, List.dropLast_eq_take]⟩
      simp only [Span.step, Span.popBack]
      rw [back_ok h ha]
      rfl
  | popBackN n =>
    simp only [listStep] at hz
    split at hz
    · rename_i g
      injection hz with hz; injection hz with ho hz; subst ho hz
      obtain ⟨h1, h2⟩ := hsuf n (by omega)
      obtain ⟨r, e', _, h4⟩ := hsub (s.size - n) n (by omega)
      refine ⟨_, ?_, h1, h2⟩
      simp only [Span.step, Span.popBackN]
      rw [subSize_of_le (by omega) hsz, e']
      simp only [pure_bind]
      rw [h4, hl, List.take_of_length_le (by rw [List.length_drop]; omega)]
    · cases hz
  | pop =>
    injection hz with hz; injection hz with ho hz; subst ho hz
    by_cases hs : s.size = 0
    · have el : s.elems mem = [] := List.length_eq_zero_iff.mp (by omega)
      refine ⟨s, ?_, h, by rw [el]; rfl⟩
      simp only [Span.step, Span.pop]
      rw [if_pos (by simp [Span.empty, hs]), el]
      rfl
    · have hf : s.first ≠ none := by
        intro e
        obtain ⟨_, h⟩ := h
        rw [e] at h; exact hs h
      cases ha : (s.elems mem).getLast? with
      | none =>
        rw [List.getLast?_eq_none_iff] at ha
        rw [ha] at hl; exact absurd hl.symm hs
      | some a =>
        obtain ⟨h1, h2⟩ := hsuf 1 (by omega)
        refine ⟨_, ?_, h1, by rw [h2, List.dropLast_eq_take]⟩
        simp only [Span.step, Span.pop]
        rw [if_neg (by simp [Span.empty, hs, hf]), back_ok h ha]
        rfl
  | sub pos count =>
    simp only [listStep] at hz
    split at hz
    · rename_i g
      injection hz with hz; injection hz with ho hz; subst ho hz
      obtain ⟨r, e', h3, h4⟩ := hsub pos count (by omega)
      exact ⟨r, by simp only [Span.step]; rw [e']; rfl, h3, h4⟩
    · cases hz

/-- A program on a span. (Specification, no line of the source.) -/
def Span.run (mem : List α) : List SpanOp → Span → Cxx (List (List α) × Span)
  | [], s => pure ([], s)
  | op :: ops, s => do
    let (out, s) ← s.step mem op
    let (outs, s) ← Span.run mem ops s
    pure (out :: outs, s)

/-- The program on a list. (Specification, no line of the source.) -/
def listRun : List SpanOp → List α → Option (List (List α) × List α)
  | [], l => some ([], l)
  | op :: ops, l => do
    let (out, l) ← listStep l op
    let (outs, l) ← listRun ops l
    some (out :: outs, l)

theorem revLoop_ok (mem : List α) (p n : Nat) (h : p + n ≤ mem.length) : revLoop mem (p + n) p = pure ((mem.drop p).take n).reverse := by
  induction n with
  | zero => rw [Nat.add_zero, revLoop.eq_def, if_pos rfl]; simp
  | succ n ih =>
    have hlt : p + n < mem.length := by omega
    rw [← Nat.add_assoc, revLoop.eq_def, if_neg (by omega)]
    show (rd mem (p + n) >>= fun a => revLoop mem (p + n) p >>= fun rest => pure (a :: rest) : Cxx _) = _
    rw [rd_eq hlt, pure_bind, ih (by omega), pure_bind, List.take_add_one, List.reverse_append]
    congr 1
    simp [List.getElem?_drop, hlt]

/-- A span of the elements `l` of an array, as long as it is not asked for more elements than it has, is a list that elements are taken from at both ends: all
histories of `remove_prefix`, `remove_suffix`, `pop_front`, `pop_back`, `pop` and `subspan` give and leave the elements that they give and leave in the list; `at` gives the
elements and throws where there are none; `empty` tells if there are none; a loop from `rbegin` to `rend` sees them in reverse. -/
theorem C168_span_partial {mem : List α} {s : Span} (h : s.Ok mem) (ops : List SpanOp) {outs : List (List α)} {l : List α}
    (hr : listRun ops (s.elems mem) = some (outs, l)) :
    ∃ s', Span.run mem ops s = pure (outs, s') ∧ s'.elems mem = l ∧ s'.size = l.length ∧ s'.empty = l.isEmpty ∧
      (∀ pos, s'.atPos mem pos = (l[pos]?).elim thrown pure) ∧
      (∀ a, l.head? = some a → s'.front mem = pure a) ∧ (∀ a, l.getLast? = some a → s'.back mem = pure a) ∧
      (s'.first ≠ none → s'.reverse mem = pure l.reverse) := by
  have key : ∀ (ops : List SpanOp) (s : Span) (outs : List (List α)), s.Ok mem → listRun ops (s.elems mem) = some (outs, l) →
      ∃ s', Span.run mem ops s = pure (outs, s') ∧ s'.Ok mem ∧ s'.elems mem = l := by
    intro ops
    induction ops with
    | nil =>
      intro s outs h e
      injection e with e; injection e with e1 e2
      subst e1
      exact ⟨s, rfl, h, e2⟩
    | cons op ops ih =>
      intro s outs h e
      unfold listRun at e
      cases e1 : listStep (s.elems mem) op with
      | none => rw [e1] at e; cases e
      | some p =>
        obtain ⟨out, l1⟩ := p
        rw [e1] at e
        cases e2 : listRun ops l1 with
        | none => simp [e2] at e
        | some q =>
          obtain ⟨outs', l2⟩ := q
          simp only [e2, Option.bind_eq_bind, Option.bind_some, Option.some.injEq, Prod.mk.injEq] at e
          obtain ⟨rfl, rfl⟩ := e
          obtain ⟨s1, r1, h1, h1'⟩ := span_step h op e1
          obtain ⟨s2, r2, h2, h2'⟩ := ih s1 outs' h1 (by rw [h1']; exact e2)
          refine ⟨s2, ?_, h2, h2'⟩
          unfold Span.run
          rw [r1]
          simp only [pure_bind]
          rw [r2]
          rfl
  obtain ⟨s', r, h1, h2⟩ := key ops s outs h hr
  subst h2
  have hl := elems_length h1
  refine ⟨s', r, rfl, hl.symm, ?_, ?_, ?_, ?_, ?_⟩
  · unfold Span.empty
    cases e : s'.first with
    | none => simp [Span.elems, e]
    | some p =>
      rw [← hl]
      cases s'.elems mem <;> simp
  · intro pos
    unfold Span.atPos
    by_cases hp : pos < s'.size
    · rw [if_pos hp]
      have : (s'.elems mem)[pos]? = some (s'.elems mem)[pos] := List.getElem?_eq_getElem (by omega)
      rw [index_ok h1 this, this]
      rfl
    · rw [if_neg hp, List.getElem?_eq_none (by omega)]
      rfl
  · intro a ha
    exact index_ok h1 (by rw [← List.head?_eq_getElem?]; exact ha)
  · intro a ha
    exact back_ok h1 ha
  · intro hf
    unfold Span.reverse Span.elems
    cases e : s'.first with
    | none => exact absurd e hf
    | some p =>
      obtain ⟨_, h1⟩ := h1
      rw [e] at h1
      exact revLoop_ok mem p s'.size h1

example : Span.Ok [1, 2, 3, 4, 5, 6] (.make (some 1) 4) ∧
    listRun [.popFrontN 1, .pop, .sub 1 9] (Span.elems [1, 2, 3, 4, 5, 6] (.make (some 1) 4)) = some ([[2], [5], []], [4]) :=
  ⟨⟨by decide, by show 1 + 4 ≤ 6; omega⟩, by decide +kernel⟩

/-- `remove_prefix` and `remove_suffix` do not look at the size: one element too much and the span has 2^64 - 1 elements, of which `at` gives those that are not in
it. `pop_front( n )` for `n` above the size gives all elements but then does the same. -/
theorem C168_span_violated : ∃ (mem : List Nat) (s : Span), s.Ok mem ∧ s.elems mem = [2] ∧
    s.removeSuffix 2 = ⟨some 1, 2 ^ 64 - 1⟩ ∧ (s.removeSuffix 2).atPos mem 1 = pure 3 ∧
    s.popFrontN mem 2 = pure (⟨some 1, 1⟩, ⟨some 3, 2 ^ 64 - 1⟩) :=
  ⟨[1, 2, 3], ⟨some 1, 1⟩, ⟨by decide, by show 1 + 1 ≤ 3; omega⟩, by decide, by decide +kernel, by decide +kernel, by decide +kernel⟩

/-- `subspan` from behind the end is refused by an exception. -/
theorem C168_subspan_outside (mem : List α) (s : Span) (pos count : Nat) (h : s.size < pos) : s.subspan mem pos count = thrown := by
  unfold Span.subspan
  rw [if_neg (by omega)]

example := C168_subspan_outside [1, 2, 3] (.make (some 1) 2) 3 1 (by decide)

/-- A loop from `crbegin` to `crend` of a span of `const` elements sees no elements at all. -/
theorem C169_crend_violated (mem : List α) (p size : Nat) : (Span.make (some p) size).creverse mem = pure [] := by
  unfold Span.creverse Span.make
  simp only [nonNull, pure_bind]
  rw [revLoop.eq_def, if_pos rfl]

/-- The constructors: a null pointer gives an empty span, two pointers give the elements between them, and no elements if they are in the wrong order. -/
theorem C169_make_partial (mem : List α) (count : Nat) (first last : Nat) (hm : mem.length < 2 ^ 63) (hf : first ≤ mem.length) (hl : last ≤ mem.length) :
    (Span.make none count).empty = true ∧ (Span.makeRange first last).Ok mem ∧
    (Span.makeRange first last).elems mem = (mem.take last).drop first := by
  refine ⟨by simp [Span.empty, Span.make], ⟨hm, ?_⟩, ?_⟩
  · simp only [Span.makeRange]
    split <;> omega
  · simp only [Span.makeRange, Span.elems]
    rw [List.drop_take]
    split
    · rfl
    · rw [show last - first = 0 by omega]

example : (Span.makeRange 3 1).Ok [1, 2, 3, 4] := (C169_make_partial [1, 2, 3, 4] 0 3 1 (by decide) (by decide) (by decide)).2.1

end Verif.Views
