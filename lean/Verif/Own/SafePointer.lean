import Verif.Own.Base

/-
`daw::memory::safe_pointer<T>`, include/daw/daw_safe_pointer.h, with its checks on.
-/

namespace Verif.Own.SafePointer
open Cxx

/-- A `safe_pointer` that is not null, daw_safe_pointer.h 43-45.  With `ranged` it was made from an array or a pointer and a size
(109-120): `pos` is the distance of `m_pointer` from the start of the array and `size` the length of `m_range`.  Without, it was
made from a single pointer (100-107) and `m_range` is empty with a null `data( )`. -/
structure SP where
  ranged : Bool
  pos : Int
  size : Nat
  destroyed : Bool
  deriving DecidableEq

/-- The constructor from a pointer and a size, daw_safe_pointer.h 109-120. -/
def ofRange (size : Nat) : SP := ⟨true, 0, size, false⟩

/-- The constructor from a single pointer, daw_safe_pointer.h 100-107. -/
def ofPointer : SP := ⟨false, 0, 0, false⟩

/-- `pointer_index( )`, daw_safe_pointer.h 47-54: without a range the distance from the null pointer is taken. -/
def index (p : SP) : Cxx Int := if p.ranged then pure (p.pos % 2 ^ 64) else ub

/-- The conversion to `bool`, daw_safe_pointer.h 144-146, of a pointer that is not null. -/
def ok (p : SP) : Bool := !p.destroyed

/-- `can_add( n )` for `n` not negative, daw_safe_pointer.h 77-78. -/
def canAddPos (p : SP) (n : Int) : Cxx Bool := do
  let i ← index p
  pure (decide (n ≤ ((p.size : Int) - i) % 2 ^ 64))

/-- `can_sub( n )` for `n` not negative, daw_safe_pointer.h 85. -/
def canSubPos (p : SP) (n : Int) : Cxx Bool := do
  let i ← index p
  pure (decide (n ≤ i))

/-- `can_add`, daw_safe_pointer.h 73-79: negating the least value overflows. -/
def canAdd (p : SP) (n : Int) : Cxx Bool := if n < 0 then (if n = -2 ^ 63 then ub else canSubPos p (-n)) else canAddPos p n

/-- `can_sub`, daw_safe_pointer.h 81-86. -/
def canSub (p : SP) (n : Int) : Cxx Bool := if n < 0 then (if n = -2 ^ 63 then ub else canAddPos p (-n)) else canSubPos p n

/-- `operator+=` for `n` not negative, daw_safe_pointer.h 205-212. -/
def addPos (p : SP) (n : Int) : Cxx SP := do
  if ← canAdd p n then pure { p with pos := p.pos + n } else abort

/-- `operator-=` for `n` not negative, daw_safe_pointer.h 221-228. -/
def subPos (p : SP) (n : Int) : Cxx SP := do
  if ← canSub p n then pure { p with pos := p.pos - n } else abort

/-- `operator+=`, daw_safe_pointer.h 205-212, and `operator+`, 214-219. -/
def add (p : SP) (n : Int) : Cxx SP :=
  if n < 0 then do
    if ← canAdd p n then subPos p (-n) else abort
  else addPos p n

/-- `operator-=`, daw_safe_pointer.h 221-228, and `operator-`, 230-235. -/
def sub (p : SP) (n : Int) : Cxx SP :=
  if n < 0 then do
    if ← canSub p n then addPos p (-n) else abort
  else subPos p n

/-- `operator++`, daw_safe_pointer.h 179-190. -/
def inc (p : SP) : Cxx SP := do
  if ok p then
    let i ← index p
    if i < p.size then pure { p with pos := p.pos + 1 } else abort
  else abort

/-- `operator--`, daw_safe_pointer.h 192-203. -/
def dec (p : SP) : Cxx SP := do
  if ok p then
    let i ← index p
    if 0 < i then pure { p with pos := p.pos - 1 } else abort
  else abort

/-- `operator*`, daw_safe_pointer.h 169-172, on the array `m`: `m_range.front( )`, undefined for an empty span. -/
def deref (m : List Int) (p : SP) : Cxx Int :=
  if ok p then (if p.ranged then rd m 0 else ub) else abort

/-- `operator[]`, daw_safe_pointer.h 253-258. -/
def at_ (m : List Int) (p : SP) (n : Int) : Cxx Int := do
  let t ← add p n
  deref m t

/-- `operator-` of two pointers into the same array, daw_safe_pointer.h 242-245 with `pointer_in_range`, 56-60: the right one may
not be one past the end. -/
def diff (p q : SP) : Cxx Int :=
  if 0 ≤ q.pos ∧ q.pos < p.size then pure (p.pos - q.pos) else abort

/-- The pointer is inside its array or one past its end; arrays have less than 2^63 elements.
(Specification, no line of the source.) -/
def Valid (p : SP) : Prop := p.ranged = true ∧ 0 ≤ p.pos ∧ p.pos ≤ p.size ∧ (p.size : Int) < 2 ^ 63

theorem index_ok {p : SP} (h : Valid p) : index p = pure p.pos := by
  obtain ⟨h1, h2, h3, h4⟩ := h
  unfold index
  rw [if_pos h1, Int.emod_eq_of_lt h2 (by omega)]

theorem canAddPos_ok {p : SP} (h : Valid p) (n : Int) : canAddPos p n = pure (decide (p.pos + n ≤ p.size)) := by
  unfold canAddPos
  rw [index_ok h, pure_bind]
  obtain ⟨h1, h2, h3, h4⟩ := h
  rw [Int.emod_eq_of_lt (by omega) (by omega)]
  congr 1
  apply decide_eq_decide.2
  omega

theorem canSubPos_ok {p : SP} (h : Valid p) (n : Int) : canSubPos p n = pure (decide (0 ≤ p.pos - n)) := by
  unfold canSubPos
  rw [index_ok h, pure_bind]
  congr 1
  apply decide_eq_decide.2
  omega

theorem addPos_ok {p : SP} (h : Valid p) (n : Int) (hn : 0 ≤ n) :
    addPos p n = if p.pos + n ≤ p.size then pure { p with pos := p.pos + n } else abort := by
  unfold addPos canAdd
  rw [if_neg (by omega), canAddPos_ok h, pure_bind]
  by_cases g : p.pos + n ≤ p.size
  · rw [if_pos (decide_eq_true g), if_pos g]
  · rw [if_neg (by rw [decide_eq_true_iff]; exact g), if_neg g]

theorem subPos_ok {p : SP} (h : Valid p) (n : Int) (hn : 0 ≤ n) :
    subPos p n = if 0 ≤ p.pos - n then pure { p with pos := p.pos - n } else abort := by
  unfold subPos canSub
  rw [if_neg (by omega), canSubPos_ok h, pure_bind]
  by_cases g : 0 ≤ p.pos - n
  · rw [if_pos (decide_eq_true g), if_pos g]
  · rw [if_neg (by rw [decide_eq_true_iff]; exact g), if_neg g]

/-- C113, as far as it holds: `p += n` moves a pointer into an array by `n` if that stays inside the array or one past its end, and
stops the program otherwise.  Missing: `n` the least value, see `C113_least_violated`. -/
theorem C113_add_partial (p : SP) (h : Valid p) (n : Int) (hn : -2 ^ 63 < n) :
    add p n = if 0 ≤ p.pos + n ∧ p.pos + n ≤ p.size then pure { p with pos := p.pos + n } else abort := by
  unfold add
  by_cases g : n < 0
  · rw [if_pos g]
    unfold canAdd
    rw [if_pos g, if_neg (by omega), canSubPos_ok h, pure_bind, subPos_ok h _ (by omega)]
    obtain ⟨h1, h2, h3, h4⟩ := h
    by_cases k : 0 ≤ p.pos + n
    · rw [if_pos (decide_eq_true (by omega)), if_pos (by omega), if_pos (by omega)]
      congr 2; omega
    · rw [if_neg (by rw [decide_eq_true_iff]; omega), if_neg (by omega)]
  · rw [if_neg g, addPos_ok h n (by omega)]
    obtain ⟨h1, h2, h3, h4⟩ := h
    by_cases k : p.pos + n ≤ p.size
    · rw [if_pos k, if_pos (by omega)]
    · rw [if_neg k, if_neg (by omega)]

/-- C113, as far as it holds: `p -= n`, the same. -/
theorem C113_sub_partial (p : SP) (h : Valid p) (n : Int) (hn : -2 ^ 63 < n) :
    sub p n = if 0 ≤ p.pos - n ∧ p.pos - n ≤ p.size then pure { p with pos := p.pos - n } else abort := by
  unfold sub
  by_cases g : n < 0
  · rw [if_pos g]
    unfold canSub
    rw [if_pos g, if_neg (by omega), canAddPos_ok h, pure_bind, addPos_ok h _ (by omega)]
    obtain ⟨h1, h2, h3, h4⟩ := h
    by_cases k : p.pos - n ≤ p.size
    · rw [if_pos (decide_eq_true (by omega)), if_pos (by omega), if_pos (by omega)]
      congr 2
    · rw [if_neg (by rw [decide_eq_true_iff]; omega), if_neg (by omega)]
  · rw [if_neg g, subPos_ok h n (by omega)]
    obtain ⟨h1, h2, h3, h4⟩ := h
    by_cases k : 0 ≤ p.pos - n
    · rw [if_pos k, if_pos (by omega)]
    · rw [if_neg k, if_neg (by omega)]

/-- C113: `++p` and `--p` move by one or stop the program. -/
theorem C113_inc_dec (p : SP) (h : Valid p) (hd : p.destroyed = false) :
    inc p = (if p.pos + 1 ≤ p.size then pure { p with pos := p.pos + 1 } else abort) ∧
    dec p = (if 0 ≤ p.pos - 1 then pure { p with pos := p.pos - 1 } else abort) := by
  have hk : ok p = true := by unfold ok; rw [hd]; rfl
  unfold inc dec
  rw [if_pos hk, if_pos hk, index_ok h, pure_bind, pure_bind]
  constructor
  · by_cases k : p.pos + 1 ≤ p.size
    · rw [if_pos (show p.pos < p.size by omega), if_pos k]
    · rw [if_neg (show ¬ p.pos < p.size by omega), if_neg k]
  · by_cases k : 0 ≤ p.pos - 1
    · rw [if_pos (show 0 < p.pos by omega), if_pos k]
    · rw [if_neg (show ¬ 0 < p.pos by omega), if_neg k]

/-- The moves of a program. (Members of `safe_pointer`, daw_safe_pointer.h 32-295.) -/
inductive Op where
  | inc
  | dec
  | add (n : Int)
  | sub (n : Int)

/-- One move. (Members of `safe_pointer`, daw_safe_pointer.h 32-295.) -/
def step (p : SP) : Op → Cxx SP
  | .inc => inc p
  | .dec => dec p
  | .add n => add p n
  | .sub n => sub p n

/-- Moves one after the other. (Members of `safe_pointer`, daw_safe_pointer.h 32-295.) -/
def run : List Op → SP → Cxx SP
  | [], p => pure p
  | o :: os, p => do
    let p ← step p o
    run os p

/-- The distance the move asks for. (Specification, no line of the source.) -/
def Op.by : Op → Int
  | .inc => 1
  | .dec => -1
  | .add n => n
  | .sub n => -n

/-- The distance of the move is not the least value. (Specification, no line of the source.) -/
def Op.sane : Op → Prop
  | .add n => -2 ^ 63 < n
  | .sub n => -2 ^ 63 < n
  | _ => True

/-- C113, as far as it holds: a sequence of moves from the start of an array either stops the program or ends at the sum of the
moves, which lies inside the array or one past its end; it is never undefined. -/
theorem C113_history_partial (size : Nat) (hs : (size : Int) < 2 ^ 63) (os : List Op) (hos : ∀ o ∈ os, o.sane) :
    run os (ofRange size) = abort ∨
    ∃ p, run os (ofRange size) = pure p ∧ p.pos = (os.map Op.by).sum ∧ 0 ≤ p.pos ∧ p.pos ≤ size ∧ p.size = size := by
  have key : ∀ (os : List Op) (p : SP), (∀ o ∈ os, o.sane) → Valid p → p.destroyed = false → p.size = size →
      run os p = abort ∨ ∃ q, run os p = pure q ∧ q.pos = p.pos + (os.map Op.by).sum ∧ 0 ≤ q.pos ∧ q.pos ≤ size ∧ q.size = size := by
    intro os
    induction os with
    | nil =>
      intro p _ h _ hsz
      refine Or.inr ⟨p, rfl, by simp, h.2.1, ?_, hsz⟩
      rw [← hsz]; exact h.2.2.1
    | cons o os ih =>
      intro p hos h hd hsz
      have hst : step p o = abort ∨ ∃ q, step p o = pure q ∧ Valid q ∧ q.destroyed = false ∧ q.size = size ∧ q.pos = p.pos + o.by := by
        have hm : ∀ k, 0 ≤ p.pos + k → p.pos + k ≤ p.size → Valid { p with pos := p.pos + k } := fun k a b => ⟨h.1, a, b, h.2.2.2⟩
        have ho := hos o List.mem_cons_self
        cases o with
        | inc =>
          rw [step, (C113_inc_dec p h hd).1]
          split
          · exact Or.inr ⟨_, rfl, hm 1 (by have := h.2.1; omega) (by assumption), hd, hsz, rfl⟩
          · exact Or.inl rfl
        | dec =>
          rw [step, (C113_inc_dec p h hd).2]
          split
          · exact Or.inr ⟨_, rfl, hm (-1) (by omega) (by have := h.2.2.1; omega), hd, hsz, rfl⟩
          · exact Or.inl rfl
        | add n =>
          rw [step, C113_add_partial p h n ho]
          split
          · rename_i g; exact Or.inr ⟨_, rfl, hm n g.1 g.2, hd, hsz, rfl⟩
          · exact Or.inl rfl
        | sub n =>
          rw [step, C113_sub_partial p h n ho]
          split
          · rename_i g; exact Or.inr ⟨_, rfl, hm (-n) (by omega) (by omega), hd, hsz, rfl⟩
          · exact Or.inl rfl
      rw [run]
      rcases hst with e | ⟨q, e, hq, hqd, hqs, hqp⟩
      · rw [e]; exact Or.inl rfl
      · rw [e, pure_bind]
        rcases ih q (fun o ho => hos o (List.mem_cons_of_mem _ ho)) hq hqd hqs with e' | ⟨r, e', h1, h2, h3, h4⟩
        · exact Or.inl e'
        · refine Or.inr ⟨r, e', ?_, h2, h3, h4⟩
          rw [h1, hqp, List.map_cons, List.sum_cons]; omega
  rcases key os (ofRange size) hos ⟨rfl, Int.le_refl 0, by unfold ofRange; dsimp only; omega, hs⟩ rfl rfl with e | ⟨p, e, h1, h2, h3, h4⟩
  · exact Or.inl e
  · refine Or.inr ⟨p, e, ?_, h2, h3, h4⟩
    rw [h1]; unfold ofRange; dsimp only; omega

example : run [.add 3, .dec, .sub 2, .inc] (ofRange 3) = pure ⟨true, 1, 3, false⟩ ∧ run [.add 3, .inc] (ofRange 3) = abort := by
  constructor <;> decide +kernel

/-- C113 does not hold for the least distance: the check itself overflows. -/
theorem C113_least_violated (p : SP) : add p (-2 ^ 63) = ub ∧ sub p (-2 ^ 63) = ub := by
  unfold add sub canAdd canSub
  rw [if_pos (by decide), if_pos (by decide), if_pos rfl]
  exact ⟨rfl, rfl⟩

/-- C113 does not hold for a pointer made from a single pointer: moving it is undefined, and so is reading it. -/
theorem C113_single_violated (m : List Int) : inc ofPointer = ub ∧ add ofPointer 0 = ub ∧ deref m ofPointer = ub := ⟨rfl, rfl, rfl⟩

/-- C113: a pointer that is destroyed is neither read nor moved by one, the program is ended; moving it by a number of elements is not checked. -/
theorem C113_destroyed (m : List Int) (p : SP) (hd : p.destroyed = true) :
    deref m p = abort ∧ inc p = abort ∧ dec p = abort ∧ (Valid p → p.pos = 0 → add p 0 = pure p) := by
  refine ⟨?_, ?_, ?_, fun h h0 => ?_⟩
  · unfold deref ok; rw [hd]; rfl
  · unfold inc ok; rw [hd]; rfl
  · unfold dec ok; rw [hd]; rfl
  · have := h.2.2.1
    rw [C113_add_partial p h 0 (by decide), if_pos (by omega), Int.add_zero]

example : deref [7, 8] ⟨true, 0, 2, true⟩ = abort ∧ Valid ⟨true, 0, 2, true⟩ := ⟨rfl, by unfold Valid; simp⟩

/-- C114, as far as it holds: the pointer at the start of the array reads its first element.  Missing: every other position, see
`C114_index_violated`. -/
theorem C114_deref_partial (m : List Int) (p : SP) (h : Valid p) (hd : p.destroyed = false) (h0 : p.pos = 0) (a : Int)
    (ha : m[0]? = some a) : deref m p = pure a ∧ at_ m p 0 = pure a := by
  have hr : deref m p = pure a := by
    unfold deref ok
    rw [hd, h.1]
    exact rd_some ha
  refine ⟨hr, ?_⟩
  unfold at_
  have := h.2.2.1
  rw [C113_add_partial p h 0 (by decide), if_pos (by omega), pure_bind]
  unfold deref at hr ⊢
  exact hr

example : at_ [7, 8] (ofRange 2) 0 = pure 7 := by decide +kernel

/-- C114 does not hold: `p[n]` and `*( p + n )` read the first element for every `n` inside the array and also one past its end. -/
theorem C114_index_violated (m : List Int) (p : SP) (h : Valid p) (hd : p.destroyed = false) (n : Int)
    (hn : -2 ^ 63 < n) (h1 : 0 ≤ p.pos + n) (h2 : p.pos + n ≤ p.size) (a : Int) (ha : m[0]? = some a) : at_ m p n = pure a := by
  unfold at_
  rw [C113_add_partial p h n hn, if_pos ⟨h1, h2⟩, pure_bind]
  unfold deref ok
  dsimp only
  rw [hd, h.1]
  exact rd_some ha

/-- C114: an element past the end is read without a stop. -/
theorem C114_past_end_violated : at_ [7, 8] (ofRange 2) 2 = pure 7 ∧ at_ [7, 8] (ofRange 2) 1 = pure 7 := by
  constructor <;> decide +kernel

/-- C115, as far as it holds: the difference of two pointers into an array is the difference of their positions, if the right one
is not the end.  Missing: the end on the right, see `C115_end_violated`. -/
theorem C115_diff_partial (p q : SP) (hq : Valid q) (hs : q.size = p.size) (hlt : q.pos < q.size) :
    diff p q = pure (p.pos - q.pos) := by
  unfold diff
  obtain ⟨h1, h2, h3, h4⟩ := hq
  rw [if_pos ⟨h2, by omega⟩]

example : diff ⟨true, 3, 3, false⟩ ⟨true, 1, 3, false⟩ = pure 2 := by decide +kernel

/-- C115 does not hold for the end of the array on the right: `p - end` stops the program. -/
theorem C115_end_violated (p q : SP) (hs : q.size = p.size) (hend : q.pos = q.size) : diff p q = abort := by
  unfold diff
  rw [if_neg (by omega)]

end Verif.Own.SafePointer
