import Verif.Base
import Verif.Containers.Lists

/-
include/daw/daw_span_writer.h.  `mem` is the buffer; a writer holds the position of `m_first` in it and `m_size`.  A failed `daw_ensure` ends the
program before anything is written.
-/

namespace Verif.SpanWriter
open Cxx
variable {α : Type}

/-- `span_writer`, daw_span_writer.h 97-98. -/
structure Writer where
  first : Nat
  size : Nat
  deriving DecidableEq

/-- A value passed to `write`: arguments are passed by reference and may refer to elements of the buffer itself.
(Members of `span_writer`, daw_span_writer.h 90-215.) -/
inductive Arg (α : Type) where
  | lit (v : α)
  | ref (i : Nat)

/-- The value of an argument when it is read. (Members of `span_writer`, daw_span_writer.h 90-215.) -/
def Arg.read (mem : List α) : Arg α → Cxx α
  | .lit v => pure v
  | .ref i => rd mem i

/-- The fold expression of `write( values... )`, daw_span_writer.h 177-179, and of `write_to_span`, 38: element after element. -/
def storeArgs (mem : List α) (pos : Nat) : List (Arg α) → Cxx (List α)
  | [] => pure mem
  | a :: as => do
    let v ← a.read mem
    let mem ← wr mem pos v
    storeArgs mem (pos + 1) as

/-- `span_writer::write( values... )`, daw_span_writer.h 170-182; `write_to_span( out, values... )`, 29-41, is the same with a span for the writer. -/
def writeArgs (mem : List α) (w : Writer) (args : List (Arg α)) : Cxx (List α × Writer) :=
  if args.length = 0 then pure (mem, w)
  else if args.length ≤ w.size then do
    let mem ← storeArgs mem w.first args
    pure (mem, ⟨w.first + args.length, w.size - args.length⟩)
  else abort

/-- The loops of daw_span_writer.h 60-62, 82-84, 193-195, 209-211, from element `n` on.  The source does not overlap the buffer. -/
def copyLoop (mem : List α) (pos : Nat) (src : List α) (sz n : Nat) : Cxx (List α) :=
  if n < sz then do
    let v ← rd src n
    let mem ← wr mem (pos + n) v
    copyLoop mem pos src sz (n + 1)
  else pure mem
termination_by sz - n

/-- `span_writer::write( r )`, daw_span_writer.h 184-198; `write_to_span( out, r )`, 50-64. -/
def writeRange (mem : List α) (w : Writer) (r : List α) : Cxx (List α × Writer) :=
  if r.length ≤ w.size then do
    let mem ← copyLoop mem w.first r r.length 0
    pure (mem, ⟨w.first + r.length, w.size - r.length⟩)
  else abort

/-- `span_writer::write_ntz`, daw_span_writer.h 200-214; `write_to_span_ntz`, 73-86.  `str` is the array with its N ≥ 1 characters. -/
def writeNtz [DecidableEq α] (zero : α) (mem : List α) (w : Writer) (str : List α) : Cxx (List α × Writer) := do
  let last ← rd str (str.length - 1)
  if last ≠ zero then abort
  else
    let sz := str.length - 1
    if sz ≤ w.size then do
      let mem ← copyLoop mem w.first str sz 0
      pure (mem, ⟨w.first + sz, w.size - sz⟩)
    else abort

/-- `span_writer::remove_prefix`, daw_span_writer.h 163-168. -/
def removePrefix (w : Writer) (n : Nat) : Cxx Writer :=
  if n ≤ w.size then pure ⟨w.first + n, w.size - n⟩ else abort

/-- The constructors, daw_span_writer.h 108-117. -/
def make (mem : List α) (count : Nat) : Cxx Writer := if count ≤ mem.length then pure ⟨0, count⟩ else abort

/-- `span_writer::operator[]`, daw_span_writer.h 147-155. -/
def index (mem : List α) (w : Writer) (n : Nat) : Cxx α := if n < w.size then rd mem (w.first + n) else abort

/-! ### Writing -/

/-- The buffer with the list written at a position. (Specification, no line of the source.) -/
def overlay (mem : List α) (pos : Nat) (vs : List α) : List α := mem.take pos ++ vs ++ mem.drop (pos + vs.length)

theorem overlay_nil (mem : List α) (pos : Nat) : overlay mem pos [] = mem := by simp [overlay]

theorem overlay_length (mem vs : List α) (pos : Nat) (h : pos + vs.length ≤ mem.length) : (overlay mem pos vs).length = mem.length := by
  simp [overlay]
  omega

theorem overlay_cons (mem vs : List α) (v : α) (pos : Nat) (h : pos + (v :: vs).length ≤ mem.length) :
    overlay (mem.set pos v) (pos + 1) vs = overlay mem pos (v :: vs) := by
  simp only [List.length_cons] at h
  have ht : (mem.set pos v).take (pos + 1) = mem.take pos ++ [v] := by
    rw [List.take_add_one, List.take_set_of_le (Nat.le_refl _)]
    simp [show pos < mem.length by omega]
  have hd : (mem.set pos v).drop (pos + 1 + vs.length) = mem.drop (pos + 1 + vs.length) := List.drop_set_of_lt (by omega)
  unfold overlay
  rw [ht, hd, List.length_cons, show pos + (vs.length + 1) = pos + 1 + vs.length by omega]
  simp

theorem overlay_get (mem vs : List α) (pos k : Nat) (h : pos + vs.length ≤ mem.length) :
    (overlay mem pos vs)[k]? = if pos ≤ k ∧ k < pos + vs.length then vs[k - pos]? else mem[k]? := by
  have hl : (mem.take pos).length = pos := by rw [List.length_take]; omega
  unfold overlay
  split
  · rename_i hk
    rw [List.append_assoc, List.getElem?_append_right (by omega), hl, List.getElem?_append_left (by omega)]
  · rename_i hk
    by_cases h1 : k < pos
    · rw [List.append_assoc, List.getElem?_append_left (by omega), List.getElem?_take, if_pos h1]
    · rw [List.getElem?_append_right (by rw [List.length_append, hl]; omega), List.length_append, hl, List.getElem?_drop]
      congr 1
      omega

theorem copyLoop_ok (src : List α) (sz : Nat) (hsz : sz ≤ src.length) (k : Nat) : ∀ (n : Nat) (mem : List α) (pos : Nat), n + k = sz →
    pos + sz ≤ mem.length → copyLoop mem pos src sz n = pure (overlay mem (pos + n) ((src.take sz).drop n)) := by
  induction k with
  | zero =>
    intro n mem pos hn hpos
    rw [copyLoop, if_neg (by omega), List.drop_of_length_le (by rw [List.length_take]; omega), overlay_nil]
  | succ k ih =>
    intro n mem pos hn hpos
    have hlt : n < src.length := by omega
    rw [copyLoop, if_pos (by omega), rd_eq hlt]
    simp only [pure_bind]
    rw [wr_eq (by omega)]
    simp only [pure_bind]
    rw [ih (n + 1) _ pos (by omega) (by rw [List.length_set]; omega), pure_inj]
    have hlt' : n < (src.take sz).length := by rw [List.length_take]; omega
    rw [List.drop_eq_getElem_cons hlt', List.getElem_take, ← Nat.add_assoc, overlay_cons]
    rw [List.length_cons, List.length_drop, List.length_take]
    omega

theorem storeArgs_ok (args : List (Arg α)) : ∀ (vs mem : List α) (pos : Nat), vs.length = args.length → pos + args.length ≤ mem.length →
    (∀ (k : Nat) (a : Arg α) (v : α), args[k]? = some a → vs[k]? = some v →
      a = .lit v ∨ ∃ i, a = .ref i ∧ mem[i]? = some v ∧ ¬(pos ≤ i ∧ i < pos + k)) →
    storeArgs mem pos args = pure (overlay mem pos vs) := by
  induction args with
  | nil =>
    intro vs mem pos hl _ _
    have : vs = [] := List.length_eq_zero_iff.1 (by simpa using hl)
    subst this
    rw [overlay_nil]
    rfl
  | cons a args ih =>
    intro vs mem pos hl hpos h
    rcases vs with _ | ⟨v, vs⟩
    · simp at hl
    simp only [List.length_cons] at hl hpos
    have hr : a.read mem = pure v := by
      rcases h 0 a v rfl rfl with rfl | ⟨i, rfl, hi, _⟩
      · rfl
      · exact rd_some hi
    rw [storeArgs, hr]
    simp only [pure_bind]
    rw [wr_eq (by omega)]
    simp only [pure_bind]
    rw [ih vs (mem.set pos v) (pos + 1) (by omega) (by rw [List.length_set]; omega), overlay_cons _ _ _ _ (by simp only [List.length_cons]; omega)]
    intro k b u hb hu
    rcases h (k + 1) b u (by simpa using hb) (by simpa using hu) with h | ⟨i, rfl, hi, hk⟩
    · exact Or.inl h
    · refine Or.inr ⟨i, rfl, ?_, by omega⟩
      rw [List.getElem?_set]
      rw [if_neg (by rintro rfl; omega)]
      exact hi

/-! ### Sequences of writes -/

/-- One operation on a writer. (Members of `span_writer`, daw_span_writer.h 90-215.) -/
inductive Op (α : Type) where
  | values (vs : List α)
  | range (r : List α)
  | literal (str : List α)
  | skip (n : Nat)

/-- Its effect. (Members of `span_writer`, daw_span_writer.h 90-215.) -/
def Op.run [DecidableEq α] (zero : α) (s : List α × Writer) : Op α → Cxx (List α × Writer)
  | .values vs => writeArgs s.1 s.2 (vs.map .lit)
  | .range r => writeRange s.1 s.2 r
  | .literal str => writeNtz zero s.1 s.2 (str ++ [zero])
  | .skip n => do
    let w ← removePrefix s.2 n
    pure (s.1, w)

/-- What it writes: `none` leaves the element alone. (Specification, no line of the source.) -/
def Op.out : Op α → List (Option α)
  | .values vs => vs.map some
  | .range r => r.map some
  | .literal str => str.map some
  | .skip n => List.replicate n none

/-- Members of `span_writer`, daw_span_writer.h 90-215. -/
def run [DecidableEq α] (zero : α) : List (Op α) → List α × Writer → Cxx (List α × Writer)
  | [], s => pure s
  | o :: os, s => do
    let s ← o.run zero s
    run zero os s

/-- The buffer after elements are written from a position on. (Specification, no line of the source.) -/
def Written (mem mem' : List α) (pos : Nat) (out : List (Option α)) : Prop :=
  mem'.length = mem.length ∧ ∀ k : Nat, mem'[k]? = match (if pos ≤ k then out[k - pos]? else none) with
    | some (some v) => some v
    | _ => mem[k]?

theorem written_overlay (mem vs : List α) (pos : Nat) (h : pos + vs.length ≤ mem.length) : Written mem (overlay mem pos vs) pos (vs.map some) := by
  refine ⟨overlay_length mem vs pos h, fun k => ?_⟩
  rw [overlay_get mem vs pos k h]
  by_cases h1 : pos ≤ k
  · rw [if_pos h1, List.getElem?_map]
    by_cases h2 : k < pos + vs.length
    · rw [if_pos ⟨h1, h2⟩, List.getElem?_eq_getElem (by omega)]
      rfl
    · rw [if_neg (by omega), List.getElem?_eq_none (by omega : vs.length ≤ k - pos)]
      rfl
  · rw [if_neg (by omega), if_neg h1]

theorem op_ok [DecidableEq α] (zero : α) (o : Op α) (mem : List α) (w : Writer) (hw : w.first + w.size ≤ mem.length) :
    (o.out.length ≤ w.size → ∃ mem', o.run zero (mem, w) = pure (mem', ⟨w.first + o.out.length, w.size - o.out.length⟩) ∧ Written mem mem' w.first o.out) ∧
    (w.size < o.out.length → o.run zero (mem, w) = abort) := by
  cases o with
  | values vs =>
    constructor
    · intro h
      simp only [Op.out, List.length_map] at h
      refine ⟨overlay mem w.first vs, ?_, written_overlay mem vs _ (by omega)⟩
      simp only [Op.run, writeArgs, Op.out, List.length_map]
      rw [if_pos h]
      split
      · rename_i h0
        rw [List.length_eq_zero_iff.1 h0, overlay_nil]
        rfl
      · rw [storeArgs_ok (vs.map .lit) vs mem w.first (by simp) (by simp; omega)]
        · rfl
        · intro k a v ha hv
          rw [List.getElem?_map, hv] at ha
          left
          simpa using ha.symm
    · intro h
      simp only [Op.out, List.length_map] at h
      simp only [Op.run, writeArgs, List.length_map]
      rw [if_neg (by omega), if_neg (by omega)]
  | range r =>
    constructor
    · intro h
      simp only [Op.out, List.length_map] at h
      refine ⟨overlay mem w.first r, ?_, written_overlay mem r _ (by omega)⟩
      simp only [Op.run, writeRange, Op.out, List.length_map]
      rw [if_pos h, copyLoop_ok r r.length (Nat.le_refl _) r.length 0 mem w.first (by omega) (by omega)]
      simp
    · intro h
      simp only [Op.out, List.length_map] at h
      simp only [Op.run, writeRange]
      rw [if_neg (by omega)]
  | literal str =>
    have hl : rd (str ++ [zero]) ((str ++ [zero]).length - 1) = pure zero := rd_some (by simp)
    have hn : (str ++ [zero]).length - 1 = str.length := by simp
    constructor
    · intro h
      simp only [Op.out, List.length_map] at h
      refine ⟨overlay mem w.first str, ?_, written_overlay mem str _ (by omega)⟩
      simp only [Op.run, writeNtz, Op.out, List.length_map]
      rw [hl]
      simp only [pure_bind]
      rw [if_neg (by simp), hn, if_pos h, copyLoop_ok (str ++ [zero]) str.length (by simp) str.length 0 mem w.first (by omega) (by omega)]
      simp
    · intro h
      simp only [Op.out, List.length_map] at h
      simp only [Op.run, writeNtz]
      rw [hl]
      simp only [pure_bind]
      rw [if_neg (by simp), hn, if_neg (by omega)]
  | skip n =>
    constructor
    · intro h
      simp only [Op.out, List.length_replicate] at h
      refine ⟨mem, ?_, rfl, fun k => ?_⟩
      · simp only [Op.run, removePrefix, Op.out, List.length_replicate]
        rw [if_pos h]
        rfl
      · simp only [Op.out, List.getElem?_replicate]
        split
        · rename_i v hv
          split at hv
          · split at hv <;> simp at hv
          · cases hv
        · rfl
    · intro h
      simp only [Op.out, List.length_replicate] at h
      simp only [Op.run, removePrefix]
      rw [if_neg (by omega)]
      rfl

theorem written_append {mem mem' mem'' : List α} {pos : Nat} {a b : List (Option α)} (h : Written mem mem' pos a) (h' : Written mem' mem'' (pos + a.length) b) :
    Written mem mem'' pos (a ++ b) := by
  refine ⟨h'.1.trans h.1, fun k => ?_⟩
  rw [h'.2 k, h.2 k]
  by_cases h1 : pos ≤ k
  · rw [if_pos h1, if_pos h1]
    by_cases h2 : k < pos + a.length
    · rw [if_neg (by omega), List.getElem?_append_left (by omega)]
    · rw [if_pos (by omega), List.getElem?_append_right (by omega), List.getElem?_eq_none (by omega : a.length ≤ k - pos),
        show k - (pos + a.length) = k - pos - a.length by omega]
  · rw [if_neg h1, if_neg h1, if_neg (by omega)]

theorem run_ok [DecidableEq α] (zero : α) (ops : List (Op α)) : ∀ (mem : List α) (w : Writer), w.first + w.size ≤ mem.length →
    ((ops.flatMap Op.out).length ≤ w.size → ∃ mem', run zero ops (mem, w) =
        pure (mem', ⟨w.first + (ops.flatMap Op.out).length, w.size - (ops.flatMap Op.out).length⟩) ∧ Written mem mem' w.first (ops.flatMap Op.out)) ∧
      (w.size < (ops.flatMap Op.out).length → run zero ops (mem, w) = abort) := by
  induction ops with
  | nil =>
    intro mem w hw
    refine ⟨fun _ => ⟨mem, by simp [run], rfl, fun k => ?_⟩, fun h => by simp at h⟩
    simp
  | cons o os ih =>
    intro mem w hw
    obtain ⟨h1, h2⟩ := op_ok zero o mem w hw
    simp only [List.flatMap_cons, List.length_append]
    by_cases ho : o.out.length ≤ w.size
    · obtain ⟨mem', e, hm⟩ := h1 ho
      obtain ⟨h3, h4⟩ := ih mem' ⟨w.first + o.out.length, w.size - o.out.length⟩ (by rw [hm.1]; simp only []; omega)
      simp only [] at h3 h4
      constructor
      · intro h
        obtain ⟨mem'', e', hm'⟩ := h3 (by omega)
        refine ⟨mem'', ?_, written_append hm hm'⟩
        rw [run, e]
        simp only [pure_bind]
        rw [e', pure_inj, Prod.mk.injEq, Writer.mk.injEq]
        exact ⟨rfl, by omega, by omega⟩
      · intro h
        rw [run, e]
        simp only [pure_bind]
        exact h4 (by omega)
    · constructor
      · intro h; omega
      · intro _
        rw [run, h2 (by omega)]
        rfl

/-- Writes through a writer for the first `count` elements of a buffer: when everything fits, the elements are stored one after the other from the
start, those that are skipped or behind the last keep their value, and the writer denotes what is left; when it does not, the program ends. -/
theorem C71_writes [DecidableEq α] (zero : α) (ops : List (Op α)) (mem : List α) (count : Nat) (w : Writer) (hw : make mem count = pure w) :
    ((ops.flatMap Op.out).length ≤ count → ∃ mem', run zero ops (mem, w) =
        pure (mem', ⟨(ops.flatMap Op.out).length, count - (ops.flatMap Op.out).length⟩) ∧ mem'.length = mem.length ∧
        ∀ k : Nat, mem'[k]? = match (ops.flatMap Op.out)[k]? with
          | some (some v) => some v
          | _ => mem[k]?) ∧
      (count < (ops.flatMap Op.out).length → run zero ops (mem, w) = abort) := by
  unfold make at hw
  split at hw
  · rename_i hc
    cases pure_inj.1 hw
    obtain ⟨h1, h2⟩ := run_ok zero ops mem ⟨0, count⟩ (by simpa using hc)
    refine ⟨fun h => ?_, h2⟩
    obtain ⟨mem', e, hm⟩ := h1 h
    refine ⟨mem', by simpa using e, hm.1, fun k => ?_⟩
    have := hm.2 k
    simpa using this
  · exact absurd hw (abort_ne_pure _)

example : ([Op.values [1, 2], Op.skip 1, Op.literal [7]] : List (Op Nat)).flatMap Op.out = [some 1, some 2, none, some 7] ∧
    make [9, 9, 9, 9, 9] 5 = pure ⟨0, 5⟩ := by decide +kernel

/-- Arguments that refer to elements of the buffer are read before or after an earlier argument of the same call is stored; they have their value when
the elements they refer to are not stored to before. -/
theorem C71_arguments_partial (args : List (Arg α)) (vs mem : List α) (w : Writer) (hw : w.first + w.size ≤ mem.length) (hl : vs.length = args.length)
    (hfit : args.length ≤ w.size)
    (h : ∀ (k : Nat) (a : Arg α) (v : α), args[k]? = some a → vs[k]? = some v →
      a = .lit v ∨ ∃ i, a = .ref i ∧ mem[i]? = some v ∧ ¬(w.first ≤ i ∧ i < w.first + k)) :
    ∃ mem', writeArgs mem w args = pure (mem', ⟨w.first + args.length, w.size - args.length⟩) ∧ mem'.length = mem.length ∧
      ∀ k : Nat, mem'[k]? = if w.first ≤ k ∧ k < w.first + vs.length then vs[k - w.first]? else mem[k]? := by
  refine ⟨overlay mem w.first vs, ?_, overlay_length _ _ _ (by omega), fun k => overlay_get _ _ _ _ (by omega)⟩
  unfold writeArgs
  rw [if_pos hfit]
  split
  · rename_i h0
    have : vs = [] := List.length_eq_zero_iff.1 (by omega)
    subst this
    rw [overlay_nil, h0]
    rfl
  · rw [storeArgs_ok args vs mem w.first hl (by omega) h]
    rfl

/-- `w.write( buf[1], buf[0] )` at the start of `buf` stores `buf[1]` twice. -/
theorem C71_alias_violated : writeArgs [1, 2] ⟨0, 2⟩ [.ref 1, .ref 0] = pure ([2, 2], ⟨2, 0⟩) := by decide +kernel

/-- `operator[]` reads the elements that are left, and ends the program for all others. -/
theorem C71_index (mem : List α) (w : Writer) (hw : w.first + w.size ≤ mem.length) (n : Nat) :
    (n < w.size → ∃ v, index mem w n = pure v ∧ mem[w.first + n]? = some v) ∧ (w.size ≤ n → index mem w n = abort) := by
  unfold index
  constructor
  · intro h
    have hlt : w.first + n < mem.length := by omega
    rw [if_pos h, rd_eq hlt]
    exact ⟨_, rfl, List.getElem?_eq_getElem hlt⟩
  · intro h
    rw [if_neg (by omega)]

example := C71_index [1, 2, 3, 4, 5] ⟨1, 3⟩ (by decide) 2

end Verif.SpanWriter
