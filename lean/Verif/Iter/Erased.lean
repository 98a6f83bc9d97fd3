import Verif.Iter.Base

/-
`InputIterator`, include/daw/iterator/InputIterator.h: an iterator of any type behind a pointer to a heap object and a table
of functions for that type.

An object is the pointer `m_iterator` and the type whose table `m_vtable` points to.  The heap is a list of cells; a cell is
a live iterator with its type and value, or has been deleted.  Statements about objects that do not exist, or that create one
that exists, are not programs; they have no effect here.
-/

namespace Verif.Iter.Erased
open Cxx

variable {V : Type}

/-- `m_iterator` and `m_vtable`, InputIterator.h 108-109; the table is the type it was made for, 61-94. -/
structure It where
  ptr : Option Nat
  ty : Nat
  deriving DecidableEq, Repr

/-- The heap and the objects of the program. (Specification, no line of the source.) -/
structure St (V : Type) where
  heap : List (Option (Nat × V))
  var : Nat → Option It

/-- The variables with one of them changed. (Specification, no line of the source.) -/
def upd {β : Type} (f : Nat → β) (i : Nat) (x : β) : Nat → β := fun j => if j = i then x else f j

/-- `as_orig<It>( p )`, InputIterator.h 34-37: reading a cell as a live iterator of the given type. -/
def load (heap : List (Option (Nat × V))) (p : Option Nat) (ty : Nat) : Cxx V :=
  match p with
  | none => ub
  | some a =>
    match heap[a]? with
    | some (some (t, v)) => if t = ty then pure v else ub
    | _ => ub

/-- `op_del`, InputIterator.h 64-67. -/
def del (heap : List (Option (Nat × V))) (p : Option Nat) (ty : Nat) : Cxx (List (Option (Nat × V))) :=
  match p with
  | none => pure heap
  | some a => do
    let _ ← load heap (some a) ty
    pure (heap.set a none)

/-- `op_clone`, InputIterator.h 88-92: the new heap; the address is the length of the old one. -/
def clone (heap : List (Option (Nat × V))) (p : Option Nat) (ty : Nat) : Cxx (List (Option (Nat × V))) := do
  let v ← load heap p ty
  pure (heap ++ [some (ty, v)])

/-- The statements. (Specification, no line of the source.) -/
inductive Op (V : Type)
  | construct (i ty : Nat) (v : V)
  | copy (i j : Nat)
  | assign (i j : Nat)
  | move (i j : Nat)
  | moveAssign (i j : Nat)
  | destroy (i : Nat)
  | incr (i : Nat)

/-- The constructor from an iterator, InputIterator.h 124-130, with `create`, 114-118. -/
def construct (st : St V) (i ty : Nat) (v : V) : Cxx (St V) :=
  pure ⟨st.heap ++ [some (ty, v)], upd st.var i (some ⟨some st.heap.length, ty⟩)⟩

/-- The copy constructor, InputIterator.h 132-134. -/
def copyC (st : St V) (i : Nat) (other : It) : Cxx (St V) := do
  let heap ← clone st.heap other.ptr other.ty
  pure ⟨heap, upd st.var i (some ⟨some st.heap.length, other.ty⟩)⟩

/-- The copy assignment, InputIterator.h 136-145, of another object: the old iterator is deleted by the new table. -/
def assign (st : St V) (i : Nat) (self rhs : It) : Cxx (St V) := do
  let heap ← clone st.heap rhs.ptr rhs.ty
  let tmp := self.ptr
  let heap ← del heap tmp rhs.ty
  pure ⟨heap, upd st.var i (some ⟨some st.heap.length, rhs.ty⟩)⟩

/-- The move constructor, InputIterator.h 147-149. -/
def moveC (st : St V) (i j : Nat) (other : It) : Cxx (St V) :=
  pure ⟨st.heap, upd (upd st.var j (some ⟨none, other.ty⟩)) i (some other)⟩

/-- The move assignment, InputIterator.h 151-157, of another object. -/
def moveAssign (st : St V) (i j : Nat) (rhs : It) : Cxx (St V) :=
  pure ⟨st.heap, upd (upd st.var j (some ⟨none, rhs.ty⟩)) i (some rhs)⟩

/-- The destructor, InputIterator.h 159-161. -/
def destroy (st : St V) (i : Nat) (self : It) : Cxx (St V) := do
  let heap ← del st.heap self.ptr self.ty
  pure ⟨heap, upd st.var i none⟩

/-- `operator++`, InputIterator.h 173-176, with `op_inc`, 76-79. -/
def incr (next : Nat → V → V) (st : St V) (self : It) : Cxx (St V) := do
  let v ← load st.heap self.ptr self.ty
  match self.ptr with
  | some a => pure ⟨st.heap.set a (some (self.ty, next self.ty v)), st.var⟩
  | none => ub

/-- One statement; the self assignments do nothing, InputIterator.h 137 and 152. -/
def step (next : Nat → V → V) (st : St V) : Op V → Cxx (St V)
  | .construct i ty v => match st.var i with
    | none => construct st i ty v
    | some _ => pure st
  | .copy i j => match st.var i, st.var j with
    | none, some o => copyC st i o
    | _, _ => pure st
  | .assign i j => match st.var i, st.var j with
    | some s, some r => if i ≠ j then assign st i s r else pure st
    | _, _ => pure st
  | .move i j => match st.var i, st.var j with
    | none, some o => moveC st i j o
    | _, _ => pure st
  | .moveAssign i j => match st.var i, st.var j with
    | some _, some r => if i ≠ j then moveAssign st i j r else pure st
    | _, _ => pure st
  | .destroy i => match st.var i with
    | some s => destroy st i s
    | none => pure st
  | .incr i => match st.var i with
    | some s => incr next st s
    | none => pure st

/-- `operator==`, InputIterator.h 191-197, with `op_equal`, 68-71. -/
def equal [DecidableEq V] (st : St V) (a b : It) : Cxx Bool :=
  if a.ty = b.ty then do
    let x ← load st.heap a.ptr a.ty
    let y ← load st.heap b.ptr a.ty
    pure (decide (x = y))
  else abort

/-- Statements one after the other. (Specification, no line of the source.) -/
def run (next : Nat → V → V) (st : St V) : List (Op V) → Cxx (St V)
  | [] => pure st
  | o :: os => do
    let st ← step next st o
    run next st os

/-! ### Specification: plain values -/

/-- What the objects should be: nothing, moved from, or an iterator of some type and value.
(Specification, no line of the source.) -/
abbrev Abs (V : Type) := Nat → Option (Option (Nat × V))

/-- A statement on plain values. (Specification, no line of the source.) -/
def astep (next : Nat → V → V) (s : Abs V) : Op V → Abs V
  | .construct i ty v => match s i with
    | none => upd s i (some (some (ty, v)))
    | some _ => s
  | .copy i j => match s i, s j with
    | none, some x => upd s i (some x)
    | _, _ => s
  | .assign i j => match s i, s j with
    | some _, some x => upd s i (some x)
    | _, _ => s
  | .move i j => match s i, s j with
    | none, some x => upd (upd s j (some none)) i (some x)
    | _, _ => s
  | .moveAssign i j => match s i, s j with
    | some _, some x => if i = j then s else upd (upd s j (some none)) i (some x)
    | _, _ => s
  | .destroy i => upd s i none
  | .incr i => match s i with
    | some (some (ty, v)) => upd s i (some (some (ty, next ty v)))
    | _ => s

/-- The statements that are covered: objects that were moved from are only destroyed, assigned to or moved; the target of a
copy assignment was moved from or holds an iterator of the same type as the source, and the target of a move assignment was
moved from. (Specification, no line of the source.) -/
def Fine (s : Abs V) : Op V → Prop
  | .construct _ _ _ => True
  | .copy _ j => s j ≠ some none
  | .assign i j => i = j ∨ s j ≠ some none ∧ ∀ t v u w, s i = some (some (t, v)) → s j = some (some (u, w)) → t = u
  | .move _ _ => True
  | .moveAssign i j => i = j ∨ s j = none ∨ s i = none ∨ s i = some none
  | .destroy _ => True
  | .incr i => s i ≠ some none

/-- Every statement is covered at the time it runs. (Specification, no line of the source.) -/
def AllFine (next : Nat → V → V) (s : Abs V) : List (Op V) → Prop
  | [] => True
  | o :: os => Fine s o ∧ AllFine next (astep next s o) os

/-- The value an object holds. (Specification, no line of the source.) -/
def abs (st : St V) : Abs V := fun i => (st.var i).map fun it => it.ptr.bind fun a => (st.heap[a]?).join

/-- Every object that is not moved from has a live cell of its own, of the type its table is for, and every live cell belongs
to an object. (Specification, no line of the source.) -/
structure Inv (st : St V) : Prop where
  typed : ∀ i a t, st.var i = some ⟨some a, t⟩ → ∃ v, st.heap[a]? = some (some (t, v))
  single : ∀ i j a t u, st.var i = some ⟨some a, t⟩ → st.var j = some ⟨some a, u⟩ → i = j
  owned : ∀ a c, st.heap[a]? = some (some c) → ∃ i t, st.var i = some ⟨some a, t⟩

theorem upd_same {β : Type} (f : Nat → β) (i : Nat) (x : β) : upd f i x i = x := if_pos rfl

theorem upd_other {β : Type} (f : Nat → β) {i j : Nat} (x : β) (h : j ≠ i) : upd f i x j = f j := if_neg h

theorem load_ok {heap : List (Option (Nat × V))} {a t : Nat} {v : V} (h : heap[a]? = some (some (t, v))) :
    load heap (some a) t = pure v := by
  unfold load
  simp only [h, if_true]

theorem abs_none {st : St V} {i : Nat} : abs st i = none ↔ st.var i = none := by
  unfold abs; cases st.var i <;> simp

theorem abs_null {st : St V} {i t : Nat} (h : st.var i = some ⟨none, t⟩) : abs st i = some none := by
  unfold abs; rw [h]; rfl

theorem abs_val {st : St V} {i a t : Nat} {v : V} (h : st.var i = some ⟨some a, t⟩) (hv : st.heap[a]? = some (some (t, v))) :
    abs st i = some (some (t, v)) := by
  unfold abs; rw [h]; simp [hv]

/-- A new object with a new cell. -/
theorem inv_new {st : St V} (h : Inv st) {i t : Nat} {v : V} (hn : ∀ t', st.var i = some t' → t'.ptr = none) :
    Inv ⟨st.heap ++ [some (t, v)], upd st.var i (some ⟨some st.heap.length, t⟩)⟩ ∧
    abs ⟨st.heap ++ [some (t, v)], upd st.var i (some ⟨some st.heap.length, t⟩)⟩ = upd (abs st) i (some (some (t, v))) := by
  have hold : ∀ k a u, st.var k = some ⟨some a, u⟩ → a < st.heap.length := by
    intro k a u hk
    obtain ⟨w, hw⟩ := h.typed k a u hk
    exact (List.getElem?_eq_some_iff.1 hw).1
  refine ⟨⟨?_, ?_, ?_⟩, ?_⟩
  · intro k a u hk
    by_cases e : k = i
    · rw [e] at hk
      dsimp only at hk
      rw [upd_same] at hk
      injection hk with hk
      injection hk with h1 h2
      injection h1 with h1
      exact ⟨v, by rw [← h1, ← h2]; simp⟩
    · dsimp only at hk
      rw [upd_other _ _ e] at hk
      obtain ⟨w, hw⟩ := h.typed k a u hk
      exact ⟨w, by rw [List.getElem?_append_left (hold k a u hk)]; exact hw⟩
  · intro k l a t1 t2 hk hl
    dsimp only at hk hl
    by_cases e1 : k = i <;> by_cases e2 : l = i
    · rw [e1, e2]
    · rw [e1, upd_same] at hk
      rw [upd_other _ _ e2] at hl
      injection hk with hk
      injection hk with h1 _
      injection h1 with h1
      have := hold l a t2 hl
      omega
    · rw [e2, upd_same] at hl
      rw [upd_other _ _ e1] at hk
      injection hl with hl
      injection hl with h1 _
      injection h1 with h1
      have := hold k a t1 hk
      omega
    · rw [upd_other _ _ e1] at hk
      rw [upd_other _ _ e2] at hl
      exact h.single k l a t1 t2 hk hl
  · intro a c hc
    by_cases hlt : a < st.heap.length
    · rw [List.getElem?_append_left hlt] at hc
      obtain ⟨k, u, hk⟩ := h.owned a c hc
      have hki : k ≠ i := by
        intro e
        have := hn _ (e ▸ hk)
        cases this
      exact ⟨k, u, by dsimp only; rw [upd_other _ _ hki]; exact hk⟩
    · have hl := (List.getElem?_eq_some_iff.1 hc).1
      rw [List.length_append] at hl
      simp only [List.length_cons, List.length_nil] at hl
      exact ⟨i, t, by dsimp only; rw [upd_same, show a = st.heap.length by omega]⟩
  · funext k
    by_cases e : k = i
    · rw [e, upd_same]
      exact abs_val (t := t) (a := st.heap.length) (by dsimp only; rw [upd_same]) (by simp)
    · rw [upd_other _ _ e]
      unfold abs
      dsimp only
      rw [upd_other _ _ e]
      cases hk : st.var k with
      | none => rfl
      | some it =>
        obtain ⟨p, u⟩ := it
        cases p with
        | none => rfl
        | some a =>
          simp only [Option.map_some, Option.bind_some]
          rw [List.getElem?_append_left (hold k a u hk)]

/-- The destruction of an object. -/
theorem inv_destroy {st : St V} (h : Inv st) {i : Nat} {self : It} (hi : st.var i = some self) :
    ∃ st', destroy st i self = pure st' ∧ Inv st' ∧ abs st' = upd (abs st) i none ∧ st'.heap.length = st.heap.length ∧
      st'.var = upd st.var i none := by
  obtain ⟨p, t⟩ := self
  cases p with
  | none =>
    refine ⟨⟨st.heap, upd st.var i none⟩, rfl, ⟨?_, ?_, ?_⟩, ?_, rfl, rfl⟩
    · intro k a u hk
      dsimp only at hk
      by_cases e : k = i
      · rw [e, upd_same] at hk; cases hk
      · rw [upd_other _ _ e] at hk; exact h.typed k a u hk
    · intro k l a t1 t2 hk hl
      dsimp only at hk hl
      by_cases e1 : k = i
      · rw [e1, upd_same] at hk; cases hk
      · by_cases e2 : l = i
        · rw [e2, upd_same] at hl; cases hl
        · rw [upd_other _ _ e1] at hk; rw [upd_other _ _ e2] at hl
          exact h.single k l a t1 t2 hk hl
    · intro a c hc
      obtain ⟨k, u, hk⟩ := h.owned a c hc
      have hki : k ≠ i := by intro e; rw [e, hi] at hk; cases hk
      exact ⟨k, u, by dsimp only; rw [upd_other _ _ hki]; exact hk⟩
    · funext k
      by_cases e : k = i
      · rw [e, upd_same]; unfold abs; dsimp only; rw [upd_same]; rfl
      · rw [upd_other _ _ e]; unfold abs; dsimp only; rw [upd_other _ _ e]
  | some b =>
    obtain ⟨v, hv⟩ := h.typed i b t hi
    have hb : b < st.heap.length := (List.getElem?_eq_some_iff.1 hv).1
    refine ⟨⟨st.heap.set b none, upd st.var i none⟩, ?_, ⟨?_, ?_, ?_⟩, ?_, by simp, rfl⟩
    · unfold destroy del
      simp only [load_ok hv, pure_bind]
    · intro k a u hk
      dsimp only at hk
      by_cases e : k = i
      · rw [e, upd_same] at hk; cases hk
      · rw [upd_other _ _ e] at hk
        obtain ⟨w, hw⟩ := h.typed k a u hk
        have hab : b ≠ a := by
          intro e2; rw [← e2] at hk; exact e (h.single k i b u t hk hi)
        exact ⟨w, by rw [List.getElem?_set_ne hab]; exact hw⟩
    · intro k l a t1 t2 hk hl
      dsimp only at hk hl
      by_cases e1 : k = i
      · rw [e1, upd_same] at hk; cases hk
      · by_cases e2 : l = i
        · rw [e2, upd_same] at hl; cases hl
        · rw [upd_other _ _ e1] at hk; rw [upd_other _ _ e2] at hl
          exact h.single k l a t1 t2 hk hl
    · intro a c hc
      dsimp only at hc
      have hab : b ≠ a := by
        intro e; rw [← e, List.getElem?_set_self hb] at hc; cases hc
      rw [List.getElem?_set_ne hab] at hc
      obtain ⟨k, u, hk⟩ := h.owned a c hc
      have hki : k ≠ i := by
        intro e; rw [e, hi] at hk; injection hk with hk; injection hk with h1 _; injection h1 with h1; exact hab h1
      exact ⟨k, u, by dsimp only; rw [upd_other _ _ hki]; exact hk⟩
    · funext k
      by_cases e : k = i
      · rw [e, upd_same]; unfold abs; dsimp only; rw [upd_same]; rfl
      · rw [upd_other _ _ e]; unfold abs; dsimp only; rw [upd_other _ _ e]
        cases hk : st.var k with
        | none => rfl
        | some it =>
          obtain ⟨p, u⟩ := it
          cases p with
          | none => rfl
          | some a =>
            have hab : b ≠ a := by
              intro e2; rw [← e2] at hk; exact e (h.single k i b u t hk hi)
            simp only [Option.map_some, Option.bind_some]
            rw [List.getElem?_set_ne hab]

/-- Handing the cell of one object to another one that has none. -/
theorem inv_move {st : St V} (h : Inv st) {i j : Nat} {r : It} (hj : st.var j = some r)
    (hn : ∀ s, st.var i = some s → s.ptr = none) :
    Inv ⟨st.heap, upd (upd st.var j (some ⟨none, r.ty⟩)) i (some r)⟩ ∧
    abs ⟨st.heap, upd (upd st.var j (some ⟨none, r.ty⟩)) i (some r)⟩ = fun k =>
      if k = i then abs st j else if k = j then some none else abs st k := by
  have hcase : ∀ k it, upd (upd st.var j (some ⟨none, r.ty⟩)) i (some r) k = some it → it.ptr ≠ none →
      (k = i ∧ st.var j = some it) ∨ (k ≠ i ∧ k ≠ j ∧ st.var k = some it) := by
    intro k it hk hp
    by_cases e : k = i
    · rw [e, upd_same] at hk; exact .inl ⟨e, hk ▸ hj⟩
    · rw [upd_other _ _ e] at hk
      by_cases e2 : k = j
      · rw [e2, upd_same] at hk; injection hk with hk; rw [← hk] at hp; exact absurd rfl hp
      · rw [upd_other _ _ e2] at hk; exact .inr ⟨e, e2, hk⟩
  refine ⟨⟨?_, ?_, ?_⟩, ?_⟩
  · intro k a u hk
    rcases hcase k _ hk (by simp) with ⟨-, hk⟩ | ⟨-, -, hk⟩
    · exact h.typed j a u hk
    · exact h.typed k a u hk
  · intro k l a t1 t2 hk hl
    rcases hcase k _ hk (by simp) with ⟨e1, hk⟩ | ⟨e1, e2, hk⟩ <;> rcases hcase l _ hl (by simp) with ⟨e3, hl⟩ | ⟨e3, e4, hl⟩
    · rw [e1, e3]
    · exact absurd (h.single j l a t1 t2 hk hl).symm e4
    · exact absurd (h.single k j a t1 t2 hk hl) e2
    · exact h.single k l a t1 t2 hk hl
  · intro a c hc
    obtain ⟨k, u, hk⟩ := h.owned a c hc
    by_cases e : k = j
    · refine ⟨i, u, ?_⟩
      dsimp only
      rw [upd_same, ← hj, ← e, hk]
    · have hki : k ≠ i := by intro e; have := hn _ (e ▸ hk); cases this
      exact ⟨k, u, by dsimp only; rw [upd_other _ _ hki, upd_other _ _ e]; exact hk⟩
  · funext k
    unfold abs
    dsimp only
    by_cases e : k = i
    · rw [if_pos e, e, upd_same, hj]
    · rw [if_neg e, upd_other _ _ e]
      by_cases e2 : k = j
      · rw [if_pos e2, e2, upd_same]; rfl
      · rw [if_neg e2, upd_other _ _ e2]

/-- One covered statement does what it does to plain values. -/
theorem step_refines (next : Nat → V → V) {st : St V} (h : Inv st) (o : Op V) (hf : Fine (abs st) o) :
    ∃ st', step next st o = pure st' ∧ Inv st' ∧ abs st' = astep next (abs st) o := by
  cases o with
  | construct i ty v =>
    cases hi : st.var i with
    | some s =>
      refine ⟨st, by simp only [step, hi], h, ?_⟩
      have : abs st i = some (s.ptr.bind fun a => (st.heap[a]?).join) := by unfold abs; rw [hi]; rfl
      simp only [astep, this]
    | none =>
      obtain ⟨h1, h2⟩ := inv_new (t := ty) (v := v) h (i := i) (by rw [hi]; simp)
      exact ⟨_, by simp only [step, hi]; rfl, h1, by rw [h2]; simp only [astep, abs_none.2 hi]⟩
  | copy i j =>
    cases hi : st.var i with
    | some s =>
      have : abs st i = some (s.ptr.bind fun a => (st.heap[a]?).join) := by unfold abs; rw [hi]; rfl
      exact ⟨st, by simp only [step, hi], h, by simp only [astep, this]⟩
    | none =>
      cases hj : st.var j with
      | none => exact ⟨st, by simp only [step, hi, hj], h, by simp only [astep, abs_none.2 hi, abs_none.2 hj]⟩
      | some r =>
        obtain ⟨p, t⟩ := r
        cases p with
        | none => exact absurd (abs_null hj) hf
        | some b =>
          obtain ⟨v, hv⟩ := h.typed j b t hj
          obtain ⟨h1, h2⟩ := inv_new (t := t) (v := v) h (i := i) (by rw [hi]; simp)
          refine ⟨_, ?_, h1, ?_⟩
          · simp only [step, hi, hj, copyC, clone, load_ok hv, pure_bind]
          · rw [h2]; simp only [astep, abs_none.2 hi, abs_val hj hv]
  | assign i j =>
    cases hi : st.var i with
    | none => exact ⟨st, by simp only [step, hi], h, by simp only [astep, abs_none.2 hi]⟩
    | some s =>
      cases hj : st.var j with
      | none =>
        have : abs st i = some (s.ptr.bind fun a => (st.heap[a]?).join) := by unfold abs; rw [hi]; rfl
        exact ⟨st, by simp only [step, hi, hj], h, by simp only [astep, this, abs_none.2 hj]⟩
      | some r =>
        by_cases hij : i = j
        · refine ⟨st, by simp only [step, hj, hij, ne_eq, not_true_eq_false, if_false], h, ?_⟩
          have : abs st i = some (s.ptr.bind fun a => (st.heap[a]?).join) := by unfold abs; rw [hi]; rfl
          simp only [astep, this, ← hij]
          funext k
          by_cases e : k = i
          · rw [e, upd_same, this]
          · rw [upd_other _ _ e]
        · rcases hf with hf | ⟨hf, ht⟩
          · exact absurd hf hij
          · obtain ⟨p, t⟩ := r
            cases p with
            | none => exact absurd (abs_null hj) hf
            | some b =>
              obtain ⟨v, hv⟩ := h.typed j b t hj
              have hsome : ∃ y, abs st i = some y := by unfold abs; rw [hi]; exact ⟨_, rfl⟩
              obtain ⟨y, hy⟩ := hsome
              have hstep : step next st (.assign i j) = assign st i s ⟨some b, t⟩ := by
                simp only [step, hi, hj]
                rw [if_pos hij]
              have hast : astep next (abs st) (.assign i j) = upd (abs st) i (some (some (t, v))) := by
                simp only [astep, hy, abs_val hj hv]
              rw [hstep, hast]
              obtain ⟨q, u⟩ := s
              cases q with
              | none =>
                obtain ⟨h1, h2⟩ := inv_new (t := t) (v := v) h (i := i) (by
                  intro t' ht'; rw [hi] at ht'; injection ht' with ht'; rw [← ht'])
                exact ⟨_, by simp only [assign, clone, load_ok hv, pure_bind, del], h1, h2⟩
              | some a =>
                obtain ⟨w, hw⟩ := h.typed i a u hi
                have hut : u = t := ht u w t v (abs_val hi hw) (abs_val hj hv)
                -- deleting and creating commute: destroy the object first
                obtain ⟨st1, hd, hinv, habs, hlen, hvar⟩ := inv_destroy h hi
                have hd' : st1 = ⟨st.heap.set a none, upd st.var i none⟩ := by
                  unfold destroy del at hd
                  simp only [load_ok hw, pure_bind] at hd
                  exact (pure_inj.1 hd).symm
                obtain ⟨h1, h2⟩ := inv_new (t := t) (v := v) hinv (i := i) (by rw [hvar, upd_same]; simp)
                have ha : a < st.heap.length := (List.getElem?_eq_some_iff.1 hw).1
                have hfin : assign st i ⟨some a, u⟩ ⟨some b, t⟩ =
                    pure ⟨st1.heap ++ [some (t, v)], upd st1.var i (some ⟨some st1.heap.length, t⟩)⟩ := by
                  have hw2 : (st.heap ++ [some (t, v)])[a]? = some (some (t, w)) := by
                    rw [List.getElem?_append_left ha, hw, hut]
                  simp only [assign, clone, load_ok hv, pure_bind, del, load_ok hw2]
                  rw [hd']
                  dsimp only
                  congr 2
                  · rw [List.set_append_left _ _ ha]
                  · funext k
                    by_cases e : k = i
                    · rw [e, upd_same, upd_same, List.length_set]
                    · rw [upd_other _ _ e, upd_other _ _ e, upd_other _ _ e]
                refine ⟨_, hfin, h1, ?_⟩
                rw [h2, habs]
                funext k
                by_cases e : k = i
                · rw [e, upd_same, upd_same]
                · rw [upd_other _ _ e, upd_other _ _ e, upd_other _ _ e]
  | move i j =>
    cases hi : st.var i with
    | some s =>
      have : abs st i = some (s.ptr.bind fun a => (st.heap[a]?).join) := by unfold abs; rw [hi]; rfl
      exact ⟨st, by simp only [step, hi], h, by simp only [astep, this]⟩
    | none =>
      cases hj : st.var j with
      | none => exact ⟨st, by simp only [step, hi, hj], h, by simp only [astep, abs_none.2 hi, abs_none.2 hj]⟩
      | some r =>
        have hij : i ≠ j := by intro e; rw [e, hj] at hi; cases hi
        obtain ⟨h1, h2⟩ := inv_move h hj (by rw [hi]; simp)
        have hx : ∃ x, abs st j = some x := by unfold abs; rw [hj]; exact ⟨_, rfl⟩
        obtain ⟨x, hx⟩ := hx
        refine ⟨_, by simp only [step, hi, hj, moveC], h1, ?_⟩
        rw [h2]
        simp only [astep, abs_none.2 hi, hx]
        funext k
        unfold upd
        rfl
  | moveAssign i j =>
    cases hi : st.var i with
    | none => exact ⟨st, by simp only [step, hi], h, by simp only [astep, abs_none.2 hi]⟩
    | some s =>
      have hsi : abs st i = some (s.ptr.bind fun a => (st.heap[a]?).join) := by unfold abs; rw [hi]; rfl
      cases hj : st.var j with
      | none => exact ⟨st, by simp only [step, hi, hj], h, by simp only [astep, hsi, abs_none.2 hj]⟩
      | some r =>
        have hx : ∃ x, abs st j = some x := by unfold abs; rw [hj]; exact ⟨_, rfl⟩
        obtain ⟨x, hx⟩ := hx
        by_cases hij : i = j
        · refine ⟨st, by simp only [step, hj, hij, ne_eq, not_true_eq_false, if_false], h, ?_⟩
          simp only [astep, hsi, hx, if_pos hij]
        · have hnull : s.ptr = none := by
            rcases hf with hf | hf | hf | hf
            · exact absurd hf hij
            · rw [hx] at hf; cases hf
            · rw [hsi] at hf; cases hf
            · obtain ⟨p, t⟩ := s
              cases p with
              | none => rfl
              | some a =>
                obtain ⟨w, hw⟩ := h.typed i a t hi
                rw [abs_val hi hw] at hf
                cases hf
          obtain ⟨h1, h2⟩ := inv_move h hj (by intro s' hs'; rw [hi] at hs'; injection hs' with hs'; rw [← hs']; exact hnull)
          refine ⟨_, by simp only [step, hi, hj]; rw [if_pos hij]; rfl, h1, ?_⟩
          rw [h2]
          simp only [astep, hsi, hx]
          rw [if_neg hij]
          funext k
          unfold upd
          rfl
  | destroy i =>
    cases hi : st.var i with
    | none =>
      refine ⟨st, by simp only [step, hi], h, ?_⟩
      funext k
      simp only [astep]
      by_cases e : k = i
      · rw [e, upd_same, abs_none.2 hi]
      · rw [upd_other _ _ e]
    | some s =>
      obtain ⟨st', h1, h2, h3, -, -⟩ := inv_destroy h hi
      exact ⟨st', by simp only [step, hi]; exact h1, h2, h3⟩
  | incr i =>
    cases hi : st.var i with
    | none => exact ⟨st, by simp only [step, hi], h, by simp only [astep, abs_none.2 hi]⟩
    | some s =>
      obtain ⟨p, t⟩ := s
      cases p with
      | none => exact absurd (abs_null hi) hf
      | some b =>
        obtain ⟨v, hv⟩ := h.typed i b t hi
        have hb : b < st.heap.length := (List.getElem?_eq_some_iff.1 hv).1
        refine ⟨⟨st.heap.set b (some (t, next t v)), st.var⟩, ?_, ⟨?_, h.single, ?_⟩, ?_⟩
        · simp only [step, hi, incr, load_ok hv, pure_bind]
        · intro k a u hk
          obtain ⟨w, hw⟩ := h.typed k a u hk
          by_cases e : b = a
          · rw [← e] at hk
            have hki := h.single k i b u t hk hi
            rw [hki, hi] at hk
            injection hk with hk
            injection hk with _ hk
            exact ⟨next t v, by rw [← e, List.getElem?_set_self hb, hk]⟩
          · exact ⟨w, by rw [List.getElem?_set_ne e]; exact hw⟩
        · intro a c hc
          by_cases e : b = a
          · exact ⟨i, t, by rw [← e]; exact hi⟩
          · dsimp only at hc
            rw [List.getElem?_set_ne e] at hc
            exact h.owned a c hc
        · simp only [astep, abs_val hi hv]
          funext k
          by_cases e : k = i
          · rw [e, upd_same]
            exact abs_val (a := b) hi (by simp [hb])
          · rw [upd_other _ _ e]
            unfold abs
            dsimp only
            cases hk : st.var k with
            | none => rfl
            | some it =>
              obtain ⟨p, u⟩ := it
              cases p with
              | none => rfl
              | some a =>
                have hab : b ≠ a := by
                  intro e2; rw [← e2] at hk; exact e (h.single k i b u t hk hi)
                simp only [Option.map_some, Option.bind_some]
                rw [List.getElem?_set_ne hab]

/-- No objects and nothing on the heap. (Specification, no line of the source.) -/
def empty : St V := ⟨[], fun _ => none⟩

theorem inv_empty : Inv (empty : St V) := ⟨(by intro i a t h; cases h), (by intro i j a t u h; cases h), (by intro a c h; cases h)⟩

theorem abs_empty : abs (empty : St V) = fun _ => none := rfl

/-- C135: a program of covered statements is never undefined, its objects behave like independent plain values, every object
owns its iterator alone, and nothing is leaked: a live heap object always belongs to an object of the program. -/
theorem C135_refines_partial (next : Nat → V → V) (os : List (Op V)) (hf : AllFine next (fun _ => none) os) :
    ∃ st, run next empty os = pure st ∧ Inv st ∧ abs st = os.foldl (astep next) (fun _ => none) := by
  have gen : ∀ (os : List (Op V)) (st : St V), Inv st → AllFine next (abs st) os →
      ∃ st', run next st os = pure st' ∧ Inv st' ∧ abs st' = os.foldl (astep next) (abs st) := by
    intro os
    induction os with
    | nil => intro st h _; exact ⟨st, rfl, h, rfl⟩
    | cons o os ih =>
      intro st h hf
      obtain ⟨st1, h1, h2, h3⟩ := step_refines next h o hf.1
      obtain ⟨st2, h4, h5, h6⟩ := ih st1 h2 (by rw [h3]; exact hf.2)
      refine ⟨st2, ?_, h5, ?_⟩
      · unfold run; rw [h1, pure_bind, h4]
      · rw [h6, h3]; rfl
  exact gen os empty inv_empty hf

/-- C135: once all objects are gone the heap is empty. -/
theorem C135_no_leak_partial (next : Nat → V → V) (os : List (Op V)) (hf : AllFine next (fun _ => none) os) (st : St V)
    (h : run next empty os = pure st) (hg : ∀ i, st.var i = none) : ∀ c ∈ st.heap, c = none := by
  obtain ⟨st', h1, h2, -⟩ := C135_refines_partial next os hf
  rw [h, pure_inj] at h1
  rw [← h1] at h2
  intro c hc
  obtain ⟨a, ha⟩ := List.mem_iff_getElem?.1 hc
  cases c with
  | none => rfl
  | some c =>
    obtain ⟨i, t, hi⟩ := h2.owned a c ha
    rw [hg i] at hi
    cases hi

/-- Copies that are advanced on their own, an assignment of the same type and a move. -/
example : AllFine (fun _ v => v + 1) (fun _ => none)
    [.construct 0 7 (10 : Nat), .copy 1 0, .incr 0, .assign 1 0, .incr 1, .move 2 1, .assign 1 2, .destroy 0] := by
  simp [AllFine, Fine, astep, upd]
  intro t v u w h1 _ h2 _
  rw [← h1, h2]

/-- C135 fails: assigning an iterator of another type deletes the old one through the table of the new type. -/
theorem C135_assign_violated (next : Nat → V → V) (st : St V) (h : Inv st) (i j a b t u : Nat)
    (hi : st.var i = some ⟨some a, t⟩) (hj : st.var j = some ⟨some b, u⟩) (htu : t ≠ u) : step next st (.assign i j) = ub := by
  obtain ⟨v, hv⟩ := h.typed i a t hi
  obtain ⟨w, hw⟩ := h.typed j b u hj
  have ha : a < st.heap.length := (List.getElem?_eq_some_iff.1 hv).1
  have hij : i ≠ j := by
    intro e; rw [e, hj] at hi; injection hi with hi; injection hi with _ hi; exact htu hi.symm
  have hl : load (st.heap ++ [some (u, w)]) (some a) u = ub := by
    unfold load
    simp only [List.getElem?_append_left ha, hv, if_neg htu]
  simp only [step, hi, hj]
  rw [if_pos hij]
  simp only [assign, clone, load_ok hw, pure_bind, del, hl]
  rfl

/-- C135 fails: a move assignment leaks the iterator the target held, which no object owns any more. -/
theorem C135_move_assign_violated (next : Nat → V → V) (st : St V) (h : Inv st) (i j a t : Nat) (r : It) (hij : i ≠ j)
    (hi : st.var i = some ⟨some a, t⟩) (hj : st.var j = some r) :
    ∃ st', step next st (.moveAssign i j) = pure st' ∧ (∃ c, st'.heap[a]? = some (some c)) ∧
      ∀ k u, st'.var k ≠ some ⟨some a, u⟩ := by
  obtain ⟨v, hv⟩ := h.typed i a t hi
  refine ⟨⟨st.heap, upd (upd st.var j (some ⟨none, r.ty⟩)) i (some r)⟩, by simp only [step, hi, hj]; rw [if_pos hij]; rfl, ⟨_, hv⟩, ?_⟩
  intro k u hk
  dsimp only at hk
  by_cases e : k = i
  · rw [e, upd_same, ← hj] at hk
    exact hij (h.single i j a t u hi hk)
  · rw [upd_other _ _ e] at hk
    by_cases e2 : k = j
    · rw [e2, upd_same] at hk; injection hk with hk; injection hk with hk _; cases hk
    · rw [upd_other _ _ e2] at hk
      exact e (h.single k i a u t hk hi)

/-- Both happen in programs of three statements. -/
example : ∃ st, run (fun _ v => v + 1) empty [.construct 0 7 (10 : Nat), .construct 1 8 20] = pure st ∧
    step (fun _ v => v + 1) st (.assign 0 1) = ub := ⟨_, rfl, rfl⟩

/-- C135: comparing iterators of the same type compares them, and comparing iterators of different types aborts where
assertions are on. -/
theorem C135_equal_partial [DecidableEq V] (st : St V) (h : Inv st) (i j a b t u : Nat) (v w : V)
    (hi : st.var i = some ⟨some a, t⟩) (hj : st.var j = some ⟨some b, u⟩) (hv : abs st i = some (some (t, v)))
    (hw : abs st j = some (some (u, w))) :
    (t = u → equal st ⟨some a, t⟩ ⟨some b, u⟩ = pure (decide (v = w))) ∧
    (t ≠ u → equal st ⟨some a, t⟩ ⟨some b, u⟩ = abort) := by
  obtain ⟨v', hv'⟩ := h.typed i a t hi
  obtain ⟨w', hw'⟩ := h.typed j b u hj
  rw [abs_val hi hv'] at hv
  rw [abs_val hj hw'] at hw
  simp only [Option.some.injEq, Prod.mk.injEq, true_and] at hv hw
  rw [hv] at hv'
  rw [hw] at hw'
  constructor
  · intro e
    unfold equal
    rw [if_pos (by exact e)]
    dsimp only
    rw [load_ok hv', pure_bind, e, load_ok hw', pure_bind]
  · intro e
    exact if_neg e

end Verif.Iter.Erased
