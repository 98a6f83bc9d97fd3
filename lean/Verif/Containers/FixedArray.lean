import Verif.Vector.OldVector

/-
`daw::fixed_array` of deprecated/daw_fixed_array.h with the iterators of iterator/daw_pointer_iterator.h.

The arrays of a program are variables; memory is a list of blocks.  A cell that was never written holds `none`, and reading it is
undefined behaviour.  The element type is trivially copyable and trivially destructible; allocation does not fail.
-/

namespace Verif.Containers.FixedArray
open Cxx Verif.Containers Verif.Vector.Old

variable {α : Type}

/-- `fixed_array`: its size and its block, deprecated/daw_fixed_array.h 42-44. -/
structure Arr where
  size : Nat
  data : Option Nat
  deriving DecidableEq

/-- The arrays of a program (a destroyed one is `none`) and the blocks of memory (a freed one is `none`).
(Rule of C++ or its library, no line of the source.) -/
structure World (α : Type) where
  vars : List (Option Arr)
  heap : List (Option (List (Option α)))
  deriving DecidableEq

/-- Before anything happened. (Rule of C++ or its library, no line of the source.) -/
def World.init : World α := ⟨[], []⟩

/-- An array that is alive. (Rule of C++ or its library, no line of the source.) -/
def var (w : World α) (i : Nat) : Cxx Arr :=
  match w.vars[i]? with
  | some (some a) => pure a
  | _ => ub

/-- The cells of a block that is alive. (Rule of C++ or its library, no line of the source.) -/
def block (h : List (Option (List (Option α)))) : Option Nat → Cxx (List (Option α))
  | none => ub
  | some b =>
    match h[b]? with
    | some (some c) => pure c
    | _ => ub

/-- `delete[] p`. (Rule of C++ or its library, no line of the source.) -/
def free (h : List (Option (List (Option α)))) : Option Nat → Cxx (List (Option (List (Option α))))
  | none => pure h
  | some b => do
    let _ ← block h (some b)
    pure (h.set b none)

/-- `fixed_array( )`, deprecated/daw_fixed_array.h 47. -/
def default (w : World α) : Cxx (World α) := pure { w with vars := w.vars ++ [some ⟨0, none⟩] }

/-- `fixed_array( Size )`, deprecated/daw_fixed_array.h 49-51; `d` is `T{ }`. -/
def ofSize (d : α) (w : World α) (n : Nat) : Cxx (World α) :=
  pure ⟨w.vars ++ [some ⟨n, some w.heap.length⟩], w.heap ++ [some (List.replicate n (some d))]⟩

/-- `fixed_array( construct_for_overwrite, Size )`, deprecated/daw_fixed_array.h 53-55. -/
def overwrite (w : World α) (n : Nat) : Cxx (World α) :=
  pure ⟨w.vars ++ [some ⟨n, some w.heap.length⟩], w.heap ++ [some (List.replicate n none)]⟩

/-- `fixed_array( Size, def_value )`, deprecated/daw_fixed_array.h 57-61. -/
def ofValue (w : World α) (n : Nat) (v : α) : Cxx (World α) := do
  let c ← putAll (List.replicate n none) 0 (List.replicate n v)
  pure ⟨w.vars ++ [some ⟨n, some w.heap.length⟩], w.heap ++ [some c]⟩

/-- The constructors from values, deprecated/daw_fixed_array.h 63-83, and from iterators, 119-139. -/
def ofList (w : World α) (xs : List α) : Cxx (World α) := do
  let c ← putAll (List.replicate xs.length none) 0 xs
  pure ⟨w.vars ++ [some ⟨xs.length, some w.heap.length⟩], w.heap ++ [some c]⟩

/-- `fixed_array( a.data( ), a.size( ) )`, deprecated/daw_fixed_array.h 85-87: the constructor from a pointer takes the block. -/
def ofPointer (w : World α) (j : Nat) : Cxx (World α) := do
  let a ← var w j
  pure { w with vars := w.vars ++ [some ⟨a.size, a.data⟩] }

/-- `fixed_array( fixed_array && )`, deprecated/daw_fixed_array.h 89-91. -/
def moveNew (w : World α) (j : Nat) : Cxx (World α) := do
  let a ← var w j
  pure { w with vars := w.vars.set j (some ⟨0, none⟩) ++ [some a] }

/-- `std::copy_n` from an array into a new block: with nothing to copy the source is not used.
(Rule of C++ or its library, no line of the source.) -/
def copyBlock (h : List (Option (List (Option α)))) (p : Option Nat) (n : Nat) : Cxx (List (Option α)) :=
  if n = 0 then pure []
  else do
    let src ← block h p
    copyCells src (List.replicate n none) 0 n

/-- `fixed_array( fixed_array const & )`, deprecated/daw_fixed_array.h 102-107. -/
def copyNew (w : World α) (j : Nat) : Cxx (World α) := do
  let a ← var w j
  let c ← copyBlock w.heap a.data a.size
  pure ⟨w.vars ++ [some ⟨a.size, some w.heap.length⟩], w.heap ++ [some c]⟩

/-- `clear`, deprecated/daw_fixed_array.h 141-144: the pointer is kept. -/
def clear (w : World α) (i : Nat) : Cxx (World α) := do
  let a ← var w i
  let h ← free w.heap a.data
  pure ⟨w.vars.set i (some { a with size := 0 }), h⟩

/-- The move assignment, deprecated/daw_fixed_array.h 93-100. -/
def moveInto (w : World α) (i j : Nat) : Cxx (World α) := do
  let tmp ← var w j
  let w := { w with vars := w.vars.set j (some ⟨0, none⟩) }
  let w ← clear w i
  pure { w with vars := w.vars.set i (some tmp) }

/-- The copy assignment, deprecated/daw_fixed_array.h 109-117. -/
def copyInto (w : World α) (i j : Nat) : Cxx (World α) := do
  let a ← var w j
  let c ← copyBlock w.heap a.data a.size
  let tmp := w.heap.length
  let w := { w with heap := w.heap ++ [some c] }
  let w ← clear w i
  pure { w with vars := w.vars.set i (some ⟨a.size, some tmp⟩) }

/-- `~fixed_array`, deprecated/daw_fixed_array.h 146-148. -/
def destroy (w : World α) (i : Nat) : Cxx (World α) := do
  let w ← clear w i
  pure { w with vars := w.vars.set i none }

/-- `release`, deprecated/daw_fixed_array.h 210-213, with the end of the `unique_ptr` that it gives. -/
def release (w : World α) (i : Nat) : Cxx (World α) := do
  let a ← var w i
  let h ← free w.heap a.data
  pure ⟨w.vars.set i (some ⟨0, none⟩), h⟩

/-- `operator[]`, deprecated/daw_fixed_array.h 186-192, for reading. -/
def get (w : World α) (i pos : Nat) : Cxx α := do
  let a ← var w i
  let c ← block w.heap a.data
  cell c pos

/-- `a[pos] = v`, deprecated/daw_fixed_array.h 186-188. -/
def write (w : World α) (i pos : Nat) (v : α) : Cxx (World α) := do
  let a ← var w i
  let c ← block w.heap a.data
  let c ← wr c pos (some v)
  match a.data with
  | some b => pure { w with heap := w.heap.set b (some c) }
  | none => ub

/-- `size`, deprecated/daw_fixed_array.h 150-152. -/
def size (w : World α) (i : Nat) : Cxx Nat := do
  let a ← var w i
  pure a.size

/-- `front`, deprecated/daw_fixed_array.h 194-200. -/
def front (w : World α) (i : Nat) : Cxx α := get w i 0

/-- `back`, deprecated/daw_fixed_array.h 202-208. -/
def back (w : World α) (i : Nat) : Cxx α := do
  let a ← var w i
  if a.size = 0 then ub else get w i (a.size - 1)

/-- The calls of a program. (Specification, no line of the source.) -/
inductive Op (α : Type) where
  | default
  | ofSize (n : Nat)
  | overwrite (n : Nat)
  | ofValue (n : Nat) (v : α)
  | ofList (xs : List α)
  | moveNew (j : Nat)
  | copyNew (j : Nat)
  | moveInto (i j : Nat)
  | copyInto (i j : Nat)
  | release (i : Nat)
  | destroy (i : Nat)
  | write (i pos : Nat) (v : α)
  | clear (i : Nat)

/-- A call, deprecated/daw_fixed_array.h 47-213. -/
def step (d : α) (w : World α) : Op α → Cxx (World α)
  | .default => FixedArray.default w
  | .ofSize n => FixedArray.ofSize d w n
  | .overwrite n => FixedArray.overwrite w n
  | .ofValue n v => FixedArray.ofValue w n v
  | .ofList xs => FixedArray.ofList w xs
  | .moveNew j => FixedArray.moveNew w j
  | .copyNew j => FixedArray.copyNew w j
  | .moveInto i j => FixedArray.moveInto w i j
  | .copyInto i j => FixedArray.copyInto w i j
  | .release i => FixedArray.release w i
  | .destroy i => FixedArray.destroy w i
  | .write i pos v => FixedArray.write w i pos v
  | .clear i => FixedArray.clear w i

/-- The calls one after the other. (Specification, no line of the source.) -/
def run (d : α) : World α → List (Op α) → Cxx (World α)
  | w, [] => pure w
  | w, o :: os => do
    let w ← step d w o
    run d w os

/-! ### What the calls mean -/

/-- The arrays as values: destroyed, without a block, or with cells. (Specification, no line of the source.) -/
abbrev State (α : Type) := List (Option (Option (List (Option α))))

/-- The value of an array that is alive. (Specification, no line of the source.) -/
def liveAt (s : State α) (i : Nat) : Option (Option (List (Option α))) := s[i]?.join

/-- What a call means for the values; a call without meaning gives nothing. (Specification, no line of the source.) -/
def means (d : α) (s : State α) : Op α → Option (State α)
  | .default => some (s ++ [some none])
  | .ofSize n => some (s ++ [some (some (List.replicate n (some d)))])
  | .overwrite n => some (s ++ [some (some (List.replicate n none))])
  | .ofValue n v => some (s ++ [some (some (List.replicate n (some v)))])
  | .ofList xs => some (s ++ [some (some (xs.map some))])
  | .moveNew j =>
    match liveAt s j with
    | some x => some (s.set j (some none) ++ [some x])
    | none => none
  | .copyNew j =>
    match liveAt s j with
    | some x => some (s ++ [some (some (x.getD []))])
    | none => none
  | .moveInto i j =>
    match liveAt s i, liveAt s j with
    | some _, some x => some ((s.set j (some none)).set i (some x))
    | _, _ => none
  | .copyInto i j =>
    match liveAt s i, liveAt s j with
    | some _, some x => some (s.set i (some (some (x.getD []))))
    | _, _ => none
  | .release i =>
    match liveAt s i with
    | some _ => some (s.set i (some none))
    | none => none
  | .destroy i =>
    match liveAt s i with
    | some _ => some (s.set i none)
    | none => none
  | .write i pos v =>
    match liveAt s i with
    | some (some c) => if pos < c.length then some (s.set i (some (some (c.set pos (some v))))) else none
    | _ => none
  | .clear i =>
    match liveAt s i with
    | some _ => some (s.set i (some none))
    | none => none

/-- What the calls mean together. (Specification, no line of the source.) -/
def meaning (d : α) : State α → List (Op α) → Option (State α)
  | s, [] => some s
  | s, o :: os =>
    match means d s o with
    | some s => meaning d s os
    | none => none

/-- A variable stands for a value. (Specification, no line of the source.) -/
def Corr (h : List (Option (List (Option α)))) : Option Arr → Option (Option (List (Option α))) → Prop
  | none, none => True
  | some a, some none => a = ⟨0, none⟩
  | some a, some (some c) => a.size = c.length ∧ ∃ b, a.data = some b ∧ h[b]? = some (some c)
  | _, _ => False

/-- Variable `i` has block `b`. (Specification, no line of the source.) -/
def Has (vs : List (Option Arr)) (i b : Nat) : Prop := ∃ n : Nat, vs[i]? = some (some ⟨n, some b⟩)

/-- The variables stand for the values, no two have the same block, and every block belongs to one.
(Specification, no line of the source.) -/
structure Rep (w : World α) (s : State α) : Prop where
  len : s.length = w.vars.length
  corr : ∀ (i : Nat) v x, w.vars[i]? = some v → s[i]? = some x → Corr w.heap v x
  inj : ∀ i j b : Nat, Has w.vars i b → Has w.vars j b → i = j
  noleak : ∀ (b : Nat) c, w.heap[b]? = some (some c) → ∃ i, Has w.vars i b

theorem rep_init : Rep (World.init : World α) [] :=
  ⟨rfl, by intro i v x h; simp [World.init] at h, by intro i j b ⟨n, h⟩; simp [World.init] at h, by intro b c h; simp [World.init] at h⟩

theorem lt_of_get {β : Type} {l : List β} {i : Nat} {a : β} (h : l[i]? = some a) : i < l.length := (List.getElem?_eq_some_iff.mp h).1

/-- A live block of a variable. -/
theorem Rep.live {w : World α} {s : State α} (R : Rep w s) {i b : Nat} (h : Has w.vars i b) : ∃ c, w.heap[b]? = some (some c) := by
  obtain ⟨n, h⟩ := h
  have hi : i < s.length := by rw [R.len]; exact lt_of_get h
  have hc := R.corr i _ _ h (List.getElem?_eq_getElem hi)
  revert hc
  cases s[i] with
  | none => intro hc; exact hc.elim
  | some x =>
    cases x with
    | none => intro hc; simp [Corr] at hc
    | some c =>
      intro hc
      obtain ⟨_, b', hb', hc⟩ := hc
      cases hb'
      exact ⟨c, hc⟩

theorem Rep.lt {w : World α} {s : State α} (R : Rep w s) {i b : Nat} (h : Has w.vars i b) : b < w.heap.length := by
  obtain ⟨c, h⟩ := R.live h
  exact lt_of_get h

/-- The blocks of a variable decide what it stands for. -/
theorem corr_congr {h h' : List (Option (List (Option α)))} {v : Option Arr} {x : Option (Option (List (Option α)))} (hc : Corr h v x)
    (he : ∀ n b : Nat, v = some ⟨n, some b⟩ → h'[b]? = h[b]?) : Corr h' v x := by
  match v, x, hc with
  | none, none, _ => trivial
  | some a, some none, hc => exact hc
  | some ⟨n, p⟩, some (some c), ⟨h1, b, h2, h3⟩ =>
    refine ⟨h1, b, h2, ?_⟩
    dsimp only at h2
    rw [he n b (by rw [h2]), h3]

/-- One variable changes and the memory of the others does not. -/
theorem Rep.set {w : World α} {s : State α} (R : Rep w s) {i : Nat} {v : Option Arr} {x : Option (Option (List (Option α)))}
    {h : List (Option (List (Option α)))} (hi : i < w.vars.length)
    (ho : ∀ j b : Nat, j ≠ i → Has w.vars j b → h[b]? = w.heap[b]?) (hc : Corr h v x)
    (hn : ∀ n b : Nat, v = some ⟨n, some b⟩ → ∀ j, j ≠ i → ¬Has w.vars j b)
    (hl : ∀ (b : Nat) c, h[b]? = some (some c) → (∃ n : Nat, v = some ⟨n, some b⟩) ∨ ∃ j, j ≠ i ∧ Has w.vars j b) :
    Rep ⟨w.vars.set i v, h⟩ (s.set i x) := by
  have hget : ∀ j, j ≠ i → ∀ b : Nat, Has (w.vars.set i v) j b ↔ Has w.vars j b := by
    intro j hj b
    unfold Has
    rw [List.getElem?_set_ne (fun e => hj e.symm)]
  refine ⟨by simp [R.len], ?_, ?_, ?_⟩
  · intro j v' x' h1 h2
    dsimp only at h1
    by_cases hj : j = i
    · subst hj
      rw [List.getElem?_set_self hi] at h1
      rw [List.getElem?_set_self (by rw [R.len]; exact hi)] at h2
      cases h1; cases h2
      exact hc
    · rw [List.getElem?_set_ne (fun e => hj e.symm)] at h1 h2
      refine corr_congr (R.corr j v' x' h1 h2) ?_
      intro n b hb
      exact ho j b hj ⟨n, by rw [h1, hb]⟩
  · intro j k b h1 h2
    dsimp only at h1 h2
    by_cases hj : j = i
    · by_cases hk : k = i
      · omega
      · subst hj
        obtain ⟨n, h1⟩ := h1
        rw [List.getElem?_set_self hi] at h1
        injection h1 with h1
        exact absurd ((hget k hk b).mp h2) (hn n b h1 k hk)
    · by_cases hk : k = i
      · subst hk
        obtain ⟨n, h2⟩ := h2
        rw [List.getElem?_set_self hi] at h2
        injection h2 with h2
        exact absurd ((hget j hj b).mp h1) (hn n b h2 j hj)
      · exact R.inj j k b ((hget j hj b).mp h1) ((hget k hk b).mp h2)
  · intro b c hb
    rcases hl b c hb with ⟨n, hv⟩ | ⟨j, hj, hh⟩
    · exact ⟨i, n, by dsimp only; rw [List.getElem?_set_self hi, hv]⟩
    · exact ⟨j, (hget j hj b).mpr hh⟩

/-- A new variable. -/
theorem Rep.push {w : World α} {s : State α} (R : Rep w s) {v : Option Arr} {x : Option (Option (List (Option α)))}
    {h : List (Option (List (Option α)))} (ho : ∀ j b : Nat, Has w.vars j b → h[b]? = w.heap[b]?) (hc : Corr h v x)
    (hn : ∀ n b : Nat, v = some ⟨n, some b⟩ → ∀ j, ¬Has w.vars j b)
    (hl : ∀ (b : Nat) c, h[b]? = some (some c) → (∃ n : Nat, v = some ⟨n, some b⟩) ∨ ∃ j, Has w.vars j b) :
    Rep ⟨w.vars ++ [v], h⟩ (s ++ [x]) := by
  have hs : Rep ⟨w.vars ++ [none], w.heap⟩ (s ++ [none]) := by
    have hh : ∀ j b : Nat, Has (w.vars ++ [none]) j b → Has w.vars j b := by
      intro j b ⟨n, hj⟩
      rcases Nat.lt_or_ge j w.vars.length with hlt | hge
      · rw [List.getElem?_append_left hlt] at hj; exact ⟨n, hj⟩
      · rw [List.getElem?_append_right hge] at hj
        have : j - w.vars.length < 1 := by have := lt_of_get hj; simpa using this
        rw [show j - w.vars.length = 0 by omega] at hj
        simp at hj
    refine ⟨by simp [R.len], ?_, fun i j b h1 h2 => R.inj i j b (hh i b h1) (hh j b h2), ?_⟩
    · intro j v' x' h1 h2
      dsimp only at h1
      rcases Nat.lt_or_ge j w.vars.length with hlt | hge
      · rw [List.getElem?_append_left hlt] at h1
        rw [List.getElem?_append_left (by rw [R.len]; exact hlt)] at h2
        exact R.corr j v' x' h1 h2
      · have : j < w.vars.length + 1 := by simpa using lt_of_get h1
        have he : j = w.vars.length := by omega
        subst he
        rw [List.getElem?_concat_length] at h1
        rw [← R.len, List.getElem?_concat_length] at h2
        cases h1; cases h2
        trivial
    · intro b c hb
      obtain ⟨j, n, hj⟩ := R.noleak b c hb
      exact ⟨j, n, by dsimp only; rw [List.getElem?_append_left (lt_of_get hj), hj]⟩
  have hi : w.vars.length < (w.vars ++ [(none : Option Arr)]).length := by simp
  have hne : ∀ j b : Nat, Has (w.vars ++ [none]) j b → Has w.vars j b := by
    intro j b ⟨n, hj⟩
    rcases Nat.lt_or_ge j w.vars.length with hlt | hge
    · rw [List.getElem?_append_left hlt] at hj; exact ⟨n, hj⟩
    · have : j < w.vars.length + 1 := by simpa using lt_of_get hj
      have he : j = w.vars.length := by omega
      subst he
      rw [List.getElem?_concat_length] at hj
      cases hj
  have := hs.set (i := w.vars.length) (v := v) (x := x) (h := h) hi (fun j b _ hj => ho j b (hne j b hj)) hc
    (fun n b hv j _ hj => hn n b hv j (hne j b hj)) (by
      intro b c hb
      rcases hl b c hb with h1 | ⟨j, n, hj⟩
      · exact .inl h1
      · refine .inr ⟨j, by have := lt_of_get hj; omega, n, ?_⟩
        dsimp only; rw [List.getElem?_append_left (lt_of_get hj), hj])
  have e1 : (w.vars ++ [(none : Option Arr)]).set w.vars.length v = w.vars ++ [v] := by simp
  have e2 : (s ++ [(none : Option (Option (List (Option α))))]).set w.vars.length x = s ++ [x] := by rw [← R.len]; simp
  dsimp only at this
  rwa [e1, e2] at this

/-- A variable without a block takes over the block of another. -/
theorem Rep.move {w : World α} {s : State α} (R : Rep w s) {i j : Nat} (hij : i ≠ j) {a : Arr} {x : Option (List (Option α))}
    (hi : w.vars[i]? = some (some ⟨0, none⟩)) (hj : w.vars[j]? = some (some a)) (hx : s[j]? = some (some x)) :
    Rep ⟨(w.vars.set j (some ⟨0, none⟩)).set i (some a), w.heap⟩ ((s.set j (some none)).set i (some x)) := by
  have hi' := lt_of_get hi
  have hj' := lt_of_get hj
  have g : ∀ k, ((w.vars.set j (some ⟨0, none⟩)).set i (some a))[k]? = if k = i then some (some a) else if k = j then some (some ⟨0, none⟩) else w.vars[k]? := by
    intro k
    by_cases h1 : k = i
    · subst h1; rw [List.getElem?_set_self (by simpa using hi'), if_pos rfl]
    · rw [List.getElem?_set_ne (fun e => h1 e.symm), if_neg h1]
      by_cases h2 : k = j
      · subst h2; rw [List.getElem?_set_self hj', if_pos rfl]
      · rw [List.getElem?_set_ne (fun e => h2 e.symm), if_neg h2]
  have hh : ∀ k b : Nat, Has ((w.vars.set j (some ⟨0, none⟩)).set i (some a)) k b →
      (k = i ∧ Has w.vars j b) ∨ (k ≠ i ∧ k ≠ j ∧ Has w.vars k b) := by
    intro k b ⟨n, hk⟩
    rw [g k] at hk
    by_cases h1 : k = i
    · rw [if_pos h1] at hk
      exact .inl ⟨h1, n, by rw [hj, hk]⟩
    · rw [if_neg h1] at hk
      by_cases h2 : k = j
      · rw [if_pos h2] at hk; simp at hk
      · rw [if_neg h2] at hk
        exact .inr ⟨h1, h2, n, hk⟩
  refine ⟨by simp [R.len], ?_, ?_, ?_⟩
  · intro k v y h1 h2
    dsimp only at h1
    rw [g k] at h1
    by_cases e1 : k = i
    · subst e1
      rw [if_pos rfl] at h1
      rw [List.getElem?_set_self (by simpa [R.len] using hi')] at h2
      cases h1; cases h2
      exact R.corr j _ _ hj hx
    · rw [if_neg e1] at h1
      rw [List.getElem?_set_ne (fun e => e1 e.symm)] at h2
      by_cases e2 : k = j
      · subst e2
        rw [if_pos rfl] at h1
        rw [List.getElem?_set_self (by simpa [R.len] using hj')] at h2
        cases h1; cases h2
        exact rfl
      · rw [if_neg e2] at h1
        rw [List.getElem?_set_ne (fun e => e2 e.symm)] at h2
        exact R.corr k v y h1 h2
  · intro k l b h1 h2
    rcases hh k b h1 with ⟨e1, h1⟩ | ⟨e1, e1', h1⟩ <;> rcases hh l b h2 with ⟨e2, h2⟩ | ⟨e2, e2', h2⟩
    · omega
    · exact absurd (R.inj _ _ _ h2 h1) e2'
    · exact absurd (R.inj _ _ _ h1 h2) e1'
    · exact R.inj _ _ _ h1 h2
  · intro b c hb
    obtain ⟨k, n, hk⟩ := R.noleak b c hb
    have hki : k ≠ i := by intro e; rw [e, hi] at hk; simp at hk
    by_cases hkj : k = j
    · subst hkj
      refine ⟨i, n, ?_⟩
      dsimp only
      rw [g i, if_pos rfl, ← hj, hk]
    · refine ⟨k, n, ?_⟩
      dsimp only
      rw [g k, if_neg hki, if_neg hkj, hk]

/-! ### The calls -/

theorem Rep.get {w : World α} {s : State α} (R : Rep w s) {i : Nat} {x : Option (List (Option α))} (h : liveAt s i = some x) :
    ∃ a, var w i = pure a ∧ w.vars[i]? = some (some a) ∧ s[i]? = some (some x) ∧ Corr w.heap (some a) (some x) := by
  have hs : s[i]? = some (some x) := by
    unfold liveAt at h
    cases hs : s[i]? with
    | none => rw [hs] at h; cases h
    | some y => rw [hs] at h; simp at h; rw [h]
  have hi : i < w.vars.length := by rw [← R.len]; exact lt_of_get hs
  have hv := List.getElem?_eq_getElem hi
  have hc := R.corr i _ _ hv hs
  revert hv hc
  cases hw : w.vars[i] with
  | none => intro _ hc; cases x <;> exact hc.elim
  | some a =>
    intro hv hc
    exact ⟨a, by unfold var; rw [hv], hv, hs, hc⟩

theorem block_of {h : List (Option (List (Option α)))} {b : Nat} {c : List (Option α)} (hb : h[b]? = some (some c)) :
    block h (some b) = pure c := by
  show (match h[b]? with | some (some c) => pure c | _ => ub) = _
  rw [hb]

theorem free_of {h : List (Option (List (Option α)))} {b : Nat} {c : List (Option α)} (hb : h[b]? = some (some c)) :
    free h (some b) = pure (h.set b none) := by
  show (do let _ ← block h (some b); pure (h.set b none)) = _
  rw [block_of hb, pure_bind]

theorem free_dead {h : List (Option (List (Option α)))} {b : Nat} (hb : h[b]? = some none) : free h (some b) = ub := by
  show (do let _ ← (match h[b]? with | some (some c) => pure c | _ => ub : Cxx (List (Option α))); pure (h.set b none)) = _
  rw [hb]
  rfl

/-- The block of a variable is freed and the variable has none any more. -/
theorem Rep.drop {w : World α} {s : State α} (R : Rep w s) {i : Nat} {a : Arr} {v : Option Arr} {x : Option (Option (List (Option α)))}
    (hi : w.vars[i]? = some (some a)) (hv : ∀ h : List (Option (List (Option α))), Corr h v x)
    (hn : ∀ n b : Nat, v ≠ some ⟨n, some b⟩) :
    ∃ h, free w.heap a.data = pure h ∧ Rep ⟨w.vars.set i v, h⟩ (s.set i x) := by
  obtain ⟨n, p⟩ := a
  cases p with
  | none =>
    refine ⟨w.heap, rfl, R.set (lt_of_get hi) (fun _ _ _ _ => rfl) (hv _) (fun n b e => absurd e (hn n b)) ?_⟩
    intro b c hb
    obtain ⟨j, m, hj⟩ := R.noleak b c hb
    refine .inr ⟨j, ?_, m, hj⟩
    intro e
    rw [e, hi] at hj
    simp at hj
  | some b0 =>
    have hh : Has w.vars i b0 := ⟨n, hi⟩
    obtain ⟨c, hc⟩ := R.live hh
    refine ⟨w.heap.set b0 none, free_of hc, R.set (lt_of_get hi) ?_ (hv _) (fun n b e => absurd e (hn n b)) ?_⟩
    · intro j b hj hb
      rw [List.getElem?_set_ne]
      intro e
      subst e
      exact hj (R.inj _ _ _ hb hh)
    · intro b c' hb
      by_cases e : b = b0
      · subst e
        rw [List.getElem?_set_self (R.lt hh)] at hb
        cases hb
      · rw [List.getElem?_set_ne (fun e' => e e'.symm)] at hb
        obtain ⟨j, m, hj⟩ := R.noleak b c' hb
        refine .inr ⟨j, ?_, m, hj⟩
        intro e'
        rw [e', hi] at hj
        simp at hj
        exact e hj.2.symm

/-- A new variable with a new block. -/
theorem Rep.new {w : World α} {s : State α} (R : Rep w s) {n : Nat} (c : List (Option α)) (hn : n = c.length) :
    Rep ⟨w.vars ++ [some ⟨n, some w.heap.length⟩], w.heap ++ [some c]⟩ (s ++ [some (some c)]) := by
  refine R.push ?_ ⟨hn, w.heap.length, rfl, by rw [List.getElem?_concat_length]⟩ ?_ ?_
  · intro j b hj
    rw [List.getElem?_append_left (R.lt hj)]
  · intro m b e j hj
    have := R.lt hj
    injection e with e
    injection e with _ e
    injection e with e
    omega
  · intro b c' hb
    rcases Nat.lt_or_ge b w.heap.length with hlt | hge
    · rw [List.getElem?_append_left hlt] at hb
      exact .inr (R.noleak b c' hb)
    · have : b < w.heap.length + 1 := by simpa using lt_of_get hb
      have he : b = w.heap.length := by omega
      exact .inl ⟨n, by rw [he]⟩

/-- A variable gets a new block and its old one is freed. -/
theorem Rep.renew {w : World α} {s : State α} (R : Rep w s) {i : Nat} {a : Arr} (hi : w.vars[i]? = some (some a)) {n : Nat}
    (c : List (Option α)) (hn : n = c.length) :
    ∃ h, free (w.heap ++ [some c]) a.data = pure h ∧
      Rep ⟨w.vars.set i (some ⟨n, some w.heap.length⟩), h⟩ (s.set i (some (some c))) := by
  obtain ⟨m, p⟩ := a
  have hnew : ∀ k b : Nat, some (⟨n, some w.heap.length⟩ : Arr) = some ⟨k, some b⟩ → ∀ j, j ≠ i → ¬Has w.vars j b := by
    intro k b e j _ hj
    have := R.lt hj
    injection e with e
    injection e with _ e
    injection e with e
    omega
  cases p with
  | none =>
    refine ⟨w.heap ++ [some c], rfl, R.set (lt_of_get hi) ?_ ⟨hn, w.heap.length, rfl, by rw [List.getElem?_concat_length]⟩ hnew ?_⟩
    · intro j b _ hj
      rw [List.getElem?_append_left (R.lt hj)]
    · intro b c' hb
      rcases Nat.lt_or_ge b w.heap.length with hlt | hge
      · rw [List.getElem?_append_left hlt] at hb
        obtain ⟨j, k, hj⟩ := R.noleak b c' hb
        refine .inr ⟨j, ?_, k, hj⟩
        intro e
        rw [e, hi] at hj
        simp at hj
      · have : b < w.heap.length + 1 := by simpa using lt_of_get hb
        exact .inl ⟨n, by rw [show b = w.heap.length by omega]⟩
  | some b0 =>
    have hh : Has w.vars i b0 := ⟨m, hi⟩
    have hlt0 := R.lt hh
    obtain ⟨c0, hc0⟩ := R.live hh
    refine ⟨(w.heap ++ [some c]).set b0 none, free_of (by rw [List.getElem?_append_left hlt0]; exact hc0),
      R.set (lt_of_get hi) ?_ ⟨hn, w.heap.length, rfl, ?_⟩ hnew ?_⟩
    · intro j b hj hb
      rw [List.getElem?_set_ne, List.getElem?_append_left (R.lt hb)]
      intro e
      subst e
      exact hj (R.inj _ _ _ hb hh)
    · rw [List.getElem?_set_ne (by omega), List.getElem?_concat_length]
    · intro b c' hb
      by_cases e : b = b0
      · subst e
        rw [List.getElem?_set_self (by simp; omega)] at hb
        cases hb
      · rw [List.getElem?_set_ne (fun e' => e e'.symm)] at hb
        rcases Nat.lt_or_ge b w.heap.length with hlt | hge
        · rw [List.getElem?_append_left hlt] at hb
          obtain ⟨j, k, hj⟩ := R.noleak b c' hb
          refine .inr ⟨j, ?_, k, hj⟩
          intro e'
          rw [e', hi] at hj
          simp at hj
          exact e hj.2.symm
        · have : b < w.heap.length + 1 := by simpa using lt_of_get hb
          exact .inl ⟨n, by rw [show b = w.heap.length by omega]⟩

theorem putAll_fresh (xs : List α) : putAll (List.replicate xs.length none) 0 xs = pure (xs.map some) := by
  obtain ⟨c, h1, h2, h3⟩ := putAll_get xs (List.replicate xs.length none) 0 (by simp)
  rw [h1]
  congr 1
  apply List.ext_getElem?
  intro j
  rw [h3 j]
  by_cases hj : j < xs.length
  · rw [if_pos (by omega), Nat.sub_zero, List.getElem?_map, List.getElem?_eq_getElem hj]
    rfl
  · rw [if_neg (by omega), List.getElem?_eq_none (by simp; omega), List.getElem?_eq_none (by simp; omega)]

theorem copyCells_fresh (c : List (Option α)) : copyCells c (List.replicate c.length none) 0 c.length = pure c := by
  obtain ⟨c', h1, h2, h3⟩ := copyCells_get c c.length 0 (List.replicate c.length none) (by simp) (by simp)
  rw [h1]
  congr 1
  apply List.ext_getElem?
  intro j
  rw [h3 j]
  by_cases hj : j < c.length
  · rw [if_pos (by omega)]
  · rw [if_neg (by omega), List.getElem?_eq_none (by simp; omega), List.getElem?_eq_none (by omega)]

theorem copyBlock_of {h : List (Option (List (Option α)))} {a : Arr} {x : Option (List (Option α))} (hc : Corr h (some a) (some x)) :
    copyBlock h a.data a.size = pure (x.getD []) ∧ a.size = (x.getD []).length := by
  cases x with
  | none =>
    have : a = ⟨0, none⟩ := hc
    subst this
    exact ⟨rfl, rfl⟩
  | some c =>
    obtain ⟨h1, b, h2, h3⟩ := hc
    refine ⟨?_, h1⟩
    unfold copyBlock
    rw [h1, h2]
    by_cases h0 : c.length = 0
    · rw [if_pos h0, List.eq_nil_of_length_eq_zero h0]; rfl
    · rw [if_neg h0, block_of h3, pure_bind, copyCells_fresh]
      rfl

/-- Every call with a meaning, except `clear`, does what it means. -/
theorem step_ok (d : α) {w : World α} {s s' : State α} (R : Rep w s) (o : Op α) (ho : ∀ i, o ≠ .clear i) (h : means d s o = some s') :
    ∃ w', step d w o = pure w' ∧ Rep w' s' := by
  cases o with
  | default =>
    cases h
    refine ⟨_, rfl, R.push (fun _ _ _ => rfl) rfl ?_ (fun b c hb => .inr (R.noleak b c hb))⟩
    intro n b e
    cases e
  | ofSize n =>
    cases h
    exact ⟨_, rfl, R.new _ (by simp)⟩
  | overwrite n =>
    cases h
    exact ⟨_, rfl, R.new _ (by simp)⟩
  | ofValue n v =>
    cases h
    refine ⟨⟨w.vars ++ [some ⟨n, some w.heap.length⟩], w.heap ++ [some (List.replicate n (some v))]⟩, ?_, R.new _ (by simp)⟩
    have := putAll_fresh (List.replicate n v)
    rw [List.length_replicate] at this
    show (do let c ← putAll (List.replicate n none) 0 (List.replicate n v); _) = _
    rw [this, pure_bind, List.map_replicate]
  | ofList xs =>
    cases h
    refine ⟨⟨w.vars ++ [some ⟨xs.length, some w.heap.length⟩], w.heap ++ [some (xs.map some)]⟩, ?_, R.new _ (by simp)⟩
    show (do let c ← putAll (List.replicate xs.length none) 0 xs; _) = _
    rw [putAll_fresh, pure_bind]
  | moveNew j =>
    rw [means] at h
    cases hx : liveAt s j with
    | none => rw [hx] at h; cases h
    | some x =>
      rw [hx] at h
      cases h
      obtain ⟨a, h1, h2, h3, h4⟩ := R.get hx
      refine ⟨_, by show (do let a ← var w j; _) = _; rw [h1, pure_bind], ?_⟩
      have R1 : Rep ⟨w.vars ++ [some ⟨0, none⟩], w.heap⟩ (s ++ [some none]) :=
        R.push (fun _ _ _ => rfl) rfl (by intro n b e; cases e) (fun b c hb => .inr (R.noleak b c hb))
      have hj := lt_of_get h2
      have hj' := lt_of_get h3
      have := R1.move (i := w.vars.length) (j := j) (by omega) (by dsimp only; rw [List.getElem?_concat_length])
        (by dsimp only; rw [List.getElem?_append_left hj]; exact h2) (by rw [List.getElem?_append_left hj']; exact h3)
      dsimp only at this
      rw [List.set_append_left _ _ hj, List.set_append_right _ _ (by simp), List.set_append_left _ _ hj',
        List.set_append_right _ _ (by simp [R.len])] at this
      simpa [R.len] using this
  | copyNew j =>
    rw [means] at h
    cases hx : liveAt s j with
    | none => rw [hx] at h; cases h
    | some x =>
      rw [hx] at h
      cases h
      obtain ⟨a, h1, h2, h3, h4⟩ := R.get hx
      obtain ⟨h5, h6⟩ := copyBlock_of h4
      refine ⟨_, ?_, R.new (n := a.size) (x.getD []) h6⟩
      show (do let a ← var w j; _) = _
      rw [h1, pure_bind, h5, pure_bind]
  | moveInto i j =>
    rw [means] at h
    cases hy : liveAt s i with
    | none => rw [hy] at h; cases h
    | some y =>
      cases hx : liveAt s j with
      | none => rw [hy, hx] at h; cases h
      | some x =>
        rw [hy, hx] at h
        cases h
        obtain ⟨a, h1, h2, h3, h4⟩ := R.get hx
        obtain ⟨e, g1, g2, g3, g4⟩ := R.get hy
        have hi := lt_of_get g2
        have hj := lt_of_get h2
        show ∃ w', FixedArray.moveInto w i j = pure w' ∧ _
        unfold FixedArray.moveInto
        rw [h1, pure_bind]
        by_cases hij : i = j
        · subst hij
          rw [g2] at h2
          cases h2
          refine ⟨w, ?_, ?_⟩
          · have : clear { w with vars := w.vars.set i (some ⟨0, none⟩) } i = pure { w with vars := w.vars.set i (some ⟨0, none⟩) } := by
              unfold clear var
              dsimp only
              rw [List.getElem?_set_self hi]
              simp only [pure_bind]
              show (do let h ← free w.heap none; _) = _
              rw [show free w.heap none = pure w.heap from rfl, pure_bind, List.set_set]
            dsimp only
            rw [this, pure_bind]
            dsimp only
            rw [List.set_set]
            congr 1
            have : w.vars.set i (some a) = w.vars := by
              rw [← (List.getElem?_eq_some_iff.mp g2).2, List.set_getElem_self]
            rw [this]
          · rw [List.set_set]
            have : s.set i (some x) = s := by
              have h' : s[i]'(lt_of_get h3) = some x := (List.getElem?_eq_some_iff.mp h3).2
              rw [← h', List.set_getElem_self]
            rw [this]
            exact R
        · obtain ⟨h, hf, R1⟩ := R.drop (v := some ⟨0, none⟩) (x := some none) g2 (fun _ => rfl) (by intro n b e; cases e)
          have hc : clear { w with vars := w.vars.set j (some ⟨0, none⟩) } i =
              pure ⟨(w.vars.set j (some ⟨0, none⟩)).set i (some { e with size := 0 }), h⟩ := by
            unfold clear var
            dsimp only
            rw [List.getElem?_set_ne (fun e => hij e.symm), g2]
            simp only [pure_bind]
            rw [hf, pure_bind]
          refine ⟨_, by dsimp only; rw [hc, pure_bind], ?_⟩
          dsimp only
          rw [List.set_set]
          have := R1.move (i := i) (j := j) hij (by dsimp only; rw [List.getElem?_set_self hi])
            (by dsimp only; rw [List.getElem?_set_ne hij]; exact h2) (by rw [List.getElem?_set_ne hij]; exact h3)
          dsimp only at this
          rw [List.set_comm _ _ hij, List.set_set, List.set_comm _ _ hij, List.set_set] at this
          exact this
  | copyInto i j =>
    rw [means] at h
    cases hy : liveAt s i with
    | none => rw [hy] at h; cases h
    | some y =>
      cases hx : liveAt s j with
      | none => rw [hy, hx] at h; cases h
      | some x =>
        rw [hy, hx] at h
        cases h
        obtain ⟨a, h1, h2, h3, h4⟩ := R.get hx
        obtain ⟨e, g1, g2, g3, g4⟩ := R.get hy
        obtain ⟨h5, h6⟩ := copyBlock_of h4
        obtain ⟨h, hf, R1⟩ := R.renew g2 (x.getD []) h6
        refine ⟨_, ?_, R1⟩
        show FixedArray.copyInto w i j = _
        unfold FixedArray.copyInto
        rw [h1, pure_bind, h5, pure_bind]
        have hc : clear { w with heap := w.heap ++ [some (x.getD [])] } i = pure ⟨w.vars.set i (some { e with size := 0 }), h⟩ := by
          unfold clear var
          dsimp only
          rw [g2]
          simp only [pure_bind]
          rw [hf, pure_bind]
        dsimp only
        rw [hc, pure_bind, List.set_set]
  | release i =>
    rw [means] at h
    cases hx : liveAt s i with
    | none => rw [hx] at h; cases h
    | some x =>
      rw [hx] at h
      cases h
      obtain ⟨a, h1, h2, h3, h4⟩ := R.get hx
      obtain ⟨h, hf, R1⟩ := R.drop (v := some ⟨0, none⟩) (x := some none) h2 (fun _ => rfl) (by intro n b e; cases e)
      refine ⟨_, ?_, R1⟩
      show FixedArray.release w i = _
      unfold FixedArray.release
      rw [h1, pure_bind, hf, pure_bind]
  | destroy i =>
    rw [means] at h
    cases hx : liveAt s i with
    | none => rw [hx] at h; cases h
    | some x =>
      rw [hx] at h
      cases h
      obtain ⟨a, h1, h2, h3, h4⟩ := R.get hx
      obtain ⟨h, hf, R1⟩ := R.drop (v := none) (x := none) h2 (fun _ => trivial) (by intro n b e; cases e)
      refine ⟨_, ?_, R1⟩
      show FixedArray.destroy w i = _
      unfold FixedArray.destroy clear
      rw [h1]
      simp only [pure_bind]
      rw [hf]
      simp only [pure_bind]
      rw [List.set_set]
  | write i pos v =>
    rw [means] at h
    cases hx : liveAt s i with
    | none => rw [hx] at h; cases h
    | some x =>
      cases x with
      | none => rw [hx] at h; cases h
      | some c =>
        rw [hx] at h
        dsimp only at h
        by_cases hp : pos < c.length
        · rw [if_pos hp] at h
          cases h
          obtain ⟨⟨n, p⟩, h1, h2, h3, h4, b, h5, h6⟩ := R.get hx
          dsimp only at h4 h5
          subst h5
          have hh : Has w.vars i b := ⟨n, h2⟩
          refine ⟨{ w with heap := w.heap.set b (some (c.set pos (some v))) }, ?_, ?_⟩
          · show FixedArray.write w i pos v = _
            unfold FixedArray.write
            rw [h1]
            simp only [pure_bind]
            rw [block_of h6, pure_bind, wr_eq hp, pure_bind]
          · have := R.set (i := i) (v := some ⟨n, some b⟩) (x := some (some (c.set pos (some v))))
              (h := w.heap.set b (some (c.set pos (some v)))) (lt_of_get h2)
              (by
                intro j b' hj hb'
                rw [List.getElem?_set_ne]
                intro e
                subst e
                exact hj (R.inj _ _ _ hb' hh))
              ⟨by simp [h4], b, rfl, by rw [List.getElem?_set_self (lt_of_get h6)]⟩
              (by
                intro k b' e j hj hb'
                injection e with e
                injection e with _ e
                injection e with e
                subst e
                exact hj (R.inj _ _ _ hb' hh))
              (by
                intro b' c' hb'
                by_cases e : b' = b
                · exact .inl ⟨n, by rw [e]⟩
                · rw [List.getElem?_set_ne (fun e' => e e'.symm)] at hb'
                  obtain ⟨j, m, hj⟩ := R.noleak b' c' hb'
                  refine .inr ⟨j, ?_, m, hj⟩
                  intro e'
                  rw [e', h2] at hj
                  simp at hj
                  exact e hj.2.symm)
            have e : w.vars.set i (some ⟨n, some b⟩) = w.vars := by
              rw [← (List.getElem?_eq_some_iff.mp h2).2, List.set_getElem_self]
            rw [e] at this
            exact this
        · rw [if_neg hp] at h; cases h
  | clear i => exact absurd rfl (ho i)

theorem run_ok (d : α) : ∀ (os : List (Op α)) {w : World α} {s s' : State α}, Rep w s → (∀ i, Op.clear i ∉ os) →
    meaning d s os = some s' → ∃ w', run d w os = pure w' ∧ Rep w' s' := by
  intro os
  induction os with
  | nil =>
    intro w s s' R _ h
    cases h
    exact ⟨w, rfl, R⟩
  | cons o os ih =>
    intro w s s' R hc h
    rw [meaning] at h
    cases hm : means d s o with
    | none => rw [hm] at h; cases h
    | some s1 =>
      rw [hm] at h
      obtain ⟨w1, h1, R1⟩ := step_ok d R o (fun i e => hc i (by rw [e]; exact List.mem_cons_self)) hm
      obtain ⟨w', h2, R2⟩ := ih R1 (fun i hi => hc i (List.mem_cons_of_mem _ hi)) h
      exact ⟨w', by rw [run, h1, pure_bind, h2], R2⟩

/-! ### Histories -/

theorem get_of {w : World α} {s : State α} (R : Rep w s) {i : Nat} {x : Option (List (Option α))} (hx : liveAt s i = some x) (pos : Nat) :
    get w i pos = match (x.getD [])[pos]? with
      | some (some v) => pure v
      | _ => ub := by
  obtain ⟨a, h1, _, _, h4⟩ := R.get hx
  unfold get
  rw [h1, pure_bind]
  cases x with
  | none =>
    have : a = ⟨0, none⟩ := h4
    subst this
    rfl
  | some c =>
    obtain ⟨_, b, h5, h6⟩ := h4
    rw [h5, block_of h6, pure_bind]
    unfold cell
    show _ = match c[pos]? with | some (some v) => pure v | _ => ub
    unfold rd
    cases hp : c[pos]? with
    | none => rfl
    | some o =>
      dsimp only
      rw [pure_bind]
      cases o <;> rfl

/-- C230, without `clear`: after any history of constructions, copies, moves, assignments, releases, writes and destructions that has a
meaning nothing undefined happened and every array has the elements the history means; `front` and `back` are the first and the last
one.  When all arrays are destroyed all memory is freed.  Missing: histories with `clear` and with arrays made from the pointer of
another, see `C230_clear_violated` and `C230_pointer_violated`. -/
theorem C230_history_partial (d : α) (os : List (Op α)) (hc : ∀ i, Op.clear i ∉ os) (s : State α) (hm : meaning d [] os = some s) :
    ∃ w, run d .init os = pure w ∧
      (∀ i x, liveAt s i = some x →
        size w i = pure (x.getD []).length ∧
        (∀ pos, get w i pos = match (x.getD [])[pos]? with
          | some (some v) => pure v
          | _ => ub) ∧
        front w i = (match (x.getD []).head? with
          | some (some v) => pure v
          | _ => ub) ∧
        back w i = match (x.getD []).getLast? with
          | some (some v) => pure v
          | _ => ub) ∧
      ((∀ y ∈ s, y = none) → ∀ b ∈ w.heap, b = none) := by
  obtain ⟨w, h1, R⟩ := run_ok d os rep_init hc hm
  refine ⟨w, h1, ?_, ?_⟩
  · intro i x hx
    have hg := get_of R hx
    obtain ⟨a, g1, _, _, g4⟩ := R.get hx
    have hs := (copyBlock_of g4).2
    refine ⟨by unfold size; rw [g1, pure_bind, hs], hg, ?_, ?_⟩
    · unfold front
      rw [hg 0, List.head?_eq_getElem?]
    · unfold back
      rw [g1, pure_bind, hs, List.getLast?_eq_getElem?]
      by_cases h0 : (x.getD []).length = 0
      · rw [if_pos h0, List.getElem?_eq_none (by omega)]
      · rw [if_neg h0, hg]
  · intro hn b hb
    obtain ⟨k, hk, he⟩ := List.getElem_of_mem hb
    cases b with
    | none => rfl
    | some c =>
      obtain ⟨j, n, hj⟩ := R.noleak k c (by rw [List.getElem?_eq_getElem hk, he])
      have hj' : j < s.length := by rw [R.len]; exact lt_of_get hj
      have := R.corr j _ _ hj (List.getElem?_eq_getElem hj')
      rw [hn _ (List.getElem_mem hj')] at this
      exact this.elim

/-- Two arrays, an assignment between them, a move and the end of all of them. -/
example : meaning 0 [] [.ofSize 2, .ofList [5, 6, 7], .write 0 1 (9 : Nat), .copyInto 1 0, .moveNew 0, .moveInto 0 2, .moveInto 0 0, .copyNew 2] =
    some [some (some [some 0, some 9]), some (some [some 0, some 9]), some none, some (some [])] := by decide

/-- The array has no block and is not destroyed. -/
example : liveAt [some (none : Option (List (Option Nat)))] 0 = some none := rfl

/-- The end of an array, `~fixed_array`, leaves nothing. -/
example : (run 0 .init [.ofList [1, 2], .copyNew 0, .destroy 0, .destroy 1] : Cxx (World Nat)) = pure ⟨[none, none], [none, none]⟩ := by
  decide +kernel

/-- C230, violated: after any history, an array with memory that is emptied by `clear` cannot be destroyed, emptied, released or
assigned to any more: it frees its memory a second time. -/
theorem C230_clear_violated (d : α) (os : List (Op α)) (hc : ∀ i, Op.clear i ∉ os) (s : State α) (hm : meaning d [] os = some s)
    (i : Nat) (c : List (Option α)) (hx : liveAt s i = some (some c)) :
    ∃ w, run d .init (os ++ [.clear i]) = pure w ∧ size w i = pure 0 ∧
      destroy w i = ub ∧ clear w i = ub ∧ release w i = ub ∧ ∀ j x, liveAt s j = some x → copyInto w i j = ub := by
  obtain ⟨w, h1, R⟩ := run_ok d os rep_init hc hm
  obtain ⟨⟨n, p⟩, g1, g2, g3, g4, b, g5, g6⟩ := R.get hx
  dsimp only at g5
  subst g5
  have hlt := lt_of_get g6
  have hi := lt_of_get g2
  have hrun : ∀ (os : List (Op α)) (v : World α), run d v (os ++ [.clear i]) = run d v os >>= fun v => clear v i := by
    intro os
    induction os with
    | nil =>
      intro v
      show (step d v (.clear i) >>= fun v => pure v) = _
      rw [bind_pure]
      rfl
    | cons o os ih =>
      intro v
      rw [List.cons_append, run, run, bind_assoc]
      congr 1
      funext v
      exact ih v
  have hv : var (⟨w.vars.set i (some ⟨0, some b⟩), w.heap.set b none⟩ : World α) i = pure ⟨0, some b⟩ := by
    unfold var
    dsimp only
    rw [List.getElem?_set_self hi]
  have hf : free (w.heap.set b none) (some b) = ub := free_dead (List.getElem?_set_self hlt)
  have hcl : clear (⟨w.vars.set i (some ⟨0, some b⟩), w.heap.set b none⟩ : World α) i = ub := by
    unfold clear
    rw [hv, pure_bind]
    dsimp only
    rw [hf, ub_bind]
  refine ⟨⟨w.vars.set i (some ⟨0, some b⟩), w.heap.set b none⟩, ?_, ?_, ?_, hcl, ?_, ?_⟩
  · rw [hrun, h1, pure_bind]
    unfold clear
    rw [g1, pure_bind]
    dsimp only
    rw [free_of g6, pure_bind]
  · unfold size
    rw [hv, pure_bind]
  · unfold destroy
    rw [hcl, ub_bind]
  · unfold release
    rw [hv, pure_bind]
    dsimp only
    rw [hf, ub_bind]
  · intro j x hj
    obtain ⟨a, k1, k2, k3, k4⟩ := R.get hj
    have hcp : ∃ a' c', var (⟨w.vars.set i (some ⟨0, some b⟩), w.heap.set b none⟩ : World α) j = pure a' ∧
        copyBlock (w.heap.set b none) a'.data a'.size = pure c' := by
      by_cases e : j = i
      · subst e
        exact ⟨_, [], hv, by unfold copyBlock; rw [if_pos rfl]⟩
      · refine ⟨a, x.getD [], ?_, ?_⟩
        · unfold var
          dsimp only
          rw [List.getElem?_set_ne (fun e' => e e'.symm), k2]
        · refine (copyBlock_of (h := w.heap.set b none) (corr_congr k4 ?_)).1
          intro m b' hb'
          injection hb' with hb'
          rw [List.getElem?_set_ne]
          intro e'
          subst e'
          exact e (R.inj j i b ⟨m, by rw [k2, hb']⟩ ⟨n, g2⟩)
    obtain ⟨a', c', k5, k6⟩ := hcp
    unfold copyInto
    rw [k5]
    simp only [pure_bind]
    rw [k6]
    simp only [pure_bind]
    have : clear (⟨w.vars.set i (some ⟨0, some b⟩), w.heap.set b none ++ [some c']⟩ : World α) i = ub := by
      have hv' : var (⟨w.vars.set i (some ⟨0, some b⟩), w.heap.set b none ++ [some c']⟩ : World α) i = pure ⟨0, some b⟩ := hv
      unfold clear
      rw [hv', pure_bind]
      dsimp only
      rw [free_dead (by rw [List.getElem?_append_left (by simpa using hlt), List.getElem?_set_self hlt]), ub_bind]
    rw [this, ub_bind]

example : (run 0 .init [.ofList [1, 2], .clear 0, .destroy 0] : Cxx (World Nat)) = ub := by decide +kernel

/-- C230, violated: an array made from the pointer and the size of another is not a copy.  Destroying both frees the memory a second
time, whatever the history. -/
theorem C230_pointer_violated (d : α) (os : List (Op α)) (hc : ∀ i, Op.clear i ∉ os) (s : State α) (hm : meaning d [] os = some s)
    (j : Nat) (c : List (Option α)) (hx : liveAt s j = some (some c)) :
    ∃ w w1 w2, run d .init os = pure w ∧ ofPointer w j = pure w1 ∧ destroy w1 j = pure w2 ∧ destroy w2 s.length = ub := by
  obtain ⟨w, h1, R⟩ := run_ok d os rep_init hc hm
  obtain ⟨⟨n, p⟩, g1, g2, g3, g4, b, g5, g6⟩ := R.get hx
  dsimp only at g5
  subst g5
  have hlt := lt_of_get g6
  have hj := lt_of_get g2
  refine ⟨w, { w with vars := w.vars ++ [some ⟨n, some b⟩] }, ⟨w.vars.set j none ++ [some ⟨n, some b⟩], w.heap.set b none⟩, h1, ?_, ?_, ?_⟩
  · unfold ofPointer
    rw [g1, pure_bind]
  · have hv : var ({ w with vars := w.vars ++ [some ⟨n, some b⟩] } : World α) j = pure ⟨n, some b⟩ := by
      unfold var
      dsimp only
      rw [List.getElem?_append_left hj, g2]
    unfold destroy clear
    rw [hv]
    simp only [pure_bind]
    rw [free_of g6]
    simp only [pure_bind]
    rw [List.set_set, List.set_append_left _ _ hj]
  · have hv : var (⟨w.vars.set j none ++ [some ⟨n, some b⟩], w.heap.set b none⟩ : World α) s.length = pure ⟨n, some b⟩ := by
      unfold var
      dsimp only
      rw [R.len, show w.vars.length = (w.vars.set j none).length by simp, List.getElem?_concat_length]
    unfold destroy clear
    rw [hv]
    simp only [pure_bind]
    rw [free_dead (List.getElem?_set_self hlt)]
    rfl

example : ((run 0 .init [.ofList [1, 2]] >>= fun w => ofPointer w 0 >>= fun w => destroy w 0 >>= fun w => destroy w 1) : Cxx (World Nat)) = ub := by
  decide +kernel

/-! ### Iterators -/

/-- `pointer_iterator`: a block and a position, iterator/daw_pointer_iterator.h 24-25. -/
structure It where
  block : Nat
  pos : Nat
  deriving DecidableEq

/-- `pointer_iterator( ptr )`, iterator/daw_pointer_iterator.h 28-31: an `assert` refuses null. -/
def It.make (p : Option Nat) (pos : Nat) : Cxx It :=
  match p with
  | some b => pure ⟨b, pos⟩
  | none => abort

/-- `begin`, deprecated/daw_fixed_array.h 162-172. -/
def begin' (a : Arr) : Cxx It := It.make a.data 0

/-- `end`, deprecated/daw_fixed_array.h 174-184. -/
def end' (a : Arr) : Cxx It := It.make a.data a.size

/-- `operator*`, iterator/daw_pointer_iterator.h 57-59. -/
def It.load (h : List (Option (List (Option α)))) (it : It) : Cxx α := do
  let c ← FixedArray.block h (some it.block)
  cell c it.pos

/-- `operator[]`, iterator/daw_pointer_iterator.h 61-63, for an index that is not negative. -/
def It.index (h : List (Option (List (Option α)))) (it : It) (k : Nat) : Cxx α := do
  let c ← FixedArray.block h (some it.block)
  cell c (it.pos + k)

/-- `++it`, iterator/daw_pointer_iterator.h 65-68: a pointer may go to the end of its block but not further. -/
def It.inc (h : List (Option (List (Option α)))) (it : It) : Cxx It := do
  let c ← FixedArray.block h (some it.block)
  if it.pos + 1 ≤ c.length then pure { it with pos := it.pos + 1 } else ub

/-- `--it`, iterator/daw_pointer_iterator.h 76-79: the iterator afterwards and the result, which is a copy. -/
def It.dec (it : It) : Cxx (It × It) :=
  if it.pos = 0 then ub else pure ({ it with pos := it.pos - 1 }, { it with pos := it.pos - 1 })

/-- `--( --it )`, iterator/daw_pointer_iterator.h 76-79: the second call changes the copy. -/
def It.decTwice (it : It) : Cxx It := do
  let (it, copy) ← it.dec
  let _ ← copy.dec
  pure it

/-- `it1 - it2`, iterator/daw_pointer_iterator.h 113-117, and the comparisons, 119-147, by the difference: they need one block. -/
def It.diff (a b : It) : Cxx Int := if a.block = b.block then pure ((a.pos : Int) - b.pos) else ub

/-- A loop over an array with `begin`, `end`, `!=`, `++` and `*`, deprecated/daw_fixed_array.h 162-184. -/
def loop (h : List (Option (List (Option α)))) (it e : It) : Cxx (List α) := do
  if it = e then pure []
  else do
    let x ← it.load h
    let it ← it.inc h
    let xs ← loop h it e
    pure (x :: xs)
  partial_fixpoint

/-- A loop over variable `i`, deprecated/daw_fixed_array.h 162-184. -/
def visit (w : World α) (i : Nat) : Cxx (List α) := do
  let a ← var w i
  let f ← begin' a
  let l ← end' a
  loop w.heap f l

theorem loop_eq {h : List (Option (List (Option α)))} {b : Nat} (xs : List α) (hb : h[b]? = some (some (xs.map some))) :
    ∀ (n pos : Nat), pos + n = xs.length → loop h ⟨b, pos⟩ ⟨b, xs.length⟩ = pure (xs.drop pos) := by
  intro n
  induction n with
  | zero =>
    intro pos hp
    rw [loop, if_pos (by rw [show pos = xs.length by omega]), List.drop_eq_nil_of_le (by omega)]
  | succ n ih =>
    intro pos hp
    have hlt : pos < xs.length := by omega
    have hl : It.load h ⟨b, pos⟩ = pure xs[pos] := by
      unfold It.load cell
      rw [block_of hb, pure_bind]
      rw [rd_some (a := some xs[pos]) (by rw [List.getElem?_map, List.getElem?_eq_getElem hlt]; rfl)]
      rfl
    have hi : It.inc h ⟨b, pos⟩ = pure ⟨b, pos + 1⟩ := by
      unfold It.inc
      rw [block_of hb, pure_bind, if_pos (by simp; omega)]
    rw [loop, if_neg (by intro e; injection e with _ e; omega), hl, pure_bind, hi, pure_bind, ih (pos + 1) (by omega), pure_bind,
      List.drop_eq_getElem_cons hlt]

/-- C231, for arrays with memory: after any history a loop over an array whose elements were written meets them in order, indices
from an iterator agree with the array, and the difference of `end` and `begin` is the size.  Missing: arrays without memory, see
`C231_empty_violated`. -/
theorem C231_loop_partial (d : α) (os : List (Op α)) (hc : ∀ i, Op.clear i ∉ os) (s : State α) (hm : meaning d [] os = some s)
    (i : Nat) (xs : List α) (hx : liveAt s i = some (some (xs.map some))) :
    ∃ w, run d .init os = pure w ∧ visit w i = pure xs ∧
      ∃ f l, (var w i >>= begin') = pure f ∧ (var w i >>= end') = pure l ∧ l.diff f = pure (xs.length : Int) ∧
        ∀ k, (h : k < xs.length) → f.index w.heap k = pure xs[k] := by
  obtain ⟨w, h1, R⟩ := run_ok d os rep_init hc hm
  obtain ⟨⟨n, p⟩, g1, g2, g3, g4, b, g5, g6⟩ := R.get hx
  dsimp only at g4 g5
  subst g5
  rw [List.length_map] at g4
  subst g4
  refine ⟨w, h1, ?_, ⟨b, 0⟩, ⟨b, xs.length⟩, ?_, ?_, ?_, ?_⟩
  · unfold visit
    rw [g1]
    exact loop_eq xs g6 xs.length 0 (by omega)
  · rw [g1]; rfl
  · rw [g1]; rfl
  · unfold It.diff
    rw [if_pos rfl]
    simp
  · intro k hk
    unfold It.index cell
    rw [block_of g6, pure_bind, Nat.zero_add,
      rd_some (a := some xs[k]) (by rw [List.getElem?_map, List.getElem?_eq_getElem hk]; rfl)]
    rfl

example : meaning 0 [] [.ofList [5, 6, (7 : Nat)], .copyNew 0] = some [some (some ([5, 6, 7].map some)), some (some ([5, 6, 7].map some))] := by
  decide

/-- C231, violated: a loop over an array without memory, like one that was moved from, ends the program instead of meeting nothing. -/
theorem C231_empty_violated (d : α) (os : List (Op α)) (hc : ∀ i, Op.clear i ∉ os) (s : State α) (hm : meaning d [] os = some s)
    (i : Nat) (hx : liveAt s i = some none) : ∃ w, run d .init os = pure w ∧ size w i = pure 0 ∧ visit w i = abort := by
  obtain ⟨w, h1, R⟩ := run_ok d os rep_init hc hm
  obtain ⟨a, g1, g2, g3, g4⟩ := R.get hx
  have : a = ⟨0, none⟩ := g4
  subst this
  refine ⟨w, h1, ?_, ?_⟩
  · unfold size; rw [g1, pure_bind]
  · unfold visit
    rw [g1]
    rfl

example : meaning 0 [] [.ofList [5, (7 : Nat)], .moveNew 0] = some [some none, some (some [some 5, some 7])] := by decide

/-- C231, finding: `--( --it )` moves an iterator by one place only. -/
theorem C231_decrement_finding (it : It) (h : 2 ≤ it.pos) : it.decTwice = pure { it with pos := it.pos - 1 } := by
  unfold It.decTwice It.dec
  rw [if_neg (by omega)]
  simp only [pure_bind]
  rw [if_neg (by omega)]
  rfl

example : (⟨0, 3⟩ : It).decTwice = pure ⟨0, 2⟩ := rfl

end Verif.Containers.FixedArray
