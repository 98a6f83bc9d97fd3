import Verif.Containers.Lists

/-
`daw::rc_ptr`, include/daw/daw_ref_counted_pointer.h.  An object and the counter that belongs to it have the same number.  The handles of a
program are numbered in the order of construction.  The flag `arr` picks the specialisation for arrays, 222-398.  Assertions are on.
-/

namespace Verif.Memory
open Cxx

/-- `m_pointer` and `m_ref_count`, daw_ref_counted_pointer.h 63-64 and 233-234. -/
structure Handle where
  ptr : Option Nat
  cnt : Option Nat
deriving DecidableEq

/-- Counters, none once deleted; whether the objects are alive; the objects handed to the deleter, in order.
(Objects and members of `rc_ptr`, daw_ref_counted_pointer.h 53-220 and 223-398.) -/
structure Heap where
  cells : List (Option Nat)
  alive : List Bool
  freed : List Nat
deriving DecidableEq

/-- A program: its handles, none once destroyed, and the heap.
(Objects and members of `rc_ptr`, daw_ref_counted_pointer.h 53-220 and 223-398.) -/
structure Prog where
  handles : List (Option Handle)
  heap : Heap
deriving DecidableEq

/-- `++ref_count( )`, daw_ref_counted_pointer.h 67-70, 83, 95. -/
def acquire (h : Handle) (m : Heap) : Cxx Heap :=
  match h.cnt with
  | none => abort
  | some c =>
    match m.cells[c]? with
    | some (some n) => pure { m with cells := m.cells.set c (some ((n + 1) % 2 ^ 64)) }
    | _ => ub

/-- `reset`, daw_ref_counted_pointer.h 134-145 and 306-318. -/
def reset (arr : Bool) (h : Handle) (m : Heap) : Cxx (Handle × Heap) :=
  match h.ptr with
  | none => if arr && h.cnt.isSome then abort else pure (h, m)
  | some p =>
    match h.cnt with
    | none => abort
    | some c =>
      match m.cells[c]? with
      | some (some n) =>
        if (n + 2 ^ 64 - 1) % 2 ^ 64 = 0 then
          match m.alive[p]? with
          | some true => pure (⟨none, none⟩, ⟨m.cells.set c none, m.alive.set p false, m.freed ++ [p]⟩)
          | _ => ub
        else pure (h, { m with cells := m.cells.set c (some ((n + 2 ^ 64 - 1) % 2 ^ 64)) })
      | _ => ub

/-- `rc_ptr( pointer ptr )` with a new object, daw_ref_counted_pointer.h 124-130 and 296-302, and `make_rc_ptr`, 422-438. -/
def make (m : Heap) : Handle × Heap :=
  (⟨some m.alive.length, some m.cells.length⟩, ⟨m.cells ++ [some 1], m.alive ++ [true], m.freed⟩)

/-- The copy constructor, daw_ref_counted_pointer.h 79-85 and 249-257. -/
def copyCtor (arr : Bool) (o : Handle) (m : Heap) : Cxx (Handle × Heap) :=
  if o.cnt.isSome then do
    let m ← acquire o m
    pure (o, m)
  else if arr && o.ptr.isSome then abort
  else pure (o, m)

/-- The copy assignment of different handles, daw_ref_counted_pointer.h 87-99 and 259-271. -/
def copyAssign (arr : Bool) (h r : Handle) (m : Heap) : Cxx (Handle × Heap) := do
  let (h, m) ← reset arr h m
  if arr then
    if r.ptr.isSome then
      let m ← acquire r m
      pure (r, m)
    else pure (r, m)
  else if r.ptr.isSome then
    let m ← acquire r m
    pure (r, m)
  else pure (h, m)

/-- What a program does with its handles. (Objects and members of `rc_ptr`, daw_ref_counted_pointer.h 53-220 and 223-398.) -/
inductive Op where
  | default
  | make
  | copyCtor (i : Nat)
  | moveCtor (i : Nat)
  | copyAssign (i j : Nat)
  | moveAssign (i j : Nat)
  | swap (i j : Nat)
  | reset (i : Nat)
  | destroy (i : Nat)
  | deref (i : Nat)

/-- A handle that has not been destroyed; using another one is not allowed.
(Objects and members of `rc_ptr`, daw_ref_counted_pointer.h 53-220 and 223-398.) -/
def handle (s : Prog) (i : Nat) : Cxx Handle :=
  match s.handles[i]? with
  | some (some h) => pure h
  | _ => ub

/-- One operation; the moves are daw_ref_counted_pointer.h 101-113 and 273-285, `swap` 115-118 and 287-290, the destructor 120-122 and
292-294, `operator*` 156-159 and 329-332. -/
def step (arr : Bool) (s : Prog) : Op → Cxx Prog
  | .default => pure { s with handles := s.handles ++ [some ⟨none, none⟩] }
  | .make => pure ⟨s.handles ++ [some (make s.heap).1], (make s.heap).2⟩
  | .copyCtor i => do
    let o ← handle s i
    let (h, m) ← copyCtor arr o s.heap
    pure ⟨s.handles ++ [some h], m⟩
  | .moveCtor i => do
    let o ← handle s i
    pure { s with handles := s.handles.set i (some ⟨none, none⟩) ++ [some o] }
  | .copyAssign i j => do
    let h ← handle s i
    let r ← handle s j
    if i = j then pure s
    else
      let (h, m) ← copyAssign arr h r s.heap
      pure ⟨s.handles.set i (some h), m⟩
  | .moveAssign i j => do
    let h ← handle s i
    let r ← handle s j
    if i = j then pure s
    else
      let (_, m) ← reset arr h s.heap
      pure ⟨(s.handles.set i (some r)).set j (some ⟨none, none⟩), m⟩
  | .swap i j => do
    let h ← handle s i
    let r ← handle s j
    pure { s with handles := (s.handles.set i (some r)).set j (some h) }
  | .reset i => do
    let h ← handle s i
    let (h, m) ← reset arr h s.heap
    pure ⟨s.handles.set i (some h), m⟩
  | .destroy i => do
    let h ← handle s i
    let (_, m) ← reset arr h s.heap
    pure ⟨s.handles.set i none, m⟩
  | .deref i => do
    let h ← handle s i
    match h.ptr with
    | none => abort
    | some p =>
      match s.heap.alive[p]? with
      | some true => pure s
      | _ => ub

/-- A history. (Objects and members of `rc_ptr`, daw_ref_counted_pointer.h 53-220 and 223-398.) -/
def run (arr : Bool) : Prog → List Op → Cxx Prog
  | s, [] => pure s
  | s, o :: os => do
    let s ← step arr s o
    run arr s os

/-- Before anything. (Objects and members of `rc_ptr`, daw_ref_counted_pointer.h 53-220 and 223-398.) -/
def start : Prog := ⟨[], ⟨[], [], []⟩⟩

/-! ### What the handles should refer to -/

/-- The handles: none once destroyed, otherwise the object referred to, if any; and the number of objects made.
(Specification, no line of the source.) -/
structure Ideal where
  handles : List (Option (Option Nat))
  made : Nat

/-- What an operation should do. (Specification, no line of the source.) -/
def Ideal.step (a : Ideal) : Op → Ideal
  | .default => { a with handles := a.handles ++ [some none] }
  | .make => ⟨a.handles ++ [some (some a.made)], a.made + 1⟩
  | .copyCtor i => { a with handles := a.handles ++ [some ((a.handles[i]?).join.join)] }
  | .moveCtor i => { a with handles := a.handles.set i (some none) ++ [some ((a.handles[i]?).join.join)] }
  | .copyAssign i j => { a with handles := a.handles.set i (some ((a.handles[j]?).join.join)) }
  | .moveAssign i j => if i = j then a else { a with handles := (a.handles.set i (some ((a.handles[j]?).join.join))).set j (some none) }
  | .swap i j => { a with handles := (a.handles.set i (some ((a.handles[j]?).join.join))).set j (some ((a.handles[i]?).join.join)) }
  | .reset i => { a with handles := a.handles.set i (some none) }
  | .destroy i => { a with handles := a.handles.set i none }
  | .deref _ => a

/-- A handle exists. (Specification, no line of the source.) -/
def Ideal.live (a : Ideal) (i : Nat) : Prop := ∃ p, a.handles[i]? = some (some p)

/-- The handle is not the only one of its object. (Specification, no line of the source.) -/
def Ideal.shared (a : Ideal) (i : Nat) : Prop := ∃ j k, i ≠ j ∧ a.handles[i]? = some (some (some k)) ∧ a.handles[j]? = some (some (some k))

/-- The caller uses handles that exist, and dereferences none that is empty. (Specification, no line of the source.) -/
def Ideal.proper (a : Ideal) : Op → Prop
  | .default => True
  | .make => True
  | .copyCtor i => a.live i
  | .moveCtor i => a.live i
  | .copyAssign i j => a.live i ∧ a.live j
  | .moveAssign i j => a.live i ∧ a.live j
  | .swap i j => a.live i ∧ a.live j
  | .reset i => a.live i
  | .destroy i => a.live i
  | .deref i => ∃ k, a.handles[i]? = some (some (some k))

/-- The operations that go wrong: resetting a handle of a shared object, and, for single objects, assigning an empty handle to one.
(Specification, no line of the source.) -/
def Ideal.avoids (arr : Bool) (a : Ideal) : Op → Prop
  | .reset i => ¬ a.shared i
  | .copyAssign i j => arr = false → a.handles[j]? = some (some none) → ¬ a.shared i
  | _ => True

/-- A history whose every operation is proper. (Specification, no line of the source.) -/
def Ideal.all (P : Ideal → Op → Prop) : Ideal → List Op → Prop
  | _, [] => True
  | a, o :: os => P a o ∧ Ideal.all P (a.step o) os

/-- The ideal outcome. (Specification, no line of the source.) -/
def Ideal.run : Ideal → List Op → Ideal
  | a, [] => a
  | a, o :: os => Ideal.run (a.step o) os

/-- The number of handles that refer to an object. (Specification, no line of the source.) -/
def Ideal.count (a : Ideal) (k : Nat) : Nat := a.handles.count (some (some k))

/-- The heap when `c k` handles refer to object `k`. (Specification, no line of the source.) -/
structure HeapOk (made : Nat) (c : Nat → Nat) (m : Heap) : Prop where
  cells : ∀ k, m.cells[k]? = if k < made then some (if c k = 0 then none else some (c k)) else none
  alive : ∀ k, m.alive[k]? = if k < made then some (decide (c k ≠ 0)) else none
  nodup : m.freed.Nodup
  freed : ∀ k, k ∈ m.freed ↔ k < made ∧ c k = 0

theorem lengths {made : Nat} {c : Nat → Nat} {m : Heap} (h : HeapOk made c m) : m.cells.length = made ∧ m.alive.length = made := by
  constructor
  · have h1 := h.cells made
    rw [if_neg (by omega), List.getElem?_eq_none_iff] at h1
    by_cases h0 : made = 0
    · omega
    · have h2 := h.cells (made - 1)
      rw [if_pos (by omega)] at h2
      have := (List.getElem?_eq_some_iff.1 h2).1
      omega
  · have h1 := h.alive made
    rw [if_neg (by omega), List.getElem?_eq_none_iff] at h1
    by_cases h0 : made = 0
    · omega
    · have h2 := h.alive (made - 1)
      rw [if_pos (by omega)] at h2
      have := (List.getElem?_eq_some_iff.1 h2).1
      omega

theorem acquire_ok {made : Nat} {c : Nat → Nat} {m : Heap} (h : HeapOk made c m) {k : Nat} (hk : k < made) (h0 : c k ≠ 0) (h1 : c k + 1 < 2 ^ 64)
    (p : Option Nat) : ∃ m', acquire ⟨p, some k⟩ m = pure m' ∧ HeapOk made (fun x => if x = k then c k + 1 else c x) m' := by
  have hc := h.cells k
  rw [if_pos hk, if_neg h0] at hc
  refine ⟨{ m with cells := m.cells.set k (some ((c k + 1) % 2 ^ 64)) }, ?_, ?_, ?_, h.nodup, ?_⟩
  · unfold acquire
    simp only [hc]
  · intro x
    simp only []
    rw [List.getElem?_set]
    by_cases hx : k = x
    · subst hx
      rw [if_pos rfl, (lengths h).1, if_pos hk, if_pos hk, if_pos rfl, if_neg (by omega), Nat.mod_eq_of_lt h1]
    · rw [if_neg hx, h.cells]
      simp only [if_neg (fun e : x = k => hx e.symm)]
  · intro x
    simp only []
    rw [h.alive]
    by_cases hx : x = k
    · subst hx
      rw [if_pos hk, if_pos hk, if_pos rfl]
      simp [h0]
    · rw [if_neg hx]
  · intro x
    simp only []
    rw [h.freed]
    by_cases hx : x = k
    · subst hx
      rw [if_pos rfl]
      omega
    · rw [if_neg hx]

theorem reset_ok {made : Nat} {c : Nat → Nat} {m : Heap} (h : HeapOk made c m) {k : Nat} (hk : k < made) (h0 : c k ≠ 0) (h1 : c k < 2 ^ 64)
    (arr : Bool) : ∃ h' m', reset arr ⟨some k, some k⟩ m = pure (h', m') ∧ HeapOk made (fun x => if x = k then c k - 1 else c x) m' ∧
      (c k = 1 → h' = ⟨none, none⟩) := by
  have hc := h.cells k
  rw [if_pos hk, if_neg h0] at hc
  have ha := h.alive k
  rw [if_pos hk] at ha
  have hmod : (c k + 2 ^ 64 - 1) % 2 ^ 64 = c k - 1 := by omega
  by_cases hone : c k = 1
  · refine ⟨⟨none, none⟩, ⟨m.cells.set k none, m.alive.set k false, m.freed ++ [k]⟩, ?_, ⟨?_, ?_, ?_, ?_⟩, fun _ => rfl⟩
    · unfold reset
      simp only [hc]
      rw [if_pos (by rw [hmod]; omega)]
      have : decide (c k ≠ 0) = true := by simpa using h0
      rw [this] at ha
      simp only [ha]
    · intro x
      simp only []
      rw [List.getElem?_set]
      by_cases hx : k = x
      · subst hx
        rw [if_pos rfl, (lengths h).1, if_pos hk, if_pos hk, if_pos rfl, if_pos (by omega)]
      · rw [if_neg hx, h.cells]
        simp only [if_neg (fun e : x = k => hx e.symm)]
    · intro x
      simp only []
      rw [List.getElem?_set]
      by_cases hx : k = x
      · subst hx
        rw [if_pos rfl, (lengths h).2, if_pos hk, if_pos hk, if_pos rfl, hone]
        rfl
      · rw [if_neg hx, h.alive]
        simp only [if_neg (fun e : x = k => hx e.symm)]
    · rw [List.nodup_append]
      refine ⟨h.nodup, by simp, ?_⟩
      intro a hma b hb
      rw [List.mem_singleton] at hb
      subst hb
      rintro rfl
      exact h0 ((h.freed a).1 hma).2
    · intro x
      simp only []
      rw [List.mem_append, List.mem_singleton, h.freed]
      by_cases hx : x = k
      · subst hx
        rw [if_pos rfl]
        constructor
        · intro _; omega
        · intro _; exact Or.inr rfl
      · rw [if_neg hx]
        simp [hx]
  · refine ⟨⟨some k, some k⟩, { m with cells := m.cells.set k (some ((c k + 2 ^ 64 - 1) % 2 ^ 64)) }, ?_, ⟨?_, ?_, h.nodup, ?_⟩, fun h => absurd h hone⟩
    · unfold reset
      simp only [hc]
      rw [if_neg (by rw [hmod]; omega)]
    · intro x
      simp only []
      rw [List.getElem?_set]
      by_cases hx : k = x
      · subst hx
        rw [if_pos rfl, (lengths h).1, if_pos hk, if_pos hk, if_pos rfl, if_neg (by omega), hmod]
      · rw [if_neg hx, h.cells]
        simp only [if_neg (fun e : x = k => hx e.symm)]
    · intro x
      simp only []
      rw [h.alive]
      by_cases hx : x = k
      · subst hx
        rw [if_pos hk, if_pos hk, if_pos rfl]
        have : c x - 1 ≠ 0 := by omega
        simp [h0, this]
      · rw [if_neg hx]
    · intro x
      simp only []
      rw [h.freed]
      by_cases hx : x = k
      · subst hx
        rw [if_pos rfl]
        omega
      · rw [if_neg hx]

theorem HeapOk.congr {made : Nat} {c c' : Nat → Nat} {m : Heap} (h : HeapOk made c m) (e : ∀ k, c' k = c k) : HeapOk made c' m := by
  have : c' = c := funext e
  rw [this]
  exact h

/-- The program is as it should be. (Specification, no line of the source.) -/
structure Ok (s : Prog) (a : Ideal) : Prop where
  handles : s.handles = a.handles.map (Option.map (fun p => ⟨p, p⟩))
  heap : HeapOk a.made a.count s.heap
  bound : ∀ k, some (some k) ∈ a.handles → k < a.made

theorem Ok.handle {s : Prog} {a : Ideal} (h : Ok s a) {i : Nat} {p : Option Nat} (hi : a.handles[i]? = some (some p)) :
    handle s i = pure ⟨p, p⟩ := by
  unfold Memory.handle
  rw [h.handles, List.getElem?_map, hi]
  rfl

theorem count_set {l : List (Option (Option Nat))} {i : Nat} {p q : Option (Option Nat)} (hi : l[i]? = some p) (k : Nat) :
    (l.set i q).count (some (some k)) = l.count (some (some k)) - (if p = some (some k) then 1 else 0) + if q = some (some k) then 1 else 0 := by
  obtain ⟨hlt, hp⟩ := List.getElem?_eq_some_iff.1 hi
  rw [List.count_set hlt, hp]
  simp only [beq_iff_eq]

theorem count_pos {l : List (Option (Option Nat))} {i k : Nat} (hi : l[i]? = some (some (some k))) : 0 < l.count (some (some k)) := by
  rw [List.count_pos_iff]
  exact List.mem_of_getElem? hi

theorem count_le (a : Ideal) (k : Nat) : a.count k ≤ a.handles.length := List.count_le_length

/-- Two handles of one object count as two. -/
theorem shared_count {a : Ideal} {i k : Nat} (hi : a.handles[i]? = some (some (some k))) (h : ¬ a.shared i) : a.count k = 1 := by
  have hc := count_set (q := none) hi k
  rw [if_pos rfl, if_neg (by simp)] at hc
  have hp := count_pos hi
  have h0 : (a.handles.set i none).count (some (some k)) = 0 := by
    rw [List.count_eq_zero]
    intro hm
    obtain ⟨j, hj, e⟩ := List.mem_iff_getElem.1 hm
    have hj' : (a.handles.set i none)[j]? = some (some (some k)) := by rw [List.getElem?_eq_getElem hj, e]
    rw [List.getElem?_set] at hj'
    split at hj'
    · split at hj' <;> simp at hj'
    · rename_i hne
      exact h ⟨j, k, hne, hi, hj'⟩
  show a.handles.count (some (some k)) = 1
  omega

theorem bound_set {a : Ideal} {l : List (Option (Option Nat))} (hb : ∀ k, some (some k) ∈ l → k < a.made) {i : Nat} {q : Option (Option Nat)}
    (hq : ∀ k, q = some (some k) → k < a.made) : ∀ k, some (some k) ∈ l.set i q → k < a.made := by
  intro k hk
  rcases List.mem_or_eq_of_mem_set hk with h | h
  · exact hb k h
  · exact hq k h.symm

/-- Letting go of a handle, whatever it refers to. -/
theorem Ok.release {s : Prog} {a : Ideal} (h : Ok s a) (arr : Bool) (hlen : a.handles.length < 2 ^ 64) {i : Nat} {p : Option Nat}
    (hi : a.handles[i]? = some (some p)) :
    ∃ h' m', reset arr ⟨p, p⟩ s.heap = pure (h', m') ∧ HeapOk a.made (fun k => (a.handles.set i (some none)).count (some (some k))) m' ∧
      (¬ a.shared i → h' = ⟨none, none⟩) := by
  cases p with
  | none =>
    refine ⟨⟨none, none⟩, s.heap, ?_, h.heap.congr (fun k => ?_), fun _ => rfl⟩
    · cases arr <;> rfl
    · rw [count_set hi, if_neg (by simp)]
      rfl
  | some k =>
    have hk := h.bound k (List.mem_of_getElem? hi)
    have hp := count_pos hi
    have hle := count_le a k
    obtain ⟨h', m', e, hm, h1⟩ := reset_ok h.heap hk (by show a.handles.count _ ≠ 0; omega) (by omega) arr
    refine ⟨h', m', e, hm.congr (fun x => ?_), fun hs => h1 (shared_count hi hs)⟩
    rw [count_set hi]
    by_cases hx : x = k
    · subst hx
      rw [if_pos rfl, if_pos rfl, if_neg (by simp)]
      rfl
    · rw [if_neg hx, if_neg (by simpa using fun e => hx e.symm), if_neg (by simp)]
      rfl

theorem join_some {l : List (Option (Option Nat))} {i : Nat} {p : Option Nat} (h : l[i]? = some (some p)) : (l[i]?).join.join = p := by
  rw [h]; rfl

theorem step_ok {s : Prog} {a : Ideal} (h : Ok s a) (arr : Bool) (hlen : a.handles.length + 1 < 2 ^ 64) (o : Op) (hp : a.proper o)
    (hav : a.avoids arr o) : ∃ s', step arr s o = pure s' ∧ Ok s' (a.step o) ∧ (a.step o).handles.length ≤ a.handles.length + 1 := by
  have hb := h.bound
  cases o with
  | default =>
    refine ⟨_, rfl, ⟨by simp [Ideal.step, h.handles], ?_, ?_⟩, by simp [Ideal.step]⟩
    · refine h.heap.congr (fun k => ?_)
      simp [Ideal.count, Ideal.step, List.count_append]
    · intro k hk
      simp only [Ideal.step, List.mem_append, List.mem_singleton] at hk ⊢
      rcases hk with hk | hk
      · exact hb k hk
      · simp at hk
  | make =>
    obtain ⟨l1, l2⟩ := lengths h.heap
    have hz : a.count a.made = 0 := by
      unfold Ideal.count
      rw [List.count_eq_zero]
      intro hm
      have := hb _ hm
      omega
    have hcount : ∀ k, (a.step .make).count k = if k = a.made then 1 else a.count k := by
      intro k
      simp only [Ideal.count, Ideal.step, List.count_append, List.count_singleton]
      by_cases hk : k = a.made
      · subst hk
        have : a.handles.count (some (some a.made)) = 0 := hz
        simp [this]
      · rw [if_neg hk]
        have : ((some (some a.made) : Option (Option Nat)) == some (some k)) = false := by
          rw [beq_eq_false_iff_ne]
          simpa using fun e => hk e.symm
        rw [this]
        simp
    refine ⟨_, rfl, ⟨?_, ⟨?_, ?_, h.heap.nodup, ?_⟩, ?_⟩, by simp [Ideal.step]⟩
    · simp [Ideal.step, h.handles, make, l1, l2]
    · intro k
      rw [hcount]
      simp only [make, Ideal.step]
      rw [List.getElem?_append, l1, h.heap.cells]
      by_cases hk : k < a.made
      · have h1 : k < a.made + 1 := by omega
        have h2 : k ≠ a.made := by omega
        simp only [if_pos hk, if_pos h1, if_neg h2]
      · by_cases hk2 : k = a.made
        · subst hk2
          simp
        · have h1 : ¬ k < a.made + 1 := by omega
          simp only [if_neg hk]
          refine Eq.trans ?_ (if_neg h1).symm
          rw [List.getElem?_eq_none_iff]
          simp
          omega
    · intro k
      rw [hcount]
      simp only [make, Ideal.step]
      rw [List.getElem?_append, l2, h.heap.alive]
      by_cases hk : k < a.made
      · have h1 : k < a.made + 1 := by omega
        have h2 : k ≠ a.made := by omega
        simp only [if_pos hk, if_pos h1, if_neg h2]
      · by_cases hk2 : k = a.made
        · subst hk2
          simp
        · have h1 : ¬ k < a.made + 1 := by omega
          simp only [if_neg hk]
          refine Eq.trans ?_ (if_neg h1).symm
          rw [List.getElem?_eq_none_iff]
          simp
          omega
    · intro k
      rw [hcount]
      show k ∈ s.heap.freed ↔ k < a.made + 1 ∧ _
      rw [h.heap.freed]
      by_cases hk2 : k = a.made
      · subst hk2
        rw [if_pos rfl]
        omega
      · rw [if_neg hk2]
        omega
    · intro k hk
      simp only [Ideal.step, List.mem_append, List.mem_singleton, Option.some.injEq] at hk ⊢
      rcases hk with hk | hk
      · have := hb k hk
        omega
      · omega
  | copyCtor i =>
    obtain ⟨p, hi⟩ := hp
    have e1 : (a.step (.copyCtor i)) = { a with handles := a.handles ++ [some p] } := by
      simp only [Ideal.step]
      rw [join_some hi]
    rw [e1]
    simp only [step]
    rw [h.handle hi]
    simp only [pure_bind]
    have hbound : ∀ k, some (some k) ∈ a.handles ++ [some p] → k < a.made := by
      intro k hk
      rcases List.mem_append.1 hk with hk | hk
      · exact hb k hk
      · rw [List.mem_singleton] at hk
        injection hk with hk
        subst hk
        exact hb k (List.mem_of_getElem? hi)
    cases p with
    | none =>
      refine ⟨⟨s.handles ++ [some ⟨none, none⟩], s.heap⟩, by cases arr <;> rfl, ⟨by simp [h.handles], ?_, hbound⟩, by simp⟩
      refine h.heap.congr (fun k => ?_)
      simp [Ideal.count, List.count_append]
    | some k =>
      have hk := hb k (List.mem_of_getElem? hi)
      have hpos := count_pos hi
      have hle := count_le a k
      obtain ⟨m', e, hm⟩ := acquire_ok h.heap hk (by show a.handles.count _ ≠ 0; omega) (by omega) (some k)
      refine ⟨⟨s.handles ++ [some ⟨some k, some k⟩], m'⟩, ?_, ⟨by simp [h.handles], ?_, hbound⟩, by simp⟩
      · unfold copyCtor
        rw [if_pos (show (⟨some k, some k⟩ : Handle).cnt.isSome = true from rfl), e]
        rfl
      · refine hm.congr (fun x => ?_)
        simp only [Ideal.count, List.count_append, List.count_singleton]
        by_cases hx : x = k
        · subst hx
          simp
        · rw [if_neg hx]
          have : ((some (some k) : Option (Option Nat)) == some (some x)) = false := by
            rw [beq_eq_false_iff_ne]
            simpa using fun e => hx e.symm
          rw [this]
          simp
  | moveCtor i =>
    obtain ⟨p, hi⟩ := hp
    have e1 : (a.step (.moveCtor i)) = { a with handles := a.handles.set i (some none) ++ [some p] } := by
      simp only [Ideal.step]
      rw [join_some hi]
    rw [e1]
    simp only [step]
    rw [h.handle hi]
    simp only [pure_bind]
    refine ⟨_, rfl, ⟨by simp [h.handles], ?_, ?_⟩, by simp⟩
    · refine h.heap.congr (fun k => ?_)
      simp only [Ideal.count, List.count_append, List.count_singleton, beq_iff_eq]
      rw [count_set hi]
      have hle : (if (some p : Option (Option Nat)) = some (some k) then 1 else 0) ≤ a.handles.count (some (some k)) := by
        split
        · rename_i e
          injection e with e
          subst e
          exact count_pos hi
        · omega
      rw [if_neg (c := (some none : Option (Option Nat)) = some (some k)) (by simp)]
      omega
    · intro k hk
      rcases List.mem_append.1 hk with hk | hk
      · exact bound_set hb (by simp) k hk
      · rw [List.mem_singleton] at hk
        injection hk with hk
        subst hk
        exact hb k (List.mem_of_getElem? hi)
  | copyAssign i j =>
    obtain ⟨⟨p, hi⟩, ⟨q, hj⟩⟩ := hp
    have e1 : (a.step (.copyAssign i j)) = { a with handles := a.handles.set i (some q) } := by
      simp only [Ideal.step]
      rw [join_some hj]
    rw [e1]
    simp only [step]
    rw [h.handle hi]
    simp only [pure_bind]
    rw [h.handle hj]
    simp only [pure_bind]
    by_cases hij : i = j
    · subst hij
      rw [if_pos rfl]
      rw [hi] at hj
      injection hj with hj
      injection hj with hj
      subst hj
      have : a.handles.set i (some p) = a.handles := by
        obtain ⟨hlt, e⟩ := List.getElem?_eq_some_iff.1 hi
        rw [← e]
        exact List.set_getElem_self hlt
      rw [this]
      exact ⟨s, rfl, h, by omega⟩
    · rw [if_neg hij]
      obtain ⟨h', m', e, hm, hsh⟩ := h.release arr (by omega) hi
      have hbq : ∀ k, (some q : Option (Option Nat)) = some (some k) → k < a.made := by
        intro k hk
        injection hk with hk
        subst hk
        exact hb k (List.mem_of_getElem? hj)
      have hjs : (a.handles.set i (some none))[j]? = some (some q) := by
        rw [List.getElem?_set_ne hij]
        exact hj
      cases q with
      | some k =>
        have hk := hb k (List.mem_of_getElem? hj)
        have hpos := count_pos hjs
        have hle : (a.handles.set i (some none)).count (some (some k)) ≤ a.handles.length := by
          have := List.count_le_length (a := some (some k)) (l := a.handles.set i (some none))
          rwa [List.length_set] at this
        obtain ⟨m'', e2, hm2⟩ := acquire_ok hm hk (by omega) (by omega) (some k)
        refine ⟨⟨s.handles.set i (some ⟨some k, some k⟩), m''⟩, ?_, ⟨by simp [h.handles, List.map_set], ?_, bound_set hb hbq⟩, by simp⟩
        · unfold copyAssign
          rw [e]
          simp only [pure_bind]
          cases arr
          · simp only [Option.isSome_some, if_true, Bool.false_eq_true, if_false]
            rw [e2]
            rfl
          · simp only [Option.isSome_some, if_true]
            rw [e2]
            rfl
        · refine hm2.congr (fun x => ?_)
          show (a.handles.set i (some (some k))).count (some (some x)) = _
          rw [count_set hi, count_set hi, count_set hi]
          rw [if_neg (c := (some none : Option (Option Nat)) = some (some k)) (by simp),
            if_neg (c := (some none : Option (Option Nat)) = some (some x)) (by simp)]
          by_cases hx : x = k
          · subst hx
            rw [if_pos (c := (some (some x) : Option (Option Nat)) = some (some x)) rfl, if_pos rfl]
          · rw [if_neg (c := x = k) hx, if_neg (c := (some (some k) : Option (Option Nat)) = some (some x)) (by simpa using fun e => hx e.symm)]
      | none =>
        have hres : ∃ h'', copyAssign arr ⟨p, p⟩ ⟨none, none⟩ s.heap = pure (h'', m') ∧ h'' = ⟨none, none⟩ := by
          unfold copyAssign
          rw [e]
          simp only [pure_bind]
          cases arr with
          | true => exact ⟨_, rfl, rfl⟩
          | false =>
            refine ⟨h', rfl, hsh (hav rfl hj)⟩
        obtain ⟨h'', e2, rfl⟩ := hres
        refine ⟨⟨s.handles.set i (some ⟨none, none⟩), m'⟩, ?_, ⟨by simp [h.handles, List.map_set], hm, bound_set hb hbq⟩, by simp⟩
        rw [e2]
        rfl
  | moveAssign i j =>
    obtain ⟨⟨p, hi⟩, ⟨q, hj⟩⟩ := hp
    simp only [step]
    rw [h.handle hi]
    simp only [pure_bind]
    rw [h.handle hj]
    simp only [pure_bind]
    by_cases hij : i = j
    · have e1 : (a.step (.moveAssign i j)) = a := by
        simp only [Ideal.step]
        rw [if_pos hij]
      rw [e1, if_pos hij]
      exact ⟨s, rfl, h, by omega⟩
    · have e1 : (a.step (.moveAssign i j)) = { a with handles := (a.handles.set i (some q)).set j (some none) } := by
        simp only [Ideal.step]
        rw [if_neg hij, join_some hj]
      rw [e1, if_neg hij]
      obtain ⟨h', m', e, hm, _⟩ := h.release arr (by omega) hi
      rw [e]
      simp only [pure_bind]
      have hjs : ∀ v, (a.handles.set i v)[j]? = some (some q) := by
        intro v
        rw [List.getElem?_set_ne hij]
        exact hj
      refine ⟨⟨(s.handles.set i (some ⟨q, q⟩)).set j (some ⟨none, none⟩), m'⟩, rfl, ⟨by simp [h.handles, List.map_set], ?_, ?_⟩, by simp⟩
      · refine hm.congr (fun k => ?_)
        show ((a.handles.set i (some q)).set j (some none)).count (some (some k)) = _
        rw [count_set (hjs _), count_set hi, count_set hi]
        rw [if_neg (c := (some none : Option (Option Nat)) = some (some k)) (by simp)]
        omega
      · refine bound_set (bound_set hb ?_) (by simp)
        intro k hk
        injection hk with hk
        subst hk
        exact hb k (List.mem_of_getElem? hj)
  | swap i j =>
    obtain ⟨⟨p, hi⟩, ⟨q, hj⟩⟩ := hp
    have e1 : (a.step (.swap i j)) = { a with handles := (a.handles.set i (some q)).set j (some p) } := by
      simp only [Ideal.step]
      rw [join_some hj, join_some hi]
    rw [e1]
    simp only [step]
    rw [h.handle hi]
    simp only [pure_bind]
    rw [h.handle hj]
    simp only [pure_bind]
    refine ⟨_, rfl, ⟨by simp [h.handles, List.map_set], ?_, ?_⟩, by simp⟩
    · refine h.heap.congr (fun k => ?_)
      show ((a.handles.set i (some q)).set j (some p)).count (some (some k)) = a.handles.count (some (some k))
      by_cases hij : i = j
      · subst hij
        rw [hi] at hj
        injection hj with hj
        injection hj with hj
        subst hj
        rw [List.set_set]
        obtain ⟨hlt, e⟩ := List.getElem?_eq_some_iff.1 hi
        rw [← e, List.set_getElem_self hlt]
      · rw [count_set (show (a.handles.set i (some q))[j]? = some (some q) by rw [List.getElem?_set_ne hij]; exact hj), count_set hi]
        have hle : (if (some p : Option (Option Nat)) = some (some k) then 1 else 0) ≤ a.handles.count (some (some k)) := by
          split
          · rename_i e
            injection e with e
            subst e
            exact count_pos hi
          · omega
        omega
    · refine bound_set (bound_set hb ?_) ?_
      · intro k hk
        injection hk with hk
        subst hk
        exact hb k (List.mem_of_getElem? hj)
      · intro k hk
        injection hk with hk
        subst hk
        exact hb k (List.mem_of_getElem? hi)
  | reset i =>
    obtain ⟨p, hi⟩ := hp
    simp only [step]
    rw [h.handle hi]
    simp only [pure_bind]
    obtain ⟨h', m', e, hm, hsh⟩ := h.release arr (by omega) hi
    have := hsh hav
    subst this
    rw [e]
    simp only [pure_bind]
    exact ⟨_, rfl, ⟨by simp [h.handles, Ideal.step, List.map_set], hm, bound_set hb (by simp)⟩, by simp [Ideal.step]⟩
  | destroy i =>
    obtain ⟨p, hi⟩ := hp
    simp only [step]
    rw [h.handle hi]
    simp only [pure_bind]
    obtain ⟨h', m', e, hm, _⟩ := h.release arr (by omega) hi
    rw [e]
    simp only [pure_bind]
    refine ⟨_, rfl, ⟨by simp [h.handles, Ideal.step, List.map_set], hm.congr (fun k => ?_), bound_set hb (by simp)⟩, by simp [Ideal.step]⟩
    show (a.handles.set i none).count (some (some k)) = _
    rw [count_set hi, count_set hi, if_neg (c := (some none : Option (Option Nat)) = some (some k)) (by simp),
      if_neg (c := (none : Option (Option Nat)) = some (some k)) (by simp)]
  | deref i =>
    obtain ⟨k, hi⟩ := hp
    simp only [step]
    rw [h.handle hi]
    simp only [pure_bind]
    have ha := h.heap.alive k
    have hpos : 0 < a.count k := count_pos hi
    rw [if_pos (hb k (List.mem_of_getElem? hi))] at ha
    have : decide (a.count k ≠ 0) = true := by
      rw [decide_eq_true_eq]
      omega
    rw [this] at ha
    simp only [ha]
    exact ⟨s, rfl, h, by show a.handles.length ≤ _; omega⟩

theorem run_ok (arr : Bool) (os : List Op) : ∀ (s : Prog) (a : Ideal), Ok s a → a.handles.length + os.length < 2 ^ 64 → a.all Ideal.proper os →
    a.all (Ideal.avoids arr) os → ∃ s', run arr s os = pure s' ∧ Ok s' (a.run os) := by
  induction os with
  | nil => intro s a h _ _ _; exact ⟨s, rfl, h⟩
  | cons o os ih =>
    intro s a h hl hp hav
    rw [List.length_cons] at hl
    obtain ⟨s', e, h', hl'⟩ := step_ok h arr (by omega) o hp.1 hav.1
    obtain ⟨s'', e2, h2⟩ := ih s' (a.step o) h' (by omega) hp.2 hav.2
    refine ⟨s'', ?_, h2⟩
    rw [run, e]
    exact e2

theorem start_ok : Ok start ⟨[], 0⟩ := by
  refine ⟨rfl, ⟨fun k => by simp [start], fun k => by simp [start], by simp [start], fun k => by simp [start]⟩, by simp⟩

/-- In every history of less than `2 ^ 64` operations that resets no handle of a shared object and, for single objects, assigns no
empty handle to one: nothing undefined happens, the handles refer to what they should, an object has been destroyed exactly if no
handle refers to it any more, and once only.  Missing are those two operations. -/
theorem C57_history_partial (arr : Bool) (os : List Op) (hlen : os.length < 2 ^ 64) (hp : Ideal.all Ideal.proper ⟨[], 0⟩ os)
    (hav : Ideal.all (Ideal.avoids arr) ⟨[], 0⟩ os) :
    ∃ s, run arr start os = pure s ∧ (∀ (i : Nat) (p : Option Nat), (∃ c, s.handles[i]? = some (some ⟨p, c⟩)) ↔ (Ideal.run ⟨[], 0⟩ os).handles[i]? = some (some p)) ∧
      s.heap.freed.Nodup ∧ ∀ k, k ∈ s.heap.freed ↔ k < (Ideal.run ⟨[], 0⟩ os).made ∧ ∀ i : Nat, (Ideal.run ⟨[], 0⟩ os).handles[i]? ≠ some (some (some k)) := by
  obtain ⟨s, e, h⟩ := run_ok arr os start ⟨[], 0⟩ start_ok (by simpa using hlen) hp hav
  refine ⟨s, e, fun i p => ?_, h.heap.nodup, fun k => ?_⟩
  · rw [h.handles, List.getElem?_map]
    cases hx : (Ideal.run ⟨[], 0⟩ os).handles[i]? with
    | none => simp
    | some q =>
      cases q with
      | none => simp
      | some q =>
        simp only [Option.map_some, Option.some.injEq, Handle.mk.injEq]
        constructor
        · rintro ⟨c, rfl, _⟩; rfl
        · rintro rfl; exact ⟨q, rfl, rfl⟩
  · rw [h.heap.freed]
    refine and_congr_right (fun _ => ?_)
    unfold Ideal.count
    rw [List.count_eq_zero]
    constructor
    · intro hn i hi
      exact hn (List.mem_of_getElem? hi)
    · intro hn hm
      obtain ⟨i, hi, e⟩ := List.mem_iff_getElem.1 hm
      exact hn i (by rw [List.getElem?_eq_getElem hi, e])

/-- Copies, moves, assignments, a swap, a reset of the last handle and destruction. -/
example : ∃ os : List Op, os.length < 2 ^ 64 ∧ Ideal.all Ideal.proper ⟨[], 0⟩ os ∧ Ideal.all (Ideal.avoids false) ⟨[], 0⟩ os ∧
    (Ideal.run ⟨[], 0⟩ os).handles = [none, some none, some none, some (some 1)] := by
  refine ⟨[.make, .copyCtor 0, .make, .copyCtor 2, .copyAssign 1 3, .swap 0 1, .moveAssign 0 2, .moveAssign 2 1, .destroy 0, .reset 2, .deref 3], by decide,
    ?_, ?_, rfl⟩
  · simp [Ideal.all, Ideal.proper, Ideal.step, Ideal.live]
  · simp [Ideal.all, Ideal.avoids, Ideal.step, Ideal.shared]
    intro x hx
    rcases x with _ | _ | _ | _ | x <;> simp_all

/-- C57: after such a history, using an empty pointer ends the program. -/
theorem C57_empty_partial (arr : Bool) (os : List Op) (hlen : os.length < 2 ^ 64) (hp : Ideal.all Ideal.proper ⟨[], 0⟩ os)
    (hav : Ideal.all (Ideal.avoids arr) ⟨[], 0⟩ os) (i : Nat) (hi : (Ideal.run ⟨[], 0⟩ os).handles[i]? = some (some none)) :
    run arr start (os ++ [.deref i]) = abort := by
  obtain ⟨s, e, h, -⟩ := C57_history_partial arr os hlen hp hav
  obtain ⟨c, hc⟩ := (h i none).2 hi
  have append : ∀ (os : List Op) (s s' : Prog), run arr s os = pure s' → run arr s (os ++ [.deref i]) = run arr s' [.deref i] := by
    intro os
    induction os with
    | nil => intro s s' e; rw [run, pure_inj] at e; rw [e]; rfl
    | cons o os ih =>
      intro s s' e
      rw [run] at e
      obtain ⟨s1, e1, e2⟩ := bind_eq_pure.1 e
      rw [List.cons_append, run, e1, pure_bind]
      exact ih _ _ e2
  rw [append os _ _ e, run, step, handle, hc]
  rfl

example := C57_empty_partial false [.make, .moveCtor 0] (by decide) (by simp [Ideal.all, Ideal.proper, Ideal.step, Ideal.live])
  (by simp [Ideal.all, Ideal.avoids]) 0 rfl

/-- Resetting a handle of a shared object leaves the handle pointing to it without being counted: destroying the handle destroys the
object under the other handle, whose use is undefined. -/
theorem C57_reset_violated (arr : Bool) :
    (∃ s, run arr start [.make, .copyCtor 0, .reset 0] = pure s ∧ s.handles[0]? = some (some ⟨some 0, some 0⟩)) ∧
      (∃ s, run arr start [.make, .copyCtor 0, .reset 0, .destroy 0] = pure s ∧ s.heap.freed = [0] ∧
        s.handles[1]? = some (some ⟨some 0, some 0⟩)) ∧
      run arr start [.make, .copyCtor 0, .reset 0, .destroy 0, .deref 1] = ub ∧
      run arr start [.make, .copyCtor 0, .reset 0, .destroy 0, .destroy 1] = ub := by
  cases arr <;> exact ⟨⟨_, rfl, rfl⟩, ⟨_, rfl, rfl, rfl⟩, rfl, rfl⟩

/-- So does assigning an empty handle of a single object. -/
theorem C57_assign_empty_violated :
    (∃ s, run false start [.make, .copyCtor 0, .default, .copyAssign 0 2] = pure s ∧ s.handles[0]? = some (some ⟨some 0, some 0⟩)) ∧
      run false start [.make, .copyCtor 0, .default, .copyAssign 0 2, .destroy 0, .deref 1] = ub :=
  ⟨⟨_, rfl, rfl⟩, rfl⟩

end Verif.Memory
