import Verif.Containers.Lists

/-
`daw::ring_adaptor`, include/daw/daw_ring_adaptor.h.
-/

namespace Verif.Containers
open Cxx

/-- The members, daw_ring_adaptor.h 35-37; the container is the list of its elements. -/
structure Ring (α : Type) where
  /-- `m_queue` -/
  queue : List α
  /-- `m_head` -/
  head : Nat
  /-- `m_tail` -/
  tail : Nat
  deriving DecidableEq

namespace Ring
variable {α : Type}

/-- The default constructor, daw_ring_adaptor.h 44, and that from a container, daw_ring_adaptor.h 46-51. -/
def make (q : List α) : Ring α := ⟨q, 0, 0⟩

/-- `capacity`, daw_ring_adaptor.h 71-77. -/
def capacity (r : Ring α) : Nat := r.queue.length

/-- `get_idx`, daw_ring_adaptor.h 39-41. -/
def getIdx (r : Ring α) (i : Nat) : Cxx Nat := if r.capacity = 0 then ub else pure (i % r.capacity)

/-- `size`, daw_ring_adaptor.h 79-81. -/
def size (r : Ring α) : Nat := subSize r.tail r.head

/-- `is_empty`, daw_ring_adaptor.h 83-85. -/
def isEmpty (r : Ring α) : Bool := r.head == r.tail

/-- `is_full`, daw_ring_adaptor.h 87-89. -/
def isFull (r : Ring α) : Bool := r.size == r.capacity

/-- `clear`, daw_ring_adaptor.h 91-94. -/
def clear (r : Ring α) : Ring α := ⟨r.queue, 0, 0⟩

/-- `operator[]`, daw_ring_adaptor.h 61-69; assertions are enabled. -/
def get (r : Ring α) (idx : Nat) : Cxx α :=
  if idx < r.size then do
    let i ← r.getIdx (addSize r.head idx)
    rd r.queue i
  else abort

/-- `emplace_back`, daw_ring_adaptor.h 96-103. -/
def emplaceBack (r : Ring α) (x : α) : Cxx (Ring α) :=
  if r.isFull then abort
  else do
    let i ← r.getIdx r.head
    let q ← wr r.queue i x
    pure ⟨q, addSize r.head 1, r.tail⟩

/-- `push_back`, daw_ring_adaptor.h 105-119. -/
def pushBack (r : Ring α) (x : α) : Cxx (Ring α) :=
  if r.isFull then abort
  else do
    let i ← r.getIdx r.tail
    let q ← wr r.queue i x
    pure ⟨q, r.head, addSize r.tail 1⟩

/-- `pop_front`, daw_ring_adaptor.h 121-126.  The element moved from keeps its value here. -/
def popFront (r : Ring α) : Cxx (α × Ring α) :=
  if r.isEmpty then abort
  else do
    let i ← r.getIdx r.head
    let x ← rd r.queue i
    pure (x, ⟨r.queue, addSize r.head 1, r.tail⟩)

/-- `push_back` without assertions (`NDEBUG`), daw_ring_adaptor.h 105-119. -/
def pushBackRelease (r : Ring α) (x : α) : Cxx (Ring α) := do
  let i ← r.getIdx r.tail
  let q ← wr r.queue i x
  pure ⟨q, r.head, addSize r.tail 1⟩

/-! ### The queue held -/

/-- The elements from `begin( )` to `end( )`: daw_ring_adaptor.h 128-142, an `indexed_iterator` reads `operator[]`. -/
def contents (r : Ring α) : List α := (List.range (r.tail - r.head)).filterMap fun i => r.queue[(r.head + i) % r.queue.length]?

/-- What holds as long as fewer than `2^64` elements were pushed. (Specification, no line of the source.) -/
structure Inv (r : Ring α) : Prop where
  le : r.head ≤ r.tail
  cap : r.tail - r.head ≤ r.queue.length
  tail : r.tail < 2 ^ 64

/-- Calls. (Members of `ring_adaptor`, daw_ring_adaptor.h 21-143.) -/
inductive Op (α : Type) where
  | push (x : α)
  | pop
  | clear

/-- The model of a call, with the element returned. (Members of `ring_adaptor`, daw_ring_adaptor.h 21-143.) -/
def step (r : Ring α) : Op α → Cxx (Ring α × Option α)
  | .push x => do
    let r ← r.pushBack x
    pure (r, none)
  | .pop => do
    let (x, r) ← r.popFront
    pure (r, some x)
  | .clear => pure (r.clear, none)

/-- A history of calls, with the elements returned. (Members of `ring_adaptor`, daw_ring_adaptor.h 21-143.) -/
def run (r : Ring α) : List (Op α) → Cxx (Ring α × List (Option α))
  | [] => pure (r, [])
  | o :: os => do
    let (r, y) ← r.step o
    let (r, ys) ← run r os
    pure (r, y :: ys)

/-- The queue that takes at most `cap` elements: pushes on a full and pops on an empty queue are refused.
(Specification, no line of the source.) -/
def fifo (cap : Nat) (l : List α) : Op α → Cxx (List α × Option α)
  | .push x => if l.length < cap then pure (l ++ [x], none) else abort
  | .pop =>
    match l with
    | [] => abort
    | x :: l => pure (l, some x)
  | .clear => pure ([], none)

/-- The history on such a queue. (Specification, no line of the source.) -/
def fifoRun (cap : Nat) (l : List α) : List (Op α) → Cxx (List α × List (Option α))
  | [] => pure (l, [])
  | o :: os => do
    let (l, y) ← fifo cap l o
    let (l, ys) ← fifoRun cap l os
    pure (l, y :: ys)

theorem contents_length (r : Ring α) (h : r.Inv) : r.contents.length = r.tail - r.head := by
  unfold contents
  have hc := h.cap
  have : ∀ n, n ≤ r.tail - r.head →
      ((List.range n).filterMap fun i => r.queue[(r.head + i) % r.queue.length]?).length = n := by
    intro n
    induction n with
    | zero => intro _; rfl
    | succ n ih =>
      intro hn
      have hlt : (r.head + n) % r.queue.length < r.queue.length := Nat.mod_lt _ (by omega)
      rw [List.range_succ, List.filterMap_append, List.length_append, ih (by omega), List.filterMap_cons,
        List.getElem?_eq_getElem hlt]
      rfl
  exact this _ (Nat.le_refl _)

theorem contents_get (r : Ring α) (h : r.Inv) (i : Nat) (hi : i < r.tail - r.head) :
    r.contents[i]? = r.queue[(r.head + i) % r.queue.length]? := by
  unfold contents
  have hc := h.cap
  generalize r.tail - r.head = n at *
  induction n with
  | zero => omega
  | succ n ih =>
    have hlt : ∀ j, (r.head + j) % r.queue.length < r.queue.length := fun j => Nat.mod_lt _ (by omega)
    have hlen : ∀ n, ((List.range n).filterMap fun i => r.queue[(r.head + i) % r.queue.length]?).length = n := by
      intro n
      induction n with
      | zero => rfl
      | succ n ih =>
        rw [List.range_succ, List.filterMap_append, List.length_append, ih, List.filterMap_cons, List.getElem?_eq_getElem (hlt n)]
        rfl
    rw [List.range_succ, List.filterMap_append]
    by_cases hin : i < n
    · rw [List.getElem?_append_left (by rw [hlen]; exact hin)]
      exact ih hin (by omega)
    · have : i = n := by omega
      subst this
      rw [List.getElem?_append_right (by rw [hlen]; exact Nat.le_refl _), hlen, Nat.sub_self, List.filterMap_cons,
        List.getElem?_eq_getElem (hlt i)]
      rfl

/-- Two numbers closer than `n` with the same remainder are equal. -/
theorem mod_inj {a i j n : Nat} (hi : i < n) (hj : j < n) (h : (a + i) % n = (a + j) % n) : i = j := by
  have h1 := Nat.div_add_mod (a + i) n
  have h2 := Nat.div_add_mod (a + j) n
  rw [h] at h1
  rcases Nat.lt_trichotomy ((a + i) / n) ((a + j) / n) with hlt | heq | hgt
  · have h3 : n * ((a + i) / n + 1) ≤ n * ((a + j) / n) := Nat.mul_le_mul_left n hlt
    rw [Nat.mul_add, Nat.mul_one] at h3
    omega
  · rw [heq] at h1
    omega
  · have h3 : n * ((a + j) / n + 1) ≤ n * ((a + i) / n) := Nat.mul_le_mul_left n hgt
    rw [Nat.mul_add, Nat.mul_one] at h3
    omega

theorem size_eq {r : Ring α} (h : r.Inv) : r.size = r.tail - r.head := by
  unfold size
  exact subSize_of_le h.le h.tail

/-- One call. -/
theorem step_ok (r : Ring α) (h : r.Inv) (ht : r.tail + 1 < 2 ^ 64) (o : Op α) :
    (∃ r' l y, r.step o = pure (r', y) ∧ fifo r.capacity r.contents o = pure (l, y) ∧ r'.Inv ∧ r'.contents = l ∧
      r'.capacity = r.capacity ∧ r'.tail ≤ r.tail + 1) ∨
    (r.step o = abort ∧ fifo r.capacity r.contents o = abort) := by
  have hl := contents_length r h
  have hle := h.le
  have hcap := h.cap
  have hs := size_eq h
  cases o with
  | push x =>
    by_cases hf : r.tail - r.head < r.queue.length
    · left
      have hlt : r.tail % r.queue.length < r.queue.length := Nat.mod_lt _ (by omega)
      have hi : Inv (⟨r.queue.set (r.tail % r.queue.length) x, r.head, r.tail + 1⟩ : Ring α) := by
        refine ⟨?_, ?_, ?_⟩
        · show r.head ≤ r.tail + 1; omega
        · show r.tail + 1 - r.head ≤ (r.queue.set _ x).length; rw [List.length_set]; omega
        · show r.tail + 1 < 2 ^ 64; omega
      refine ⟨⟨r.queue.set (r.tail % r.queue.length) x, r.head, r.tail + 1⟩, r.contents ++ [x], none, ?_, ?_, hi, ?_, by simp [capacity],
        Nat.le_refl _⟩
      · simp only [step]
        unfold pushBack isFull getIdx capacity
        rw [hs, if_neg (by rw [beq_iff_eq]; omega), if_neg (by omega)]
        simp only [pure_bind]
        rw [wr_eq hlt]
        simp only [pure_bind]
        rw [addSize_of_lt (by omega)]
      · simp only [fifo]
        rw [hl, if_pos (show r.tail - r.head < r.capacity from hf)]
      · apply List.ext_getElem?
        intro i
        by_cases hi1 : i < r.tail - r.head
        · rw [contents_get _ hi i (by show i < r.tail + 1 - r.head; omega), List.getElem?_append_left (by rw [hl]; exact hi1),
            contents_get r h i hi1]
          simp only [List.length_set]
          rw [List.getElem?_set_ne]
          intro hc
          have := mod_inj (a := r.head) (i := r.tail - r.head) (j := i) (n := r.queue.length) hf (by omega)
            (by rw [show r.head + (r.tail - r.head) = r.tail by omega]; exact hc)
          omega
        · by_cases hi2 : i = r.tail - r.head
          · subst hi2
            rw [contents_get _ hi _ (by show r.tail - r.head < r.tail + 1 - r.head; omega),
              List.getElem?_append_right (by rw [hl]; exact Nat.le_refl _), hl, Nat.sub_self]
            simp only [List.length_set, show r.head + (r.tail - r.head) = r.tail by omega]
            rw [List.getElem?_set_self hlt]
            rfl
          · rw [List.getElem?_eq_none (by rw [contents_length _ hi]; show r.tail + 1 - r.head ≤ i; omega),
              List.getElem?_eq_none (by rw [List.length_append, hl, List.length_singleton]; omega)]
    · right
      constructor
      · simp only [step]
        unfold pushBack isFull capacity
        rw [hs, if_pos (by rw [beq_iff_eq]; omega)]
        rfl
      · simp only [fifo]
        rw [hl, if_neg (show ¬ r.tail - r.head < r.capacity from hf)]
  | pop =>
    by_cases he : r.head = r.tail
    · right
      have hnil : r.contents = [] := List.length_eq_zero_iff.1 (by omega)
      constructor
      · simp only [step]
        unfold popFront isEmpty
        rw [if_pos (by rw [beq_iff_eq]; exact he)]
        rfl
      · rw [hnil]
        rfl
    · left
      have hlt : r.head % r.queue.length < r.queue.length := Nat.mod_lt _ (by omega)
      have hi : Inv (⟨r.queue, r.head + 1, r.tail⟩ : Ring α) := ⟨by show r.head + 1 ≤ r.tail; omega,
        by show r.tail - (r.head + 1) ≤ r.queue.length; omega, h.tail⟩
      obtain ⟨y, l, hyl⟩ : ∃ y l, r.contents = y :: l := by
        cases hc : r.contents with
        | nil => rw [hc, List.length_nil] at hl; omega
        | cons y l => exact ⟨y, l, rfl⟩
      have hy : r.queue[r.head % r.queue.length]? = some y := by
        have := contents_get r h 0 (by omega)
        rw [hyl, Nat.add_zero] at this
        rw [← this]
        rfl
      refine ⟨⟨r.queue, r.head + 1, r.tail⟩, l, some y, ?_, by rw [hyl]; rfl, hi, ?_, rfl, by show r.tail ≤ r.tail + 1; omega⟩
      · simp only [step]
        unfold popFront isEmpty getIdx capacity
        rw [if_neg (by rw [beq_iff_eq]; exact he), if_neg (by omega)]
        simp only [pure_bind]
        rw [rd_some hy]
        simp only [pure_bind]
        rw [addSize_of_lt (by omega)]
      · have hll : l.length + 1 = r.tail - r.head := by rw [← hl, hyl]; rfl
        apply List.ext_getElem?
        intro i
        by_cases hin : i < r.tail - (r.head + 1)
        · rw [contents_get _ hi i hin]
          have := contents_get r h (i + 1) (by omega)
          rw [hyl, List.getElem?_cons_succ] at this
          rw [this]
          simp only [show r.head + (i + 1) = r.head + 1 + i by omega]
        · rw [List.getElem?_eq_none (by rw [contents_length _ hi]; show r.tail - (r.head + 1) ≤ i; omega),
            List.getElem?_eq_none (by omega)]
  | clear =>
    left
    have hi : r.clear.Inv := ⟨Nat.le_refl _, Nat.zero_le _, by show 0 < 2 ^ 64; decide⟩
    exact ⟨r.clear, [], none, rfl, rfl, hi, rfl, rfl, Nat.zero_le _⟩

/-- C46, histories, as far as it holds: for every container and every history of fewer than `2^64 - 1` calls of `push_back`,
`pop_front` and `clear`, the ring does what a queue of that capacity does, element by element, and refuses exactly what it
refuses; the contents and the size are those of the queue.  Missing: longer histories, see `C46_wrap_violated`, and
`emplace_back`, see `C46_emplace_violated`. -/
theorem C46_history_partial (q : List α) (os : List (Op α)) (h : os.length < 2 ^ 64 - 1) :
    (∃ r l ys, (make q).run os = pure (r, ys) ∧ fifoRun q.length [] os = pure (l, ys) ∧ r.contents = l ∧ r.size = l.length ∧
      r.isEmpty = l.isEmpty ∧ r.isFull = decide (l.length = q.length)) ∨
    ((make q).run os = abort ∧ fifoRun q.length [] os = abort) := by
  have key : ∀ (os : List (Op α)) (r : Ring α), r.Inv → r.tail + os.length < 2 ^ 64 - 1 →
      (∃ r' l ys, r.run os = pure (r', ys) ∧ fifoRun r.capacity r.contents os = pure (l, ys) ∧ r'.contents = l ∧ r'.Inv ∧
        r'.capacity = r.capacity) ∨
      (r.run os = abort ∧ fifoRun r.capacity r.contents os = abort) := by
    intro os
    induction os with
    | nil => intro r hr _; exact Or.inl ⟨r, r.contents, [], rfl, rfl, rfl, hr, rfl⟩
    | cons o os ih =>
      intro r hr ho
      rw [List.length_cons] at ho
      rcases step_ok r hr (by omega) o with ⟨r', l, y, e1, e2, hi, hc, hcap, htl⟩ | ⟨e1, e2⟩
      · rcases ih r' hi (by omega) with ⟨r'', l', ys, e3, e4, hc', hi', hcap'⟩ | ⟨e3, e4⟩
        · refine Or.inl ⟨r'', l', y :: ys, ?_, ?_, hc', hi', hcap'.trans hcap⟩
          · simp only [run]
            rw [e1]
            simp only [pure_bind]
            rw [e3]
            rfl
          · simp only [fifoRun]
            rw [e2]
            simp only [pure_bind]
            rw [← hc, ← hcap, e4]
            rfl
        · refine Or.inr ⟨?_, ?_⟩
          · simp only [run]
            rw [e1]
            simp only [pure_bind]
            rw [e3]
            rfl
          · simp only [fifoRun]
            rw [e2]
            simp only [pure_bind]
            rw [← hc, ← hcap, e4]
            rfl
      · refine Or.inr ⟨?_, ?_⟩
        · simp only [run]
          rw [e1]
          rfl
        · simp only [fifoRun]
          rw [e2]
          rfl
  have h0 : (make q).Inv := ⟨Nat.le_refl _, Nat.zero_le _, by show 0 < 2 ^ 64; decide⟩
  rcases key os (make q) h0 (by show 0 + os.length < _; omega) with ⟨r, l, ys, e1, e2, hc, hi, hcap⟩ | ⟨e1, e2⟩
  · refine Or.inl ⟨r, l, ys, e1, e2, hc, ?_, ?_, ?_⟩
    · rw [size_eq hi, ← hc, contents_length r hi]
    · have hl := contents_length r hi
      have hle := hi.le
      rw [hc] at hl
      unfold isEmpty
      rw [Bool.eq_iff_iff, beq_iff_eq, List.isEmpty_iff, ← List.length_eq_zero_iff]
      omega
    · have hl := contents_length r hi
      rw [hc] at hl
      unfold isFull
      rw [size_eq hi, hcap, ← hl]
      rfl
  · exact Or.inr ⟨e1, e2⟩

/-- Three elements pass a ring of two. -/
example : (make [0, 0]).run [.push 1, .push 2, .pop, .push 3, .pop, .pop] =
    pure (⟨[3, 2], 3, 3⟩, [none, none, some 1, none, some 2, some 3]) ∧
    (make [0]).run [.push 1, .push 2] = abort := by decide +kernel

/-- C46: `operator[]` reads the elements from the oldest on. -/
theorem C46_index (r : Ring α) (h : r.Inv) (i : Nat) :
    (∀ hi : i < r.contents.length, r.get i = pure r.contents[i]) ∧ (r.contents.length ≤ i → r.get i = abort) := by
  have hl := contents_length r h
  have hle := h.le
  have ht := h.tail
  have hc := h.cap
  constructor
  · intro hi
    unfold get getIdx capacity
    rw [size_eq h, if_pos (by omega), if_neg (by omega)]
    simp only [pure_bind]
    rw [addSize_of_lt (by omega)]
    apply rd_some
    rw [← contents_get r h i (by omega), List.getElem?_eq_getElem hi]
  · intro hi
    unfold get
    rw [size_eq h, if_neg (by omega)]

/-- C46: a ring that is full takes no element by `emplace_back`, the program ends. -/
theorem C46_emplace_full (r : Ring α) (h : r.size = r.capacity) (x : α) : r.emplaceBack x = abort := by
  unfold emplaceBack
  rw [if_pos (by unfold isFull; rw [beq_iff_eq]; exact h)]

example := C46_emplace_full ⟨['a', 'b', 'c'], 1, 4⟩ (by decide) 'd'

example := C46_index ⟨['a', 'b', 'c'], 5, 7⟩ ⟨by decide, by decide, by decide⟩ 1

/-- C46 does not hold for `emplace_back`: it moves the head instead of the tail.  On an empty ring the size becomes `2^64 - 1`,
and the element is not in the queue. -/
theorem C46_emplace_violated (q : List α) (hq : 0 < q.length) (hq' : q.length < 2 ^ 64) (x : α) :
    ∃ r, (make q).emplaceBack x = pure r ∧ r.size = 2 ^ 64 - 1 ∧ r.contents = [] := by
  refine ⟨⟨q.set 0 x, 1, 0⟩, ?_, by show subSize 0 1 = _; decide, rfl⟩
  unfold emplaceBack isFull capacity getIdx capacity make
  rw [if_neg, if_neg (by show ¬ q.length = 0; omega)]
  · simp only [pure_bind, Nat.zero_mod]
    rw [wr_eq hq]
    rfl
  · rw [beq_iff_eq]
    show ¬ subSize 0 0 = q.length
    have : subSize 0 0 = 0 := by decide
    omega

example : (make [0, 0]).emplaceBack 7 = pure ⟨[7, 0], 1, 0⟩ := by decide +kernel

/-- C46 does not hold without assertions: a full ring does not refuse the element, and the oldest one is gone. -/
theorem C46_release_violated : pushBackRelease (⟨[1, 2], 0, 2⟩ : Ring Nat) 3 = pure ⟨[3, 2], 0, 3⟩ := by decide +kernel

/-- C46 without assertions: an element pushed into a full ring overwrites the oldest one, whatever the ring; into a ring that is not full
it is pushed as with assertions. -/
theorem C46_release_partial (r : Ring α) (h : r.Inv) (x : α) :
    (r.isFull = false → r.pushBackRelease x = r.pushBack x) ∧
    (r.isFull = true → 0 < r.queue.length → ∃ r', r.pushBackRelease x = pure r' ∧ r'.head = r.head ∧
      r'.queue[r.head % r.queue.length]? = some x ∧ ∀ i, i ≠ r.head % r.queue.length → r'.queue[i]? = r.queue[i]?) := by
  constructor
  · intro hf
    unfold pushBackRelease pushBack
    rw [hf]
    rfl
  · intro hf hc
    have hle := h.le
    have hcap := h.cap
    have ht : r.tail = r.head + r.queue.length := by
      unfold isFull size capacity at hf
      have := beq_iff_eq.1 hf
      unfold subSize at this
      have := h.tail
      omega
    have hm : r.tail % r.queue.length = r.head % r.queue.length := by rw [ht, Nat.add_mod_right]
    refine ⟨⟨r.queue.set (r.head % r.queue.length) x, r.head, addSize r.tail 1⟩, ?_, rfl, ?_, ?_⟩
    · unfold pushBackRelease getIdx capacity
      rw [if_neg (by omega)]
      simp only [pure_bind]
      rw [hm, wr_eq (Nat.mod_lt _ hc)]
      rfl
    · exact List.getElem?_set_self (Nat.mod_lt _ hc)
    · intro i hi
      exact List.getElem?_set_ne (fun e => hi e.symm)

example := (C46_release_partial (⟨[1, 2, 3], 2, 5⟩ : Ring Nat) ⟨by decide, by decide, by decide⟩ 7).2 rfl (by decide)

theorem step_push_eq (r : Ring Nat) (x : Nat) (hf : r.isFull = false) (hc : 0 < r.queue.length) :
    r.step (.push x) = pure (⟨r.queue.set (r.tail % r.queue.length) x, r.head, addSize r.tail 1⟩, none) := by
  simp only [step]
  unfold pushBack getIdx capacity
  rw [hf, if_neg (by decide), if_neg (by omega)]
  simp only [pure_bind]
  rw [wr_eq (Nat.mod_lt _ hc)]
  simp only [pure_bind]

theorem step_pop_eq (r : Ring Nat) (hf : r.isEmpty = false) (hc : 0 < r.queue.length) :
    r.step .pop = pure (⟨r.queue, addSize r.head 1, r.tail⟩, some (r.queue[r.head % r.queue.length]'(Nat.mod_lt _ hc))) := by
  simp only [step]
  unfold popFront getIdx capacity
  rw [hf, if_neg (by decide), if_neg (by omega)]
  simp only [pure_bind]
  rw [rd_eq (Nat.mod_lt _ hc)]
  simp only [pure_bind]

/-- Passing elements one at a time through a ring. -/
theorem run_pairs (n : Nat) : ∀ (r : Ring Nat), r.head = r.tail → r.head + n < 2 ^ 64 → r.queue.length = 3 →
    ∃ q, q.length = 3 ∧ ∃ ys, r.run (List.replicate n [Op.push 0, Op.pop]).flatten = pure (⟨q, r.head + n, r.head + n⟩, ys) := by
  induction n with
  | zero =>
    intro r h1 h2 h3
    refine ⟨r.queue, h3, [], ?_⟩
    rw [Nat.add_zero]
    cases r
    cases h1
    rfl
  | succ n ih =>
    intro r h1 h2 h3
    have hs : r.size = 0 := by unfold size; rw [h1, subSize_of_le (Nat.le_refl _) (by omega), Nat.sub_self]
    have e1 := step_push_eq r 0 (by unfold isFull capacity; rw [hs, h3]; rfl) (by omega)
    have e2 := step_pop_eq (⟨r.queue.set (r.tail % r.queue.length) 0, r.head, addSize r.tail 1⟩ : Ring Nat)
      (by unfold isEmpty; rw [addSize_of_lt (by omega), beq_eq_false_iff_ne]; show r.head ≠ r.tail + 1; omega)
      (by show 0 < (r.queue.set _ 0).length; rw [List.length_set]; omega)
    obtain ⟨q, hq, ys, e⟩ := ih ⟨r.queue.set (r.tail % r.queue.length) 0, addSize r.head 1, addSize r.tail 1⟩
      (by show addSize r.head 1 = addSize r.tail 1; rw [h1]) (by show addSize r.head 1 + n < 2 ^ 64; rw [addSize_of_lt (by omega)]; omega)
      (by show (r.queue.set _ 0).length = 3; rw [List.length_set, h3])
    refine ⟨q, hq, none :: some ((r.queue.set (r.tail % r.queue.length) 0)[r.head % (r.queue.set (r.tail % r.queue.length) 0).length]'(
      Nat.mod_lt _ (by rw [List.length_set]; omega))) :: ys, ?_⟩
    rw [List.replicate_succ, List.flatten_cons]
    simp only [List.cons_append, List.nil_append, run]
    rw [e1]
    simp only [pure_bind]
    rw [e2]
    simp only [pure_bind]
    rw [e]
    simp only [pure_bind]
    rw [show addSize r.head 1 = r.head + 1 from addSize_of_lt (by omega), show r.head + 1 + n = r.head + (n + 1) by omega]

theorem run_append (r : Ring Nat) (os ps : List (Op Nat)) : r.run (os ++ ps) = (do
    let (r, ys) ← r.run os
    let (r, zs) ← r.run ps
    pure (r, ys ++ zs)) := by
  induction os generalizing r with
  | nil => simp [run]
  | cons o os ih =>
    simp only [List.cons_append, run, bind_assoc]
    congr 1
    funext p
    rw [ih]
    simp

theorem fifo_pairs (n : Nat) (ps : List (Op Nat)) : fifoRun 3 [] ((List.replicate n [Op.push 0, Op.pop]).flatten ++ ps) = (do
    let (l, zs) ← fifoRun 3 [] ps
    pure (l, (List.replicate n [none, some 0]).flatten ++ zs)) := by
  induction n with
  | zero => simp
  | succ n ih =>
    rw [List.replicate_succ, List.flatten_cons]
    simp only [List.cons_append, List.nil_append, fifoRun, fifo]
    rw [if_pos (by decide)]
    simp only [pure_bind]
    rw [ih]
    simp [List.replicate_succ]

/-- C46 does not hold for very long histories: the counters wrap at `2^64`, which is not a multiple of every capacity.  After
`2^64 - 1` elements have passed a ring of three, two are pushed and the second takes the place of the first. -/
theorem C46_wrap_violated : ∃ os : List (Op Nat), ∃ r ys,
    (make [0, 0, 0]).run (os ++ [.push 1, .push 2, .pop]) = pure (r, ys ++ [none, none, some 2]) ∧
    ∃ zs, fifoRun 3 [] (os ++ [.push 1, .push 2, .pop]) = pure ([2], zs ++ [none, none, some 1]) := by
  obtain ⟨q, hq, ys, e⟩ := run_pairs (2 ^ 64 - 1) (make [0, 0, 0]) rfl (by show 0 + (2 ^ 64 - 1) < 2 ^ 64; omega) rfl
  refine ⟨(List.replicate (2 ^ 64 - 1) [Op.push 0, Op.pop]).flatten, ?_⟩
  obtain ⟨a, b, c, rfl⟩ : ∃ a b c, q = [a, b, c] := by
    match q, hq with
    | [a, b, c], _ => exact ⟨a, b, c, rfl⟩
  have hfifo := fifo_pairs (2 ^ 64 - 1) [.push 1, .push 2, .pop]
  have hlast : fifoRun 3 [] [Op.push 1, .push 2, .pop] = pure ([2], [none, none, some 1]) := rfl
  rw [hlast, pure_bind] at hfifo
  rw [run_append, e]
  have h1 := step_push_eq ⟨[a, b, c], 2 ^ 64 - 1, 2 ^ 64 - 1⟩ 1
    (show (subSize (2 ^ 64 - 1) (2 ^ 64 - 1) == 3) = false by decide) (Nat.zero_lt_succ 2)
  have h2 := step_push_eq ⟨[1, b, c], 2 ^ 64 - 1, 0⟩ 2 (show (subSize 0 (2 ^ 64 - 1) == 3) = false by decide) (Nat.zero_lt_succ 2)
  have h3 := step_pop_eq ⟨[2, b, c], 2 ^ 64 - 1, 1⟩ (show ((2 ^ 64 - 1) == 1) = false by decide) (Nat.zero_lt_succ 2)
  refine ⟨⟨[2, b, c], 0, 1⟩, ys, ?_, _, hfifo⟩
  have g1 : (⟨[a, b, c].set ((2 ^ 64 - 1) % 3) 1, 2 ^ 64 - 1, addSize (2 ^ 64 - 1) 1⟩ : Ring Nat) = ⟨[1, b, c], 2 ^ 64 - 1, 0⟩ := by
    rw [show (2 ^ 64 - 1) % 3 = 0 by decide, show addSize (2 ^ 64 - 1) 1 = 0 by decide]
    rfl
  have g2 : (⟨[1, b, c].set (0 % 3) 2, 2 ^ 64 - 1, addSize 0 1⟩ : Ring Nat) = ⟨[2, b, c], 2 ^ 64 - 1, 1⟩ := by
    rw [show addSize 0 1 = 1 by decide]
    rfl
  have g3 : (⟨[2, b, c], addSize (2 ^ 64 - 1) 1, 1⟩ : Ring Nat) = ⟨[2, b, c], 0, 1⟩ := by
    rw [show addSize (2 ^ 64 - 1) 1 = 0 by decide]
  have g4 : ([2, b, c])[(2 ^ 64 - 1) % 3]'(Nat.mod_lt _ (Nat.zero_lt_succ 2)) = 2 := by
    simp only [show (2 ^ 64 - 1) % 3 = 0 by decide]
    rfl
  have e1 : (make [0, 0, 0]).head + (2 ^ 64 - 1) = 2 ^ 64 - 1 := Nat.zero_add _
  rw [e1]
  have h1' := h1.trans (congrArg (fun x => (pure (x, none) : Cxx (Ring Nat × Option Nat))) g1)
  have h2' := h2.trans (congrArg (fun x => (pure (x, none) : Cxx (Ring Nat × Option Nat))) g2)
  have h3' : (⟨[2, b, c], 2 ^ 64 - 1, 1⟩ : Ring Nat).step .pop = pure (⟨[2, b, c], 0, 1⟩, some 2) := by
    rw [h3]
    exact congrArg (fun x => (pure x : Cxx (Ring Nat × Option Nat))) (Prod.ext g3 (congrArg some g4))
  simp only [pure_bind, run]
  rw [h1']
  simp only [pure_bind]
  rw [h2']
  simp only [pure_bind]
  rw [h3']
  rfl

end Ring
end Verif.Containers
