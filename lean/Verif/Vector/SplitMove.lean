import Verif.Base

/-!
Moves of `daw::split_buffer` (include/daw/split_buffer.h): which block belongs to which buffer and by which allocator it is released.
-/

namespace Verif.Vector.SplitMove
open Verif Verif.Cxx

/-- The members of `split_buffer`, split_buffer.h 59-62: the block (`first_`, none for null), its cells (`end_cap( ) - first_`), the elements between `begin_` and
`end_`, and the allocator by a number that `operator==` compares.  Simplified: where `begin_` is in the block is left out (Vector/SplitBuf.lean has it). -/
structure Buf (α : Type) where
  blk : Option Nat
  cap : Nat
  elems : List α
  al : Nat

/-- A program: its buffers (none: destroyed) and the blocks that are allocated, each with its number, the allocator it is from and its cells, as
`alloc_traits::allocate` and `deallocate` see them, split_buffer.h 85 and 116. -/
structure World (α : Type) where
  bufs : List (Option (Buf α))
  heap : List (Nat × Nat × Nat)
  next : Nat

/-- The traits of the allocator used in split_buffer.h 146-149 and 35: `propagate_on_container_move_assignment` and `propagate_on_container_swap`. -/
structure Traits where
  assign : Bool
  swap : Bool

/-- The calls: split_buffer.h 81-90 with 432-438, 120-130, 132-147, 149-170, 473-481 and 113-118. -/
inductive Op (α : Type)
  | make (a cap : Nat) (xs : List α)
  | move (i : Nat)
  | moveWith (i a : Nat)
  | assign (i j : Nat)
  | swap (i j : Nat)
  | destroy (i : Nat)

/-- A buffer that is not destroyed. (Rule of C++ or its library, no line of the source.) -/
def World.get {α : Type} (w : World α) (i : Nat) : Option (Buf α) := (w.bufs[i]?).join

/-- The members of a buffer are changed. (Rule of C++ or its library, no line of the source.) -/
def World.put {α : Type} (w : World α) (i : Nat) (b : Option (Buf α)) : World α := { w with bufs := w.bufs.set i b }

/-- A further buffer. (Rule of C++ or its library, no line of the source.) -/
def World.add {α : Type} (w : World α) (b : Buf α) : World α := { w with bufs := w.bufs ++ [some b] }

/-- `alloc_traits::deallocate( alloc( ), first_, capacity( ) )` as in split_buffer.h 116: the block must be from an allocator that is equal and of that size. -/
def World.release {α : Type} (w : World α) (t : Nat × Nat × Nat) : Cxx (World α) :=
  if t ∈ w.heap then pure { w with heap := w.heap.erase t } else ub

/-- The end of a buffer, split_buffer.h 113-118. -/
def World.free {α : Type} (w : World α) (b : Buf α) : Cxx (World α) :=
  match b.blk with
  | some k => w.release (k, b.al, b.cap)
  | none => pure w

/-- A buffer without a block, as split_buffer.h 126-129, 135-138 and 163-166 leave one behind. -/
def Buf.null {α : Type} (b : Buf α) : Buf α := { b with blk := none, cap := 0, elems := [] }

/-- A call.  `moved` is what a move leaves of an element.  Constructors: split_buffer.h 81-90 with the elements added by 432-438; 120-130; 132-147, which calls
`allocate` for the elements of the source, be it for none; `operator=`, 149-170, with `clear`, 186-188, and `shrink_to_fit`, 238-255, which after `clear` exchanges
the block for none and lets the temporary release it; `swap`, 473-481 with 24-37; the destructor, 113-118.  Simplified: nothing throws. -/
def step {α : Type} (tr : Traits) (moved : α → α) (w : World α) : Op α → Cxx (World α)
  | .make a cap xs =>
    if xs.length ≤ cap then
      if cap ≠ 0 then
        pure { bufs := w.bufs ++ [some ⟨some w.next, cap, xs, a⟩], heap := (w.next, a, cap) :: w.heap, next := w.next + 1 }
      else pure (w.add ⟨none, 0, [], a⟩)
    else ub
  | .move i =>
    match w.get i with
    | some c => pure ((w.put i (some c.null)).add c)
    | none => ub
  | .moveWith i a =>
    match w.get i with
    | some c =>
      if a = c.al then pure ((w.put i (some c.null)).add { c with al := a })
      else
        let n := c.elems.length
        pure { bufs := w.bufs.set i (some { c with elems := c.elems.map moved }) ++ [some ⟨some w.next, n, c.elems, a⟩]
               heap := (w.next, a, n) :: w.heap, next := w.next + 1 }
    | none => ub
  | .assign i j =>
    match w.get i with
    | some b => do
      let b0 : Buf α := { b with elems := [] }
      let w1 ← if b0.cap > 0 then (w.put i (some b0.null)).free b0 else pure (w.put i (some b0))
      match w1.get i, w1.get j with
      | some b1, some c =>
        let w2 := w1.put i (some { c with al := if tr.assign then c.al else b1.al })
        match w2.get j with
        | some c1 => pure (w2.put j (some c1.null))
        | none => ub
      | _, _ => ub
    | none => ub
  | .swap i j =>
    match w.get i, w.get j with
    | some b, some c =>
      pure ((w.put i (some { c with al := if tr.swap then c.al else b.al })).put j (some { b with al := if tr.swap then b.al else c.al }))
    | _, _ => ub
  | .destroy i =>
    match w.get i with
    | some b => (w.put i none).free b
    | none => ub

/-- Calls one after the other, from a program without buffers (split_buffer.h 42-531). -/
def run {α : Type} (tr : Traits) (moved : α → α) (ops : List (Op α)) : Cxx (World α) :=
  ops.foldlM (step tr moved) ⟨[], [], 0⟩

/-! ### What the calls are to do -/

/-- The allocators and the elements of the buffers after a call; none if it is not allowed. (Specification, no line of the source.) -/
def spec {α : Type} (tr : Traits) (moved : α → α) (s : List (Option (Nat × List α))) : Op α → Option (List (Option (Nat × List α)))
  | .make a cap xs => if xs.length ≤ cap then some (s ++ [some (a, xs)]) else none
  | .move i => (s[i]?).join.map fun c => s.set i (some (c.1, [])) ++ [some c]
  | .moveWith i a => (s[i]?).join.map fun c => s.set i (some (c.1, if a = c.1 then [] else c.2.map moved)) ++ [some (a, c.2)]
  | .assign i j => (s[i]?).join.bind fun b => (s[j]?).join.map fun c =>
      if i = j then s.set i (some (b.1, []))
      else (s.set i (some (if tr.assign then c.1 else b.1, c.2))).set j (some (c.1, []))
  | .swap i j => (s[i]?).join.bind fun b => (s[j]?).join.map fun c =>
      (s.set i (some (if tr.swap then c.1 else b.1, c.2))).set j (some (if tr.swap then b.1 else c.1, b.2))
  | .destroy i => (s[i]?).join.map fun _ => s.set i none

/-- The allocators and the elements that a program sees. (Specification, no line of the source.) -/
def seen {α : Type} (w : World α) : List (Option (Nat × List α)) := w.bufs.map (Option.map fun b => (b.al, b.elems))

/-- The blocks of buffers that are not destroyed, with the allocator of the buffer and its capacity. (Specification, no line of the source.) -/
def owned {α : Type} (bs : List (Option (Buf α))) : List (Nat × Nat × Nat) :=
  bs.filterMap fun o => o.bind fun b => b.blk.map fun k => (k, b.al, b.cap)

/-- The allocator is always `a`. (Specification, no line of the source.) -/
def OneAllocator {α : Type} (a : Nat) : Op α → Prop
  | .make b _ _ => b = a
  | .moveWith _ b => b = a
  | _ => True

/-- No construction with another allocator. (Specification, no line of the source.) -/
def NoMoveWith {α : Type} : Op α → Prop
  | .moveWith _ _ => False
  | _ => True


theorem get_iff {α : Type} {w : World α} {i : Nat} {b : Buf α} : w.get i = some b ↔ w.bufs[i]? = some (some b) := by
  unfold World.get
  rcases w.bufs[i]? with _ | o <;> simp

theorem owned_append {α : Type} (l m : List (Option (Buf α))) : owned (l ++ m) = owned l ++ owned m := by
  simp [owned, List.filterMap_append]

theorem owned_one {α : Type} (b : Buf α) : owned [some b] = (b.blk.map fun k => (k, b.al, b.cap)).toList := by
  unfold owned
  rcases h : b.blk with _ | k <;> simp [h]

theorem owned_set {α : Type} (t : Nat × Nat × Nat) : ∀ (l : List (Option (Buf α))) (i : Nat) (x y : Option (Buf α)), l[i]? = some x →
    (owned (l.set i y)).count t + (owned [x]).count t = (owned l).count t + (owned [y]).count t
  | [], i, x, y, h => by simp at h
  | z :: l, 0, x, y, h => by
    simp only [List.getElem?_cons_zero, Option.some.injEq] at h; subst h
    have e1 : z :: l = [z] ++ l := rfl
    have e2 : (z :: l).set 0 y = [y] ++ l := rfl
    rw [e2, e1, owned_append, owned_append, List.count_append, List.count_append]; omega
  | z :: l, i + 1, x, y, h => by
    have ih := owned_set t l i x y (by simpa using h)
    have e1 : z :: l = [z] ++ l := rfl
    have e2 : (z :: l).set (i + 1) y = [z] ++ l.set i y := rfl
    rw [e2, e1, owned_append, owned_append, List.count_append, List.count_append]; omega

/-- Each block that is allocated belongs to one buffer, and each buffer with a block has cells. (Specification, no line of the source.) -/
structure Inv {α : Type} (w : World α) : Prop where
  cnt : ∀ t, (owned w.bufs).count t = w.heap.count t
  nodup : (w.heap.map (·.1)).Nodup
  lt : ∀ t ∈ w.heap, t.1 < w.next
  ok : ∀ b, some b ∈ w.bufs → (b.blk = none → b.cap = 0 ∧ b.elems = []) ∧ (b.blk ≠ none → 0 < b.cap) ∧ b.elems.length ≤ b.cap

theorem seen_get {α : Type} (w : World α) (i : Nat) : ((seen w)[i]?).join = (w.get i).map fun b => (b.al, b.elems) := by
  unfold seen World.get
  rw [List.getElem?_map]
  rcases w.bufs[i]? with _ | (_ | b) <;> rfl

theorem Inv.put {α : Type} {w : World α} (h : Inv w) {i : Nat} {x y : Buf α} (hg : w.get i = some x) (hb : y.blk = x.blk) (hc : y.cap = x.cap)
    (ha : y.al = x.al) (he : y.elems = []) : Inv (w.put i (some y)) := by
  have hi := get_iff.1 hg
  have hx := h.ok x (List.mem_of_getElem? hi)
  refine ⟨fun t => ?_, h.nodup, h.lt, fun b hm => ?_⟩
  · have := owned_set t w.bufs i (some x) (some y) hi
    have e : owned [some y] = owned [some x] := by rw [owned_one, owned_one, hb, hc, ha]
    rw [e] at this
    show (owned (w.bufs.set i (some y))).count t = w.heap.count t
    rw [← h.cnt t]; omega
  · rcases List.mem_or_eq_of_mem_set hm with hm | hm
    · exact h.ok b hm
    · cases hm; rw [hb, hc, he]; exact ⟨fun hn => ⟨(hx.1 hn).1, rfl⟩, hx.2.1, by simp⟩

/-- The end of a buffer at `i` whose place is then taken by `y`, which has no block. -/
theorem Inv.free {α : Type} {w : World α} (h : Inv w) {i : Nat} {x : Buf α} (y : Option (Buf α)) (hg : w.get i = some x)
    (hy : ∀ c, y = some c → c.blk = none ∧ c.cap = 0 ∧ c.elems = []) (b : Buf α) (hb : b.blk = x.blk) (hc : b.cap = x.cap) (ha : b.al = x.al) :
    ∃ w', (w.put i y).free b = pure w' ∧ Inv w' ∧ w'.bufs = w.bufs.set i y := by
  have hi := get_iff.1 hg
  have e0 : owned [y] = [] := by
    rcases y with _ | c
    · rfl
    · simp [owned, (hy c rfl).1]
  have hok : ∀ c, some c ∈ w.bufs.set i y → (c.blk = none → c.cap = 0 ∧ c.elems = []) ∧ (c.blk ≠ none → 0 < c.cap) ∧ c.elems.length ≤ c.cap := by
    intro c hm
    rcases List.mem_or_eq_of_mem_set hm with hm | hm
    · exact h.ok c hm
    · obtain ⟨h1, h2, h3⟩ := hy c hm.symm
      rw [h1, h2, h3]; simp
  unfold World.free
  rw [hb]
  cases hk : x.blk with
  | none =>
    refine ⟨_, rfl, ⟨fun t => ?_, h.nodup, h.lt, hok⟩, rfl⟩
    have := owned_set t w.bufs i (some x) y hi
    have e : owned [some x] = [] := by simp [owned, hk]
    rw [e, e0] at this
    show (owned (w.bufs.set i y)).count t = w.heap.count t
    rw [← h.cnt t]; simp at this; omega
  | some k =>
    have e : owned [some x] = [(k, x.al, x.cap)] := by simp [owned, hk]
    have hmem : (k, x.al, x.cap) ∈ w.heap := by
      have := owned_set (k, x.al, x.cap) w.bufs i (some x) y hi
      rw [e, e0] at this
      have h1 := h.cnt (k, x.al, x.cap)
      simp at this
      exact List.count_pos_iff.1 (by omega)
    simp only [World.release, World.put, hc, ha]
    rw [if_pos hmem]
    refine ⟨_, rfl, ⟨fun t => ?_, ?_, fun t ht => h.lt t (List.mem_of_mem_erase ht), hok⟩, rfl⟩
    · have := owned_set t w.bufs i (some x) y hi
      rw [e, e0] at this
      show (owned (w.bufs.set i y)).count t = _
      have h1 := h.cnt t
      rw [List.count_erase]
      simp only [List.count_cons, List.count_nil] at this
      by_cases ht : (k, x.al, x.cap) = t
      · subst ht; simp at this ⊢; omega
      · have ht' : ((k, x.al, x.cap) == t) = false := by simpa using ht
        simp only [ht'] at this ⊢; simp at this ⊢; omega
    · exact h.nodup.sublist (List.Sublist.map _ List.erase_sublist)

theorem seen_put {α : Type} (w : World α) (i : Nat) (b : Option (Buf α)) : seen (w.put i b) = (seen w).set i (b.map fun b => (b.al, b.elems)) := by
  simp [seen, World.put, List.map_set]

theorem seen_add {α : Type} (w : World α) (b : Buf α) : seen (w.add b) = seen w ++ [some (b.al, b.elems)] := by
  simp [seen, World.add]

/-- Two buffers exchange or pass on their blocks. -/
theorem Inv.two {α : Type} {w : World α} (h : Inv w) {i j : Nat} {x y : Buf α} (u v : Buf α) (hij : i ≠ j) (hx : w.get i = some x) (hy : w.get j = some y)
    (ho : ∀ t, (owned [some u]).count t + (owned [some v]).count t = (owned [some x]).count t + (owned [some y]).count t)
    (hu : (u.blk = none → u.cap = 0 ∧ u.elems = []) ∧ (u.blk ≠ none → 0 < u.cap) ∧ u.elems.length ≤ u.cap)
    (hv : (v.blk = none → v.cap = 0 ∧ v.elems = []) ∧ (v.blk ≠ none → 0 < v.cap) ∧ v.elems.length ≤ v.cap) :
    Inv ((w.put i (some u)).put j (some v)) := by
  have hi := get_iff.1 hx
  have hj := get_iff.1 hy
  refine ⟨fun t => ?_, h.nodup, h.lt, fun b hm => ?_⟩
  · have h1 := owned_set t w.bufs i (some x) (some u) hi
    have h2 := owned_set t (w.bufs.set i (some u)) j (some y) (some v) (by rw [List.getElem?_set_ne hij]; exact hj)
    have h3 := ho t
    show (owned ((w.bufs.set i (some u)).set j (some v))).count t = w.heap.count t
    rw [← h.cnt t]; omega
  · rcases List.mem_or_eq_of_mem_set hm with hm | hm
    · rcases List.mem_or_eq_of_mem_set hm with hm | hm
      · exact h.ok b hm
      · cases hm; exact hu
    · cases hm; exact hv

theorem Inv.add {α : Type} {w : World α} (h : Inv w) {i : Nat} {x : Buf α} (hx : w.get i = some x) : Inv ((w.put i (some x.null)).add x) := by
  have hi := get_iff.1 hx
  have hxo := h.ok x (List.mem_of_getElem? hi)
  refine ⟨fun t => ?_, h.nodup, h.lt, fun b hm => ?_⟩
  · have h1 := owned_set t w.bufs i (some x) (some x.null) hi
    have e : owned [some x.null] = [] := rfl
    rw [e] at h1
    show (owned (w.bufs.set i (some x.null) ++ [some x])).count t = w.heap.count t
    rw [owned_append, List.count_append, ← h.cnt t]; simp at h1; omega
  · rcases List.mem_append.1 hm with hm | hm
    · rcases List.mem_or_eq_of_mem_set hm with hm | hm
      · exact h.ok b hm
      · cases hm; simp [Buf.null]
    · simp only [List.mem_singleton, Option.some.injEq] at hm; subst hm; exact hxo

/-- What the theorems ask of the allocators: they go with the blocks and no buffer is made with another one, or there is only one. (Specification, no line of the
source.) -/
def Safe {α : Type} (tr : Traits) (a : Nat) (w : World α) (op : Op α) : Prop :=
  (tr.assign = true ∧ tr.swap = true ∧ NoMoveWith op) ∨ (OneAllocator a op ∧ ∀ b, some b ∈ w.bufs → b.al = a)

theorem buf_al {α : Type} (c : Buf α) {a : Nat} (h : a = c.al) : { c with al := a } = c := by subst h; rfl

theorem put_get {α : Type} (w : World α) (i j : Nat) (x : Buf α) {y : Buf α} (h : w.get i = some y) :
    (w.put i (some x)).get j = if i = j then some x else w.get j := by
  have hi := get_iff.1 h
  have hlt : i < w.bufs.length := (List.getElem?_eq_some_iff.1 hi).1
  unfold World.get World.put
  by_cases e : i = j
  · subst e; simp [hlt]
  · rw [if_neg e]; simp only [List.getElem?_set_ne e]

theorem step_safe {α : Type} (tr : Traits) (moved : α → α) (a : Nat) (w : World α) (op : Op α) (hw : Inv w) (hs : Safe tr a w op)
    (s : List (Option (Nat × List α))) (hsp : spec tr moved (seen w) op = some s) :
    ∃ w', step tr moved w op = pure w' ∧ Inv w' ∧ seen w' = s ∧ (OneAllocator a op → (∀ b, some b ∈ w.bufs → b.al = a) → ∀ b, some b ∈ w'.bufs → b.al = a) := by
  cases op with
  | make a' cap xs =>
    simp only [spec] at hsp
    by_cases hl : xs.length ≤ cap
    · rw [if_pos hl] at hsp
      simp only [step]; rw [if_pos hl]
      by_cases hc : cap ≠ 0
      · rw [if_pos hc]
        refine ⟨_, rfl, ⟨fun t => ?_, ?_, ?_, ?_⟩, ?_, ?_⟩
        · show (owned (w.bufs ++ [some ⟨some w.next, cap, xs, a'⟩])).count t = _
          rw [owned_append, List.count_append, owned_one]
          have := hw.cnt t
          simp only [Option.map_some, Option.toList_some, List.count_cons, List.count_nil]; omega
        · refine List.nodup_cons.2 ⟨fun hm => ?_, hw.nodup⟩
          obtain ⟨t, ht, e⟩ := List.mem_map.1 hm
          have := hw.lt t ht
          change t.1 = w.next at e
          omega
        · intro t ht
          rcases List.mem_cons.1 ht with e | ht
          · subst e; exact Nat.lt_succ_self _
          · exact Nat.lt_succ_of_lt (hw.lt t ht)
        · intro b hm
          rcases List.mem_append.1 hm with hm | hm
          · exact hw.ok b hm
          · simp only [List.mem_singleton, Option.some.injEq] at hm; subst hm
            exact ⟨fun h => by simp at h, fun _ => Nat.pos_of_ne_zero hc, hl⟩
        · rw [← Option.some.inj hsp]; simp [seen]
        · intro h1 h2 b hm
          rcases List.mem_append.1 hm with hm | hm
          · exact h2 b hm
          · simp only [List.mem_singleton, Option.some.injEq] at hm; subst hm; exact h1
      · rw [if_neg hc]
        have hc0 : cap = 0 := by omega
        subst hc0
        have hx : xs = [] := by simpa using hl
        subst hx
        refine ⟨_, rfl, ⟨fun t => ?_, hw.nodup, hw.lt, ?_⟩, ?_, ?_⟩
        · show (owned (w.bufs ++ [some ⟨none, 0, [], a'⟩])).count t = w.heap.count t
          rw [owned_append, List.count_append, owned_one]
          have := hw.cnt t
          simpa using this
        · intro b hm
          rcases List.mem_append.1 hm with hm | hm
          · exact hw.ok b hm
          · simp only [List.mem_singleton, Option.some.injEq] at hm; subst hm; simp
        · rw [← Option.some.inj hsp]; simp [seen, World.add]
        · intro h1 h2 b hm
          rcases List.mem_append.1 hm with hm | hm
          · exact h2 b hm
          · simp only [List.mem_singleton, Option.some.injEq] at hm; subst hm; exact h1
    · rw [if_neg hl] at hsp; cases hsp
  | move i =>
    simp only [spec, seen_get] at hsp
    cases hg : w.get i with
    | none => simp [hg] at hsp
    | some c =>
      simp only [hg, Option.map_some, Option.some.injEq] at hsp
      simp only [step, hg]
      refine ⟨_, rfl, hw.add hg, ?_, ?_⟩
      · rw [seen_add, seen_put, ← hsp]; rfl
      · intro _ h2 b hm
        have hc := h2 c (List.mem_of_getElem? (get_iff.1 hg))
        rcases List.mem_append.1 hm with hm | hm
        · rcases List.mem_or_eq_of_mem_set hm with hm | hm
          · exact h2 b hm
          · cases hm; exact hc
        · simp only [List.mem_singleton, Option.some.injEq] at hm; subst hm; exact hc
  | moveWith i a' =>
    simp only [spec, seen_get] at hsp
    rcases hs with ⟨_, _, h3⟩ | ⟨h1, h2⟩
    · exact absurd h3 (by simp [NoMoveWith])
    cases hg : w.get i with
    | none => simp [hg] at hsp
    | some c =>
      have hc := h2 c (List.mem_of_getElem? (get_iff.1 hg))
      have ea : a' = c.al := by rw [hc]; exact h1
      simp only [hg, Option.map_some, Option.some.injEq] at hsp
      simp only [step, hg]
      rw [if_pos ea, buf_al c ea]
      refine ⟨_, rfl, hw.add hg, ?_, ?_⟩
      · rw [seen_add, seen_put, ← hsp, if_pos ea, ea]; rfl
      · intro _ h2 b hm
        rcases List.mem_append.1 hm with hm | hm
        · rcases List.mem_or_eq_of_mem_set hm with hm | hm
          · exact h2 b hm
          · cases hm; exact hc
        · simp only [List.mem_singleton, Option.some.injEq] at hm; subst hm; exact hc
  | assign i j =>
    simp only [spec, seen_get] at hsp
    cases hg : w.get i with
    | none => simp [hg] at hsp
    | some b =>
      cases hj : w.get j with
      | none => simp [hg, hj] at hsp
      | some c =>
        simp only [hg, hj, Option.map_some, Option.bind_some, Option.some.injEq] at hsp
        have hbm := List.mem_of_getElem? (get_iff.1 hg)
        have hcm := List.mem_of_getElem? (get_iff.1 hj)
        have hbo := hw.ok b hbm
        -- the target is left without a block
        have key : ∃ w1, (if b.cap > 0 then (w.put i (some ({ b with elems := [] } : Buf α).null)).free { b with elems := [] }
            else pure (w.put i (some { b with elems := [] }))) = (pure w1 : Cxx (World α)) ∧ Inv w1 ∧ w1.bufs = w.bufs.set i (some b.null) := by
          by_cases hc : b.cap > 0
          · rw [if_pos hc]
            exact hw.free (some b.null) hg (by rintro c ⟨⟩; exact ⟨rfl, rfl, rfl⟩) { b with elems := [] } rfl rfl rfl
          · rw [if_neg hc]
            have hb0 : b.blk = none := by
              rcases hk : b.blk with _ | k
              · rfl
              · exact absurd (hbo.2.1 (by simp [hk])) hc
            refine ⟨_, rfl, hw.put hg rfl rfl rfl rfl, ?_⟩
            show w.bufs.set i _ = _
            congr 2
            have := (hbo.1 hb0).1
            simp only [Buf.null, hb0, this]
        obtain ⟨w1, e1, hw1, hb1⟩ := key
        have hal : (if tr.assign then c.al else b.al) = c.al := by
          rcases hs with ⟨h1, _, _⟩ | ⟨_, h2⟩
          · simp [h1]
          · rw [h2 b hbm, h2 c hcm]; simp
        have g1 : w1.get i = some b.null := by
          have := put_get w i i b.null hg
          rw [if_pos rfl] at this
          rw [← this]; unfold World.get World.put; rw [hb1]
        have hd : step tr moved w (.assign i j) = (match w1.get i, w1.get j with
            | some b1, some c =>
              let w2 := w1.put i (some { c with al := if tr.assign then c.al else b1.al })
              match w2.get j with
              | some c1 => pure (w2.put j (some c1.null))
              | none => ub
            | _, _ => ub) := by
          simp only [step, hg]
          by_cases hc : b.cap > 0
          · rw [if_pos hc] at e1 ⊢; rw [e1, pure_bind]
          · rw [if_neg hc] at e1 ⊢; rw [e1, pure_bind]
        by_cases hij : i = j
        · subst hij
          have ebc : c = b := by rw [hg] at hj; exact (Option.some.inj hj).symm
          subst ebc
          rw [if_pos rfl] at hsp
          rw [hd, g1]
          have ec : (if tr.assign then c.null.al else c.null.al) = c.null.al := by simp
          simp only [ec]
          have g2 := put_get w1 i i c.null g1
          rw [if_pos rfl] at g2
          simp only [g2]
          refine ⟨_, rfl, ?_, ?_, ?_⟩
          · exact (hw1.put g1 rfl rfl rfl rfl).put g2 rfl rfl rfl rfl
          · rw [seen_put, seen_put, ← hsp]
            simp only [seen, hb1, List.map_set, List.set_set]; rfl
          · intro _ h2 b' hm
            simp only [World.put, hb1, List.set_set] at hm
            rcases List.mem_or_eq_of_mem_set hm with hm | hm
            · exact h2 b' hm
            · cases hm; exact h2 c hbm
        · rw [if_neg hij] at hsp
          have g3 : w1.get j = some c := by
            have := put_get w i j b.null hg
            rw [if_neg hij, hj] at this
            rw [← this]; unfold World.get World.put; rw [hb1]
          have g4 := put_get w1 i j c g1
          rw [if_neg hij, g3] at g4
          have hal' : (if tr.assign then c.al else b.null.al) = c.al := hal
          rw [hd, g1, g3]
          simp only [hal']
          simp only [g4]
          refine ⟨_, rfl, ?_, ?_, ?_⟩
          · refine hw1.two c c.null hij g1 g3 (fun t => ?_) (hw.ok c hcm) (by simp [Buf.null])
            have e5 : owned [some c.null] = [] := rfl
            have e6 : owned [some b.null] = [] := rfl
            rw [e5, e6]; simp
          · rw [seen_put, seen_put, ← hsp, hal]
            simp only [seen, hb1, List.map_set, List.set_set]; rfl
          · intro _ h2 b' hm
            simp only [World.put, hb1, List.set_set] at hm
            rcases List.mem_or_eq_of_mem_set hm with hm | hm
            · rcases List.mem_or_eq_of_mem_set hm with hm | hm
              · exact h2 b' hm
              · cases hm; exact h2 c hcm
            · cases hm; exact h2 c hcm
  | swap i j =>
    simp only [spec, seen_get] at hsp
    cases hg : w.get i with
    | none => simp [hg] at hsp
    | some b =>
      cases hj : w.get j with
      | none => simp [hg, hj] at hsp
      | some c =>
        simp only [hg, hj, Option.map_some, Option.bind_some, Option.some.injEq] at hsp
        have hbm := List.mem_of_getElem? (get_iff.1 hg)
        have hcm := List.mem_of_getElem? (get_iff.1 hj)
        have hal : (if tr.swap then c.al else b.al) = c.al ∧ (if tr.swap then b.al else c.al) = b.al := by
          rcases hs with ⟨_, h1, _⟩ | ⟨_, h2⟩
          · simp [h1]
          · rw [h2 b hbm, h2 c hcm]; simp
        simp only [step, hg, hj, hal.1, hal.2]
        rw [hal.1, hal.2] at hsp
        refine ⟨_, rfl, ?_, ?_, ?_⟩
        · by_cases hij : i = j
          · subst hij
            have ebc : c = b := by rw [hg] at hj; exact (Option.some.inj hj).symm
            subst ebc
            have hlt := List.getElem?_eq_some_iff.1 (get_iff.1 hg)
            have e : (w.put i (some c)).put i (some c) = w := by
              unfold World.put
              simp only [List.set_set]
              have : w.bufs.set i (some c) = w.bufs := by
                obtain ⟨h1, h2⟩ := hlt
                rw [← h2]; exact List.set_getElem_self h1
              rw [this]
            rw [e]; exact hw
          · exact hw.two c b hij hg hj (fun t => by omega) (hw.ok c hcm) (hw.ok b hbm)
        · rw [seen_put, seen_put, ← hsp]; rfl
        · intro _ h2 b' hm
          rcases List.mem_or_eq_of_mem_set hm with hm | hm
          · rcases List.mem_or_eq_of_mem_set hm with hm | hm
            · exact h2 b' hm
            · cases hm; exact h2 c hcm
          · cases hm; exact h2 b hbm
  | destroy i =>
    simp only [spec, seen_get] at hsp
    cases hg : w.get i with
    | none => simp [hg] at hsp
    | some b =>
      simp only [hg, Option.map_some, Option.some.injEq] at hsp
      obtain ⟨w', e, h1, h2⟩ := hw.free none hg (by simp) b rfl rfl rfl
      refine ⟨w', by simp only [step, hg]; exact e, h1, ?_, ?_⟩
      · rw [← hsp]; simp only [seen, h2, List.map_set]; rfl
      · intro _ h3 b' hm
        rw [h2] at hm
        rcases List.mem_or_eq_of_mem_set hm with hm | hm
        · exact h3 b' hm
        · cases hm

theorem foldl_safe {α : Type} (tr : Traits) (moved : α → α) (a : Nat) : ∀ (ops : List (Op α)) (w : World α) (s : List (Option (Nat × List α))), Inv w →
    ((tr.assign = true ∧ tr.swap = true ∧ ∀ op ∈ ops, NoMoveWith op) ∨ ((∀ op ∈ ops, OneAllocator a op) ∧ ∀ b, some b ∈ w.bufs → b.al = a)) →
    ops.foldlM (spec tr moved) (seen w) = some s → ∃ w', ops.foldlM (step tr moved) w = pure w' ∧ Inv w' ∧ seen w' = s
  | [], w, s, hw, _, h => ⟨w, rfl, hw, Option.some.inj h⟩
  | op :: ops, w, s, hw, hs, h => by
    rw [List.foldlM_cons] at h
    cases e : spec tr moved (seen w) op with
    | none => rw [e] at h; cases h
    | some s1 =>
      rw [e] at h
      have h1 : Safe tr a w op := by
        rcases hs with ⟨p, q, r⟩ | ⟨p, q⟩
        · exact Or.inl ⟨p, q, r op (List.mem_cons_self ..)⟩
        · exact Or.inr ⟨p op (List.mem_cons_self ..), q⟩
      obtain ⟨w1, e1, i1, s1', k⟩ := step_safe tr moved a w op hw h1 s1 e
      subst s1'
      obtain ⟨w2, e2, i2, s2⟩ := foldl_safe tr moved a ops w1 s i1 (by
        rcases hs with ⟨p, q, r⟩ | ⟨p, q⟩
        · exact Or.inl ⟨p, q, fun o ho => r o (List.mem_cons_of_mem _ ho)⟩
        · exact Or.inr ⟨fun o ho => p o (List.mem_cons_of_mem _ ho), k (p op (List.mem_cons_self ..)) q⟩) h
      exact ⟨w2, by rw [List.foldlM_cons, e1, pure_bind]; exact e2, i2, s2⟩

/-- **C370 (moves keep the elements and the blocks, in part).**  If the allocator goes with the block in assignments and exchanges and no buffer is made with an
allocator of its own from another, or if all allocators are equal, every allowed sequence of moves gives each buffer the elements and the allocator it is to have,
and each block that is allocated belongs to one buffer, with the allocator and the size it was allocated with.  Missing: `C370_foreign_violated` and
`C370_leak_violated`. -/
theorem C370_moves_partial {α : Type} (tr : Traits) (moved : α → α) (a : Nat) (ops : List (Op α)) (s : List (Option (Nat × List α)))
    (hs : (tr.assign = true ∧ tr.swap = true ∧ ∀ op ∈ ops, NoMoveWith op) ∨ ∀ op ∈ ops, OneAllocator a op)
    (h : ops.foldlM (spec tr moved) [] = some s) :
    ∃ w, run tr moved ops = pure w ∧ seen w = s ∧ (owned w.bufs).Perm w.heap ∧ (w.heap.map (·.1)).Nodup := by
  obtain ⟨w, e, i, hse⟩ := foldl_safe tr moved a ops ⟨[], [], 0⟩ s ⟨fun _ => rfl, List.nodup_nil, by simp, by simp⟩
    (by rcases hs with hs | hs
        · exact Or.inl hs
        · exact Or.inr ⟨hs, by simp⟩) h
  exact ⟨w, e, hse, List.perm_iff_count.2 i.cnt, i.nodup⟩

/-- **C370 (nothing stays allocated, in part).**  When such a sequence has destroyed all buffers, no block is left. -/
theorem C370_released_partial {α : Type} (tr : Traits) (moved : α → α) (a : Nat) (ops : List (Op α)) (s : List (Option (Nat × List α)))
    (hs : (tr.assign = true ∧ tr.swap = true ∧ ∀ op ∈ ops, NoMoveWith op) ∨ ∀ op ∈ ops, OneAllocator a op)
    (h : ops.foldlM (spec tr moved) [] = some s) (hn : ∀ o ∈ s, o = none) : ∃ w, run tr moved ops = pure w ∧ w.heap = [] := by
  obtain ⟨w, e, hse, hp, _⟩ := C370_moves_partial tr moved a ops s hs h
  refine ⟨w, e, ?_⟩
  have : owned w.bufs = [] := by
    unfold owned
    rw [List.filterMap_eq_nil_iff]
    intro o ho
    rcases o with _ | b
    · rfl
    · exfalso
      have := hn (some (b.al, b.elems)) (by rw [← hse]; exact List.mem_map.2 ⟨some b, ho, rfl⟩)
      cases this
  rw [this] at hp
  exact hp.nil_eq.symm

/-- Buffers of two allocators that go with the blocks meet the hypotheses, and those of one allocator otherwise. -/
example : (run ⟨true, true⟩ (fun _ : Nat => 0) [.make 1 4 [5, 6], .make 2 3 [7], .assign 0 1, .move 0, .swap 2 1, .destroy 0, .destroy 1, .destroy 2]) =
    pure ⟨[none, none, none], [], 2⟩ := rfl

example : (∀ op ∈ ([.make 1 4 [5, 6], .make 2 3 [7], .assign 0 1, .move 0, .swap 2 1, .destroy 0, .destroy 1, .destroy 2] : List (Op Nat)), NoMoveWith op) ∧
    ([.make 1 4 [5, 6], .make 2 3 [7], .assign 0 1, .move 0, .swap 2 1, .destroy 0, .destroy 1, .destroy 2] : List (Op Nat)).foldlM
      (spec ⟨true, true⟩ (fun _ : Nat => 0)) [] = some [none, none, none] := by
  refine ⟨?_, rfl⟩
  simp [NoMoveWith]

/-- **C370 (violated: a block goes to another allocator).**  `operator=` takes the block of the other buffer also when the allocator stays and is not equal: the
destructor hands a block to an allocator it is not from. -/
theorem C370_foreign_violated {α : Type} (moved : α → α) (sw : Bool) (x : α) (a b : Nat) (hab : a ≠ b) :
    run ⟨false, sw⟩ moved [.make a 1 [], .make b 1 [x], .assign 0 1, .destroy 0] = ub := by
  simp [run, step, World.get, World.put, World.free, World.release, Buf.null, hab]

/-- **C370 (violated: a block without cells is lost).**  A buffer made from one without elements with an allocator of its own holds a block of no cells, which
`operator=` does not release. -/
theorem C370_leak_violated {α : Type} (tr : Traits) (moved : α → α) (a b : Nat) (hab : a ≠ b) :
    ∃ w, run tr moved [.make a 0 [], .moveWith 0 b, .assign 1 0, .destroy 0, .destroy 1] = pure w ∧ w.heap = [(0, b, 0)] := by
  rcases tr with ⟨_ | _, sw⟩ <;>
  exact ⟨_, by simp [run, step, World.get, World.put, World.add, World.free, Buf.null, hab.symm]; rfl, rfl⟩

/-- **C370 (a buffer made with an allocator of its own).**  It has the elements in a block of its own allocator, just large enough, and the other buffer keeps its
block and what the moves left. -/
theorem C370_other {α : Type} (tr : Traits) (moved : α → α) (w : World α) (i a : Nat) (c : Buf α) (h : w.get i = some c) (ha : a ≠ c.al) :
    ∃ w', step tr moved w (.moveWith i a) = pure w' ∧ w'.get w.bufs.length = some ⟨some w.next, c.elems.length, c.elems, a⟩ ∧
      w'.get i = some { c with elems := c.elems.map moved } ∧ w'.heap = (w.next, a, c.elems.length) :: w.heap := by
  have hlt := (List.getElem?_eq_some_iff.1 (get_iff.1 h)).1
  refine ⟨_, by simp only [step, h]; rw [if_neg ha], ?_, ?_, rfl⟩
  · rw [get_iff]; simp
  · rw [get_iff, List.getElem?_append_left (by simpa using hlt)]; simp [hlt]

example := C370_other ⟨true, true⟩ (fun _ : Nat => 0) ⟨[some ⟨some 0, 4, [5, 6], 1⟩], [(0, 1, 4)], 1⟩ 0 2 ⟨some 0, 4, [5, 6], 1⟩ rfl (by decide)

end Verif.Vector.SplitMove
