import Verif.Vector.Overwrite

/-
`split_buffer` used as a double-ended sequence.

The model has a parameter `t`, true for trivial types (`int`, pointers, plain structs): for them writing to
storage without an object is fine, destroying does nothing, and a moved-from object keeps its value.  With
`t = false` (types like `std::string`) the strict rules of Verif/Vector/Model.lean hold.
-/

namespace Verif.Vector
open Cxx

variable {α : Type}

/-- `alloc_traits::construct`. (Rule of C++ or its library, no line of the source.) -/
def tConstruct (t : Bool) (m : Mem α) (i : Nat) (c : Cell α) : Cxx (Mem α) :=
  if t then (if i < m.length then pure (m.set i c) else ub) else construct m i c

/-- `ptr[i] = ...`. (Rule of C++ or its library, no line of the source.) -/
def tAssign (t : Bool) (m : Mem α) (i : Nat) (c : Cell α) : Cxx (Mem α) :=
  if t then (if i < m.length then pure (m.set i c) else ub) else assignAt m i c

/-- `std::move( ptr[i] )` as a source. (Rule of C++ or its library, no line of the source.) -/
def tMoveOut (t : Bool) (m : Mem α) (i : Nat) : Cxx (Cell α × Mem α) :=
  if t then (do let a ← value m i; pure (.live a, m)) else moveOut m i

/-- `alloc_traits::destroy`. (Rule of C++ or its library, no line of the source.) -/
def tDestroy (t : Bool) (m : Mem α) (i : Nat) : Cxx (Mem α) :=
  if t then (if i < m.length then pure m else ub) else destroy m i

/-- `alloc_traits::deallocate`. (Rule of C++ or its library, no line of the source.) -/
def tRelease (t : Bool) (m : Mem α) : Cxx Unit :=
  if t then pure () else release m

/-- `std::move( first, last, out )`. (Rule of C++ or its library, no line of the source.) -/
def tMoveForward (t : Bool) (m : Mem α) (src dst : Nat) : Nat → Cxx (Mem α)
  | 0 => pure m
  | n + 1 => do
    let (c, m) ← tMoveOut t m src
    let m ← tAssign t m dst c
    tMoveForward t m (src + 1) (dst + 1) n

/-- `std::move_backward( ptr + src, ptr + src + n, ptr + dlast )`. (Rule of C++ or its library, no line of the source.) -/
def tMoveBackward (t : Bool) (m : Mem α) (src : Nat) : Nat → Nat → Cxx (Mem α)
  | 0, _ => pure m
  | n + 1, dlast => do
    let (c, m) ← tMoveOut t m (src + n)
    if dlast = 0 then ub
    else do
      let m ← tAssign t m (dlast - 1) c
      tMoveBackward t m src n (dlast - 1)

/-- `construct_at_end( move_iterator( begin_ ), move_iterator( end_ ) )` on the new block, split_buffer.h
431-438 (the overload for forward iterators). -/
def tMoveInto (t : Bool) (src dst : Mem α) (sp dp : Nat) : Nat → Cxx (Mem α × Mem α)
  | 0 => pure (src, dst)
  | n + 1 => do
    let (c, src) ← tMoveOut t src sp
    let dst ← tConstruct t dst dp c
    tMoveInto t src dst (sp + 1) (dp + 1) n

/-- `destruct_at_end`, split_buffer.h 460-467. -/
def tDestructAtEnd (t : Bool) (m : Mem α) (newLast : Nat) : Nat → Cxx (Mem α)
  | 0 => if newLast = 0 then pure m else ub
  | last + 1 =>
    if newLast = last + 1 then pure m
    else do
      let m ← tDestroy t m last
      tDestructAtEnd t m newLast last

/-- A `split_buffer`: the block between `first_` and `end_cap()`, and the offsets of `begin_` and `end_`.
(Members of `split_buffer`, split_buffer.h 42-531.) -/
structure SB (α : Type) where
  mem : Mem α
  b : Nat
  e : Nat

/-- `capacity()`, split_buffer.h 198-200. -/
def SB.cap (s : SB α) : Nat := s.mem.length
/-- `size()`, split_buffer.h 190-192. -/
def SB.size (s : SB α) : Nat := s.e - s.b

/-- The default constructor, split_buffer.h 91-96. -/
def SB.empty : SB α := ⟨[], 0, 0⟩

/-- The contents, as a caller sees them by going from `begin()` to `end()`. (Specification, no line of the source.) -/
def SB.contents (s : SB α) : Cxx (List α) :=
  (List.range' s.b (s.e - s.b)).mapM (fun i => value s.mem i)

/-- The reallocating part shared by `reserve`, `shrink_to_fit`, `push_front` and `push_back`, e.g.
split_buffer.h 291-297: a new block of `c` cells with `begin_` at `start`, the elements moved into it, the blocks
swapped, and the old one destroyed (split_buffer.h 113-118) at the end of the scope. -/
def SB.realloc (t : Bool) (s : SB α) (c start : Nat) : Cxx (SB α) := do
  let (old, new) ← tMoveInto t s.mem (List.replicate c .raw) s.b start (s.e - s.b)
  let old ← tDestructAtEnd t old s.b s.e
  tRelease t old
  pure ⟨new, start, start + (s.e - s.b)⟩

/-- What the argument of `push_front` and `push_back` refers to: an object elsewhere or the element in cell `i`.
(Members of `split_buffer`, split_buffer.h 42-531.) -/
def SB.arg (m : Mem α) : Src α → Cxx α := Src.get m

/-- The argument after reallocation: a reference to an element dangles. (Specification, no line of the source.) -/
def Src.stale : Src α → Cxx α
  | .ext a => pure a
  | .own _ => ub

/-- `push_back( const_reference )`, split_buffer.h 281-302; 329-351 and 353-376 are the same with the argument moved.
`canAlloc` says which allocations succeed; result `false`: `allocate` threw. `2 * capacity` is assumed not to
overflow. -/
def SB.pushBack (t : Bool) (canAlloc : Nat → Bool) (s : SB α) (x : Src α) : Cxx (Bool × SB α) :=
  if s.e = s.cap then
    if 0 < s.b then do
      let d := (s.b + 1) / 2
      let m ← tMoveForward t s.mem s.b (s.b - d) (s.e - s.b)
      let e := s.b - d + (s.e - s.b)
      let a ← x.get m
      let m ← tConstruct t m e (.live a)
      pure (true, ⟨m, s.b - d, e + 1⟩)
    else
      let c := max (2 * s.cap) 1
      if canAlloc c then do
        let s ← s.realloc t c (c / 4)
        let a ← x.stale
        let m ← tConstruct t s.mem s.e (.live a)
        pure (true, ⟨m, s.b, s.e + 1⟩)
      else pure (false, s)
  else do
    let a ← x.get s.mem
    let m ← tConstruct t s.mem s.e (.live a)
    pure (true, ⟨m, s.b, s.e + 1⟩)

/-- `push_front( const_reference )`, split_buffer.h 257-279; 304-327 is the same with the argument moved. -/
def SB.pushFront (t : Bool) (canAlloc : Nat → Bool) (s : SB α) (x : Src α) : Cxx (Bool × SB α) :=
  if s.b = 0 then
    if s.e < s.cap then do
      let d := (s.cap - s.e + 1) / 2
      let m ← tMoveBackward t s.mem s.b (s.e - s.b) (s.e + d)
      let b := s.e + d - (s.e - s.b)
      let a ← x.get m
      if b = 0 then ub
      else do
        let m ← tConstruct t m (b - 1) (.live a)
        pure (true, ⟨m, b - 1, s.e + d⟩)
    else
      let c := max (2 * s.cap) 1
      if canAlloc c then do
        let s ← s.realloc t c ((c + 3) / 4)
        let a ← x.stale
        if s.b = 0 then ub
        else do
          let m ← tConstruct t s.mem (s.b - 1) (.live a)
          pure (true, ⟨m, s.b - 1, s.e⟩)
      else pure (false, s)
  else do
    let a ← x.get s.mem
    let m ← tConstruct t s.mem (s.b - 1) (.live a)
    pure (true, ⟨m, s.b - 1, s.e⟩)

/-- `pop_back()`, split_buffer.h 381-383. -/
def SB.popBack (t : Bool) (s : SB α) : Cxx (SB α) :=
  if s.e = 0 then ub
  else do
    let m ← tDestructAtEnd t s.mem (s.e - 1) s.e
    pure { s with mem := m, e := s.e - 1 }

/-- `pop_front()`, split_buffer.h 378-380, with `destruct_at_begin`, split_buffer.h 440-454, for one element. -/
def SB.popFront (t : Bool) (s : SB α) : Cxx (SB α) := do
  let m ← (if t then pure s.mem else tDestroy t s.mem s.b : Cxx (Mem α))
  pure { s with mem := m, b := s.b + 1 }

/-- `clear()`, split_buffer.h 186-188. -/
def SB.clear (t : Bool) (s : SB α) : Cxx (SB α) := do
  let m ← tDestructAtEnd t s.mem s.b s.e
  pure { s with mem := m, e := s.b }

/-- `reserve( n )`, split_buffer.h 226-236. -/
def SB.reserve (t : Bool) (canAlloc : Nat → Bool) (s : SB α) (n : Nat) : Cxx (Bool × SB α) :=
  if n < s.cap then
    if n = 0 ∨ canAlloc n then do
      let s ← s.realloc t n 0
      pure (true, s)
    else pure (false, s)
  else pure (true, s)

/-- `shrink_to_fit()`, split_buffer.h 238-255; it catches the exception. -/
def SB.shrinkToFit (t : Bool) (canAlloc : Nat → Bool) (s : SB α) : Cxx (SB α) :=
  if s.size < s.cap then
    if s.size = 0 ∨ canAlloc s.size then s.realloc t s.size 0
    else pure s
  else pure s

/-- `~split_buffer()`, split_buffer.h 113-118. -/
def SB.destruct (t : Bool) (s : SB α) : Cxx Unit := do
  let s ← s.clear t
  if s.cap = 0 then pure () else tRelease t s.mem

/-! ### Lemmas -/

theorem tConstruct_mid (t : Bool) (A B : Mem α) (c d : Cell α) {i : Nat} (h : i = A.length)
    (hc : t = false → c = .raw) : tConstruct t (A ++ c :: B) i d = pure (A ++ d :: B) := by
  unfold tConstruct
  cases t with
  | true => rw [if_pos rfl, if_pos (by simp; omega), set_mid A _ _ B h]
  | false => rw [hc rfl]; exact construct_mid A B d h

theorem tMoveOut_mid (t : Bool) (A B : Mem α) (a : α) {i : Nat} (h : i = A.length) :
    tMoveOut t (A ++ .live a :: B) i = pure (.live a, A ++ (if t then .live a else .moved) :: B) := by
  unfold tMoveOut
  cases t with
  | true => simp only [if_true, value_mid A B a h, pure_bind]
  | false => exact moveOut_mid A B (by simp) h

theorem tAssign_mid (A B : Mem α) (c d : Cell α) {i : Nat} (h : i = A.length) :
    tAssign true (A ++ c :: B) i d = pure (A ++ d :: B) := by
  unfold tAssign
  rw [if_pos rfl, if_pos (by simp; omega), set_mid A _ _ B h]

/-- Moving down over `D`, trivial types. -/
theorem tMoveForward_spec (B : Mem α) : ∀ (xs : List α) (A D : Mem α), 0 < D.length →
    ∃ D', D'.length = D.length ∧
      tMoveForward true (A ++ D ++ lv xs ++ B) (A.length + D.length) A.length xs.length =
        pure (A ++ lv xs ++ D' ++ B) := by
  intro xs
  induction xs with
  | nil => intro A D _; exact ⟨D, rfl, by simp [tMoveForward]⟩
  | cons x xs ih =>
    intro A D hD
    cases D with
    | nil => simp at hD
    | cons c D =>
      obtain ⟨D', hl, e⟩ := ih (A ++ [.live x]) (D ++ [.live x]) (by simp)
      refine ⟨D', by simpa using hl, ?_⟩
      simp only [List.length_cons]
      rw [tMoveForward]
      have h1 : A ++ c :: D ++ lv (x :: xs) ++ B = (A ++ c :: D) ++ .live x :: (lv xs ++ B) := by simp
      rw [h1, tMoveOut_mid _ _ _ _ (by simp), pure_bind]
      simp only [if_true]
      have h2 : (A ++ c :: D) ++ .live x :: (lv xs ++ B) = A ++ c :: (D ++ .live x :: (lv xs ++ B)) := by simp
      rw [h2, tAssign_mid _ _ _ _ rfl, pure_bind]
      have h3 : A ++ Cell.live x :: (D ++ .live x :: (lv xs ++ B)) =
          (A ++ [.live x]) ++ (D ++ [.live x]) ++ lv xs ++ B := by simp
      rw [h3]
      simp only [List.length_append, List.length_cons, List.length_nil] at e
      have h4 : A.length + (D.length + 1) + 1 = A.length + (0 + 1) + (D.length + (0 + 1)) := by omega
      rw [h4, show A.length + 1 = A.length + (0 + 1) from rfl, e]
      simp

/-- Moving up over `D`, trivial types. -/
theorem tMoveBackward_spec (A : Mem α) : ∀ (n : Nat) (xs : List α) (D B : Mem α) (dlast : Nat), xs.length = n →
    0 < D.length → dlast = A.length + n + D.length →
    ∃ D', D'.length = D.length ∧
      tMoveBackward true (A ++ lv xs ++ D ++ B) A.length n dlast = pure (A ++ D' ++ lv xs ++ B) := by
  intro n
  induction n with
  | zero =>
    intro xs D B dlast hx _ _
    have : xs = [] := List.length_eq_zero_iff.1 hx
    subst this
    exact ⟨D, rfl, by simp [tMoveBackward]⟩
  | succ n ih =>
    intro xs D B dlast hx hD hd
    have hne : xs ≠ [] := by intro h; subst h; simp at hx
    obtain ⟨ys, x, rfl⟩ : ∃ ys x, xs = ys ++ [x] := ⟨_, _, (List.dropLast_concat_getLast hne).symm⟩
    have hDne : D ≠ [] := by intro h; subst h; simp at hD
    obtain ⟨D0, c, rfl⟩ : ∃ D0 c, D = D0 ++ [c] := ⟨_, _, (List.dropLast_concat_getLast hDne).symm⟩
    have hy : ys.length = n := by simpa using hx
    simp only [List.length_append, List.length_cons, List.length_nil] at hd
    rw [tMoveBackward]
    have h1 : A ++ lv (ys ++ [x]) ++ (D0 ++ [c]) ++ B = (A ++ lv ys) ++ .live x :: (D0 ++ c :: B) := by simp
    rw [h1, tMoveOut_mid _ _ _ _ (by simp [hy]), pure_bind]
    simp only [if_true]
    rw [if_neg (by omega)]
    have h2 : (A ++ lv ys) ++ Cell.live x :: (D0 ++ c :: B) = (A ++ lv ys ++ .live x :: D0) ++ c :: B := by simp
    rw [h2, tAssign_mid _ _ _ _ (by simp; omega), pure_bind]
    have h3 : (A ++ lv ys ++ Cell.live x :: D0) ++ .live x :: B = A ++ lv ys ++ (.live x :: D0) ++ (.live x :: B) := by simp
    rw [h3]
    obtain ⟨D', hl, e⟩ := ih ys (.live x :: D0) (.live x :: B) (dlast - 1) hy (by simp) (by simp; omega)
    refine ⟨D', by simpa using hl, ?_⟩
    rw [e]; simp

/-- What is left behind after moving objects out. (Specification, no line of the source.) -/
def left (t : Bool) (xs : List α) : Mem α := if t then lv xs else mv xs.length

theorem left_length (t : Bool) (xs : List α) : (left t xs).length = xs.length := by
  cases t <;> simp [left]

theorem tMoveInto_spec (t : Bool) (B R : Mem α) : ∀ (xs : List α) (A P Q : Mem α), Q.length = xs.length →
    (t = false → ∀ c ∈ Q, c = .raw) →
    tMoveInto t (A ++ lv xs ++ B) (P ++ Q ++ R) A.length P.length xs.length =
      pure (A ++ left t xs ++ B, P ++ lv xs ++ R) := by
  intro xs
  induction xs with
  | nil =>
    intro A P Q hQ _
    have : Q = [] := List.length_eq_zero_iff.1 hQ
    subst this
    cases t <;> simp [tMoveInto, left]
  | cons x xs ih =>
    intro A P Q hQ hr
    cases Q with
    | nil => simp at hQ
    | cons c Q =>
      simp only [List.length_cons] at hQ ⊢
      rw [tMoveInto]
      have h1 : A ++ lv (x :: xs) ++ B = A ++ .live x :: (lv xs ++ B) := by simp
      have h2 : P ++ c :: Q ++ R = P ++ c :: (Q ++ R) := by simp
      rw [h1, h2, tMoveOut_mid _ _ _ _ rfl, pure_bind]
      simp only []
      rw [tConstruct_mid _ _ _ _ _ rfl (fun ht => hr ht c (by simp)), pure_bind]
      have h3 := ih (A ++ [if t then .live x else .moved]) (P ++ [.live x]) Q (by omega)
        (fun ht d hd => hr ht d (List.mem_cons_of_mem _ hd))
      simp only [List.length_append, List.length_cons, List.length_nil, List.append_assoc, List.cons_append,
        List.nil_append] at h3 ⊢
      rw [h3]
      cases t <;> simp [left, mv_succ]

theorem tDestructAtEnd_true : ∀ (last : Nat) (m : Mem α) (newLast : Nat), newLast ≤ last → last ≤ m.length →
    tDestructAtEnd true m newLast last = pure m := by
  intro last
  induction last with
  | zero => intro m n h _; rw [tDestructAtEnd, if_pos (by omega)]
  | succ last ih =>
    intro m n h1 h2
    rw [tDestructAtEnd]
    split
    · rfl
    · unfold tDestroy
      rw [if_pos rfl, if_pos (by omega), pure_bind]
      exact ih m n (by omega) (by omega)

theorem tDestructAtEnd_false (m : Mem α) (newLast last : Nat) :
    tDestructAtEnd false m newLast last = destructAtEnd m newLast last := by
  induction last generalizing m with
  | zero => rfl
  | succ last ih =>
    rw [tDestructAtEnd, destructAtEnd]
    split
    · rfl
    · show (destroy m last >>= fun m => tDestructAtEnd false m newLast last) = _
      exact bind_congr fun m => ih m

/-- What destroying leaves in the cells. (Specification, no line of the source.) -/
def gone (t : Bool) (Z : Mem α) : Mem α := if t then Z else rw' Z.length

theorem gone_length (t : Bool) (Z : Mem α) : (gone t Z).length = Z.length := by cases t <;> simp [gone]

theorem tDestructAtEnd_spec (t : Bool) {A Z B m : Mem α} {a b : Nat} (hm : m = A ++ Z ++ B) (ha : a = A.length)
    (hb : b = A.length + Z.length) (ho : Objs Z) :
    tDestructAtEnd t m a b = pure (A ++ gone t Z ++ B) := by
  cases t with
  | true =>
    rw [tDestructAtEnd_true _ _ _ (by omega) (by subst hm; simp; omega), hm]; rfl
  | false => rw [tDestructAtEnd_false, destructAtEnd_eq hm ha hb ho]; rfl

theorem objs_left (t : Bool) (xs : List α) : Objs (left t xs) := by
  cases t
  · exact objs_mv _
  · exact objs_lv _

/-! ### The representation -/

/-- The buffer holds the sequence `xs`: the pointers are in order within the block, the elements lie between `begin_`
and `end_`, and for class types there is no object elsewhere in the block. (Specification, no line of the source.) -/
def SRep (t : Bool) (s : SB α) (xs : List α) : Prop :=
  ∃ A B, s.mem = A ++ lv xs ++ B ∧ s.b = A.length ∧ s.e = A.length + xs.length ∧
    (t = false → (∀ c ∈ A, c = .raw) ∧ (∀ c ∈ B, c = .raw))

theorem srep_empty (t : Bool) : SRep t (SB.empty : SB α) [] := ⟨[], [], rfl, rfl, rfl, fun _ => by simp⟩

/-- `first_ <= begin_ <= end_ <= end_cap`, and the size. -/
theorem SRep.order {t : Bool} {s : SB α} {xs : List α} (h : SRep t s xs) :
    s.b ≤ s.e ∧ s.e ≤ s.cap ∧ s.size = xs.length := by
  obtain ⟨A, B, hm, hb, he, _⟩ := h
  unfold SB.cap SB.size
  rw [hm, hb, he]
  simp

theorem mapM_value (B : Mem α) : ∀ (xs : List α) (A : Mem α),
    (List.range' A.length xs.length).mapM (fun i => value (A ++ lv xs ++ B) i) = (pure xs : Cxx (List α)) := by
  intro xs
  induction xs with
  | nil => intro A; simp
  | cons x xs ih =>
    intro A
    simp only [List.length_cons, List.range'_succ, List.mapM_cons]
    have h1 : A ++ lv (x :: xs) ++ B = A ++ .live x :: (lv xs ++ B) := by simp
    have h2 : A ++ lv (x :: xs) ++ B = (A ++ [.live x]) ++ lv xs ++ B := by simp
    have h3 := ih (A ++ [.live x])
    simp only [List.length_append, List.length_cons, List.length_nil] at h3
    rw [show value (A ++ lv (x :: xs) ++ B) A.length = pure x by rw [h1]; exact value_mid _ _ _ rfl, pure_bind, h2, h3,
      pure_bind]

theorem SRep.contents {t : Bool} {s : SB α} {xs : List α} (h : SRep t s xs) : s.contents = pure xs := by
  obtain ⟨A, B, hm, hb, he, _⟩ := h
  unfold SB.contents
  rw [hm, hb, he, Nat.add_sub_cancel_left]
  exact mapM_value B xs A

theorem release_of_raw {m : Mem α} (h : ∀ c ∈ m, c = Cell.raw) : release m = pure () := by
  unfold release
  rw [if_pos]
  rw [List.all_eq_true]
  intro c hc
  rw [h c hc]

theorem realloc_spec (t : Bool) {s : SB α} {xs : List α} (h : SRep t s xs) {c start : Nat}
    (hc : start + xs.length ≤ c) :
    s.realloc t c start = pure ⟨rw' start ++ lv xs ++ rw' (c - start - xs.length), start, start + xs.length⟩ := by
  obtain ⟨A, B, hm, hb, he, hr⟩ := h
  unfold SB.realloc
  have hsz : s.e - s.b = xs.length := by omega
  have hrep : (List.replicate c Cell.raw : Mem α) = rw' start ++ rw' xs.length ++ rw' (c - start - xs.length) := by
    rw [← rw'_add, ← rw'_add]
    show rw' c = _
    congr 1; omega
  rw [hm, hrep, hsz, hb]
  have := tMoveInto_spec t B (rw' (c - start - xs.length)) xs A (rw' start) (rw' xs.length) (by simp)
    (fun _ d hd => by simp [rw'] at hd; exact hd.2)
  rw [rw'_length] at this
  rw [this, pure_bind]
  simp only []
  rw [tDestructAtEnd_spec t (A := A) (Z := left t xs) (B := B) rfl rfl (by rw [he, left_length])
    (objs_left _ _), pure_bind]
  cases t with
  | true => rfl
  | false =>
    have : (tRelease false (A ++ gone false (left false xs) ++ B) : Cxx Unit) = pure () := by
      show release _ = _
      refine release_of_raw fun d hd => ?_
      simp only [List.mem_append] at hd
      rcases hd with (hd | hd) | hd
      · exact (hr rfl).1 d hd
      · simp [gone, rw'] at hd; exact hd.2
      · exact (hr rfl).2 d hd
    rw [this, pure_bind]

theorem srep_new (t : Bool) (a : Nat) (xs : List α) (b : Nat) :
    SRep t ⟨rw' a ++ lv xs ++ rw' b, a, a + xs.length⟩ xs :=
  ⟨rw' a, rw' b, rfl, by simp, by simp, fun _ =>
    ⟨fun c hc => by simp [rw'] at hc; exact hc.2, fun c hc => by simp [rw'] at hc; exact hc.2⟩⟩

/-- Adding behind the elements when there is room. -/
theorem add_back (t : Bool) {A B : Mem α} {xs : List α} (a : α)
    (hr : t = false → (∀ c ∈ A, c = .raw) ∧ (∀ c ∈ B, c = .raw)) (hB : 0 < B.length) :
    ∃ m, tConstruct t (A ++ lv xs ++ B) (A.length + xs.length) (.live a) = pure m ∧
      SRep t ⟨m, A.length, A.length + xs.length + 1⟩ (xs ++ [a]) := by
  cases B with
  | nil => simp at hB
  | cons c B =>
    refine ⟨A ++ lv xs ++ .live a :: B, tConstruct_mid t _ _ _ _ (by simp) (fun ht => (hr ht).2 c (by simp)), ?_⟩
    exact ⟨A, B, by simp, rfl, by simp; omega, fun ht =>
      ⟨(hr ht).1, fun d hd => (hr ht).2 d (List.mem_cons_of_mem _ hd)⟩⟩

/-- Adding in front of the elements when there is room. -/
theorem add_front (t : Bool) {A B : Mem α} {xs : List α} (a : α) {e : Nat} (he : e = A.length + xs.length)
    (hr : t = false → (∀ c ∈ A, c = .raw) ∧ (∀ c ∈ B, c = .raw)) (hA : 0 < A.length) :
    ∃ m, tConstruct t (A ++ lv xs ++ B) (A.length - 1) (.live a) = pure m ∧
      SRep t ⟨m, A.length - 1, e⟩ (a :: xs) := by
  have hne : A ≠ [] := by intro h; subst h; simp at hA
  obtain ⟨A0, c, rfl⟩ : ∃ A0 c, A = A0 ++ [c] := ⟨_, _, (List.dropLast_concat_getLast hne).symm⟩
  refine ⟨A0 ++ .live a :: (lv xs ++ B), ?_, ?_⟩
  · have : A0 ++ [c] ++ lv xs ++ B = A0 ++ c :: (lv xs ++ B) := by simp
    rw [this]
    exact tConstruct_mid t _ _ _ _ (by simp) (fun ht => (hr ht).1 c (by simp))
  · exact ⟨A0, B, by simp, by simp, by simp [he]; omega, fun ht =>
      ⟨fun d hd => (hr ht).1 d (List.mem_append_left _ hd), (hr ht).2⟩⟩

/-- A push that slides the elements: the buffer is full on this side and not on the other.
(Specification, no line of the source.) -/
def SB.slidesBack (s : SB α) : Prop := s.e = s.cap ∧ 0 < s.b
/-- See `SB.slidesBack`. (Specification, no line of the source.) -/
def SB.slidesFront (s : SB α) : Prop := s.b = 0 ∧ s.e < s.cap

theorem pushBack_spec (t : Bool) (canAlloc : Nat → Bool) {s : SB α} {xs : List α} (h : SRep t s xs) (a : α)
    (hs : t = true ∨ xs = [] ∨ ¬ s.slidesBack) :
    (∃ s', s.pushBack t canAlloc (.ext a) = pure (true, s') ∧ SRep t s' (xs ++ [a])) ∨
    (canAlloc (max (2 * s.cap) 1) = false ∧ s.pushBack t canAlloc (.ext a) = pure (false, s)) := by
  have h0 := h
  obtain ⟨A, B, hm, hb, he, hr⟩ := h
  have hcap : s.cap = A.length + xs.length + B.length := by unfold SB.cap; rw [hm]; simp only [List.length_append, lv_length]
  have hsz : s.e - s.b = xs.length := by omega
  unfold SB.pushBack
  by_cases h1 : s.e = s.cap
  · rw [if_pos h1]
    have hB : B = [] := List.length_eq_zero_iff.1 (by omega)
    subst hB
    by_cases h2 : 0 < s.b
    · left
      rw [if_pos h2]
      simp only []
      have key : ∃ A' B', A'.length = s.b - (s.b + 1) / 2 ∧ 0 < B'.length ∧
          tMoveForward t s.mem s.b (s.b - (s.b + 1) / 2) (s.e - s.b) = pure (A' ++ lv xs ++ B') ∧
          (t = false → (∀ c ∈ A', c = .raw) ∧ (∀ c ∈ B', c = .raw)) := by
        have hAs : A = A.take (A.length - (s.b + 1) / 2) ++ A.drop (A.length - (s.b + 1) / 2) :=
          (List.take_append_drop _ _).symm
        by_cases hx : xs = []
        · subst hx
          refine ⟨A.take (A.length - (s.b + 1) / 2), A.drop (A.length - (s.b + 1) / 2), ?_, ?_, ?_, ?_⟩
          · simp; omega
          · simp; omega
          · rw [hsz]
            show (pure s.mem : Cxx _) = _
            rw [hm, lv_nil]
            simp
          · intro ht
            exact ⟨fun c hc => (hr ht).1 c (List.mem_of_mem_take hc), fun c hc => (hr ht).1 c (List.mem_of_mem_drop hc)⟩
        · have ht : t = true := by
            rcases hs with h | h | h
            · exact h
            · exact absurd h hx
            · exact absurd ⟨h1, h2⟩ h
          subst ht
          obtain ⟨D', hl, e⟩ := tMoveForward_spec [] xs (A.take (A.length - (s.b + 1) / 2))
            (A.drop (A.length - (s.b + 1) / 2)) (by simp; omega)
          refine ⟨A.take (A.length - (s.b + 1) / 2), D', ?_, ?_, ?_, by simp⟩
          · simp; omega
          · rw [hl]; simp; omega
          · rw [hsz, hm]
            have hl1 : (A.take (A.length - (s.b + 1) / 2)).length = s.b - (s.b + 1) / 2 := by simp; omega
            have hl2 : (A.drop (A.length - (s.b + 1) / 2)).length = (s.b + 1) / 2 := by simp; omega
            rw [List.take_append_drop, hl1, hl2] at e
            have : s.b - (s.b + 1) / 2 + (s.b + 1) / 2 = s.b := by omega
            rw [this] at e
            rw [e]; simp
      obtain ⟨A', B', hA', hB', e, hr'⟩ := key
      rw [e, pure_bind]
      simp only [Src.get, pure_bind]
      obtain ⟨m, e2, h2⟩ := add_back t (A := A') (xs := xs) a hr' hB'
      rw [hsz, ← hA', e2, pure_bind]
      exact ⟨_, rfl, h2⟩
    · rw [if_neg h2]
      simp only []
      by_cases h3 : canAlloc (max (2 * s.cap) 1) = true
      · left
        rw [if_pos h3, realloc_spec t h0 (by omega), pure_bind]
        simp only [Src.stale, pure_bind]
        obtain ⟨m, e2, h2⟩ := add_back t (A := rw' (max (2 * s.cap) 1 / 4)) (xs := xs)
          (B := rw' (max (2 * s.cap) 1 - max (2 * s.cap) 1 / 4 - xs.length)) a
          (fun _ => ⟨fun c hc => by simp [rw'] at hc; exact hc.2, fun c hc => by simp [rw'] at hc; exact hc.2⟩)
          (by simp; omega)
        rw [rw'_length] at e2 h2
        rw [e2, pure_bind]
        exact ⟨_, rfl, h2⟩
      · right
        rw [if_neg h3]
        exact ⟨by simpa using h3, rfl⟩
  · left
    rw [if_neg h1]
    simp only [Src.get, pure_bind]
    obtain ⟨m, e2, h2⟩ := add_back t (A := A) (xs := xs) (B := B) a hr (by omega)
    rw [hm, he, e2, pure_bind, hb]
    exact ⟨_, rfl, h2⟩

theorem pushFront_spec (t : Bool) (canAlloc : Nat → Bool) {s : SB α} {xs : List α} (h : SRep t s xs) (a : α)
    (hs : t = true ∨ xs = [] ∨ ¬ s.slidesFront) :
    (∃ s', s.pushFront t canAlloc (.ext a) = pure (true, s') ∧ SRep t s' (a :: xs)) ∨
    (canAlloc (max (2 * s.cap) 1) = false ∧ s.pushFront t canAlloc (.ext a) = pure (false, s)) := by
  have h0 := h
  obtain ⟨A, B, hm, hb, he, hr⟩ := h
  have hcap : s.cap = A.length + xs.length + B.length := by unfold SB.cap; rw [hm]; simp only [List.length_append, lv_length]
  have hsz : s.e - s.b = xs.length := by omega
  unfold SB.pushFront
  by_cases h1 : s.b = 0
  · rw [if_pos h1]
    have hA : A = [] := List.length_eq_zero_iff.1 (by omega)
    subst hA
    simp only [List.length_nil, Nat.zero_add] at he hb hcap
    by_cases h2 : s.e < s.cap
    · left
      rw [if_pos h2]
      simp only []
      have key : ∃ A' B', A'.length = s.e + (s.cap - s.e + 1) / 2 - (s.e - s.b) ∧ 0 < A'.length ∧
          tMoveBackward t s.mem s.b (s.e - s.b) (s.e + (s.cap - s.e + 1) / 2) = pure (A' ++ lv xs ++ B') ∧
          (t = false → (∀ c ∈ A', c = .raw) ∧ (∀ c ∈ B', c = .raw)) := by
        by_cases hx : xs = []
        · subst hx
          refine ⟨B.take ((s.cap - s.e + 1) / 2), B.drop ((s.cap - s.e + 1) / 2), ?_, ?_, ?_, ?_⟩
          · simp at he hcap ⊢; omega
          · simp at he hcap ⊢; omega
          · rw [hsz]
            show (pure s.mem : Cxx _) = _
            rw [hm, lv_nil]
            simp
          · intro ht
            exact ⟨fun c hc => (hr ht).2 c (List.mem_of_mem_take hc), fun c hc => (hr ht).2 c (List.mem_of_mem_drop hc)⟩
        · have ht : t = true := by
            rcases hs with h | h | h
            · exact h
            · exact absurd h hx
            · exact absurd ⟨h1, h2⟩ h
          subst ht
          obtain ⟨D', hl, e⟩ := tMoveBackward_spec [] xs.length xs (B.take ((s.cap - s.e + 1) / 2))
            (B.drop ((s.cap - s.e + 1) / 2)) (s.e + (s.cap - s.e + 1) / 2) rfl (by simp; omega) (by simp; omega)
          have hl2 : D'.length = (s.cap - s.e + 1) / 2 := by rw [hl]; simp; omega
          refine ⟨D', B.drop ((s.cap - s.e + 1) / 2), by omega, by omega, ?_, by simp⟩
          rw [hsz, hm, h1]
          rw [List.append_assoc, List.take_append_drop] at e
          simpa using e
      obtain ⟨A', B', hA', hpos, e, hr'⟩ := key
      rw [e, pure_bind]
      simp only [Src.get, pure_bind]
      obtain ⟨m, e2, h2⟩ := add_front t (A := A') (B := B') (xs := xs) a (e := s.e + (s.cap - s.e + 1) / 2)
        (by omega) hr' hpos
      rw [← hA', if_neg (by omega), e2, pure_bind]
      exact ⟨_, rfl, h2⟩
    · rw [if_neg h2]
      simp only []
      by_cases h3 : canAlloc (max (2 * s.cap) 1) = true
      · left
        rw [if_pos h3, realloc_spec t h0 (by omega), pure_bind]
        simp only [Src.stale, pure_bind]
        rw [if_neg (by omega)]
        obtain ⟨m, e2, h2⟩ := add_front t (A := rw' ((max (2 * s.cap) 1 + 3) / 4)) (xs := xs)
          (B := rw' (max (2 * s.cap) 1 - (max (2 * s.cap) 1 + 3) / 4 - xs.length)) a
          (e := (max (2 * s.cap) 1 + 3) / 4 + xs.length) (by simp)
          (fun _ => ⟨fun c hc => by simp [rw'] at hc; exact hc.2, fun c hc => by simp [rw'] at hc; exact hc.2⟩)
          (by simp; omega)
        rw [rw'_length] at e2 h2
        rw [e2, pure_bind]
        exact ⟨_, rfl, h2⟩
      · right
        rw [if_neg h3]
        exact ⟨by simpa using h3, rfl⟩
  · left
    rw [if_neg h1]
    simp only [Src.get, pure_bind]
    obtain ⟨m, e2, h2⟩ := add_front t (A := A) (xs := xs) (B := B) a he hr (by omega)
    rw [hm, hb, e2, pure_bind]
    exact ⟨_, rfl, h2⟩

theorem popBack_spec (t : Bool) {s : SB α} {xs : List α} {a : α} (h : SRep t s (xs ++ [a])) :
    ∃ s', s.popBack t = pure s' ∧ SRep t s' xs ∧ s'.cap = s.cap := by
  obtain ⟨A, B, hm, hb, he, hr⟩ := h
  unfold SB.popBack
  simp only [List.length_append, List.length_cons, List.length_nil] at he
  rw [if_neg (by omega), tDestructAtEnd_spec t (A := A ++ lv xs) (Z := [.live a]) (B := B) (by rw [hm]; simp)
    (by simp; omega) (by simp; omega) (Objs.cons (by simp) (by intro c hc; simp at hc)), pure_bind]
  refine ⟨_, rfl, ⟨A, gone t [.live a] ++ B, by simp, hb, by simp [he], fun ht => ⟨(hr ht).1, fun c hc => ?_⟩⟩, ?_⟩
  · rcases List.mem_append.1 hc with hc | hc
    · subst ht; simp [gone, rw'] at hc; exact hc
    · exact (hr ht).2 c hc
  · unfold SB.cap
    rw [hm]
    simp [gone_length]
    omega

theorem popFront_spec (t : Bool) {s : SB α} {xs : List α} {a : α} (h : SRep t s (a :: xs)) :
    ∃ s', s.popFront t = pure s' ∧ SRep t s' xs ∧ s'.cap = s.cap := by
  obtain ⟨A, B, hm, hb, he, hr⟩ := h
  unfold SB.popFront
  have hm' : s.mem = A ++ .live a :: (lv xs ++ B) := by rw [hm]; simp
  simp only [List.length_cons] at he
  cases t with
  | true =>
    simp only [if_true, pure_bind]
    exact ⟨_, rfl, ⟨A ++ [.live a], B, by simp [hm'], by simp [hb], by simp [he]; omega, by simp⟩, rfl⟩
  | false =>
    have : tDestroy false s.mem s.b = pure (A ++ .raw :: (lv xs ++ B)) := by
      rw [hm']; exact destroy_mid A _ (by simp) hb
    simp only [Bool.false_eq_true, if_false]
    rw [this, pure_bind]
    refine ⟨_, rfl, ⟨A ++ [.raw], B, by simp, by simp [hb], by simp [he]; omega, fun ht => ⟨fun c hc => ?_, (hr ht).2⟩⟩, ?_⟩
    · rcases List.mem_append.1 hc with hc | hc
      · exact (hr ht).1 c hc
      · simpa using hc
    · unfold SB.cap
      rw [hm]
      simp

theorem clear_spec' (t : Bool) {s : SB α} {xs : List α} (h : SRep t s xs) :
    ∃ s', s.clear t = pure s' ∧ SRep t s' [] ∧ s'.cap = s.cap := by
  obtain ⟨A, B, hm, hb, he, hr⟩ := h
  unfold SB.clear
  rw [tDestructAtEnd_spec t (A := A) (Z := lv xs) (B := B) hm hb (by simp [he]) (objs_lv _), pure_bind]
  refine ⟨_, rfl, ⟨A, gone t (lv xs) ++ B, by simp, hb, by simp [hb], fun ht => ⟨(hr ht).1, fun c hc => ?_⟩⟩, ?_⟩
  · rcases List.mem_append.1 hc with hc | hc
    · subst ht; simp [gone, rw'] at hc; exact hc.2
    · exact (hr ht).2 c hc
  · unfold SB.cap
    rw [hm]
    simp [gone_length]

theorem shrink_spec (t : Bool) (canAlloc : Nat → Bool) {s : SB α} {xs : List α} (h : SRep t s xs) :
    ∃ s', s.shrinkToFit t canAlloc = pure s' ∧ SRep t s' xs ∧
      (s'.cap = xs.length ∨ (canAlloc xs.length = false ∧ s' = s)) := by
  obtain ⟨h1, h2, h3⟩ := h.order
  unfold SB.shrinkToFit
  rw [h3]
  by_cases hlt : xs.length < s.cap
  · rw [if_pos hlt]
    by_cases ha : xs.length = 0 ∨ canAlloc xs.length = true
    · rw [if_pos ha, realloc_spec t h (by omega)]
      exact ⟨_, rfl, srep_new t 0 xs _, .inl (by simp [SB.cap])⟩
    · rw [if_neg ha]
      exact ⟨s, rfl, h, .inr ⟨by simpa using fun hh => ha (.inr hh), rfl⟩⟩
  · rw [if_neg hlt]
    refine ⟨s, rfl, h, .inl ?_⟩
    have : s.e - s.b = xs.length := h3
    omega

theorem reserve_spec' (t : Bool) (canAlloc : Nat → Bool) {s : SB α} {xs : List α} (h : SRep t s xs) {n : Nat}
    (hn : xs.length ≤ n ∨ s.cap ≤ n) :
    (∃ s', s.reserve t canAlloc n = pure (true, s') ∧ SRep t s' xs) ∨
    (n < s.cap ∧ canAlloc n = false ∧ s.reserve t canAlloc n = pure (false, s)) := by
  unfold SB.reserve
  by_cases hlt : n < s.cap
  · rw [if_pos hlt]
    by_cases ha : n = 0 ∨ canAlloc n = true
    · left
      rw [if_pos ha, realloc_spec t h (by omega), pure_bind]
      exact ⟨_, rfl, srep_new t 0 xs _⟩
    · right
      rw [if_neg ha]
      exact ⟨hlt, by simpa using fun hh => ha (.inr hh), rfl⟩
  · rw [if_neg hlt]
    exact .inl ⟨s, rfl, h⟩

/-! ### Histories -/

/-- A call. (Members of `split_buffer`, split_buffer.h 42-531.) -/
inductive SOp (α : Type) where
  | pushFront (a : α)
  | pushBack (a : α)
  | popFront
  | popBack
  | clear
  | reserve (n : Nat)
  | shrink

/-- The call on the model; `false`: it left by an exception. (Members of `split_buffer`, split_buffer.h 42-531.) -/
def SOp.step (t : Bool) (canAlloc : Nat → Bool) (s : SB α) : SOp α → Cxx (Bool × SB α)
  | .pushFront a => s.pushFront t canAlloc (.ext a)
  | .pushBack a => s.pushBack t canAlloc (.ext a)
  | .popFront => do let s ← s.popFront t; pure (true, s)
  | .popBack => do let s ← s.popBack t; pure (true, s)
  | .clear => do let s ← s.clear t; pure (true, s)
  | .reserve n => s.reserve t canAlloc n
  | .shrink => do let s ← s.shrinkToFit t canAlloc; pure (true, s)

/-- The call on a sequence. (Specification, no line of the source.) -/
def SOp.spec (xs : List α) : SOp α → List α
  | .pushFront a => a :: xs
  | .pushBack a => xs ++ [a]
  | .popFront => xs.tail
  | .popBack => xs.dropLast
  | .clear => []
  | .reserve _ => xs
  | .shrink => xs

/-- What the caller has to respect.  For `reserve` this is more than the documentation of any container asks for.
(Specification, no line of the source.) -/
def SOp.Pre (xs : List α) : SOp α → Prop
  | .popFront | .popBack => xs ≠ []
  | .reserve n => xs.length ≤ n
  | _ => True

/-- A history: each call with the allocations that succeed at that time.  Result: which calls returned.
(Members of `split_buffer`, split_buffer.h 42-531.) -/
def SB.run (t : Bool) (s : SB α) : List (SOp α × (Nat → Bool)) → Cxx (List Bool × SB α)
  | [] => pure ([], s)
  | (op, canAlloc) :: ops => do
    let (ok, s) ← op.step t canAlloc s
    let (oks, s) ← s.run t ops
    pure (ok :: oks, s)

/-- The history on a sequence: calls that left by an exception do nothing. (Specification, no line of the source.) -/
def specRun (xs : List α) : List (SOp α × (Nat → Bool)) → List Bool → List α
  | (op, _) :: ops, ok :: oks => specRun (if ok then op.spec xs else xs) ops oks
  | _, _ => xs

/-- Every call is legal, whether or not earlier calls left by an exception. (Specification, no line of the source.) -/
def SLegal (xs : List α) : List (SOp α × (Nat → Bool)) → Prop
  | [] => True
  | (op, canAlloc) :: ops =>
    op.Pre xs ∧ SLegal (op.spec xs) ops ∧ ((∃ n, canAlloc n = false) → SLegal xs ops)

/-- One call.  For class types (`t = false`) pushes that slide elements are excluded. -/
theorem sstep_spec (t : Bool) (canAlloc : Nat → Bool) {s : SB α} {xs : List α} (h : SRep t s xs) (op : SOp α)
    (hp : op.Pre xs)
    (hs : t = true ∨ xs = [] ∨ (match op with
      | .pushFront _ => ¬ s.slidesFront | .pushBack _ => ¬ s.slidesBack | _ => True)) :
    (∃ s', op.step t canAlloc s = pure (true, s') ∧ SRep t s' (op.spec xs)) ∨
    ((∃ n, canAlloc n = false) ∧ op.step t canAlloc s = pure (false, s)) := by
  cases op with
  | pushFront a =>
    rcases pushFront_spec t canAlloc h a hs with h | h
    · exact .inl h
    · exact .inr ⟨⟨_, h.1⟩, h.2⟩
  | pushBack a =>
    rcases pushBack_spec t canAlloc h a hs with h | h
    · exact .inl h
    · exact .inr ⟨⟨_, h.1⟩, h.2⟩
  | popFront =>
    cases xs with
    | nil => exact absurd rfl hp
    | cons a xs =>
      obtain ⟨s', e, h', _⟩ := popFront_spec t h
      exact .inl ⟨s', by simp only [SOp.step, e, pure_bind], h'⟩
  | popBack =>
    have hne : xs ≠ [] := hp
    rw [← List.dropLast_concat_getLast hne] at h
    obtain ⟨s', e, h', _⟩ := popBack_spec t h
    exact .inl ⟨s', by simp only [SOp.step, e, pure_bind], h'⟩
  | clear =>
    obtain ⟨s', e, h', _⟩ := clear_spec' t h
    exact .inl ⟨s', by simp only [SOp.step, e, pure_bind], h'⟩
  | reserve n =>
    rcases reserve_spec' t canAlloc h (.inl hp) with h | h
    · exact .inl h
    · exact .inr ⟨⟨_, h.2.1⟩, h.2.2⟩
  | shrink =>
    obtain ⟨s', e, h', _⟩ := shrink_spec t canAlloc h
    exact .inl ⟨s', by simp only [SOp.step, e, pure_bind], h'⟩

theorem run_spec : ∀ (ops : List (SOp α × (Nat → Bool))) (s : SB α) (xs : List α), SRep true s xs → SLegal xs ops →
    ∃ oks s', s.run true ops = pure (oks, s') ∧ SRep true s' (specRun xs ops oks) := by
  intro ops
  induction ops with
  | nil => intro s xs h _; exact ⟨[], s, rfl, h⟩
  | cons o ops ih =>
    obtain ⟨op, canAlloc⟩ := o
    rintro s xs h ⟨hp, hl1, hl2⟩
    rw [SB.run]
    rcases sstep_spec true canAlloc h op hp (.inl rfl) with ⟨s1, e, h1⟩ | ⟨hf, e⟩
    · obtain ⟨oks, s', e2, h2⟩ := ih s1 _ h1 hl1
      refine ⟨true :: oks, s', ?_, h2⟩
      rw [e, pure_bind]; simp only []; rw [e2, pure_bind]
    · obtain ⟨oks, s', e2, h2⟩ := ih s _ h (hl2 hf)
      refine ⟨false :: oks, s', ?_, h2⟩
      rw [e, pure_bind]; simp only []; rw [e2, pure_bind]

/-- C10 for trivial element types: any history that starts with an empty buffer, does not pop an empty buffer and does not
`reserve` less than the size, runs without touching memory outside of the block, gives the contents of the sequence,
and keeps the pointers in order; calls that throw change nothing.
Missing: class types (`C10_class_violated`), `reserve` below the size (`C10_reserve_below_size_violated`). -/
theorem C10_trivial_partial (ops : List (SOp α × (Nat → Bool))) (hl : SLegal [] ops) :
    ∃ oks s', (SB.empty : SB α).run true ops = pure (oks, s') ∧ s'.contents = pure (specRun [] ops oks) ∧
      s'.b ≤ s'.e ∧ s'.e ≤ s'.cap ∧ s'.size = (specRun [] ops oks).length := by
  obtain ⟨oks, s', e, h⟩ := run_spec ops _ _ (srep_empty true) hl
  exact ⟨oks, s', e, h.contents, h.order⟩

/-- A history that slides in both directions, with an allocation that fails in between. (Specification, no line of the source.) -/
def sHist : List (SOp Nat × (Nat → Bool)) :=
  [(.pushBack 1, fun _ => true), (.pushBack 2, fun _ => true), (.pushBack 3, fun _ => true),
   (.pushBack 4, fun _ => true), (.pushBack 5, fun _ => false), (.pushFront 0, fun _ => true), (.popBack, fun _ => true),
   (.popBack, fun _ => true), (.pushFront 7, fun _ => true), (.pushFront 8, fun _ => true), (.shrink, fun _ => true)]

example : SLegal [] sHist := by simp [SLegal, sHist, SOp.Pre, SOp.spec]
example : (do let (oks, s) ← (SB.empty : SB Nat).run true sHist; let c ← s.contents; pure (oks, c, s.b, s.e)) =
    (pure ([true, true, true, true, false, true, true, true, true, true, true], [8, 7, 0, 1, 2], 0, 5) :
      Cxx _) := by rfl

/-- C10 for class types, one call: it behaves as on a sequence, unless it is a push that slides elements. -/
theorem C10_class_partial (canAlloc : Nat → Bool) {s : SB α} {xs : List α} (h : SRep false s xs) (op : SOp α)
    (hp : op.Pre xs)
    (hs : xs = [] ∨ (match op with
      | .pushFront _ => ¬ s.slidesFront | .pushBack _ => ¬ s.slidesBack | _ => True)) :
    (∃ s', op.step false canAlloc s = pure (true, s') ∧ SRep false s' (op.spec xs) ∧
      s'.contents = pure (op.spec xs)) ∨
    ((∃ n, canAlloc n = false) ∧ op.step false canAlloc s = pure (false, s)) := by
  rcases sstep_spec false canAlloc h op hp (.inr hs) with ⟨s', e, h'⟩ | h
  · exact .inl ⟨s', e, h', h'.contents⟩
  · exact .inr h

example : SRep false (⟨[.raw, .live 1, .live 2, .raw], 1, 3⟩ : SB Nat) [1, 2] ∧
    ¬ (⟨[.raw, .live 1, .live 2, .raw], 1, 3⟩ : SB Nat).slidesBack :=
  ⟨⟨[.raw], [.raw], rfl, rfl, rfl, fun _ => by simp⟩, by simp [SB.slidesBack, SB.cap]⟩

/-- And nothing is left over or destroyed twice when the buffer is destroyed. -/
theorem C10_destruct (t : Bool) {s : SB α} {xs : List α} (h : SRep t s xs) : s.destruct t = pure () := by
  obtain ⟨s', e, ⟨A, B, hm, hb, he, hr⟩, _⟩ := clear_spec' t h
  unfold SB.destruct
  rw [e, pure_bind]
  split
  · rfl
  · cases t with
    | true => rfl
    | false =>
      refine release_of_raw fun c hc => ?_
      rw [hm] at hc
      simp only [lv_nil, List.append_nil, List.mem_append] at hc
      rcases hc with hc | hc
      · exact (hr rfl).1 c hc
      · exact (hr rfl).2 c hc

example := C10_destruct false (s := ⟨[.raw, .live 4, .live 5], 1, 3⟩) (xs := [4, 5]) ⟨[.raw], [], rfl, rfl, rfl, fun _ => ⟨by simp, by simp⟩⟩

/-- C10, violated for class types: sliding a non-empty buffer assigns to storage that holds no object. -/
theorem C10_class_violated (canAlloc : Nat → Bool) {s : SB α} {xs : List α} (h : SRep false s xs) (hne : xs ≠ [])
    (x : Src α) :
    (s.slidesBack → s.pushBack false canAlloc x = ub) ∧ (s.slidesFront → s.pushFront false canAlloc x = ub) := by
  obtain ⟨A, B, hm, hb, he, hr⟩ := h
  obtain ⟨hrA, hrB⟩ := hr rfl
  have hsz : s.e - s.b = xs.length := by omega
  have hcap : s.cap = A.length + xs.length + B.length := by unfold SB.cap; rw [hm]; simp only [List.length_append, lv_length]
  constructor
  · rintro ⟨h1, h2⟩
    unfold SB.pushBack
    rw [if_pos h1, if_pos h2]
    simp only []
    rw [hsz]
    obtain ⟨y, ys, rfl⟩ := List.exists_cons_of_ne_nil hne
    simp only [List.length_cons]
    rw [tMoveForward, hm]
    have h3 : A ++ lv (y :: ys) ++ B = A ++ .live y :: (lv ys ++ B) := by simp
    rw [h3, tMoveOut_mid _ _ _ _ hb, pure_bind]
    simp only [Bool.false_eq_true, if_false]
    have h4 : (A ++ Cell.moved :: (lv ys ++ B))[s.b - (s.b + 1) / 2]? = some .raw := by
      have hlt : s.b - (s.b + 1) / 2 < A.length := by omega
      rw [List.getElem?_append_left hlt, List.getElem?_eq_getElem hlt]
      rw [hrA _ (List.getElem_mem hlt)]
    have h5 : tAssign false (A ++ Cell.moved :: (lv ys ++ B)) (s.b - (s.b + 1) / 2) (.live y) = ub := by
      unfold tAssign assignAt
      rw [if_neg (by simp), h4]
    rw [h5]
    rfl
  · rintro ⟨h1, h2⟩
    unfold SB.pushFront
    rw [if_pos h1, if_pos h2]
    simp only []
    rw [hsz]
    obtain ⟨ys, y, rfl⟩ : ∃ ys y, xs = ys ++ [y] := ⟨_, _, (List.dropLast_concat_getLast hne).symm⟩
    have hlen : (ys ++ [y]).length = ys.length + 1 := by simp
    rw [hlen] at he hcap ⊢
    rw [tMoveBackward, hm]
    have h3 : A ++ lv (ys ++ [y]) ++ B = (A ++ lv ys) ++ .live y :: B := by simp
    rw [h3, tMoveOut_mid _ _ _ _ (by simp; omega), pure_bind]
    simp only [Bool.false_eq_true, if_false]
    rw [if_neg (by omega)]
    have h4 : (A ++ lv ys ++ Cell.moved :: B)[s.e + (s.cap - s.e + 1) / 2 - 1]? = some .raw := by
      have hge : (A ++ lv ys ++ [Cell.moved]).length ≤ s.e + (s.cap - s.e + 1) / 2 - 1 := by simp; omega
      have : A ++ lv ys ++ Cell.moved :: B = (A ++ lv ys ++ [Cell.moved]) ++ B := by simp
      rw [this, List.getElem?_append_right hge]
      have hlt : s.e + (s.cap - s.e + 1) / 2 - 1 - (A ++ lv ys ++ [Cell.moved]).length < B.length := by simp; omega
      rw [List.getElem?_eq_getElem hlt, hrB _ (List.getElem_mem hlt)]
    have h5 : tAssign false (A ++ lv ys ++ Cell.moved :: B) (s.e + (s.cap - s.e + 1) / 2 - 1) (.live y) = ub := by
      unfold tAssign assignAt
      rw [if_neg (by simp), h4]
    rw [h5]
    rfl

/-- Evaluates the calls in the next theorem. -/
macro "four_simp" : tactic => `(tactic| simp [SOp.step, SB.pushBack, SB.realloc, SB.empty, SB.cap, tMoveInto,
  tMoveForward, tMoveOut, tConstruct, tAssign, moveOut, construct, assignAt, tDestructAtEnd, tDestroy, destroy,
  tRelease, release, Src.get, Src.stale, List.replicate])

/-- The fourth `push_back` on a buffer of a class type does that, whatever is pushed and whatever follows. -/
theorem C10_four_pushes_violated (a b c d : α) (rest : List (SOp α × (Nat → Bool))) :
    (SB.empty : SB α).run false ((.pushBack a, fun _ => true) :: (.pushBack b, fun _ => true) ::
      (.pushBack c, fun _ => true) :: (.pushBack d, fun _ => true) :: rest) = ub := by
  have h1 : SOp.step false (fun _ => true) (SB.empty : SB α) (.pushBack a) = pure (true, ⟨[.live a], 0, 1⟩) := by four_simp
  have h2 : SOp.step false (fun _ => true) (⟨[.live a], 0, 1⟩ : SB α) (.pushBack b) =
      pure (true, ⟨[.live a, .live b], 0, 2⟩) := by four_simp
  have h3 : SOp.step false (fun _ => true) (⟨[.live a, .live b], 0, 2⟩ : SB α) (.pushBack c) =
      pure (true, ⟨[.raw, .live a, .live b, .live c], 1, 4⟩) := by four_simp
  have h4 : SOp.step false (fun _ => true) (⟨[.raw, .live a, .live b, .live c], 1, 4⟩ : SB α) (.pushBack d) = ub := by four_simp
  rw [SB.run, h1, pure_bind]
  simp only []
  rw [SB.run, h2, pure_bind]
  simp only []
  rw [SB.run, h3, pure_bind]
  simp only []
  rw [SB.run, h4]
  rfl

/-- C10, violated: `reserve( n )` never increases the capacity. -/
theorem C10_reserve_violated (t : Bool) (canAlloc : Nat → Bool) {s s' : SB α} {n : Nat} {ok : Bool} {xs : List α}
    (h : SRep t s xs) (hn : xs.length ≤ n) (e : s.reserve t canAlloc n = pure (ok, s')) : s'.cap ≤ s.cap := by
  unfold SB.reserve at e
  split at e
  · rename_i hlt
    split at e
    · rw [realloc_spec t h (by omega), pure_bind] at e
      have := pure_inj.1 e
      injection this with _ h2
      subst h2
      unfold SB.cap at hlt ⊢
      simp
      omega
    · have := pure_inj.1 e
      injection this with _ h2
      subst h2
      exact Nat.le_refl _
  · have := pure_inj.1 e
    injection this with _ h2
    subst h2
    exact Nat.le_refl _

example : SRep true (⟨[.live 1], 0, 1⟩ : SB Nat) [1] ∧
    (⟨[.live 1], 0, 1⟩ : SB Nat).reserve true (fun _ => true) 10 = pure (true, ⟨[.live 1], 0, 1⟩) :=
  ⟨⟨[], [], rfl, rfl, rfl, by simp⟩, rfl⟩

theorem tMoveInto_full (t : Bool) (B : Mem α) : ∀ (xs : List α) (A dst : Mem α) (dp : Nat),
    dst.length < dp + xs.length → dp ≤ dst.length →
    tMoveInto t (A ++ lv xs ++ B) dst A.length dp xs.length = ub := by
  intro xs
  induction xs with
  | nil => intro A dst dp h1 h2; simp at h1; omega
  | cons x xs ih =>
    intro A dst dp h1 h2
    simp only [List.length_cons] at h1 ⊢
    rw [tMoveInto]
    have e1 : A ++ lv (x :: xs) ++ B = A ++ .live x :: (lv xs ++ B) := by simp
    rw [e1, tMoveOut_mid _ _ _ _ rfl, pure_bind]
    simp only []
    have e2 : tConstruct t dst dp (.live x) = ub ∨
        (dp < dst.length ∧ tConstruct t dst dp (.live x) = pure (dst.set dp (.live x))) := by
      unfold tConstruct construct
      cases t with
      | true =>
        by_cases hlt : dp < dst.length
        · exact .inr ⟨hlt, by rw [if_pos rfl, if_pos hlt]⟩
        · exact .inl (by rw [if_pos rfl, if_neg hlt])
      | false =>
        simp only [Bool.false_eq_true, if_false]
        split
        · rename_i hh
          exact .inr ⟨(List.getElem?_eq_some_iff.1 hh).1, rfl⟩
        · exact .inl rfl
    rcases e2 with e2 | ⟨hlt, e2⟩
    · rw [e2]; rfl
    · rw [e2, pure_bind]
      have := ih (A ++ [if t then .live x else .moved]) (dst.set dp (.live x)) (dp + 1) (by simp; omega)
        (by simp; omega)
      simp only [List.length_append, List.length_cons, List.length_nil, List.append_assoc, List.cons_append,
        List.nil_append] at this
      exact this

/-- C10, violated: `reserve( n )` with `n` below the size writes past the end of a block of `n` elements, for every
element type. -/
theorem C10_reserve_below_size_violated (t : Bool) (canAlloc : Nat → Bool) {s : SB α} {xs : List α} (h : SRep t s xs)
    {n : Nat} (hn : n < xs.length) (ha : n = 0 ∨ canAlloc n = true) : s.reserve t canAlloc n = ub := by
  obtain ⟨h1, h2, h3⟩ := h.order
  have h3' : s.e - s.b = xs.length := h3
  obtain ⟨A, B, hm, hb, he, hr⟩ := h
  unfold SB.reserve
  rw [if_pos (by omega), if_pos ha]
  unfold SB.realloc
  rw [h3', hm, hb, tMoveInto_full t B xs A _ 0 (by simpa using hn) (by omega)]
  rfl

example : SRep true (⟨[.live 1, .live 2], 0, 2⟩ : SB Nat) [1, 2] ∧ 1 < ([1, 2] : List Nat).length :=
  ⟨⟨[], [], rfl, rfl, rfl, by simp⟩, by decide⟩

/-- C75, violated: pushing an element of the buffer itself when that reallocates reads it after it was
destroyed.  For every element type, every full buffer, both ends. -/
theorem C75_self_push_violated (t : Bool) (canAlloc : Nat → Bool) {s : SB α} {xs : List α} (h : SRep t s xs)
    (hb : s.b = 0) (hfull : s.e = s.cap) (ha : canAlloc (max (2 * s.cap) 1) = true) (i : Nat) :
    s.pushBack t canAlloc (.own i) = ub ∧ s.pushFront t canAlloc (.own i) = ub := by
  obtain ⟨h1, h2, h3⟩ := h.order
  have h3' : s.e - s.b = xs.length := h3
  constructor
  · unfold SB.pushBack
    rw [if_pos hfull, if_neg (by omega)]
    simp only []
    rw [if_pos ha, realloc_spec t h (by omega), pure_bind]
    rfl
  · unfold SB.pushFront
    rw [if_pos hb, if_neg (by omega)]
    simp only []
    rw [if_pos ha, realloc_spec t h (by omega), pure_bind]
    rfl

example : SRep true (⟨[.live 1, .live 2], 0, 2⟩ : SB Nat) [1, 2] := ⟨[], [], rfl, rfl, rfl, by simp⟩

/-- C75, what holds: with room on that side, an element can be pushed again. -/
theorem C75_self_push_partial (t : Bool) (canAlloc : Nat → Bool) {s : SB α} {xs : List α} (h : SRep t s xs) {i : Nat}
    {a : α} (hi : xs[i]? = some a) :
    (s.e < s.cap → ∃ s', s.pushBack t canAlloc (.own (s.b + i)) = pure (true, s') ∧ s'.contents = pure (xs ++ [a])) ∧
    (0 < s.b → ∃ s', s.pushFront t canAlloc (.own (s.b + i)) = pure (true, s') ∧ s'.contents = pure (a :: xs)) := by
  obtain ⟨A, B, hm, hb, he, hr⟩ := h
  have hcap : s.cap = A.length + xs.length + B.length := by unfold SB.cap; rw [hm]; simp only [List.length_append, lv_length]
  have hget : (Src.own (s.b + i) : Src α).get s.mem = pure a := by
    have hlt := (List.getElem?_eq_some_iff.1 hi).1
    show value s.mem (s.b + i) = _
    unfold value
    have : s.mem[s.b + i]? = some (.live a) := by
      rw [hm, List.append_assoc, List.getElem?_append_right (by omega), List.getElem?_append_left (by simp; omega)]
      rw [hb, Nat.add_sub_cancel_left, lv, List.getElem?_map, hi]
      rfl
    rw [this]
  constructor
  · intro hroom
    unfold SB.pushBack
    rw [if_neg (by omega), hget, pure_bind]
    obtain ⟨m, e2, h2⟩ := add_back t (A := A) (xs := xs) (B := B) a hr (by omega)
    rw [hm, he, e2, pure_bind, hb]
    exact ⟨_, rfl, h2.contents⟩
  · intro hroom
    unfold SB.pushFront
    rw [if_neg (by omega), hget, pure_bind]
    obtain ⟨m, e2, h2⟩ := add_front t (A := A) (xs := xs) (B := B) a he hr (by omega)
    rw [hm, hb, e2, pure_bind]
    exact ⟨_, rfl, h2.contents⟩

example := C75_self_push_partial false (fun _ => true) (s := ⟨[.raw, .live 4, .live 5], 1, 3⟩) (xs := [4, 5]) ⟨[.raw], [], rfl, rfl, rfl, fun _ => ⟨by simp, by simp⟩⟩ (i := 1) rfl

end Verif.Vector
