import Verif.Containers.Lists

/-
`daw::Vector` of deprecated/daw_vector.h with its default allocator `MallocAlloc` (the newer `daw::vector` is in the other files of
this directory).

A block of memory is a list of cells; a cell that was never written holds `none`, and reading it is undefined behaviour.  The
element type is trivially copyable and trivially destructible, `w` is `sizeof( T )`.  Simplified: sizes in bytes do not overflow,
allocation does not fail, `malloc_usable_size` gives the number of bytes asked for, and pages have 4096 bytes.  `resize( sz, value )`,
537-548, `emplace_back`, 593-599, and the `insert` for single pass iterators, 638-652, do not compile when used.
-/

namespace Verif.Vector.Old
open Cxx Verif.Containers

variable {α : Type}

/-- `daw::Vector`: the bytes allocated, the cells they make, and `size( )` and `capacity( )`, deprecated/daw_vector.h 272-274 and
558-572. -/
structure Vec (α : Type) where
  bytes : Nat
  cells : List (Option α)
  size : Nat
  cap : Nat
  deriving DecidableEq

/-- `Vector( )`, deprecated/daw_vector.h 386. -/
def Vec.empty : Vec α := ⟨0, [], 0, 0⟩

/-- `round_to_page_size`, deprecated/daw_vector.h 78-92: `round( sz / 4096 + 0.5 ) * 4096`, where halves are rounded up.  Simplified:
the computation in `double` is taken as exact, as it is below 2^52. -/
def page (n : Nat) : Nat := (2 * (n + 4096)) / (2 * 4096) * 4096

/-- The cells of `allocate_raw( count )`, deprecated/daw_vector.h 160-167. -/
def fresh (w b : Nat) : List (Option α) := List.replicate (page b / w) none

/-- A cell is read. (Rule of C++ or its library, no line of the source.) -/
def cell (c : List (Option α)) (i : Nat) : Cxx α := do
  let x ← rd c i
  match x with
  | some a => pure a
  | none => ub

/-- Cells are copied to the start of a block, as `relocate`, deprecated/daw_vector.h 300-313, and `copy_n`, 217-221, do: `n` is the
number left and `i` the position.  `memcpy` copies cells that were not written too; that is kept. -/
def copyCells (src dst : List (Option α)) (i : Nat) : Nat → Cxx (List (Option α))
  | 0 => pure dst
  | n + 1 => do
    let x ← rd src i
    let dst ← wr dst i x
    copyCells src dst (i + 1) n

/-- Values are written one after the other, as in deprecated/daw_vector.h 671-676. -/
def putAll (c : List (Option α)) (i : Nat) : List α → Cxx (List (Option α))
  | [] => pure c
  | y :: ys => do
    let c ← wr c i (some y)
    putAll c (i + 1) ys

/-- `Vector( p, sz )`, deprecated/daw_vector.h 409-417, and the constructors that call it, 462-464 and 474-479. -/
def Vec.ofList (w : Nat) (xs : List α) : Cxx (Vec α) := do
  let c ← putAll (fresh w (w * page xs.length)) 0 xs
  pure ⟨page (w * page xs.length), c, xs.length, page xs.length⟩

/-- `calc_new_size`, deprecated/daw_vector.h 288-298, with `alloc_size`, 176-182. -/
def calcNewSize (v : Vec α) (sz : Nat) : Nat :=
  if sz ≤ v.bytes then v.bytes else page (max sz (v.cap * 2))

/-- `resize_impl`, deprecated/daw_vector.h 345-381, with `MallocAlloc::reallocate`, 185-195. -/
def resizeImpl (w : Nat) (v : Vec α) (sz : Nat) : Cxx (Vec α) :=
  if sz ≤ v.size then pure { v with size := sz }
  else if v.cap ≤ sz then
    let new := calcNewSize v sz
    if new < v.bytes / w then pure { v with bytes := w * new, cells := v.cells.take new, cap := new }
    else do
      let c ← copyCells v.cells (fresh w (w * new)) 0 v.size
      pure ⟨page (w * new), c, v.size, new⟩
  else pure v

/-- `push_back`, deprecated/daw_vector.h 579-591; the argument is not an element of the vector. -/
def Vec.pushBack (w : Nat) (v : Vec α) (x : α) : Cxx (Vec α) := do
  let v ← (if v.cap ≤ v.size then resizeImpl w v (v.size + 1) else pure v : Cxx (Vec α))
  let c ← wr v.cells v.size (some x)
  pure { v with cells := c, size := v.size + 1 }

/-- `pop_back`, deprecated/daw_vector.h 516-522: before the first element the pointer is invalid. -/
def Vec.popBack (v : Vec α) : Cxx (Vec α) :=
  if v.size = 0 then ub else pure { v with size := v.size - 1 }

/-- `clear`, deprecated/daw_vector.h 419-423. -/
def Vec.clear (v : Vec α) : Vec α := { v with size := 0 }

/-- `resize( sz )`, deprecated/daw_vector.h 524-535, with `resize_for_overwrite`, 494-498; `d` is `value_type{ }`. -/
def Vec.resize (w : Nat) (d : α) (v : Vec α) (sz : Nat) : Cxx (Vec α) := do
  let v ← resizeImpl w v sz
  let c ← putAll v.cells v.size (List.replicate (sz - v.size) d)
  pure { v with cells := c, size := sz }

/-- `reserve`, deprecated/daw_vector.h 574-578. -/
def Vec.reserve (w : Nat) (v : Vec α) (n : Nat) : Cxx (Vec α) :=
  if v.cap < n then resizeImpl w v n else pure v

/-- The loop of `overlapped_relocate`, deprecated/daw_vector.h 333-341: the source is the position before the number given. -/
def relocLoop (k last : Nat) (c : List (Option α)) : Nat → Cxx (List (Option α))
  | 0 => pure c
  | s + 1 =>
    if last ≤ s then do
      let x ← cell c s
      let c ← wr c (s + k) (some x)
      relocLoop k last c s
    else pure c

/-- `overlapped_relocate`, deprecated/daw_vector.h 315-343: `reloc_size` does not depend on the place of the insertion. -/
def overlappedRelocate (c : List (Option α)) (rangeSize insertSize : Nat) : Cxx (List (Option α)) :=
  if insertSize = 0 then pure c
  else
    let relocSize := subSize rangeSize insertSize
    relocLoop insertSize (subSize rangeSize relocSize) c rangeSize

/-- `insert( where, first, last )`, deprecated/daw_vector.h 654-679, and the calls of it, 633-636 and 681-684; the values are not
elements of the vector. -/
def Vec.insert (w : Nat) (v : Vec α) (i : Nat) (ys : List α) : Cxx (Vec α) := do
  let old := v.size
  let v ← (if v.cap ≤ ys.length + old then resizeImpl w v (ys.length + old) else pure v : Cxx (Vec α))
  let c ← (if i < old then overlappedRelocate v.cells old ys.length else pure v.cells : Cxx (List (Option α)))
  let c ← putAll c i ys
  pure { v with cells := c, size := ys.length + old }

/-- `Vector( Vector const & )`, deprecated/daw_vector.h 432-437, with `make_copy`, 276-281; the assignment, 439-448, makes the same
vector. -/
def Vec.copy (w : Nat) (v : Vec α) : Cxx (Vec α) := do
  let c ← copyCells v.cells (fresh w (w * v.size)) 0 v.size
  pure ⟨page (w * v.size), c, v.size, v.cap⟩

/-- `operator[]`, deprecated/daw_vector.h 625-631. -/
def Vec.get (v : Vec α) (i : Nat) : Cxx α := cell v.cells i

/-- `front`, deprecated/daw_vector.h 508-514. -/
def Vec.front (v : Vec α) : Cxx α := cell v.cells 0

/-- `back`, deprecated/daw_vector.h 500-506. -/
def Vec.back (v : Vec α) : Cxx α := if v.size = 0 then ub else cell v.cells (v.size - 1)

/-- `std::equal( first, last, rhs, pred )`. (Rule of C++ or its library, no line of the source.) -/
def stdEqual (p : α → α → Bool) (a b : List (Option α)) (i : Nat) : Nat → Cxx Bool
  | 0 => pure true
  | n + 1 => do
    let x ← cell a i
    let y ← cell b i
    if p x y then stdEqual p a b (i + 1) n else pure false

/-- `operator==`, deprecated/daw_vector.h 686-692. -/
def Vec.eq [DecidableEq α] (a b : Vec α) : Cxx Bool :=
  if a.size ≠ b.size then pure false else stdEqual (fun x y => decide (x = y)) a.cells b.cells 0 a.size

/-- `operator!=`, deprecated/daw_vector.h 694-702. -/
def Vec.ne [DecidableEq α] (a b : Vec α) : Cxx Bool :=
  if a.size = b.size then pure false else stdEqual (fun x y => decide (x ≠ y)) a.cells b.cells 0 a.size

/-- What a loop over the vector, from `begin( )` to `end( )`, sees. (Specification, no line of the source.) -/
def readAll (v : Vec α) (i : Nat) : Nat → Cxx (List α)
  | 0 => pure []
  | n + 1 => do
    let x ← v.get i
    let xs ← readAll v (i + 1) n
    pure (x :: xs)

/-- All elements. (Specification, no line of the source.) -/
def Vec.elems (v : Vec α) : Cxx (List α) := readAll v 0 v.size

/-! ### Pages -/

/-- The number of bytes asked for is a multiple of the page size, and more than what is needed by at least one and at most a page. -/
theorem page_spec (n : Nat) : page n % 4096 = 0 ∧ n < page n ∧ page n ≤ n + 4096 := by
  unfold page
  omega

theorem le_fresh {w n : Nat} (hw : 0 < w) : n ≤ page (w * n) / w := by
  rw [Nat.le_div_iff_mul_le hw, Nat.mul_comm]
  have := (page_spec (w * n)).2.1
  omega

/-! ### Lists of cells -/

/-- The cells of a block begin with the values `xs`.
(Specification, no line of the source.) -/
def Starts (c : List (Option α)) (xs : List α) : Prop := ∀ i, i < xs.length → c[i]? = some xs[i]?

theorem Starts.len {c : List (Option α)} {xs : List α} (h : Starts c xs) : xs.length ≤ c.length := by
  rcases Nat.eq_zero_or_pos xs.length with h0 | h0
  · omega
  · have := h (xs.length - 1) (by omega)
    have := (List.getElem?_eq_some_iff.mp this).1
    omega

theorem Starts.cell {c : List (Option α)} {xs : List α} (h : Starts c xs) {i : Nat} (hi : i < xs.length) : cell c i = pure xs[i] := by
  have := h i hi
  rw [List.getElem?_eq_getElem hi] at this
  unfold Old.cell
  rw [rd_some this]
  rfl

theorem readAll_eq {v : Vec α} {xs : List α} (h : Starts v.cells xs) : ∀ (n i : Nat), i + n ≤ xs.length →
    readAll v i n = pure ((xs.drop i).take n) := by
  intro n
  induction n with
  | zero => intro i _; simp [readAll]
  | succ n ih =>
    intro i hi
    have hi' : i < xs.length := by omega
    rw [readAll, Vec.get, h.cell hi', List.drop_eq_getElem_cons hi', List.take_succ_cons]
    simp only [pure_bind]
    rw [ih (i + 1) (by omega)]
    rfl

theorem readAll_inv {v : Vec α} {zs : List α} : ∀ (n i : Nat), readAll v i n = pure zs →
    zs.length = n ∧ ∀ j, j < n → v.cells[i + j]? = some zs[j]? := by
  intro n
  induction n generalizing zs with
  | zero =>
    intro i h
    have := pure_inj.mp h
    subst this
    exact ⟨rfl, by intro j hj; omega⟩
  | succ n ih =>
    intro i h
    rw [readAll] at h
    obtain ⟨x, hx, h⟩ := bind_eq_pure.mp h
    obtain ⟨ys, hy, h⟩ := bind_eq_pure.mp h
    have := pure_inj.mp h
    subst this
    obtain ⟨h1, h2⟩ := ih (i + 1) hy
    refine ⟨by simp [h1], ?_⟩
    intro j hj
    match j with
    | 0 =>
      unfold Vec.get cell at hx
      obtain ⟨o, ho, hx⟩ := bind_eq_pure.mp hx
      have hc : v.cells[i]? = some o := by
        unfold rd at ho
        cases hc : v.cells[i]? with
        | none => rw [hc] at ho; exact absurd ho (ub_ne_pure _)
        | some a => rw [hc] at ho; rw [pure_inj.mp ho]
      cases o with
      | none => exact absurd hx (ub_ne_pure _)
      | some a =>
        have := pure_inj.mp hx
        subst this
        simpa using hc
    | j + 1 =>
      have := h2 j (by omega)
      rw [show i + (j + 1) = i + 1 + j by omega, this]
      simp

theorem putAll_get : ∀ (ys : List α) (c : List (Option α)) (i : Nat), i + ys.length ≤ c.length →
    ∃ c', putAll c i ys = pure c' ∧ c'.length = c.length ∧
      ∀ j, c'[j]? = if i ≤ j ∧ j < i + ys.length then some ys[j - i]? else c[j]? := by
  intro ys
  induction ys with
  | nil =>
    intro c i _
    exact ⟨c, rfl, rfl, by intro j; rw [if_neg (by simp)]⟩
  | cons y ys ih =>
    intro c i h
    simp only [List.length_cons] at h
    obtain ⟨c', h1, h2, h3⟩ := ih (c.set i (some y)) (i + 1) (by simp; omega)
    refine ⟨c', ?_, by simpa using h2, ?_⟩
    · rw [putAll, wr_eq (by omega)]; exact h1
    · intro j
      rw [h3 j, List.getElem?_set]
      simp only [List.length_cons]
      rcases Nat.lt_trichotomy j i with hj | hj | hj
      · rw [if_neg (by omega), if_neg (by omega), if_neg (by omega)]
      · subst hj
        rw [if_neg (by omega), if_pos rfl, if_pos (by omega), if_pos (by omega)]
        simp
      · by_cases hlt : j < i + 1 + ys.length
        · rw [if_pos (by omega), if_pos (by omega), show j - i = (j - (i + 1)) + 1 by omega]
          simp
        · rw [if_neg (by omega), if_neg (by omega), if_neg (by omega)]

theorem copyCells_get (src : List (Option α)) : ∀ (n i : Nat) (dst : List (Option α)), i + n ≤ src.length → i + n ≤ dst.length →
    ∃ c', copyCells src dst i n = pure c' ∧ c'.length = dst.length ∧
      ∀ j, c'[j]? = if i ≤ j ∧ j < i + n then src[j]? else dst[j]? := by
  intro n
  induction n with
  | zero =>
    intro i dst _ _
    exact ⟨dst, rfl, rfl, by intro j; rw [if_neg (by omega)]⟩
  | succ n ih =>
    intro i dst h h'
    obtain ⟨c', h1, h2, h3⟩ := ih (i + 1) (dst.set i (src[i]'(by omega))) (by omega) (by simp; omega)
    refine ⟨c', ?_, by simpa using h2, ?_⟩
    · rw [copyCells, rd_eq (by omega), pure_bind, wr_eq (by omega), pure_bind]
      exact h1
    · intro j
      rw [h3 j, List.getElem?_set]
      rcases Nat.lt_trichotomy j i with hj | hj | hj
      · rw [if_neg (by omega), if_neg (by omega), if_neg (by omega)]
      · subst hj
        rw [if_neg (by omega), if_pos rfl, if_pos (by omega), if_pos (by omega), List.getElem?_eq_getElem]
      · by_cases hlt : j < i + 1 + n
        · rw [if_pos (by omega), if_pos (by omega)]
        · rw [if_neg (by omega), if_neg (by omega), if_neg (by omega)]

theorem relocLoop_get (k last : Nat) : ∀ (s : Nat) (c : List (Option α)) (xs : List α), Starts c xs → s ≤ xs.length →
    s + k ≤ c.length → 0 < k →
    ∃ c', relocLoop k last c s = pure c' ∧ c'.length = c.length ∧
      ∀ j, c'[j]? = if last + k ≤ j ∧ j < s + k then c[j - k]? else c[j]? := by
  intro s
  induction s with
  | zero =>
    intro c xs _ _ _ _
    exact ⟨c, rfl, rfl, by intro j; rw [if_neg (by omega)]⟩
  | succ s ih =>
    intro c xs hc hs hk hp
    rw [relocLoop]
    by_cases hl : last ≤ s
    · rw [if_pos hl, hc.cell (by omega), pure_bind, wr_eq (by omega), pure_bind]
      have hst : Starts (c.set (s + k) (some xs[s])) (xs.take s) := by
        intro i hi
        rw [List.length_take] at hi
        rw [List.getElem?_set, if_neg (by omega), hc i (by omega), List.getElem?_take, if_pos (by omega)]
      obtain ⟨c', h1, h2, h3⟩ := ih _ _ hst (by rw [List.length_take]; omega) (by simp; omega) hp
      refine ⟨c', h1, by simpa using h2, ?_⟩
      intro j
      rw [h3 j, List.getElem?_set, List.getElem?_set]
      rcases Nat.lt_trichotomy j (s + k) with hj | hj | hj
      · by_cases hlo : last + k ≤ j
        · rw [if_pos (by omega), if_neg (by omega), if_pos (by omega)]
        · rw [if_neg (by omega), if_neg (by omega), if_neg (by omega)]
      · subst hj
        rw [if_neg (by omega), if_pos rfl, if_pos (by omega), if_pos (by omega), Nat.add_sub_cancel, hc s (by omega),
          List.getElem?_eq_getElem (by omega)]
      · rw [if_neg (by omega), if_neg (by omega), if_neg (by omega)]
    · rw [if_neg hl]
      exact ⟨c, rfl, rfl, by intro j; rw [if_neg (by omega)]⟩

/-! ### The invariant -/

/-- The block is at least as large as the capacity, and the vector holds `xs`.
(Specification, no line of the source.) -/
structure Holds (v : Vec α) (xs : List α) : Prop where
  size : v.size = xs.length
  le : v.size ≤ v.cap
  room : v.cap ≤ v.cells.length
  starts : Starts v.cells xs

theorem Holds.elems {v : Vec α} {xs : List α} (h : Holds v xs) : v.elems = pure xs := by
  rw [Vec.elems, readAll_eq h.starts _ _ (by rw [h.size]; omega), h.size]
  simp

/-- No cell after the elements was written.
(Specification, no line of the source.) -/
def Clean (c : List (Option α)) (n : Nat) : Prop := ∀ j, n ≤ j → j < c.length → c[j]? = some none

theorem holds_empty : Holds (Vec.empty : Vec α) [] := ⟨rfl, Nat.le_refl _, Nat.le_refl _, by intro i hi; simp at hi⟩

theorem resizeImpl_grow {w : Nat} (hw : 0 < w) {v : Vec α} {xs : List α} (h : Holds v xs) {sz : Nat} (hs : v.size < sz) :
    ∃ v', resizeImpl w v sz = pure v' ∧ Holds v' xs ∧ sz ≤ v'.cap ∧ (Clean v.cells v.size → Clean v'.cells v.size) := by
  unfold resizeImpl
  rw [if_neg (by omega)]
  by_cases hc : v.cap ≤ sz
  · rw [if_pos hc]
    have hn : sz ≤ calcNewSize v sz := by
      unfold calcNewSize
      have := (page_spec (max sz (v.cap * 2))).2.1
      split <;> omega
    have hb : v.bytes / w ≤ calcNewSize v sz := by
      have := Nat.div_le_self v.bytes w
      unfold calcNewSize
      have := (page_spec (max sz (v.cap * 2))).2.1
      split <;> omega
    dsimp only
    rw [if_neg (by omega)]
    have hlen : (fresh w (w * calcNewSize v sz) : List (Option α)).length = page (w * calcNewSize v sz) / w := by simp [fresh]
    have hge := le_fresh (n := calcNewSize v sz) hw
    have hr := h.room
    have hl := h.le
    obtain ⟨c', h1, h2, h3⟩ := copyCells_get v.cells v.size 0 (fresh w (w * calcNewSize v sz)) (by omega) (by rw [hlen]; omega)
    refine ⟨⟨page (w * calcNewSize v sz), c', v.size, calcNewSize v sz⟩, by rw [h1]; rfl, ⟨h.size, ?_, ?_, ?_⟩, hn, ?_⟩
    · show v.size ≤ calcNewSize v sz; omega
    · show calcNewSize v sz ≤ c'.length; omega
    · intro i hi
      show c'[i]? = _
      rw [h3 i, if_pos ⟨Nat.zero_le _, by rw [h.size]; omega⟩, h.starts i hi]
    · intro _ j hj hj'
      show c'[j]? = _
      have hj' : j < c'.length := hj'
      rw [h3 j, if_neg (by omega), fresh, List.getElem?_replicate, if_pos (by omega)]
  · rw [if_neg hc]
    exact ⟨v, rfl, h, by omega, id⟩

theorem resizeImpl_shrink {w : Nat} {v : Vec α} {xs : List α} (h : Holds v xs) {sz : Nat} (hs : sz ≤ v.size) :
    resizeImpl w v sz = pure { v with size := sz } ∧ Holds { v with size := sz } (xs.take sz) := by
  unfold resizeImpl
  rw [if_pos hs]
  have hsz := h.size
  refine ⟨rfl, ⟨?_, ?_, h.room, ?_⟩⟩
  · show sz = _; rw [List.length_take]; omega
  · have := h.le; show sz ≤ v.cap; omega
  · intro i hi
    rw [List.length_take] at hi
    show v.cells[i]? = _
    rw [h.starts i (by omega), List.getElem?_take, if_pos (by omega)]

theorem pushBack_room {w : Nat} {v : Vec α} {xs : List α} (h : Holds v xs) (hc : v.size < v.cap) (x : α) :
    ∃ v', v.pushBack w x = pure v' ∧ Holds v' (xs ++ [x]) ∧ v'.cap = v.cap ∧ v'.cells.length = v.cells.length := by
  unfold Vec.pushBack
  have hr := h.room
  rw [if_neg (by omega), pure_bind, wr_eq (by omega), pure_bind]
  refine ⟨_, rfl, ⟨?_, ?_, ?_, ?_⟩, rfl, by simp⟩
  · simp [h.size]
  · show v.size + 1 ≤ v.cap; omega
  · show v.cap ≤ (v.cells.set v.size (some x)).length; simp; omega
  · intro i hi
    show (v.cells.set v.size (some x))[i]? = _
    rw [List.length_append, List.length_singleton] at hi
    rw [List.getElem?_set]
    have hs := h.size
    by_cases hi' : i = xs.length
    · rw [if_pos (by omega), if_pos (by omega), hi', List.getElem?_append_right (Nat.le_refl _)]
      simp
    · rw [if_neg (by omega), h.starts i (by omega), List.getElem?_append_left (by omega)]

theorem pushBack_holds {w : Nat} (hw : 0 < w) {v : Vec α} {xs : List α} (h : Holds v xs) (x : α) :
    ∃ v', v.pushBack w x = pure v' ∧ Holds v' (xs ++ [x]) := by
  by_cases hc : v.cap ≤ v.size
  · obtain ⟨v1, h1, h2, h3, -⟩ := resizeImpl_grow hw h (sz := v.size + 1) (by omega)
    have hs : v1.size = v.size := by rw [h2.size, h.size]
    obtain ⟨v2, h4, h5, -⟩ := pushBack_room (w := w) h2 (by omega) x
    refine ⟨v2, ?_, h5⟩
    have e : v.pushBack w x = v1.pushBack w x := by
      unfold Vec.pushBack
      rw [if_pos hc, h1, if_neg (by omega)]
    rw [e, h4]
  · obtain ⟨v2, h4, h5, -⟩ := pushBack_room (w := w) h (by omega) x
    exact ⟨v2, h4, h5⟩

theorem popBack_holds {v : Vec α} {xs : List α} (h : Holds v xs) (hx : xs ≠ []) :
    ∃ v', v.popBack = pure v' ∧ Holds v' xs.dropLast := by
  have hs := h.size
  have : xs.length ≠ 0 := by simpa using hx
  obtain ⟨-, h2⟩ := resizeImpl_shrink (w := 1) h (sz := v.size - 1) (by omega)
  refine ⟨{ v with size := v.size - 1 }, by rw [Vec.popBack, if_neg (by omega)], ?_⟩
  rw [List.dropLast_eq_take, ← hs]
  exact h2

theorem clear_holds {v : Vec α} {xs : List α} (h : Holds v xs) : Holds v.clear [] := by
  have := (resizeImpl_shrink (w := 1) h (sz := 0) (by omega)).2
  simpa [Vec.clear] using this

theorem reserve_holds {w : Nat} (hw : 0 < w) {v : Vec α} {xs : List α} (h : Holds v xs) (n : Nat) :
    ∃ v', v.reserve w n = pure v' ∧ Holds v' xs ∧ n ≤ v'.cap := by
  unfold Vec.reserve
  have hl := h.le
  by_cases hn : v.cap < n
  · rw [if_pos hn]
    obtain ⟨v1, h1, h2, h3, -⟩ := resizeImpl_grow hw h (sz := n) (by omega)
    exact ⟨v1, h1, h2, h3⟩
  · rw [if_neg hn]
    exact ⟨v, rfl, h, by omega⟩

theorem put_holds {v : Vec α} {xs : List α} (h : Holds v xs) (ys : List α) (hr : xs.length + ys.length ≤ v.cap) :
    ∃ c, putAll v.cells v.size ys = pure c ∧ Holds { v with cells := c, size := ys.length + xs.length } (xs ++ ys) := by
  have hroom := h.room
  have hs := h.size
  obtain ⟨c, h1, h2, h3⟩ := putAll_get ys v.cells v.size (by omega)
  refine ⟨c, h1, ⟨?_, ?_, ?_, ?_⟩⟩
  · simp [Nat.add_comm]
  · show ys.length + xs.length ≤ v.cap; omega
  · show v.cap ≤ c.length; omega
  · intro i hi
    show c[i]? = _
    rw [List.length_append] at hi
    rw [h3 i]
    by_cases hi' : i < xs.length
    · rw [if_neg (by omega), h.starts i hi', List.getElem?_append_left hi']
    · rw [if_pos (by omega), List.getElem?_append_right (by omega), hs]

theorem resize_holds {w : Nat} (hw : 0 < w) (d : α) {v : Vec α} {xs : List α} (h : Holds v xs) (sz : Nat) :
    ∃ v', v.resize w d sz = pure v' ∧ Holds v' (xs.take sz ++ List.replicate (sz - xs.length) d) := by
  have hs := h.size
  unfold Vec.resize
  by_cases hc : sz ≤ v.size
  · obtain ⟨h1, h2⟩ := resizeImpl_shrink (w := w) h hc
    rw [h1, pure_bind, show sz - xs.length = 0 by omega]
    refine ⟨{ v with size := sz }, ?_, by simpa using h2⟩
    show (putAll v.cells sz (List.replicate (sz - sz) d) >>= _) = _
    rw [Nat.sub_self]
    rfl
  · obtain ⟨v1, h1, h2, h3, -⟩ := resizeImpl_grow hw h (sz := sz) (by omega)
    rw [h1, pure_bind]
    have hs1 := h2.size
    obtain ⟨c, h4, h5⟩ := put_holds h2 (List.replicate (sz - v1.size) d) (by simp; omega)
    rw [h4, pure_bind]
    refine ⟨_, rfl, ?_⟩
    rw [List.take_of_length_le (by omega), ← hs1]
    rw [List.length_replicate, show sz - v1.size + xs.length = sz by omega] at h5
    exact h5

theorem ofList_holds {w : Nat} (hw : 0 < w) (xs : List α) :
    ∃ v, Vec.ofList w xs = pure v ∧ Holds v xs ∧ v.cap = page xs.length ∧ Clean v.cells xs.length := by
  have hlen : (fresh w (w * page xs.length) : List (Option α)).length = page (w * page xs.length) / w := by simp [fresh]
  have hge := le_fresh (n := page xs.length) hw
  have hp := (page_spec xs.length).2.1
  obtain ⟨c, h1, h2, h3⟩ := putAll_get xs (fresh w (w * page xs.length)) 0 (by omega)
  refine ⟨⟨page (w * page xs.length), c, xs.length, page xs.length⟩, by unfold Vec.ofList; rw [h1]; rfl, ⟨rfl, ?_, ?_, ?_⟩, rfl, ?_⟩
  · show xs.length ≤ page xs.length; omega
  · show page xs.length ≤ c.length; omega
  · intro i hi
    show c[i]? = _
    rw [h3 i, if_pos (by omega), Nat.sub_zero]
  · intro j hj hj'
    show c[j]? = _
    have hj' : j < c.length := hj'
    rw [h3 j, if_neg (by omega), fresh, List.getElem?_replicate, if_pos (by omega)]

/-! ### Insertion -/

theorem nodup_inj {xs : List α} (hd : xs.Nodup) {i j : Nat} (hi : i < xs.length) (hj : j < xs.length) (h : xs[i] = xs[j]) : i = j := by
  rcases Nat.lt_trichotomy i j with hij | hij | hij
  · exact absurd h (List.pairwise_iff_getElem.mp hd i j hi hj hij)
  · exact hij
  · exact absurd h.symm (List.pairwise_iff_getElem.mp hd j i hj hi hij)


/-- What an insertion leaves at each position. -/
theorem insert_get {w : Nat} (hw : 0 < w) {v : Vec α} {xs : List α} (h : Holds v xs) {i : Nat} (hi : i ≤ xs.length) (ys : List α)
    (hb : xs.length + ys.length < 2 ^ 63) :
    ∃ v', v.insert w i ys = pure v' ∧ v'.size = xs.length + ys.length ∧ v'.size ≤ v'.cap ∧ v'.cap ≤ v'.cells.length ∧
      ∃ c : List (Option α), Starts c xs ∧ xs.length + ys.length ≤ c.length ∧ (Clean v.cells xs.length → Clean c xs.length) ∧
        ∀ j, v'.cells[j]? = if i ≤ j ∧ j < i + ys.length then some ys[j - i]?
          else if i < xs.length ∧ 2 * ys.length ≤ j ∧ j < xs.length + ys.length ∧ ys ≠ [] then c[j - ys.length]? else c[j]? := by
  have hs := h.size
  have hgrow : ∃ v1, (if v.cap ≤ ys.length + v.size then resizeImpl w v (ys.length + v.size) else pure v) = pure v1 ∧
      Holds v1 xs ∧ xs.length + ys.length ≤ v1.cap ∧ (Clean v.cells xs.length → Clean v1.cells xs.length) := by
    have hle := h.le
    by_cases hc : v.cap ≤ ys.length + v.size
    · rw [if_pos hc]
      by_cases hy : ys.length = 0
      · obtain ⟨h1, h2⟩ := resizeImpl_shrink (w := w) h (sz := ys.length + v.size) (by omega)
        refine ⟨_, h1, ?_, ?_, id⟩
        · rw [List.take_of_length_le (by omega)] at h2; exact h2
        · show _ ≤ v.cap; omega
      · obtain ⟨v1, h1, h2, h3, h4⟩ := resizeImpl_grow hw h (sz := ys.length + v.size) (by omega)
        exact ⟨v1, h1, h2, by omega, by rw [← hs]; exact h4⟩
    · rw [if_neg hc]
      exact ⟨v, rfl, h, by omega, id⟩
  obtain ⟨v1, h1, h2, h3, hclean⟩ := hgrow
  have hroom := h2.room
  have hreloc : ∃ c1, (if i < v.size then overlappedRelocate v1.cells v.size ys.length else pure v1.cells) = pure c1 ∧
      c1.length = v1.cells.length ∧ ∀ j, c1[j]? = if i < xs.length ∧ 2 * ys.length ≤ j ∧ j < xs.length + ys.length ∧ ys ≠ [] then
        v1.cells[j - ys.length]? else v1.cells[j]? := by
    by_cases hc : i < v.size
    · rw [if_pos hc]
      unfold overlappedRelocate
      by_cases hy : ys.length = 0
      · rw [if_pos hy]
        refine ⟨_, rfl, rfl, ?_⟩
        intro j
        rw [if_neg (by simp [List.eq_nil_of_length_eq_zero hy])]
      · rw [if_neg hy]
        dsimp only
        have hne : ys ≠ [] := by intro e; simp [e] at hy
        have hl : subSize v.size (subSize v.size ys.length) = ys.length := by
          unfold subSize
          omega
        rw [hl]
        obtain ⟨c1, h4, h5, h6⟩ := relocLoop_get ys.length ys.length v.size v1.cells xs h2.starts (by omega) (by omega) (by omega)
        refine ⟨c1, h4, h5, ?_⟩
        intro j
        rw [h6 j]
        by_cases hj : ys.length + ys.length ≤ j ∧ j < v.size + ys.length
        · rw [if_pos hj, if_pos ⟨by omega, by omega, by omega, hne⟩]
        · rw [if_neg hj, if_neg (by intro hh; omega)]
    · rw [if_neg hc]
      exact ⟨_, rfl, rfl, by intro j; rw [if_neg (by omega)]⟩
  obtain ⟨c1, h4, h5, h6⟩ := hreloc
  obtain ⟨c2, h7, h8, h9⟩ := putAll_get ys c1 i (by omega)
  refine ⟨{ v1 with cells := c2, size := ys.length + v.size }, ?_, ?_, ?_, ?_, v1.cells, h2.starts, by omega, hclean, ?_⟩
  · unfold Vec.insert
    dsimp only
    rw [h1, pure_bind, h4, pure_bind, h7, pure_bind]
  · show ys.length + v.size = _; omega
  · show ys.length + v.size ≤ v1.cap; omega
  · show v1.cap ≤ c2.length; omega
  · intro j
    show c2[j]? = _
    rw [h9 j, h6 j]

/-- Where the insertion of `k` values at `i` into `n` elements keeps the elements.
(Specification, no line of the source.) -/
def Works (n i k : Nat) : Prop := i = n ∨ k = 0 ∨ (k ≤ i ∧ i ≤ 2 * k)

theorem insert_holds {w : Nat} (hw : 0 < w) {v : Vec α} {xs : List α} (h : Holds v xs) {i : Nat} (hi : i ≤ xs.length) (ys : List α)
    (hb : xs.length + ys.length < 2 ^ 63) (hk : Works xs.length i ys.length) :
    ∃ v', v.insert w i ys = pure v' ∧ Holds v' (xs.take i ++ ys ++ xs.drop i) := by
  obtain ⟨v', h1, h2, h3, h4, c, h5, -, -, h7⟩ := insert_get hw h hi ys hb
  refine ⟨v', h1, ⟨?_, h3, h4, ?_⟩⟩
  · simp [h2, List.length_take]; omega
  · intro j hj
    have hj : j < xs.length + ys.length := by
      simp only [List.length_append, List.length_take, List.length_drop] at hj
      omega
    rw [h7 j]
    by_cases ha : j < i
    · rw [if_neg (by omega), List.append_assoc, List.getElem?_append_left (by rw [List.length_take]; omega), List.getElem?_take,
        if_pos ha, ← h5 j (by omega)]
      rw [if_neg]
      rintro ⟨b1, b2, b3, b4⟩
      have : ys.length ≠ 0 := by simpa using b4
      rcases hk with hk | hk | hk <;> omega
    · by_cases hb' : j < i + ys.length
      · rw [if_pos (by omega), List.append_assoc, List.getElem?_append_right (by rw [List.length_take]; omega),
          List.getElem?_append_left (by rw [List.length_take]; omega), List.length_take, Nat.min_eq_left hi]
      · rw [if_neg (by omega), List.getElem?_append_right (by rw [List.length_append, List.length_take]; omega), List.length_append,
          List.length_take, Nat.min_eq_left hi, List.getElem?_drop, show i + (j - (i + ys.length)) = j - ys.length by omega]
        by_cases hy : ys = []
        · subst hy
          rw [if_neg (by simp)]
          simp only [List.length_nil, Nat.sub_zero] at *
          exact h5 j (by omega)
        · have hl : ys.length ≠ 0 := by simpa using hy
          rw [if_pos ⟨by omega, by rcases hk with hk | hk | hk <;> omega, by omega, hy⟩]
          exact h5 _ (by omega)

/-! ### Histories -/

/-- The calls of a history. (Specification, no line of the source.) -/
inductive Op (α : Type) where
  | push (x : α)
  | pop
  | clear
  | resize (n : Nat)
  | reserve (n : Nat)
  | insert (i : Nat) (ys : List α)

/-- One call. (Specification, no line of the source.) -/
def step (w : Nat) (d : α) (v : Vec α) : Op α → Cxx (Vec α)
  | .push x => v.pushBack w x
  | .pop => v.popBack
  | .clear => pure v.clear
  | .resize n => v.resize w d n
  | .reserve n => v.reserve w n
  | .insert i ys => v.insert w i ys

/-- A history. (Specification, no line of the source.) -/
def run (w : Nat) (d : α) (v : Vec α) : List (Op α) → Cxx (Vec α)
  | [] => pure v
  | o :: os => do
    let v ← step w d v o
    run w d v os

/-- What the calls mean for the sequence of elements. (Specification, no line of the source.) -/
def meaning (d : α) (xs : List α) : Op α → List α
  | .push x => xs ++ [x]
  | .pop => xs.dropLast
  | .clear => []
  | .resize n => xs.take n ++ List.replicate (n - xs.length) d
  | .reserve _ => xs
  | .insert i ys => xs.take i ++ ys ++ xs.drop i

/-- The calls of a history are allowed: `pop_back` of a vector that is not empty, and insertions at a position of the vector; with
the restriction `Works` on the position of the insertion. (Specification, no line of the source.) -/
def Allowed (d : α) : List α → List (Op α) → Prop
  | _, [] => True
  | xs, o :: os => (match o with
      | .pop => xs ≠ []
      | .insert i ys => i ≤ xs.length ∧ xs.length + ys.length < 2 ^ 63 ∧ Works xs.length i ys.length
      | _ => True) ∧ Allowed d (meaning d xs o) os

theorem step_holds {w : Nat} (hw : 0 < w) (d : α) {v : Vec α} {xs : List α} (h : Holds v xs) (o : Op α)
    (ho : Allowed d xs [o]) : ∃ v', step w d v o = pure v' ∧ Holds v' (meaning d xs o) := by
  cases o with
  | push x => exact pushBack_holds hw h x
  | pop => exact popBack_holds h ho.1
  | clear => exact ⟨_, rfl, clear_holds h⟩
  | resize n => exact resize_holds hw d h n
  | reserve n => obtain ⟨v', h1, h2, -⟩ := reserve_holds hw h n; exact ⟨v', h1, h2⟩
  | insert i ys => exact insert_holds hw h ho.1.1 ys ho.1.2.1 ho.1.2.2

theorem run_holds {w : Nat} (hw : 0 < w) (d : α) : ∀ (os : List (Op α)) (xs : List α) {v : Vec α}, Allowed d xs os → Holds v xs →
    ∃ v', run w d v os = pure v' ∧ Holds v' (os.foldl (meaning d) xs) := by
  intro os
  induction os with
  | nil => intro xs v _ h; exact ⟨v, rfl, h⟩
  | cons o os ih =>
    intro xs v ha h
    obtain ⟨v1, h3, h4⟩ := step_holds hw d h o ⟨ha.1, trivial⟩
    obtain ⟨v2, h5, h6⟩ := ih _ ha.2 h4
    exact ⟨v2, by rw [run, h3]; exact h5, h6⟩

/-- **C224 (part).**  A vector made from a sequence of any length, followed by any history of `push_back`, `pop_back`, `clear`,
`resize`, `reserve` and `insert`, holds what the history means, with no access outside its memory — provided that insertions are
at the end or at a position from the number of values inserted to twice that number. -/
theorem C224_history_partial {w : Nat} (hw : 0 < w) (d : α) (xs : List α) (os : List (Op α)) (ha : Allowed d xs os) :
    ∃ v v', Vec.ofList w xs = pure v ∧ run w d v os = pure v' ∧ v'.elems = pure (os.foldl (meaning d) xs) ∧
      v'.size = (os.foldl (meaning d) xs).length ∧ v'.size ≤ v'.cap ∧
      ∀ hn : os.foldl (meaning d) xs ≠ [], v'.front = pure ((os.foldl (meaning d) xs).head hn) ∧
        v'.back = pure ((os.foldl (meaning d) xs).getLast hn) := by
  obtain ⟨v, h1, h2, -⟩ := ofList_holds hw xs
  obtain ⟨v', h3, h4⟩ := run_holds hw d os xs ha h2
  refine ⟨v, v', h1, h3, h4.elems, h4.size, h4.le, fun hn => ?_⟩
  have hl : (os.foldl (meaning d) xs).length ≠ 0 := by simpa using hn
  have hs := h4.size
  constructor
  · rw [Vec.front, h4.starts.cell (by omega), List.head_eq_getElem]
  · rw [Vec.back, if_neg (by omega), h4.starts.cell (by omega), List.getLast_eq_getElem]
    simp only [hs]

example : Allowed 0 [1, 2, 3] [.push 4, .insert 2 [7, 8], .insert 6 [9], .pop, .resize 10, .insert 1 [5], .clear, .push 1] := by
  refine ⟨trivial, ⟨?_, ?_, ?_⟩, ⟨?_, ?_, ?_⟩, ?_, trivial, ⟨?_, ?_, ?_⟩, trivial, trivial, trivial⟩ <;> simp [meaning, Works]

/-- **C224 (violated).**  For a vector of different elements, with any number of values and any position inside it, the insertion
gives the sequence with the values inserted exactly if nothing is inserted or the position is between the number of values and
twice that number: `v.insert( v.begin( ), x )` loses the first element of every vector. -/
theorem C224_insert_violated {w : Nat} (hw : 0 < w) {xs : List α} (hd : xs.Nodup) {i : Nat} (hi : i ≤ xs.length) (ys : List α)
    (hb : xs.length + ys.length < 2 ^ 63) :
    (∃ v v', Vec.ofList w xs = pure v ∧ v.insert w i ys = pure v' ∧ v'.elems = pure (xs.take i ++ ys ++ xs.drop i)) ↔
      (i = xs.length ∨ ys.length = 0 ∨ (ys.length ≤ i ∧ i ≤ 2 * ys.length)) := by
  obtain ⟨v, h1, h2, -, hcl⟩ := ofList_holds hw xs
  constructor
  · rintro ⟨v1, v2, e1, e2, e3⟩
    rw [h1] at e1
    have := pure_inj.mp e1
    subst this
    obtain ⟨v', f1, f2, f3, f4, c, f5, f6, fc, f7⟩ := insert_get hw h2 hi ys hb
    rw [f1] at e2
    have := pure_inj.mp e2
    subst this
    apply Classical.byContradiction
    intro hn
    obtain ⟨-, hget⟩ := readAll_inv _ _ e3
    have hin : i < xs.length := by omega
    have hy0 : ys.length ≠ 0 := by omega
    have hy : ys ≠ [] := by intro e; simp [e] at hy0
    rcases Nat.lt_or_ge i ys.length with hlt | hge
    · -- the element at `i` is lost
      have hg := hget (i + ys.length) (by omega)
      rw [Nat.zero_add, f7, if_neg (by omega), if_neg (by omega),
        List.getElem?_append_right (by rw [List.length_append, List.length_take]; omega), List.length_append, List.length_take,
        Nat.min_eq_left hi, Nat.sub_self, List.getElem?_drop, Nat.add_zero] at hg
      by_cases hj : i + ys.length < xs.length
      · rw [f5 _ hj, Option.some_inj, List.getElem?_eq_getElem hj, List.getElem?_eq_getElem hin, Option.some_inj] at hg
        have := nodup_inj hd _ _ hg
        omega
      · -- the cell was never written
        rw [fc hcl _ (by omega) (by omega), Option.some_inj, List.getElem?_eq_getElem hin] at hg
        exact absurd hg (by simp)
    · -- an element before the position is overwritten
      have hk : 2 * ys.length < i := by omega
      have hg := hget (2 * ys.length) (by omega)
      rw [Nat.zero_add, f7, if_neg (by omega), if_pos ⟨hin, by omega, by omega, hy⟩, List.append_assoc,
        List.getElem?_append_left (by rw [List.length_take]; omega), List.getElem?_take, if_pos hk, f5 _ (by omega),
        Option.some_inj, List.getElem?_eq_getElem (by omega), List.getElem?_eq_getElem (by omega), Option.some_inj] at hg
      have := nodup_inj hd _ _ hg
      omega
  · intro hk
    obtain ⟨v', h3, h4⟩ := insert_holds hw h2 hi ys hb hk
    exact ⟨v, v', h1, h3, h4.elems⟩

example := C224_insert_violated (w := 4) (by decide) (xs := [1, 2, 3, 4]) (by decide) (i := 1) (by decide) [7] (by decide)

/-! ### Copies -/

/-- The copy of a vector that holds `xs`. -/
theorem copy_get {w : Nat} (hw : 0 < w) {v : Vec α} {xs : List α} (h : Holds v xs) :
    ∃ v', v.copy w = pure v' ∧ v'.size = xs.length ∧ v'.cap = v.cap ∧ v'.cells.length = page (w * xs.length) / w ∧
      Starts v'.cells xs := by
  have hs := h.size
  have hl := h.le
  have hr := h.room
  have hge := le_fresh (n := v.size) hw
  have hlen : (fresh w (w * v.size) : List (Option α)).length = page (w * v.size) / w := by simp [fresh]
  obtain ⟨c, h1, h2, h3⟩ := copyCells_get v.cells v.size 0 (fresh w (w * v.size)) (by omega) (by omega)
  refine ⟨⟨page (w * v.size), c, v.size, v.cap⟩, by unfold Vec.copy; rw [h1]; rfl, hs, rfl, ?_, ?_⟩
  · show c.length = _; rw [← hs]; omega
  · intro i hi
    show c[i]? = _
    rw [h3 i, if_pos (by omega), h.starts i hi]

/-- **C225 (part).**  A copy of a vector, made after any history allowed, has the same elements, and its source is not changed. -/
theorem C225_copy_partial {w : Nat} (hw : 0 < w) (d : α) (xs : List α) (os : List (Op α)) (ha : Allowed d xs os) :
    ∃ v v' c, Vec.ofList w xs = pure v ∧ run w d v os = pure v' ∧ v'.copy w = pure c ∧
      c.elems = pure (os.foldl (meaning d) xs) ∧ v'.elems = c.elems := by
  obtain ⟨v, h1, h2, -⟩ := ofList_holds hw xs
  obtain ⟨v', h3, h4⟩ := run_holds hw d os xs ha h2
  obtain ⟨c, h5, h6, -, -, h7⟩ := copy_get hw h4
  refine ⟨v, v', c, h1, h3, h5, ?_, ?_⟩
  · rw [Vec.elems, readAll_eq h7 _ _ (by omega), h6]; simp
  · rw [h4.elems, Vec.elems, readAll_eq h7 _ _ (by omega), h6]; simp

/-- Elements pushed into a block that is smaller than the capacity. -/
theorem pushes_ub (w : Nat) (d x : α) : ∀ (m : Nat) (v : Vec α), v.size + m = v.cells.length → v.cells.length < v.cap →
    run w d v (List.replicate (m + 1) (.push x)) = ub := by
  intro m
  induction m with
  | zero =>
    intro v h1 h2
    rw [List.replicate_succ, run, step, Vec.pushBack, if_neg (by omega), pure_bind, wr_oob (by omega)]
    rfl
  | succ m ih =>
    intro v h1 h2
    rw [List.replicate_succ, run, step, Vec.pushBack, if_neg (by omega)]
    simp only [pure_bind]
    rw [wr_eq (by omega)]
    exact ih _ (by simp; omega) (by simpa using h2)

/-- **C225 (violated).**  A copy takes over the capacity of its source, but only allocates memory for the elements.  If the memory for
the elements is less than the capacity says, `push_back` into the copy writes outside the memory of the copy, as soon as that
memory is full. -/
theorem C225_push_violated {w : Nat} (hw : 0 < w) (d x : α) (xs : List α) (hp : page (w * xs.length) / w < page xs.length) :
    ∃ v c m, Vec.ofList w xs = pure v ∧ v.copy w = pure c ∧ c.elems = pure xs ∧ xs.length + m = page (w * xs.length) / w ∧
      run w d c (List.replicate (m + 1) (.push x)) = ub := by
  obtain ⟨v, h1, h2, h3, -⟩ := ofList_holds hw xs
  obtain ⟨c, h5, h6, h7, h8, h9⟩ := copy_get hw h2
  have hge := le_fresh (n := xs.length) hw
  refine ⟨v, c, page (w * xs.length) / w - xs.length, h1, h5, ?_, by omega, ?_⟩
  · rw [Vec.elems, readAll_eq h9 _ _ (by omega), h6]; simp
  · exact pushes_ub w d x _ c (by omega) (by omega)

-- one `int`: 1024 elements fit, and the capacity is 4096
example : page (4 * [(1 : Nat)].length) / 4 = 1024 ∧ page [(1 : Nat)].length = 4096 := by decide

/-! ### Comparisons -/

theorem stdEqual_eq (p : α → α → Bool) {a b : List (Option α)} {xs ys : List α} (ha : Starts a xs) (hb : Starts b ys) :
    ∀ (n i : Nat), i + n ≤ xs.length → i + n ≤ ys.length →
      ∃ r, stdEqual p a b i n = pure r ∧ (r = true ↔ ∀ j (h1 : j < xs.length) (h2 : j < ys.length), i ≤ j → j < i + n → p xs[j] ys[j] = true) := by
  intro n
  induction n with
  | zero => intro i _ _; exact ⟨true, rfl, by simp; intros; omega⟩
  | succ n ih =>
    intro i h1 h2
    rw [stdEqual, ha.cell (by omega), pure_bind, hb.cell (by omega), pure_bind]
    by_cases hp : p xs[i] ys[i] = true
    · rw [if_pos hp]
      obtain ⟨r, h3, h4⟩ := ih (i + 1) (by omega) (by omega)
      refine ⟨r, h3, h4.trans ⟨?_, ?_⟩⟩
      · intro h j g1 g2 g3 g4
        by_cases hj : j = i
        · subst hj; exact hp
        · exact h j g1 g2 (by omega) (by omega)
      · intro h j g1 g2 g3 g4
        exact h j g1 g2 (by omega) (by omega)
    · rw [if_neg hp]
      refine ⟨false, rfl, ?_⟩
      constructor
      · intro h; cases h
      · intro h; exact absurd (h i (by omega) (by omega) (Nat.le_refl _) (by omega)) hp

/-- **C225.**  Two vectors are equal under `==` exactly if their sequences are. -/
theorem C225_equal [DecidableEq α] {w : Nat} (hw : 0 < w) (xs ys : List α) :
    ∃ a b, Vec.ofList w xs = pure a ∧ Vec.ofList w ys = pure b ∧ a.eq b = pure (decide (xs = ys)) := by
  obtain ⟨a, h1, h2, -⟩ := ofList_holds hw xs
  obtain ⟨b, h3, h4, -⟩ := ofList_holds hw ys
  refine ⟨a, b, h1, h3, ?_⟩
  have hs := h2.size
  have ht := h4.size
  unfold Vec.eq
  by_cases hl : a.size = b.size
  · rw [if_neg (by simpa using hl)]
    obtain ⟨r, h5, h6⟩ := stdEqual_eq (fun x y => decide (x = y)) h2.starts h4.starts a.size 0 (by omega) (by omega)
    rw [h5]
    congr 1
    rw [Bool.eq_iff_iff, h6, decide_eq_true_iff]
    constructor
    · intro h
      apply List.ext_getElem (by omega)
      intro i g1 g2
      simpa using h i g1 g2 (Nat.zero_le _) (by omega)
    · intro h j g1 g2 _ _
      subst h
      simp
  · rw [if_pos hl]
    congr 1
    symm
    rw [decide_eq_false_iff_not]
    intro h
    subst h
    omega

example := C225_equal (w := 4) (by decide) [1, 2] [1, 3]

/-- **C225 (violated).**  `!=` is false for two vectors of the same size, whatever they hold, and it is false for two vectors of
different sizes that begin with the same element.  In both cases `==` can be false too. -/
theorem C225_unequal_violated [DecidableEq α] {w : Nat} (hw : 0 < w) (xs ys : List α)
    (h : xs.length = ys.length ∨ ∃ x xs' ys', xs = x :: xs' ∧ ys = x :: ys') :
    ∃ a b, Vec.ofList w xs = pure a ∧ Vec.ofList w ys = pure b ∧ a.ne b = pure false := by
  obtain ⟨a, h1, h2, -⟩ := ofList_holds hw xs
  obtain ⟨b, h3, h4, -⟩ := ofList_holds hw ys
  refine ⟨a, b, h1, h3, ?_⟩
  have hs := h2.size
  have ht := h4.size
  unfold Vec.ne
  by_cases hl : a.size = b.size
  · rw [if_pos hl]
  · rw [if_neg hl]
    rcases h with h | ⟨x, xs', ys', rfl, rfl⟩
    · omega
    · rw [List.length_cons] at hs ht
      rw [hs, stdEqual, h2.starts.cell (by simp), pure_bind, h4.starts.cell (by simp), pure_bind]
      rw [if_neg (by simp)]

example := C225_unequal_violated (w := 4) (by decide) [1, 2] [1, 3] (.inl rfl)

/-- **C225 (violated).**  `a != b` reads outside the elements of `b`, if `a` is longer and differs from `b` everywhere. -/
theorem C225_unequal_reads_violated [DecidableEq α] {w : Nat} (hw : 0 < w) (xs ys : List α) (hl : ys.length < xs.length)
    (hd : ∀ j (h1 : j < xs.length) (h2 : j < ys.length), xs[j] ≠ ys[j]) :
    ∃ a b, Vec.ofList w xs = pure a ∧ Vec.ofList w ys = pure b ∧ a.ne b = ub := by
  obtain ⟨a, h1, h2, -⟩ := ofList_holds hw xs
  obtain ⟨b, h3, h4, h5, h6⟩ := ofList_holds hw ys
  refine ⟨a, b, h1, h3, ?_⟩
  have hs := h2.size
  have ht := h4.size
  have hr := h4.room
  have hq := (page_spec ys.length).2.1
  unfold Vec.ne
  rw [if_neg (by omega)]
  have key : ∀ (n i : Nat), i + n = ys.length → ∀ k, stdEqual (fun x y => decide (x ≠ y)) a.cells b.cells i (n + (k + 1)) = ub := by
    intro n
    induction n with
    | zero =>
      intro i hi k
      rw [Nat.zero_add, stdEqual, h2.starts.cell (by omega), pure_bind]
      have : cell b.cells i = ub := by
        unfold cell
        rw [rd_some (h6 i (by omega) (by omega))]
        rfl
      rw [this]
      rfl
    | succ n ih =>
      intro i hi k
      rw [show n + 1 + (k + 1) = (n + (k + 1)) + 1 by omega, stdEqual, h2.starts.cell (by omega), pure_bind,
        h4.starts.cell (by omega), pure_bind, if_pos (by simpa using hd i (by omega) (by omega))]
      exact ih (i + 1) (by omega) k
  have := key ys.length 0 (by omega) (a.size - ys.length - 1)
  rw [show ys.length + (a.size - ys.length - 1 + 1) = a.size by omega] at this
  exact this

example : ([1, 2, 3] : List Nat).length = [4, 5, 6].length := rfl
example : ∃ a b, Vec.ofList 4 [1, 2] = pure a ∧ Vec.ofList 4 [2] = pure b ∧ a.ne b = ub :=
  C225_unequal_reads_violated (by decide) [1, 2] [2] (by decide) (by
    intro j h1 h2
    have : j = 0 := by simp at h2; omega
    subst this
    simp)

end Verif.Vector.Old
