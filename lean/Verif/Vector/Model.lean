import Verif.Base

/-
Model of `daw::split_buffer` (include/daw/split_buffer.h) and `daw::vector`
(include/daw/vector.h).

A memory block is a list of cells.  A cell is raw storage, an object that has been moved from,
or an object with a value.  Constructing over an object, and reading, assigning or destroying raw
storage are undefined behaviour here, although some of it would be harmless for trivial types.
Pointers are offsets from the start of the block they point into.

Not modelled: exceptions thrown by element constructors and assignments (exceptions from
allocation and from the length checks are), allocator propagation and unequal allocators (for those see Alloc.lean),
`std::move_if_noexcept` choosing to copy (the old elements are then destroyed
instead of moved-from objects, nothing else changes), constant evaluation.
-/

namespace Verif.Vector
open Cxx

/-- A cell of memory. (Rule of C++ or its library, no line of the source.) -/
inductive Cell (α : Type) where
  /-- storage without an object -/
  | raw
  /-- an object that has been moved from -/
  | moved
  /-- an object with a value -/
  | live (a : α)
  deriving DecidableEq, Repr

/-- A block of memory. (Rule of C++ or its library, no line of the source.) -/
abbrev Mem (α : Type) := List (Cell α)

variable {α : Type}

/-- `alloc_traits::construct( a, ptr + i, ... )`. (Rule of C++ or its library, no line of the source.) -/
def construct (m : Mem α) (i : Nat) (c : Cell α) : Cxx (Mem α) :=
  match m[i]? with
  | some .raw => pure (m.set i c)
  | _ => ub

/-- `alloc_traits::destroy( a, ptr + i )`. (Rule of C++ or its library, no line of the source.) -/
def destroy (m : Mem α) (i : Nat) : Cxx (Mem α) :=
  match m[i]? with
  | some (.live _) | some .moved => pure (m.set i .raw)
  | _ => ub

/-- `ptr[i] = ...`. (Rule of C++ or its library, no line of the source.) -/
def assignAt (m : Mem α) (i : Nat) (c : Cell α) : Cxx (Mem α) :=
  match m[i]? with
  | some (.live _) | some .moved => pure (m.set i c)
  | _ => ub

/-- `std::move( ptr[i] )` used as the source of a construction or an assignment.
(Rule of C++ or its library, no line of the source.) -/
def moveOut (m : Mem α) (i : Nat) : Cxx (Cell α × Mem α) :=
  match m[i]? with
  | some (.live a) => pure (.live a, m.set i .moved)
  | some .moved => pure (.moved, m)
  | _ => ub

/-- `ptr[i]` used as the source of a copy.  Reading a moved-from object counts as an error.
(Rule of C++ or its library, no line of the source.) -/
def value (m : Mem α) (i : Nat) : Cxx α :=
  match m[i]? with
  | some (.live a) => pure a
  | _ => ub

/-- `alloc_traits::deallocate`: losing an object that was not destroyed counts as an error.
(Rule of C++ or its library, no line of the source.) -/
def release (m : Mem α) : Cxx Unit :=
  if m.all (fun c => match c with | .raw => true | _ => false) then pure () else ub

/-- What a `const_reference` argument refers to: an object outside of the vector with a value, or
element `i` of the vector itself. (Rule of C++ or its library, no line of the source.) -/
inductive Src (α : Type) where
  | ext (a : α)
  | own (i : Nat)

/-- Reading the argument. (Rule of C++ or its library, no line of the source.) -/
def Src.get (m : Mem α) : Src α → Cxx α
  | .ext a => pure a
  | .own i => value m i

/-- What the surroundings decide: `max_size()` and which allocations succeed. (Used by vector.h 112-1276.) -/
structure Env where
  maxSize : Nat
  canAlloc : Nat → Bool

/-! ### Loops over cells -/

/-- Copy constructing `n` cells from one argument: the loops of vector.h 993-996 and
split_buffer.h 405-409. -/
def constructFill (m : Mem α) (x : Src α) (pos : Nat) : Nat → Cxx (Mem α)
  | 0 => pure m
  | n + 1 => do
    let a ← x.get m
    let m ← construct m pos (.live a)
    constructFill m x (pos + 1) n

/-- Copy constructing from a range outside of the block: `construct_range_forward`, vector.h 81-89,
and split_buffer.h 433-437. -/
def constructList (m : Mem α) (pos : Nat) : List α → Cxx (Mem α)
  | [] => pure m
  | a :: rest => do
    let m ← construct m pos (.live a)
    constructList m (pos + 1) rest

/-- The destroying loops: `base_destruct_at_end`, vector.h 1193-1201, and
`split_buffer::destruct_at_end`, split_buffer.h 460-467, going down from `last` to `newLast`.
Stepping below the block is undefined behaviour. -/
def destructAtEnd (m : Mem α) (newLast : Nat) : Nat → Cxx (Mem α)
  | 0 => if newLast = 0 then pure m else ub
  | last + 1 =>
    if newLast = last + 1 then pure m
    else do
      let m ← destroy m last
      destructAtEnd m newLast last

/-- `std::move( first, last, out )` inside a block: `n` elements from `src` to `dst`, upwards.
(Rule of C++ or its library, no line of the source.) -/
def moveForward (m : Mem α) (src dst : Nat) : Nat → Cxx (Mem α)
  | 0 => pure m
  | n + 1 => do
    let (c, m) ← moveOut m src
    let m ← assignAt m dst c
    moveForward m (src + 1) (dst + 1) n

/-- `std::move_backward( ptr + src, ptr + src + n, ptr + dlast )` inside a block.
(Rule of C++ or its library, no line of the source.) -/
def moveBackward (m : Mem α) (src : Nat) : Nat → Nat → Cxx (Mem α)
  | 0, _ => pure m
  | n + 1, dlast => do
    let (c, m) ← moveOut m (src + n)
    if dlast = 0 then ub
    else do
      let m ← assignAt m (dlast - 1) c
      moveBackward m src n (dlast - 1)

/-- `std::fill_n( ptr + dst, n, x )`, reading the argument every time. (Rule of C++ or its library, no line of the source.) -/
def fillN (m : Mem α) (x : Src α) (dst : Nat) : Nat → Cxx (Mem α)
  | 0 => pure m
  | n + 1 => do
    let a ← x.get m
    let m ← assignAt m dst (.live a)
    fillN m x (dst + 1) n

/-- `std::copy( first, mid, ptr + dst )` from a range outside of the block.
(Rule of C++ or its library, no line of the source.) -/
def copyList (m : Mem α) (dst : Nat) : List α → Cxx (Mem α)
  | [] => pure m
  | a :: rest => do
    let m ← assignAt m dst (.live a)
    copyList m (dst + 1) rest

/-- Move constructing the cells `[src, src + n)` of one block upwards from `dst` in another block:
`construct_forward_with_exception_guarantees`, vector.h 60-78, and the same loop in
split_buffer.h.  Result: both blocks. -/
def transferUp (m : Mem α) (src : Nat) (b : Mem α) (dst : Nat) : Nat → Cxx (Mem α × Mem α)
  | 0 => pure (m, b)
  | n + 1 => do
    let (c, m) ← moveOut m src
    let b ← construct b dst c
    transferUp m (src + 1) b (dst + 1) n

/-- Move constructing the cells `[0, n)` of one block downwards from `dst` in another block:
`construct_backward_with_exception_guarantees`, vector.h 38-58.  Result: both blocks and the
position of the last constructed cell. -/
def transferDown (m : Mem α) (b : Mem α) : Nat → Nat → Cxx (Mem α × Mem α × Nat)
  | 0, dst => pure (m, b, dst)
  | n + 1, dst =>
    if dst = 0 then ub
    else do
      let (c, m) ← moveOut m n
      let b ← construct b (dst - 1) c
      transferDown m b n (dst - 1)

/-! ### `split_buffer` -/

/-- A `split_buffer`: the block `[first_, end_cap())` and the offsets of `begin_` and `end_`.
`first_` is null exactly if the block is empty.  `blocks` counts the blocks this object has
allocated and not released; it does not influence the run. (split_buffer.h 42-531.) -/
structure Buf (α : Type) where
  mem : Mem α
  beg : Nat
  fin : Nat
  blocks : Nat

/-- `split_buffer( cap, start, a )`, split_buffer.h 81-90; `none` if the allocation throws. -/
def Buf.new (env : Env) (cap start : Nat) : Option (Buf α) :=
  if cap = 0 then some ⟨[], start, start, 0⟩
  else if env.canAlloc cap then some ⟨List.replicate cap .raw, start, start, 1⟩
  else none

/-- `~split_buffer`, split_buffer.h 113-118.  Result: number of blocks not released. -/
def Buf.destruct (b : Buf α) : Cxx Nat := do
  let m ← destructAtEnd b.mem b.beg b.fin
  if b.mem.length = 0 then pure b.blocks
  else do
    release m
    pure (b.blocks - 1)

/-- `construct_at_end( first, last )` with forward iterators that move the elements of another
split_buffer, split_buffer.h 431-438, then the exchange of the members and the destruction of
the temporary: the part common to `reserve` 226-236, `shrink_to_fit` 238-255,
`push_front` 265-275 and `push_back` 289-298.  `t` is the temporary. -/
def Buf.moveInto (b t : Buf α) : Cxx (Buf α) := do
  let (m, tm) ← transferUp b.mem b.beg t.mem t.fin (b.fin - b.beg)
  let left ← Buf.destruct { b with mem := m }
  pure ⟨tm, t.beg, t.fin + (b.fin - b.beg), t.blocks + left⟩

/-- `split_buffer::push_back( const_reference )`, split_buffer.h 281-302; the `value_type &&` and
`emplace_back` versions, 329-351 and 353-376, only differ in how the element is constructed.
The argument does not refer into the buffer.  When the end of the block is reached and there is room in
front, the elements are shifted with `std::move`, which assigns to storage without objects; with this
memory model that is undefined behaviour (`SplitBuf.lean` has the model for trivial types).
Result: false if it left by an exception. -/
def Buf.pushBack (env : Env) (b : Buf α) (a : α) : Cxx (Bool × Buf α) :=
  if b.fin = b.mem.length then
    if b.beg > 0 then do
      let d := (b.beg + 1) / 2
      let m ← moveForward b.mem b.beg (b.beg - d) (b.fin - b.beg)
      let m ← construct m (b.fin - d) (.live a)
      pure (true, { b with mem := m, beg := b.beg - d, fin := b.fin - d + 1 })
    else
      let c := max (2 * b.mem.length) 1
      match Buf.new env c (c / 4) with
      | none => pure (false, b)
      | some t => do
        let b ← b.moveInto t
        let m ← construct b.mem b.fin (.live a)
        pure (true, { b with mem := m, fin := b.fin + 1 })
  else do
    let m ← construct b.mem b.fin (.live a)
    pure (true, { b with mem := m, fin := b.fin + 1 })

/-- `split_buffer::construct_at_end( InputIter, InputIter )`, split_buffer.h 412-429.
Result: false if an allocation failed; the elements so far are then in the buffer. -/
def Buf.appendInput (env : Env) (b : Buf α) : List α → Cxx (Bool × Buf α)
  | [] => pure (true, b)
  | a :: rest =>
    if b.fin = b.mem.length then
      match Buf.new env (max (2 * b.mem.length) 8) 0 with
      | none => pure (false, b)
      | some t => do
        let b ← b.moveInto t
        let m ← construct b.mem b.fin (.live a)
        Buf.appendInput env { b with mem := m, fin := b.fin + 1 } rest
    else do
      let m ← construct b.mem b.fin (.live a)
      Buf.appendInput env { b with mem := m, fin := b.fin + 1 } rest

/-! ### `vector` -/

/-- A `vector`: the block `[m_begin, endcap())` and the offset of `m_end`.  `m_begin` is null exactly
if the block is empty.  `blocks` counts the blocks this vector has allocated and not released; it
does not influence the run. (vector.h 112-1276.) -/
structure Vec (α : Type) where
  mem : Mem α
  last : Nat
  blocks : Nat

/-- `vector()`, vector.h 136. -/
def Vec.empty : Vec α := ⟨[], 0, 0⟩

/-- `capacity()`, vector.h 456-458. -/
def Vec.cap (v : Vec α) : Nat := v.mem.length

/-- `size()`, vector.h 448-450. -/
def Vec.size (v : Vec α) : Nat := v.last

/- Calls that may throw return `false` if they left by an exception, and the vector after it. -/

/-- `recommend`, vector.h 960-969; `none` if it throws `length_error`. -/
def recommend (env : Env) (cap newSize : Nat) : Option Nat :=
  if newSize > env.maxSize then none
  else if cap ≥ env.maxSize / 2 then some env.maxSize
  else some (max (2 * cap) newSize)

/-- `size_type` addition. (Rule of C++ or its library, no line of the source.) -/
def add64 (a b : Nat) : Nat := (a + b) % 2 ^ 64

/-- `swap_out_circular_buffer( v )`, vector.h 1053-1061, and the destruction of the split_buffer, which
now owns the old block, at the end of the caller.  The new block has to begin with the first element:
otherwise `m_begin` could not be deallocated later. -/
def swapOut (v : Vec α) (b : Buf α) : Cxx (Vec α) := do
  let (m, bm, beg) ← transferDown v.mem b.mem v.last b.beg
  if beg ≠ 0 then ub
  else do
    let left ← Buf.destruct ⟨m, 0, v.last, v.blocks⟩
    pure ⟨bm, b.fin, b.blocks + left⟩

/-- `swap_out_circular_buffer( v, p )`, vector.h 1063-1076.  Result: the vector and the position returned. -/
def swapOutAt (v : Vec α) (b : Buf α) (p : Nat) : Cxx (Vec α × Nat) := do
  let r := b.beg
  let (m, bm, beg) ← transferDown v.mem b.mem p b.beg
  let (m, bm) ← transferUp m p bm b.fin (v.last - p)
  if beg ≠ 0 then ub
  else do
    let left ← Buf.destruct ⟨m, 0, v.last, v.blocks⟩
    pure (⟨bm, b.fin + (v.last - p), b.blocks + left⟩, r)

/-- The declaration `split_buffer v( recommend( need ), start, a )` at the start of the
reallocating branches, e.g. vector.h 1123-1124, followed by the rest of the branch.  Both `recommend` and
the allocation may throw; the vector is then unchanged. -/
def withBuf {β : Type} (env : Env) (v : Vec α) (need start : Nat) (failed : β)
    (k : Buf α → Cxx β) : Cxx β :=
  match recommend env v.cap need with
  | none => pure failed
  | some c =>
    match Buf.new env c start with
    | none => pure failed
    | some b => k b

/-- `construct_at_end( n, x )`, vector.h 990-997, and `construct_one_at_end( x )`, 1167-1175, for `n = 1`. -/
def Vec.constructFill (v : Vec α) (n : Nat) (x : Src α) : Cxx (Vec α) := do
  let m ← Vector.constructFill v.mem x v.last n
  pure { v with mem := m, last := v.last + n }

/-- `construct_at_end( first, last, n )`, vector.h 999-1004. -/
def Vec.constructList (v : Vec α) (ys : List α) : Cxx (Vec α) := do
  let m ← Vector.constructList v.mem v.last ys
  pure { v with mem := m, last := v.last + ys.length }

/-- `destruct_at_end( new_last )`, vector.h 1116-1118. -/
def Vec.destructAtEnd (v : Vec α) (newLast : Nat) : Cxx (Vec α) := do
  let m ← Vector.destructAtEnd v.mem newLast v.last
  pure { v with mem := m, last := newLast }

/-- `clear()`, vector.h 1039-1041. -/
def Vec.clear (v : Vec α) : Cxx (Vec α) := v.destructAtEnd 0

/-- `vdeallocate()`, vector.h 951-957. -/
def Vec.vdeallocate (v : Vec α) : Cxx (Vec α) :=
  if v.mem.length = 0 then pure v
  else do
    let v ← v.clear
    release v.mem
    pure ⟨[], 0, v.blocks - 1⟩

/-- `~vector`, vector.h 249-254.  Result: number of blocks not released. -/
def Vec.destruct (v : Vec α) : Cxx Nat :=
  if v.mem.length = 0 then pure v.blocks
  else do
    let v ← v.clear
    release v.mem
    pure (v.blocks - 1)

/-- `vallocate( n )`, vector.h 943-949, on a vector without a block. -/
def Vec.vallocate (env : Env) (v : Vec α) (n : Nat) : Bool × Vec α :=
  if n > env.maxSize then (false, v)
  else if env.canAlloc n then (true, ⟨List.replicate n .raw, 0, v.blocks + 1⟩)
  else (false, v)

/-- `move_range( from_s, from_e, to )`, vector.h 1078-1091. -/
def Vec.moveRange (v : Vec α) (fromS fromE to : Nat) : Cxx (Vec α) :=
  if v.last < to then ub
  else do
    let n := v.last - to
    let m ← constructLoop v.mem (fromS + n) v.last (fromE - (fromS + n))
    let m ← moveBackward m fromS n v.last
    pure { v with mem := m, last := v.last + (fromE - (fromS + n)) }
where
  /-- The loop of lines 1084-1088: move constructs `k` cells from `i` on to `pos` on. -/
  constructLoop (m : Mem α) (i pos : Nat) : Nat → Cxx (Mem α)
    | 0 => pure m
    | k + 1 => do
      let (c, m) ← moveOut m i
      let m ← construct m pos c
      constructLoop m (i + 1) (pos + 1) k

/-- `push_back( const_reference )` 562-567 with `push_back_slow_path` 1120-1131; the `value_type &&` version
569-574 and `emplace_back` 576-584, 1133-1145 only differ in how the element is constructed. -/
def Vec.pushBack (env : Env) (v : Vec α) (x : Src α) : Cxx (Bool × Vec α) :=
  if v.last ≠ v.cap then do
    let v ← v.constructFill 1 x
    pure (true, v)
  else
    withBuf env v (add64 v.size 1) v.size (false, v) fun b => do
      let a ← x.get v.mem
      let m ← construct b.mem b.fin (.live a)
      let v ← swapOut v { b with mem := m, fin := b.fin + 1 }
      pure (true, v)

/-- `pop_back()`, vector.h 586-588. -/
def Vec.popBack (v : Vec α) : Cxx (Vec α) :=
  if v.last = 0 then ub else v.destructAtEnd (v.last - 1)

/-- `pop_back_value()`, vector.h 590-613: the result is move constructed from `back()` (or copied: then
the element destroyed still has its value), then `pop_back()` runs. -/
def Vec.popBackValue (v : Vec α) : Cxx (α × Vec α) :=
  if v.last = 0 then ub
  else do
    let a ← value v.mem (v.last - 1)
    let (_, m) ← moveOut v.mem (v.last - 1)
    let v ← Vec.popBack { v with mem := m }
    pure (a, v)

/-- The adjustment of the argument after the elements from `p` on have moved up by `n`:
vector.h 622-627 and 697-700.  An object outside of the vector is not in `[p, m_end)`. -/
def Src.shift (p last n : Nat) : Src α → Src α
  | .ext a => .ext a
  | .own i => if p ≤ i ∧ i < last then .own (i + n) else .own i

/-- `insert( position, const_reference )`, vector.h 615-638; the `value_type &&` version 640-658 only differs
in moving from its argument, which is outside of the vector.  Result: also the position of the
returned iterator. -/
def Vec.insertOne (env : Env) (v : Vec α) (p : Nat) (x : Src α) : Cxx (Bool × Vec α × Nat) :=
  if v.last < v.cap then
    if p = v.last then do
      let v ← v.constructFill 1 x
      pure (true, v, p)
    else do
      let v ← v.moveRange p v.last (p + 1)
      let a ← (x.shift p v.last 1).get v.mem
      let m ← assignAt v.mem p (.live a)
      pure (true, { v with mem := m }, p)
  else
    withBuf env v (add64 v.size 1) p (false, v, p) fun b => do
      let a ← x.get v.mem
      let (ok, b) ← b.pushBack env a
      if ok then do
        let (v, p) ← swapOutAt v b p
        pure (true, v, p)
      else pure (false, v, p)

/-- `insert( position, n, const_reference )`, vector.h 683-713. -/
def Vec.insertFill (env : Env) (v : Vec α) (p n : Nat) (x : Src α) : Cxx (Bool × Vec α × Nat) :=
  if n = 0 then pure (true, v, p)
  else if n ≤ v.cap - v.last then do
    let oldLast := v.last
    let cx := n - (v.last - p)
    let v ← (if n > v.last - p then v.constructFill cx x else pure v : Cxx (Vec α))
    let k := if n > oldLast - p then n - cx else n
    if k > 0 then do
      let v ← v.moveRange p oldLast (p + n)
      let m ← fillN v.mem (x.shift p v.last n) p k
      pure (true, { v with mem := m }, p)
    else pure (true, v, p)
  else
    withBuf env v (add64 v.size n) p (false, v, p) fun b => do
      let m ← constructLoop v.mem b.mem b.fin n
      let (v, p) ← swapOutAt v { b with mem := m, fin := b.fin + n } p
      pure (true, v, p)
where
  /-- `v.construct_at_end( n, x )` on the split_buffer, split_buffer.h 404-410: the argument is outside of
  the new block. -/
  constructLoop (old new : Mem α) (pos : Nat) : Nat → Cxx (Mem α)
    | 0 => pure new
    | n + 1 => do
      let a ← x.get old
      let new ← construct new pos (.live a)
      constructLoop old new (pos + 1) n

/-- `insert( position, ForwardIterator, ForwardIterator )`, vector.h 750-785, with a range that is not in
the vector. -/
def Vec.insertRange (env : Env) (v : Vec α) (p : Nat) (ys : List α) : Cxx (Bool × Vec α × Nat) :=
  if ys.length = 0 then pure (true, v, p)
  else if ys.length ≤ v.cap - v.last then do
    let oldLast := v.last
    let dx := v.last - p
    let v ← (if ys.length > dx then v.constructList (ys.drop dx) else pure v : Cxx (Vec α))
    let n := if ys.length > dx then dx else ys.length
    if n > 0 then do
      let v ← v.moveRange p oldLast (p + ys.length)
      let m ← copyList v.mem p (ys.take n)
      pure (true, { v with mem := m }, p)
    else pure (true, v, p)
  else
    withBuf env v (v.size + ys.length) p (false, v, p) fun b => do
      let m ← Vector.constructList b.mem b.fin ys
      let (v, p) ← swapOutAt v { b with mem := m, fin := b.fin + ys.length } p
      pure (true, v, p)

/-- `erase( position )`, vector.h 792-798. -/
def Vec.eraseOne (v : Vec α) (p : Nat) : Cxx (Vec α × Nat) :=
  if v.last < p + 1 then ub
  else do
    let m ← moveForward v.mem (p + 1) p (v.last - (p + 1))
    let v ← Vec.destructAtEnd { v with mem := m } (p + (v.last - (p + 1)))
    pure (v, p)

/-- `erase( first, last )`, vector.h 800-807. -/
def Vec.eraseRange (v : Vec α) (p q : Nat) : Cxx (Vec α × Nat) :=
  if p = q then pure (v, p)
  else if q < p ∨ v.last < q then ub
  else do
    let m ← moveForward v.mem q p (v.last - q)
    let v ← Vec.destructAtEnd { v with mem := m } (p + (v.last - q))
    pure (v, p)

/-- `append( n, x )`, vector.h 1027-1037; `append( n )`, 1010-1020, is the case of the value initialised
element. -/
def Vec.append (env : Env) (v : Vec α) (n : Nat) (x : Src α) : Cxx (Bool × Vec α) :=
  if v.cap - v.last ≥ n then do
    let v ← v.constructFill n x
    pure (true, v)
  else
    withBuf env v (add64 v.size n) v.size (false, v) fun b => do
      let m ← Vec.insertFill.constructLoop x v.mem b.mem b.fin n
      let v ← swapOut v { b with mem := m, fin := b.fin + n }
      pure (true, v)

/-- `resize( sz, x )`, vector.h 818-825; `resize( sz )`, 809-816, is the case of the value initialised
element. -/
def Vec.resize (env : Env) (v : Vec α) (sz : Nat) (x : Src α) : Cxx (Bool × Vec α) :=
  if v.size < sz then v.append env (sz - v.size) x
  else if v.size > sz then do
    let v ← v.destructAtEnd sz
    pure (true, v)
  else pure (true, v)

/-- `assign( ForwardIterator, ForwardIterator )`, vector.h 350-375, with a range that is not in the vector. -/
def Vec.assignRange (env : Env) (v : Vec α) (ys : List α) : Cxx (Bool × Vec α) :=
  if ys.length ≤ v.cap then
    if ys.length > v.size then do
      let m ← copyList v.mem 0 (ys.take v.size)
      let v ← Vec.constructList { v with mem := m } (ys.drop v.size)
      pure (true, v)
    else do
      let m ← copyList v.mem 0 ys
      let v ← Vec.destructAtEnd { v with mem := m } ys.length
      pure (true, v)
  else do
    let v ← v.vdeallocate
    match recommend env v.cap ys.length with
    | none => pure (false, v)
    | some c =>
      match v.vallocate env c with
      | (false, v) => pure (false, v)
      | (true, v) => do
        let v ← v.constructList ys
        pure (true, v)

/-- `assign( n, u )`, vector.h 377-390, with `u` outside of the vector. -/
def Vec.assignFill (env : Env) (v : Vec α) (n : Nat) (u : α) : Cxx (Bool × Vec α) :=
  if n ≤ v.cap then do
    let s := v.size
    let m ← fillN v.mem (.ext u) 0 (min n s)
    if n > s then do
      let v ← Vec.constructFill { v with mem := m } (n - s) (.ext u)
      pure (true, v)
    else do
      let v ← Vec.destructAtEnd { v with mem := m } n
      pure (true, v)
  else do
    let v ← v.vdeallocate
    match recommend env v.cap n with
    | none => pure (false, v)
    | some c =>
      match v.vallocate env c with
      | (false, v) => pure (false, v)
      | (true, v) => do
        let v ← v.constructFill n (.ext u)
        pure (true, v)

/-- `reserve( n )`, vector.h 469-478. -/
def Vec.reserve (env : Env) (v : Vec α) (n : Nat) : Cxx (Bool × Vec α) :=
  if n > v.cap then
    if n > env.maxSize then pure (false, v)
    else
      match Buf.new env n v.size with
      | none => pure (false, v)
      | some b => do
        let v ← swapOut v b
        pure (true, v)
  else pure (true, v)

/-- `shrink_to_fit()`, vector.h 480-494: an exception of the allocation is caught. -/
def Vec.shrinkToFit (env : Env) (v : Vec α) : Cxx (Vec α) :=
  if v.cap > v.size then
    match Buf.new env v.size v.size with
    | none => pure v
    | some b => swapOut v b
  else pure v

/-- `vector( vector const & )`, vector.h 256-265, and the range and count constructors 144-247, 284-294 that
allocate exactly the number of elements.  `none` stands for an exception. -/
def Vec.fromList (env : Env) (ys : List α) : Cxx (Option (Vec α)) :=
  if ys.length > 0 then
    match Vec.empty.vallocate env ys.length with
    | (false, _) => pure none
    | (true, v) => do
      let v ← v.constructList ys
      pure (some v)
  else pure (some Vec.empty)

/-- The elements seen by iterating from `begin()` to `end()`, vector.h 396-410. -/
def Vec.toList (v : Vec α) : Cxx (List α) := go v.mem 0 v.last
where
  go (m : Mem α) (i : Nat) : Nat → Cxx (List α)
    | 0 => pure []
    | n + 1 => do
      let a ← value m i
      let rest ← go m (i + 1) n
      pure (a :: rest)

/-- `at( n )`, vector.h 509-525. -/
def Vec.at (v : Vec α) (n : Nat) : Cxx α :=
  if n ≥ v.size then thrown else value v.mem n

/-- `operator[]`, vector.h 496-507. -/
def Vec.get (v : Vec α) (n : Nat) : Cxx α := value v.mem n

end Verif.Vector
