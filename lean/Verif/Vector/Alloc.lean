import Verif.Vector.Insert

/-
Move and copy of `daw::vector` with allocators that may be unequal, vector.h 267-336, 1093-1114 and 1203-1241.  An allocator is a number;
allocators are equal if the numbers are.  A block remembers the allocator it came from and has to be returned to an equal one.
-/

namespace Verif.Vector
open Cxx

variable {α : Type}

/-- A vector with its allocator and the allocator its block came from, vector.h 133-136. -/
structure AVec (α : Type) where
  v : Vec α
  alloc : Nat
  owner : Nat

/-- An empty vector, `vector( allocator )`, vector.h 141-143. -/
def AVec.empty (a : Nat) : AVec α := ⟨Vec.empty, a, a⟩

/-- `alloc_traits::deallocate( alloc( ), m_begin, capacity( ) )`: the block has to be one of an equal allocator.
(Rule of C++ or its library, no line of the source.) -/
def AVec.mayFree (a : AVec α) : Cxx Unit := if a.owner = a.alloc then pure () else ub

/-- `vdeallocate()`, vector.h 951-957. -/
def AVec.vdeallocate (a : AVec α) : Cxx (AVec α) :=
  if a.v.mem.length = 0 then pure a
  else do
    a.mayFree
    let v ← a.v.vdeallocate
    pure { a with v := v }

/-- `~vector`, vector.h 249-254: the number of blocks not released. -/
def AVec.destruct (a : AVec α) : Cxx Nat :=
  if a.v.mem.length = 0 then pure a.v.blocks
  else do
    a.mayFree
    a.v.destruct

/-- `assign( ForwardIterator, ForwardIterator )`, vector.h 350-375: a new block comes from the allocator of the vector. -/
def AVec.assign (env : Env) (a : AVec α) (ys : List α) : Cxx (Bool × AVec α) :=
  if ys.length ≤ a.v.cap then do
    let (ok, v) ← a.v.assignRange env ys
    pure (ok, { a with v := v })
  else do
    let _ ← (if a.v.mem.length = 0 then pure () else a.mayFree : Cxx Unit)
    let (ok, v) ← a.v.assignRange env ys
    pure (ok, ⟨v, a.alloc, a.alloc⟩)

/-- The elements of a vector after they have been moved from. (Rule of C++ or its library, no line of the source.) -/
def Vec.husk (v : Vec α) : Vec α := { v with mem := (v.mem.take v.last).map (fun _ => Cell.moved) ++ v.mem.drop v.last }

/-- `assign( move_it_t( x.begin( ) ), move_it_t( x.end( ) ) )`, vector.h 318-319 and 1097-1098.  `std::move_iterator` counts as a forward
iterator, as in the current standard.  If the allocation fails no element has been moved yet. -/
def AVec.assignMoved (env : Env) (a x : AVec α) : Cxx (Bool × AVec α × AVec α) := do
  let ys ← x.v.toList
  let (ok, a) ← a.assign env ys
  pure (ok, a, if ok then { x with v := x.v.husk } else x)

/-- `vector( vector && )`, vector.h 296-304: the new vector and the source. -/
def AVec.moveCtor (x : AVec α) : AVec α × AVec α := (⟨x.v, x.alloc, x.owner⟩, { x with v := Vec.empty })

/-- `vector( vector &&, allocator const & )`, vector.h 306-321: success, the new vector and the source. -/
def AVec.moveCtorWith (env : Env) (x : AVec α) (al : Nat) : Cxx (Bool × AVec α × AVec α) :=
  if al = x.alloc then pure (true, ⟨x.v, al, x.owner⟩, { x with v := Vec.empty })
  else AVec.assignMoved env (AVec.empty al) x

/-- `move_assign( c, std::true_type )`, vector.h 1104-1114, with `move_assign_alloc`, 1209-1215 and 1236-1241, which goes by the trait of
the allocator. -/
def AVec.steal (pocma : Bool) (a x : AVec α) : Cxx (AVec α × AVec α) := do
  let a ← a.vdeallocate
  let al := if pocma then x.alloc else a.alloc
  pure (⟨x.v, al, x.owner⟩, { x with v := Vec.empty })

/-- `operator=( vector && )`, vector.h 327-336, with `move_assign( c, std::false_type )`, 1093-1102, for different objects. -/
def AVec.moveAssign (pocma : Bool) (env : Env) (a x : AVec α) : Cxx (Bool × AVec α × AVec α) :=
  if pocma then do
    let (a, x) ← a.steal pocma x
    pure (true, a, x)
  else if a.alloc ≠ x.alloc then AVec.assignMoved env a x
  else do
    let (a, x) ← a.steal pocma x
    pure (true, a, x)

/-- `copy_assign_alloc( c )`, vector.h 1203-1207 and 1225-1234: `deallocate` is also called if there is no block; a null pointer did not
come from `allocate`. -/
def AVec.copyAssignAlloc (pocca : Bool) (a x : AVec α) : Cxx (AVec α) :=
  if pocca then
    if a.alloc ≠ x.alloc then do
      let v ← a.v.clear
      if v.mem.length = 0 then ub
      else do
        a.mayFree
        release v.mem
        pure ⟨⟨[], 0, v.blocks - 1⟩, x.alloc, a.owner⟩
    else pure { a with alloc := x.alloc }
  else pure a

/-- `operator=( vector const & )`, vector.h 278-284, for different objects. -/
def AVec.copyAssign (pocca : Bool) (env : Env) (a x : AVec α) : Cxx (Bool × AVec α) := do
  let a ← a.copyAssignAlloc pocca x
  let ys ← x.v.toList
  a.assign env ys

/-- The vector holds the elements, and its block, if any, can be returned to its allocator. (Specification, no line of the source.) -/
def AOk (a : AVec α) (xs : List α) : Prop := Rep a.v xs ∧ (a.v.cap ≠ 0 → a.owner = a.alloc)

/-- All elements have been moved from. (Specification, no line of the source.) -/
def AHusk (a : AVec α) (n : Nat) : Prop :=
  (∃ k, a.v.mem = mv n ++ rw' k) ∧ a.v.last = n ∧ a.v.blocks = (if a.v.cap = 0 then 0 else 1) ∧ (a.v.cap ≠ 0 → a.owner = a.alloc)

theorem AOk.empty (a : Nat) : AOk (AVec.empty a : AVec α) [] := ⟨rep_empty, fun _ => rfl⟩

theorem AOk.gone {x : AVec α} {xs : List α} (_ : AOk x xs) : AOk ({ x with v := Vec.empty } : AVec α) [] := ⟨rep_empty, fun h => absurd rfl h⟩

/-- C215: a vector can be destroyed and leaves no block behind, also after its elements have been moved from. -/
theorem C215_destruct (a : AVec α) : (∀ xs, AOk a xs → a.destruct = pure 0) ∧ (∀ n, AHusk a n → a.destruct = pure 0) := by
  constructor
  · rintro xs ⟨hr, ho⟩
    unfold AVec.destruct
    by_cases hc : a.v.mem.length = 0
    · rw [if_pos hc, hr.blocks, if_pos (show a.v.cap = 0 from hc)]
    · rw [if_neg hc]
      unfold AVec.mayFree
      rw [if_pos (ho hc), pure_bind, Vec.destruct_spec hr]
  · rintro n ⟨⟨k, hm⟩, hl, hb, ho⟩
    unfold AVec.destruct
    by_cases hc : a.v.mem.length = 0
    · rw [if_pos hc, hb, if_pos (show a.v.cap = 0 from hc)]
    · rw [if_neg hc]
      unfold AVec.mayFree
      rw [if_pos (ho hc), pure_bind]
      obtain ⟨v', e, hr, hcap⟩ := Vec.destructAtEnd_spec' (v := a.v) (xs := []) (Z := mv n) (k := k) (by simpa using hm) (objs_mv _)
        (by simp [hl]) hb
      unfold Vec.destruct Vec.clear
      rw [if_neg hc]
      simp only [List.length_nil] at e
      rw [e, pure_bind]
      have : v'.mem = rw' v'.cap := by rw [hr.mem]; simp
      rw [this, release_raw, pure_bind, hr.blocks, hcap, if_neg (show a.v.cap ≠ 0 from hc)]

theorem AVec.vdeallocate_spec {a : AVec α} {xs : List α} (h : AOk a xs) : a.vdeallocate = pure { a with v := Vec.empty } := by
  unfold AVec.vdeallocate
  have e := Vec.vdeallocate_spec h.1
  by_cases hc : a.v.mem.length = 0
  · rw [if_pos hc]
    unfold Vec.vdeallocate at e
    rw [if_pos hc] at e
    have := Cxx.pure_inj.mp e
    rw [← this]
  · rw [if_neg hc]
    unfold AVec.mayFree
    rw [if_pos (h.2 hc), pure_bind, e, pure_bind]

/-- What `assign` of a vector with an allocator does. (Specification, no line of the source.) -/
def AAssigns (env : Env) (a : AVec α) (ys : List α) (ok : Bool) (a' : AVec α) : Prop :=
  (ok = true → AOk a' ys) ∧ (ok = false → AOk a' []) ∧ a'.alloc = a.alloc ∧
  (ok = true ↔ ys.length ≤ a.v.cap ∨ (grow env 0 ys.length).isSome)

theorem AVec.assign_spec (env : Env) {a : AVec α} {xs : List α} (h : AOk a xs) (ys : List α) :
    ∃ ok a', a.assign env ys = pure (ok, a') ∧ AAssigns env a ys ok a' := by
  have hs := Vec.assignRange_spec env h.1 ys
  unfold Assigns at hs
  unfold AVec.assign
  by_cases hfit : ys.length ≤ a.v.cap
  · rw [if_pos hfit] at hs ⊢
    obtain ⟨v', e, hr, hc⟩ := hs
    refine ⟨true, { a with v := v' }, by rw [e]; rfl, fun _ => ⟨hr, fun hn => h.2 (by rw [← hc]; exact hn)⟩, fun hf => (by cases hf), rfl,
      fun _ => .inl hfit, fun _ => rfl⟩
  · rw [if_neg hfit] at hs ⊢
    have hfree : (if a.v.mem.length = 0 then pure () else a.mayFree : Cxx Unit) = pure () := by
      by_cases hc : a.v.mem.length = 0
      · rw [if_pos hc]
      · rw [if_neg hc]; unfold AVec.mayFree; rw [if_pos (h.2 hc)]
    rw [hfree, pure_bind]
    cases hg : grow env 0 ys.length with
    | none =>
      rw [hg] at hs
      refine ⟨false, ⟨Vec.empty, a.alloc, a.alloc⟩, by rw [show a.v.assignRange env ys = _ from hs]; rfl, fun hf => (by cases hf),
        fun _ => ⟨rep_empty, fun _ => rfl⟩, rfl, fun hf => (by cases hf), ?_⟩
      rintro (hl | hs)
      · exact absurd hl hfit
      · rw [hg] at hs; cases hs
    | some c =>
      rw [hg] at hs
      obtain ⟨v', e, hr, hc⟩ := hs
      exact ⟨true, ⟨v', a.alloc, a.alloc⟩, by rw [e]; rfl, fun _ => ⟨hr, fun _ => rfl⟩, fun hf => (by cases hf), rfl,
        fun _ => .inr (by rw [hg]; rfl), fun _ => rfl⟩

theorem husk_spec {x : AVec α} {xs : List α} (h : AOk x xs) : AHusk { x with v := x.v.husk } xs.length := by
  obtain ⟨k, hm, hk⟩ := h.1.ex
  have hmem : x.v.husk.mem = mv xs.length ++ rw' k := by
    unfold Vec.husk
    dsimp only
    rw [h.1.last, hm, List.take_append_of_le_length (by simp), List.drop_append_of_le_length (by simp),
      List.take_of_length_le (by simp), List.drop_of_length_le (by simp), List.nil_append]
    congr 1
    simp [lv, mv]
    exact List.map_const' ..
  have hcap : x.v.husk.cap = x.v.cap := by
    unfold Vec.cap
    rw [hmem, hm]
    simp
  refine ⟨⟨k, hmem⟩, h.1.last, ?_, ?_⟩
  · show x.v.blocks = if x.v.husk.cap = 0 then 0 else 1
    rw [hcap]; exact h.1.blocks
  · intro hc
    exact h.2 (by rw [← hcap]; exact hc)

theorem AVec.assignMoved_spec (env : Env) {a x : AVec α} {xs ys : List α} (h : AOk a xs) (hx : AOk x ys) :
    ∃ ok a' x', a.assignMoved env x = pure (ok, a', x') ∧ AAssigns env a ys ok a' ∧ x'.alloc = x.alloc ∧
      (ok = true → AHusk x' ys.length) ∧ (ok = false → x' = x) := by
  obtain ⟨ok, a', e, hs⟩ := AVec.assign_spec env h ys
  refine ⟨ok, a', if ok then { x with v := x.v.husk } else x, ?_, hs, by cases ok <;> rfl, ?_, ?_⟩
  · unfold AVec.assignMoved
    rw [Vec.toList_spec hx.1, pure_bind, e]
    rfl
  · intro hok; rw [hok]; exact husk_spec hx
  · intro hok; rw [hok]; rfl

/-- C215, the move constructor: the elements and the block change hands without allocation, and the source is empty. -/
theorem C215_move_construct {x : AVec α} {xs : List α} (h : AOk x xs) :
    AOk x.moveCtor.1 xs ∧ x.moveCtor.1.v = x.v ∧ x.moveCtor.1.alloc = x.alloc ∧ AOk x.moveCtor.2 [] :=
  ⟨h, rfl, rfl, h.gone⟩

example := C215_move_construct (x := ⟨⟨[.live 4, .live 5, .raw], 2, 1⟩, 7, 7⟩) (xs := [4, 5]) ⟨⟨rfl, by decide, rfl, rfl⟩, fun _ => rfl⟩

/-- C215, the move constructor with an allocator: the new vector has the elements and the allocator given.  With an equal allocator
it takes over the block; otherwise the elements are moved one by one, and if there is no memory for that the source is unchanged. -/
theorem C215_move_construct_with (env : Env) {x : AVec α} {xs : List α} (h : AOk x xs) (al : Nat) :
    ∃ ok n x', x.moveCtorWith env al = pure (ok, n, x') ∧ n.alloc = al ∧ x'.alloc = x.alloc ∧
      (ok = true → AOk n xs) ∧ (ok = false → AOk n [] ∧ x' = x) ∧
      (al = x.alloc → ok = true ∧ n.v = x.v ∧ AOk x' []) ∧
      (al ≠ x.alloc → (ok = true ↔ xs = [] ∨ (grow env 0 xs.length).isSome) ∧ (ok = true → AHusk x' xs.length)) := by
  unfold AVec.moveCtorWith
  by_cases he : al = x.alloc
  · rw [if_pos he]
    exact ⟨true, _, _, rfl, rfl, rfl, fun _ => ⟨h.1, fun hc => (h.2 hc).trans he.symm⟩, fun hf => (by cases hf), fun _ => ⟨rfl, rfl, h.gone⟩,
      fun hn => absurd he hn⟩
  · rw [if_neg he]
    obtain ⟨ok, a', x', e, ⟨h1, h2, h3, h4⟩, h5, h6, h7⟩ := AVec.assignMoved_spec env (AOk.empty al) h
    refine ⟨ok, a', x', e, h3, h5, h1, fun hf => ⟨h2 hf, h7 hf⟩, fun hn => absurd hn he, fun _ => ⟨?_, h6⟩⟩
    rw [h4]
    constructor
    · rintro (hl | hg)
      · exact .inl (List.length_eq_zero_iff.1 (Nat.le_zero.1 hl))
      · exact .inr hg
    · rintro (rfl | hg)
      · exact .inl (Nat.le_refl _)
      · exact .inr hg

example := C215_move_construct_with ⟨100, fun _ => true⟩ (x := ⟨⟨[.live 4, .live 5, .raw], 2, 1⟩, 7, 7⟩) (xs := [4, 5]) ⟨⟨rfl, by decide, rfl, rfl⟩, fun _ => rfl⟩ 8

/-- C215, move assignment between different vectors: the target has the elements of the source.  If the allocator goes along or the
allocators are equal, the block changes hands, the old one has been returned and the source is empty; otherwise the elements are moved
one by one, and if there is no memory for that the target is empty and the source is unchanged. -/
theorem C215_move_assign (pocma : Bool) (env : Env) {a x : AVec α} {xs ys : List α} (h : AOk a xs) (hx : AOk x ys) :
    ∃ ok a' x', a.moveAssign pocma env x = pure (ok, a', x') ∧ a'.alloc = (if pocma then x.alloc else a.alloc) ∧ x'.alloc = x.alloc ∧
      (ok = true → AOk a' ys) ∧ (ok = false → AOk a' [] ∧ x' = x) ∧
      (pocma = true ∨ a.alloc = x.alloc → ok = true ∧ a'.v = x.v ∧ AOk x' []) ∧
      (pocma = false ∧ a.alloc ≠ x.alloc →
        (ok = true ↔ ys.length ≤ a.v.cap ∨ (grow env 0 ys.length).isSome) ∧ (ok = true → AHusk x' ys.length)) := by
  have hsteal : a.steal pocma x = pure (⟨x.v, if pocma then x.alloc else a.alloc, x.owner⟩, { x with v := Vec.empty }) := by
    unfold AVec.steal
    rw [AVec.vdeallocate_spec h, pure_bind]
  unfold AVec.moveAssign
  cases hp : pocma with
  | true =>
    rw [hp] at hsteal
    rw [if_pos rfl, hsteal]
    exact ⟨true, _, _, rfl, rfl, rfl, fun _ => ⟨hx.1, hx.2⟩, fun hf => (by cases hf), fun _ => ⟨rfl, rfl, hx.gone⟩,
      fun hn => by cases hn.1⟩
  | false =>
    rw [hp] at hsteal
    rw [if_neg (by decide)]
    by_cases he : a.alloc = x.alloc
    · rw [if_neg (by simpa using he), hsteal]
      exact ⟨true, _, _, rfl, rfl, rfl, fun _ => ⟨hx.1, fun hc => (hx.2 hc).trans he.symm⟩, fun hf => (by cases hf),
        fun _ => ⟨rfl, rfl, hx.gone⟩, fun hn => absurd he hn.2⟩
    · rw [if_pos he]
      obtain ⟨ok, a', x', e, ⟨h1, h2, h3, h4⟩, h5, h6, h7⟩ := AVec.assignMoved_spec env h hx
      refine ⟨ok, a', x', e, h3, h5, h1, fun hf => ⟨h2 hf, h7 hf⟩, ?_, fun _ => ⟨h4, h6⟩⟩
      rintro (hc | hc)
      · cases hc
      · exact absurd hc he

example := C215_move_assign false ⟨100, fun _ => true⟩ (AOk.empty (α := Nat) 3) (x := ⟨⟨[.live 4, .live 5, .raw], 2, 1⟩, 7, 7⟩) (ys := [4, 5]) ⟨⟨rfl, by decide, rfl, rfl⟩, fun _ => rfl⟩

/-- C215, copy assignment between different vectors: the target has the elements, and the allocator of the source if that is
propagated.  Missing: a target without a block whose allocator is replaced by a different one, see `C215_copy_assign_violated`. -/
theorem C215_copy_assign_partial (pocca : Bool) (env : Env) {a x : AVec α} {xs ys : List α} (h : AOk a xs) (hx : AOk x ys)
    (hok : pocca = true → a.alloc ≠ x.alloc → a.v.cap ≠ 0) :
    ∃ ok a', a.copyAssign pocca env x = pure (ok, a') ∧ a'.alloc = (if pocca then x.alloc else a.alloc) ∧
      (ok = true → AOk a' ys) ∧ (ok = false → AOk a' []) ∧
      (ok = true ↔ ys.length ≤ (if pocca ∧ a.alloc ≠ x.alloc then 0 else a.v.cap) ∨ (grow env 0 ys.length).isSome) := by
  have key : ∃ b zs, a.copyAssignAlloc pocca x = pure b ∧ AOk b zs ∧ b.alloc = (if pocca then x.alloc else a.alloc) ∧
      b.v.cap = if pocca ∧ a.alloc ≠ x.alloc then 0 else a.v.cap := by
    unfold AVec.copyAssignAlloc
    cases hp : pocca with
    | false => exact ⟨a, xs, rfl, h, rfl, by simp⟩
    | true =>
      rw [if_pos rfl]
      by_cases he : a.alloc = x.alloc
      · rw [if_neg (by simpa using he)]
        refine ⟨_, xs, rfl, ⟨h.1, fun hc => (h.2 hc).trans he⟩, rfl, by simp [he]⟩
      · have hc := hok hp he
        rw [if_pos he]
        obtain ⟨v', e, hr, hcap⟩ := Vec.clear_spec h.1
        have hb := hr.blocks
        have hc' : v'.cap ≠ 0 := by rw [hcap]; exact hc
        rw [if_neg hc'] at hb
        rw [e, pure_bind, if_neg (show ¬ v'.mem.length = 0 from hc')]
        unfold AVec.mayFree
        have hm : v'.mem = rw' v'.cap := by rw [hr.mem]; simp
        rw [if_pos (h.2 hc), pure_bind, hm, release_raw, pure_bind, hb]
        exact ⟨_, [], rfl, ⟨rep_empty, fun hn => absurd rfl hn⟩, rfl, by simp [he, Vec.cap]⟩
  obtain ⟨b, zs, e, hb, hal, hcap⟩ := key
  obtain ⟨ok, a', e2, h1, h2, h3, h4⟩ := AVec.assign_spec env hb ys
  refine ⟨ok, a', ?_, h3.trans hal, h1, h2, ?_⟩
  · unfold AVec.copyAssign
    rw [e, pure_bind, Vec.toList_spec hx.1, pure_bind, e2]
  · rw [← hcap]; exact h4

example := C215_copy_assign_partial false ⟨100, fun _ => true⟩ (AOk.empty (α := Nat) 3) (x := ⟨⟨[.live 4, .live 5, .raw], 2, 1⟩, 7, 7⟩) (ys := [4, 5]) ⟨⟨rfl, by decide, rfl, rfl⟩, fun _ => rfl⟩ (by simp)

/-- C215 does not hold for copy assignment to a vector without a block, if the allocator is propagated and different: a null pointer is
deallocated. -/
theorem C215_copy_assign_violated (env : Env) (al : Nat) (x : AVec α) (he : al ≠ x.alloc) :
    (AVec.empty al).copyAssign true env x = ub := by
  unfold AVec.copyAssign AVec.copyAssignAlloc
  rw [if_pos rfl, if_pos (show (AVec.empty al : AVec α).alloc ≠ x.alloc from he)]
  rfl

/-- Two vectors with different allocators. -/
example : AOk (⟨⟨lv [1, 2, 3] ++ rw' 1, 3, 1⟩, 7, 7⟩ : AVec Nat) [1, 2, 3] ∧ AOk (AVec.empty 8 : AVec Nat) [] :=
  ⟨⟨(Rep.of (k := 1) rfl rfl rfl).1, fun _ => rfl⟩, AOk.empty 8⟩
example : (⟨⟨lv [1, 2, 3] ++ rw' 1, 3, 1⟩, 7, 7⟩ : AVec Nat).moveCtorWith ⟨100, fun _ => true⟩ 8 =
    pure (true, ⟨⟨lv [1, 2, 3], 3, 1⟩, 8, 8⟩, ⟨⟨mv 3 ++ rw' 1, 3, 1⟩, 7, 7⟩) := rfl

end Verif.Vector
