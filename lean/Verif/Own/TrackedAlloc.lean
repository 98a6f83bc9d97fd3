import Verif.Own.SafePointer

/-
`daw::memory::tracked_allocator`, include/daw/daw_tracked_allocator.h, with the checks of `safe_pointer` on.
-/

namespace Verif.Own.Tracked
open Verif Verif.Cxx Verif.Own.SafePointer

/-- A block of memory of the underlying allocator. (Specification, no line of the source.) -/
structure Block where
  size : Nat
  live : Bool
  deriving DecidableEq

/-- The blocks given so far, and the variables of the type `pointer`, with the block each points into; `none` for null pointers. (Specification, no line of the source.) -/
structure St where
  blocks : List Block
  vars : Nat → Option (Nat × SP)

/-- A variable is assigned. (Specification, no line of the source.) -/
def St.set (s : St) (x : Nat) (v : Option (Nat × SP)) : St := { s with vars := fun y => if y = x then v else s.vars y }

/-- `x = alloc.allocate( n )`, daw_tracked_allocator.h 57-60: a block of objects that does not fit into memory is refused with an exception. -/
def allocate (s : St) (x n : Nat) : Cxx St :=
  if n < 2 ^ 63 then pure (St.set { s with blocks := s.blocks ++ [⟨n, true⟩] } x (some (s.blocks.length, ofRange n))) else thrown

/-- `y = x` for pointers, copied member by member, daw_safe_pointer.h 43-45. -/
def copy (s : St) (x y : Nat) : Cxx St := pure (s.set y (s.vars x))

/-- `x += k`, daw_safe_pointer.h 205-212; a null pointer has index 0 and size 0. -/
def advance (s : St) (x : Nat) (k : Int) : Cxx St :=
  match s.vars x with
  | none => if k = 0 then pure s else abort
  | some (b, p) => do
    let p ← SafePointer.add p k
    pure (s.set x (some (b, p)))

/-- `alloc.construct( x )` and `alloc.destroy( x )`, daw_tracked_allocator.h 70-82: the object is accessed.  Simplified: whether there is an object is not kept. -/
def access (s : St) (x : Nat) : Cxx St :=
  match s.vars x with
  | none => abort
  | some (b, p) =>
    if ok p then
      match s.blocks[b]? with
      | some blk => if blk.live = true ∧ 0 ≤ p.pos ∧ p.pos < blk.size then pure s else ub
      | none => ub
    else abort

/-- The underlying `deallocate`, as called in daw_tracked_allocator.h 67: undefined for blocks that were given back and for the wrong size. -/
def free (s : St) (b n : Nat) : Cxx St :=
  match s.blocks[b]? with
  | some blk => if blk.live = true ∧ n = blk.size then pure { s with blocks := s.blocks.set b ⟨blk.size, false⟩ } else ub
  | none => ub

/-- `alloc.deallocate( x, n )`, daw_tracked_allocator.h 62-68, with `destroy`, daw_safe_pointer.h 137-142. -/
def deallocate (s : St) (x n : Nat) : Cxx St :=
  match s.vars x with
  | none => abort
  | some (b, p) =>
    if ok p then
      if p.pos = 0 then free (s.set x (some (b, { p with destroyed := true }))) b n else abort
    else abort

/-- `std::allocator_traits<...>::deallocate( alloc, x, n )`, daw_tracked_allocator.h 62-68: containers call this function, which takes the pointer by value, so that
`deallocate` is given a copy. -/
def traitsDeallocate (s : St) (x n : Nat) : Cxx St :=
  match s.vars x with
  | none => abort
  | some (b, p) =>
    if ok p then
      if p.pos = 0 then free s b n else abort
    else abort

/-- The operations on pointers and their memory. (Specification, no line of the source.) -/
inductive Op
  | allocate (x n : Nat)
  | copy (x y : Nat)
  | advance (x : Nat) (k : Int)
  | access (x : Nat)
  | deallocate (x n : Nat)
  | traitsDeallocate (x n : Nat)

/-- One operation. (Specification, no line of the source.) -/
def Op.step (s : St) : Op → Cxx St
  | .allocate x n => Tracked.allocate s x n
  | .copy x y => Tracked.copy s x y
  | .advance x k => Tracked.advance s x k
  | .access x => Tracked.access s x
  | .deallocate x n => Tracked.deallocate s x n
  | .traitsDeallocate x n => Tracked.traitsDeallocate s x n

/-- A program. (Specification, no line of the source.) -/
def run (s : St) : List Op → Cxx St
  | [] => pure s
  | op :: ops => do
    let s ← op.step s
    run s ops

/-- The start of a program. (Specification, no line of the source.) -/
def start : St := ⟨[], fun _ => none⟩

/-- Operations that leave each block to one variable and tell that variable when its block is given back, with numbers of the type `std::ptrdiff_t`. (Specification, no line of the source.) -/
def Op.single : Op → Bool
  | .copy _ _ => false
  | .traitsDeallocate _ _ => false
  | .advance _ k => decide (-2 ^ 63 ≤ k)
  | _ => true

/-- The errors that are not noticed: an access one past the end, a wrong size, and going back by the least number. (Specification, no line of the source.) -/
def Missed (s : St) : Op → Prop
  | .access x => ∃ b p, s.vars x = some (b, p) ∧ p.destroyed = false ∧ p.pos = p.size
  | .deallocate x n => ∃ b p, s.vars x = some (b, p) ∧ p.destroyed = false ∧ p.pos = 0 ∧ n ≠ p.size
  | .advance x k => ∃ b p, s.vars x = some (b, p) ∧ k = -2 ^ 63
  | _ => False

/-- Each block belongs to one variable at most, which knows its size, stays inside, and knows whether it was given back. (Specification, no line of the source.) -/
def Inv (s : St) : Prop :=
  (∀ x y b p q, s.vars x = some (b, p) → s.vars y = some (b, q) → x = y) ∧
  ∀ x b p, s.vars x = some (b, p) → ∃ blk, s.blocks[b]? = some blk ∧ Valid p ∧ p.size = blk.size ∧ blk.live = !p.destroyed

theorem inv_start : Inv start := ⟨fun _ _ _ _ _ h => (by cases h), fun _ _ _ h => (by cases h)⟩

/-- An invariant pointer moved or marked in place. -/
theorem inv_set {s : St} (h : Inv s) {x b : Nat} {p p' : SP} (hx : s.vars x = some (b, p)) (hv : Valid p') (hs : p'.size = p.size)
    (hd : p'.destroyed = p.destroyed) : Inv (s.set x (some (b, p'))) := by
  constructor
  · intro y z c q r hy hz
    simp only [St.set] at hy hz
    split at hy
    · rename_i ey
      split at hz
      · rename_i ez
        rw [ey, ez]
      · cases hy
        rw [ey]
        exact h.1 x z b p r hx hz
    · split at hz
      · rename_i ez
        cases hz
        rw [ez]
        exact h.1 y x b q p hy hx
      · exact h.1 y z c q r hy hz
  · intro y c q hy
    simp only [St.set] at hy
    split at hy
    · cases hy
      obtain ⟨blk, h1, -, h3, h4⟩ := h.2 x b p hx
      exact ⟨blk, h1, hv, by rw [hs, h3], by rw [hd, h4]⟩
    · exact h.2 y c q hy

theorem inv_free {s : St} (h : Inv s) {x b : Nat} {p : SP} {blk : Block} (hx : s.vars x = some (b, p)) (hb : s.blocks[b]? = some blk) :
    Inv { St.set s x (some (b, { p with destroyed := true })) with blocks := s.blocks.set b ⟨blk.size, false⟩ } := by
  obtain ⟨blk', h1, hv, h3, -⟩ := h.2 x b p hx
  rw [hb] at h1
  cases h1
  constructor
  · intro y z c q r hy hz
    simp only [St.set] at hy hz
    split at hy
    · rename_i ey
      split at hz
      · rename_i ez
        rw [ey, ez]
      · cases hy
        rw [ey]
        exact h.1 x z b p r hx hz
    · split at hz
      · rename_i ez
        cases hz
        rw [ez]
        exact h.1 y x b q p hy hx
      · exact h.1 y z c q r hy hz
  · intro y c q hy
    simp only [St.set] at hy
    split at hy
    · cases hy
      refine ⟨⟨blk.size, false⟩, ?_, hv, h3, rfl⟩
      rw [List.getElem?_set]
      have : b < s.blocks.length := (List.getElem?_eq_some_iff.1 hb).1
      simp [this]
    · rename_i ey
      obtain ⟨blk2, g1, g2, g3, g4⟩ := h.2 y c q hy
      refine ⟨blk2, ?_, g2, g3, g4⟩
      have : b ≠ c := by
        intro e
        subst e
        exact ey (h.1 y x b q p hy hx)
      show (s.blocks.set b ⟨blk.size, false⟩)[c]? = _
      rw [List.getElem?_set_ne this]
      exact g1

theorem inv_alloc {s : St} (h : Inv s) (x n : Nat) (hn : n < 2 ^ 63) :
    Inv (St.set { s with blocks := s.blocks ++ [⟨n, true⟩] } x (some (s.blocks.length, ofRange n))) := by
  have old : ∀ y b p, s.vars y = some (b, p) → b < s.blocks.length := by
    intro y b p hy
    obtain ⟨blk, h1, -⟩ := h.2 y b p hy
    exact (List.getElem?_eq_some_iff.1 h1).1
  constructor
  · intro y z c q r hy hz
    simp only [St.set] at hy hz
    split at hy
    · rename_i ey
      split at hz
      · rename_i ez
        rw [ey, ez]
      · cases hy
        exact absurd (old z _ r hz) (by omega)
    · split at hz
      · cases hz
        exact absurd (old y _ q hy) (by omega)
      · exact h.1 y z c q r hy hz
  · intro y c q hy
    simp only [St.set] at hy
    split at hy
    · cases hy
      refine ⟨⟨n, true⟩, by simp [St.set], ?_, rfl, rfl⟩
      unfold Valid ofRange
      exact ⟨rfl, by simp only []; omega, by simp only []; omega, by simp only []; omega⟩
    · obtain ⟨blk, h1, h2⟩ := h.2 y c q hy
      refine ⟨blk, ?_, h2⟩
      show (s.blocks ++ [_])[c]? = _
      rw [List.getElem?_append_left (old y c q hy)]
      exact h1

/-- C365, as far as it holds: as long as each block is left to one variable, every operation is defined, or the program is stopped, or the block is refused, but for the
errors of `Missed`; and the next operation starts from a state like this one.  Missing: copies of pointers and calls through `std::allocator_traits`, see the theorems
that follow. -/
theorem C365_step_partial (s : St) (op : Op) (h : Inv s) (hs : op.single = true) :
    (op.step s = ub ↔ Missed s op) ∧ ∀ t, op.step s = pure t → Inv t := by
  cases op with
  | copy x y => cases hs
  | traitsDeallocate x n => cases hs
  | allocate x n =>
    simp only [Op.step, allocate, Missed]
    by_cases hn : n < 2 ^ 63
    · rw [if_pos hn]
      refine ⟨⟨fun e => absurd e.symm (ub_ne_pure _), False.elim⟩, ?_⟩
      intro t ht
      rw [← pure_inj.1 ht]
      exact inv_alloc h x n hn
    · rw [if_neg hn]
      exact ⟨⟨fun e => (by cases e), False.elim⟩, fun t ht => (by cases ht)⟩
  | advance x k =>
    simp only [Op.step, advance, Missed]
    cases hx : s.vars x with
    | none =>
      by_cases hk : k = 0
      · simp only [if_pos hk]
        refine ⟨⟨fun e => absurd e.symm (ub_ne_pure _), fun ⟨_, _, e, _⟩ => (by cases e)⟩, ?_⟩
        intro t ht
        rw [← pure_inj.1 ht]
        exact h
      · simp only [if_neg hk]
        exact ⟨⟨fun e => (by cases e), fun ⟨_, _, e, _⟩ => (by cases e)⟩, fun t ht => (by cases ht)⟩
    | some v =>
      obtain ⟨b, p⟩ := v
      obtain ⟨blk, h1, hv, h3, h4⟩ := h.2 x b p hx
      simp only []
      by_cases hk : k ≤ -2 ^ 63
      · by_cases hk2 : k = -2 ^ 63
        · have e : SafePointer.add p k = ub := by
            unfold SafePointer.add canAdd
            rw [if_pos (by omega), if_pos (by omega), if_pos hk2]
            rfl
          rw [e]
          exact ⟨⟨fun _ => ⟨b, p, rfl, hk2⟩, fun _ => rfl⟩, fun t ht => (by cases ht)⟩
        · have : -2 ^ 63 ≤ k := of_decide_eq_true hs
          omega
      · rw [C113_add_partial p hv k (by omega)]
        split
        · rename_i hr
          refine ⟨⟨fun e => absurd e.symm (ub_ne_pure _), fun ⟨_, _, _, e⟩ => absurd e (by omega)⟩, ?_⟩
          intro t ht
          rw [← pure_inj.1 ht]
          exact inv_set h hx ⟨hv.1, hr.1, hr.2, hv.2.2.2⟩ rfl rfl
        · exact ⟨⟨fun e => (by cases e), fun ⟨_, _, _, e⟩ => absurd e (by omega)⟩, fun t ht => (by cases ht)⟩
  | access x =>
    simp only [Op.step, access, Missed]
    cases hx : s.vars x with
    | none => exact ⟨⟨fun e => (by cases e), fun ⟨_, _, e, _⟩ => (by cases e)⟩, fun t ht => (by cases ht)⟩
    | some v =>
      obtain ⟨b, p⟩ := v
      obtain ⟨blk, h1, hv, h3, h4⟩ := h.2 x b p hx
      simp only [h1, ok]
      cases hd : p.destroyed with
      | true =>
        simp only [Bool.not_true, Bool.false_eq_true, if_false]
        exact ⟨⟨fun e => (by cases e), fun ⟨_, _, e, e2, _⟩ => (by cases e; rw [hd] at e2; cases e2)⟩, fun t ht => (by cases ht)⟩
      | false =>
        rw [hd] at h4
        simp only [Bool.not_false, if_true]
        by_cases hp : p.pos = p.size
        · rw [if_neg (by rw [← h3]; omega)]
          exact ⟨⟨fun _ => ⟨b, p, rfl, hd, hp⟩, fun _ => rfl⟩, fun t ht => absurd ht (ub_ne_pure _)⟩
        · have := hv.2.2.1
          rw [if_pos ⟨h4, hv.2.1, by rw [← h3]; omega⟩]
          refine ⟨⟨fun e => absurd e.symm (ub_ne_pure _), fun ⟨_, _, e, _, e2⟩ => (by cases e; exact absurd e2 hp)⟩, ?_⟩
          intro t ht
          rw [← pure_inj.1 ht]
          exact h
  | deallocate x n =>
    simp only [Op.step, deallocate, Missed]
    cases hx : s.vars x with
    | none => exact ⟨⟨fun e => (by cases e), fun ⟨_, _, e, _⟩ => (by cases e)⟩, fun t ht => (by cases ht)⟩
    | some v =>
      obtain ⟨b, p⟩ := v
      obtain ⟨blk, h1, hv, h3, h4⟩ := h.2 x b p hx
      simp only []
      rcases Bool.eq_false_or_eq_true p.destroyed with hd | hd
      · rw [if_neg (by rw [ok, hd]; decide)]
        exact ⟨⟨fun e => (by cases e), fun ⟨_, _, e, e2, _⟩ => (by cases e; rw [hd] at e2; cases e2)⟩, fun t ht => (by cases ht)⟩
      · rw [hd] at h4
        rw [if_pos (show ok p = true by rw [ok, hd]; rfl)]
        by_cases hp : p.pos = 0
        · rw [if_pos hp]
          have hb : (St.set s x (some (b, { p with destroyed := true }))).blocks[b]? = some blk := h1
          unfold free
          rw [hb]
          simp only []
          by_cases hn : n = p.size
          · rw [if_pos ⟨h4, by rw [hn, h3]⟩]
            refine ⟨⟨fun e => absurd e.symm (ub_ne_pure _), fun ⟨_, _, e, _, _, e2⟩ => (by cases e; exact absurd hn e2)⟩, ?_⟩
            intro t ht
            rw [← pure_inj.1 ht]
            exact inv_free h hx h1
          · rw [if_neg (by rw [← h3]; exact fun e => hn e.2)]
            exact ⟨⟨fun _ => ⟨b, p, rfl, hd, hp, hn⟩, fun _ => rfl⟩, fun t ht => absurd ht (ub_ne_pure _)⟩
        · rw [if_neg hp]
          exact ⟨⟨fun e => (by cases e), fun ⟨_, _, e, _, e2, _⟩ => (by cases e; exact absurd e2 hp)⟩, fun t ht => (by cases ht)⟩

/-- C365, whole programs: one that leaves each block to one variable and comes to an undefined operation has come to an error of `Missed` at that operation. -/
theorem C365_run_partial (ops : List Op) (hs : ∀ op ∈ ops, op.single = true) (h : run start ops = ub) :
    ∃ pre op post s, ops = pre ++ op :: post ∧ run start pre = pure s ∧ Missed s op := by
  have gen : ∀ ops s, Inv s → (∀ op ∈ ops, op.single = true) → run s ops = ub → ∃ pre op post t, ops = pre ++ op :: post ∧ run s pre = pure t ∧ Missed t op := by
    intro ops
    induction ops with
    | nil => intro s _ _ h; exact absurd h.symm (ub_ne_pure _)
    | cons op ops ih =>
      intro s hi hs h
      have hstep := C365_step_partial s op hi (hs op (List.mem_cons_self ..))
      by_cases hu : op.step s = ub
      · exact ⟨[], op, ops, s, rfl, rfl, hstep.1.1 hu⟩
      · cases hr : op.step s with
        | none => simp only [run, hr] at h; cases h
        | some r =>
          cases r with
          | error e => simp only [run, hr] at h; exact absurd (hr.trans h) hu
          | ok t =>
            have ht : op.step s = pure t := hr
            simp only [run, ht, pure_bind] at h
            obtain ⟨pre, op', post, u, e, h1, h2⟩ := ih t (hstep.2 t ht) (fun o ho => hs o (List.mem_cons_of_mem _ ho)) h
            refine ⟨op :: pre, op', post, u, by rw [e]; rfl, ?_, h2⟩
            simp only [run, ht, pure_bind]
            exact h1
  exact gen ops start inv_start hs h

example : run start [.allocate 0 3, .advance 0 2, .access 0, .advance 0 (-2), .deallocate 0 3, .access 0] = abort := by rfl

example : ∃ s, run start [.allocate 0 3, .advance 0 3] = pure s ∧ Missed s (.access 0) := ⟨_, rfl, _, _, rfl, rfl, rfl⟩

/-- The state after `x = alloc.allocate( n )` at the start. (Specification, no line of the source.) -/
def given (n : Nat) : St := ⟨[⟨n, true⟩], fun y => if y = 0 then some (0, ofRange n) else none⟩

theorem run_allocate {n : Nat} (hn : n < 2 ^ 63) (ops : List Op) : run start (.allocate 0 n :: ops) = run (given n) ops := by
  simp only [run, Op.step, allocate, if_pos hn, pure_bind]
  rfl

theorem valid_range {n : Nat} (hn : n < 2 ^ 63) : Valid (ofRange n) :=
  ⟨rfl, by simp only [ofRange]; omega, by simp only [ofRange]; omega, by simp only [ofRange]; omega⟩

theorem advance_given {n k : Nat} (hn : n < 2 ^ 63) (hk : k ≤ n) (ops : List Op) :
    run (given n) (.advance 0 k :: ops) = run ((given n).set 0 (some (0, { ofRange n with pos := (k : Int) }))) ops := by
  have e := C113_add_partial (ofRange n) (valid_range hn) k (by omega)
  rw [if_pos ⟨by simp only [ofRange]; omega, by simp only [ofRange]; omega⟩] at e
  have e2 : Op.step (given n) (.advance 0 k) = pure ((given n).set 0 (some (0, { ofRange n with pos := (ofRange n).pos + (k : Int) }))) := by
    show (do let p ← SafePointer.add (ofRange n) k; pure ((given n).set 0 (some (0, p)))) = _
    rw [e]
    rfl
  rw [run, e2, pure_bind]
  simp only [ofRange, Int.zero_add]

theorem free_live {s : St} {b n : Nat} (h : s.blocks[b]? = some ⟨n, true⟩) : free s b n = pure { s with blocks := s.blocks.set b ⟨n, false⟩ } := by
  unfold free
  rw [h]
  exact if_pos ⟨rfl, rfl⟩

theorem free_wrong {s : St} {b n k : Nat} {l : Bool} (h : s.blocks[b]? = some ⟨n, l⟩) (hk : l = false ∨ k ≠ n) : free s b k = ub := by
  unfold free
  rw [h]
  refine if_neg fun e => ?_
  rcases hk with hk | hk
  · rw [hk] at e
    cases e.1
  · exact hk e.2

/-- C365: the errors of one variable are noticed, for blocks of any size: giving a block back twice, using it afterwards, and giving it back by a pointer to another
object; and so are null pointers. -/
theorem C365_caught (n k : Nat) (hn : n < 2 ^ 63) (hk : 0 < k) (hkn : k ≤ n) :
    run start [.allocate 0 n, .deallocate 0 n, .deallocate 0 n] = abort ∧ run start [.allocate 0 n, .deallocate 0 n, .access 0] = abort ∧
    run start [.allocate 0 n, .advance 0 k, .deallocate 0 n] = abort ∧ run start [.access 0] = abort ∧ run start [.deallocate 0 n] = abort := by
  have hf : ∀ ops, run (given n) (.deallocate 0 n :: ops) =
      run ⟨[⟨n, false⟩], ((given n).set 0 (some (0, { ofRange n with destroyed := true }))).vars⟩ ops := by
    intro ops
    rw [run, show Op.step (given n) (.deallocate 0 n) = free ((given n).set 0 (some (0, { ofRange n with destroyed := true }))) 0 n from rfl, free_live rfl, pure_bind]
    rfl
  refine ⟨?_, ?_, ?_, rfl, rfl⟩
  · rw [run_allocate hn, hf]
    rfl
  · rw [run_allocate hn, hf]
    rfl
  · rw [run_allocate hn, advance_given hn hkn, run]
    have : Op.step ((given n).set 0 (some (0, { ofRange n with pos := (k : Int) }))) (.deallocate 0 n) = abort := by
      show (if (k : Int) = 0 then _ else abort) = abort
      rw [if_neg (by omega)]
    rw [this]
    rfl

example := C365_caught 24 8 (by decide) (by decide) (by decide)

/-- C365: and so they are where a container gives a block back: by a null pointer, after the block was given back through the same variable, and by a pointer
to another object. -/
theorem C365_traits_caught (s : St) (x n : Nat) :
    (s.vars x = none → traitsDeallocate s x n = abort) ∧
    ∀ b p, s.vars x = some (b, p) → p.destroyed = true ∨ p.pos ≠ 0 → traitsDeallocate s x n = abort := by
  constructor
  · intro h
    simp [traitsDeallocate, h]
  · intro b p h hp
    unfold traitsDeallocate
    rw [h]
    simp only
    cases hd : p.destroyed
    · rw [if_pos (by unfold ok; rw [hd]; rfl), if_neg (by simp [hd] at hp; exact hp)]
    · rw [if_neg (by unfold ok; rw [hd]; decide)]

example := (C365_traits_caught start 0 3).1 rfl

example : (3 : Nat) < 2 ^ 63 ∧ 0 < 2 ∧ 2 ≤ 3 := by decide

/-- C365 does not hold for copies: with a copy made before, a block can be given back twice, and used after it was given back, and nothing is noticed. -/
theorem C365_copy_violated (n : Nat) (hn : n < 2 ^ 63) :
    run start [.allocate 0 n, .copy 0 1, .deallocate 0 n, .deallocate 1 n] = ub ∧ run start [.allocate 0 n, .copy 0 1, .deallocate 0 n, .access 1] = ub := by
  have hc : ∀ ops, run (given n) (.copy 0 1 :: ops) = run ((given n).set 1 (some (0, ofRange n))) ops := fun _ => rfl
  have hf : ∀ ops, run ((given n).set 1 (some (0, ofRange n))) (.deallocate 0 n :: ops) =
      run ⟨[⟨n, false⟩], (((given n).set 1 (some (0, ofRange n))).set 0 (some (0, { ofRange n with destroyed := true }))).vars⟩ ops := by
    intro ops
    rw [run, show Op.step ((given n).set 1 (some (0, ofRange n))) (.deallocate 0 n) =
      free (((given n).set 1 (some (0, ofRange n))).set 0 (some (0, { ofRange n with destroyed := true }))) 0 n from rfl, free_live rfl, pure_bind]
    rfl
  constructor
  · rw [run_allocate hn, hc, hf, run]
    rw [show ∀ s : St, s.vars 1 = some (0, ofRange n) → s.blocks[0]? = some ⟨n, false⟩ → Op.step s (.deallocate 1 n) = ub from fun s h1 h2 => by
      simp only [Op.step, deallocate, h1]
      exact free_wrong (l := false) h2 (.inl rfl)]
    · rfl
    · rfl
    · rfl
  · rw [run_allocate hn, hc, hf]
    rfl

example := C365_copy_violated 12 (by decide)

/-- C365 does not hold for containers, which call `std::allocator_traits`: its parameter is a copy, and only this copy is marked, so that even the same pointer can be given
back twice or used afterwards. -/
theorem C365_traits_violated (n : Nat) (hn : n < 2 ^ 63) :
    run start [.allocate 0 n, .traitsDeallocate 0 n, .traitsDeallocate 0 n] = ub ∧ run start [.allocate 0 n, .traitsDeallocate 0 n, .access 0] = ub := by
  have hf : ∀ ops, run (given n) (.traitsDeallocate 0 n :: ops) = run ⟨[⟨n, false⟩], (given n).vars⟩ ops := by
    intro ops
    rw [run, show Op.step (given n) (.traitsDeallocate 0 n) = free (given n) 0 n from rfl, free_live rfl, pure_bind]
    rfl
  constructor
  · rw [run_allocate hn, hf, run, show Op.step ⟨[⟨n, false⟩], (given n).vars⟩ (.traitsDeallocate 0 n) = free ⟨[⟨n, false⟩], (given n).vars⟩ 0 n from rfl,
      free_wrong (l := false) rfl (.inl rfl)]
    rfl
  · rw [run_allocate hn, hf]
    rfl

example := C365_traits_violated 12 (by decide)

/-- C365 does not hold for the last place: an object can be constructed one past the end of the block, for blocks without objects at its start; and for a wrong number of
objects given back. -/
theorem C365_bounds_violated (n k : Nat) (hn : n < 2 ^ 63) (hk : k ≠ n) :
    run start [.allocate 0 n, .advance 0 n, .access 0] = ub ∧ run start [.allocate 0 n, .deallocate 0 k] = ub := by
  constructor
  · rw [run_allocate hn, advance_given hn (Nat.le_refl n), run]
    have : Op.step ((given n).set 0 (some (0, { ofRange n with pos := (n : Int) }))) (.access 0) = ub := by
      show (if true = true ∧ (0 : Int) ≤ n ∧ (n : Int) < n then _ else ub) = ub
      rw [if_neg (by omega)]
    rw [this]
    rfl
  · rw [run_allocate hn, run, show Op.step (given n) (.deallocate 0 k) = free ((given n).set 0 (some (0, { ofRange n with destroyed := true }))) 0 k from rfl,
      free_wrong (n := n) (l := true) rfl (.inr hk)]
    rfl

example : (0 : Nat) < 2 ^ 63 ∧ (1 : Nat) ≠ 0 := by decide

end Verif.Own.Tracked
