import Verif.Own.Box

/-
Types with value semantics on the free store: include/daw/daw_value_ptr.h, include/daw/daw_poly_value.h,
include/daw/deprecated/daw_heap_value.h and include/daw/deprecated/daw_copiable_unique_ptr.h.
-/

namespace Verif.Own.Values
open Cxx Box

/-- A list of operations one after the other. (Specification, no line of the source.) -/
def runOps {S O : Type} (f : S → O → Cxx S) : List O → S → Cxx S
  | [], s => pure s
  | o :: os, s => do
    let s ← f s o
    runOps f os s

/-- Variables as plain optional values, without pointers and free store: dead, empty or a value.
(Specification, no line of the source.) -/
abbrev Plain := List (Option (Option Int))

/-- The value of variable `i`. (Specification, no line of the source.) -/
def pload (a : Plain) (i : Nat) : Cxx Int := do
  match ← live a i with
  | none => ub
  | some v => pure v

/-- Overwrite the value of variable `i`. (Specification, no line of the source.) -/
def pput (a : Plain) (i : Nat) (v : Int) : Cxx Plain := do
  match ← live a i with
  | none => ub
  | some _ => pure (a.set i (some (some v)))

/-- Variable `i`, whatever it holds, becomes `x`. (Specification, no line of the source.) -/
def pset (a : Plain) (i : Nat) (x : Option (Option Int)) : Cxx Plain := do
  let _ ← live a i
  pure (a.set i x)

/-- A new variable takes the value of variable `j`, which becomes empty. (Specification, no line of the source.) -/
def pmoveNew (a : Plain) (j : Nat) : Cxx Plain := do
  let b ← live a j
  pure (a.set j (some none) ++ [some b])

/-- Variable `i` takes the value of variable `j`, which becomes empty. (Specification, no line of the source.) -/
def pmoveInto (a : Plain) (i j : Nat) : Cxx Plain := do
  let _ ← live a i
  let c ← live a j
  pure ((a.set j (some none)).set i (some c))

/-- Exchange. (Specification, no line of the source.) -/
def pswap (a : Plain) (i j : Nat) : Cxx Plain := do
  let b ← live a i
  let c ← live a j
  pure ((a.set i (some c)).set j (some b))

/-- The run with pointers and the run on plain values agree: both are undefined, or both return and the pointers show those
values, with every pointer valid, no object shared and none leaked. (Specification, no line of the source.) -/
def Sim (c : Cxx World) (a : Cxx Plain) : Prop := (∃ w, c = pure w ∧ Box.Inv w ∧ a = pure (view w)) ∨ (c = ub ∧ a = ub)

theorem Sim.bind {c : Cxx World} {a : Cxx Plain} {f : World → Cxx World} {g : Plain → Cxx Plain} (h : Sim c a)
    (hf : ∀ w, Box.Inv w → Sim (f w) (g (view w))) : Sim (c >>= f) (a >>= g) := by
  rcases h with ⟨w, e, hI, ea⟩ | ⟨e, ea⟩
  · rw [e, ea, pure_bind, pure_bind]; exact hf w hI
  · rw [e, ea]; exact Or.inr ⟨rfl, rfl⟩

theorem Sim.of {w : World} {a : Plain} (h : Box.Inv w ∧ view w = a) : Sim (pure w) (pure a) :=
  Or.inl ⟨w, rfl, h.1, by rw [h.2]⟩

theorem sim_run {O : Type} {f : World → O → Cxx World} {g : Plain → O → Cxx Plain}
    (h : ∀ w o, Box.Inv w → Sim (f w o) (g (view w) o)) : ∀ os w, Box.Inv w → Sim (runOps f os w) (runOps g os (view w)) := by
  intro os
  induction os with
  | nil => intro w hI; exact Sim.of ⟨hI, rfl⟩
  | cons o os ih => intro w hI; exact (h w o hI).bind (fun w hI => ih w hI)

theorem dead {w : World} (hI : Box.Inv w) (i : Nat) :
    (live w.vars i = ub ∧ live (view w) i = ub) ∨ ∃ b, (view w)[i]? = some (some b) := by
  rcases cases_var hI i with ⟨_, h, h'⟩ | ⟨_, h'⟩ | ⟨a, v, h1, h2, h3⟩
  · left
    refine ⟨h, ?_⟩
    unfold live
    cases e : (view w)[i]? with
    | none => rw [rd_oob (List.getElem?_eq_none_iff.1 e), ub_bind]
    | some x =>
      cases x with
      | none => rw [rd_some e]; rfl
      | some b => exact absurd e (h' b)
  · right; exact ⟨_, h'⟩
  · right; exact ⟨_, h3⟩

theorem load_eq {w : World} (hI : Box.Inv w) (i : Nat) : load w i = pload (view w) i := by
  rw [load_ok hI]
  unfold pload
  rcases dead hI i with ⟨_, h⟩ | ⟨b, h⟩
  · rw [h, ub_bind]
    split
    · rename_i e; rw [live_of e] at h; exact absurd h.symm (ub_ne_pure _)
    · rfl
  · rw [h, live_of h, pure_bind]
    cases b with
    | none => rfl
    | some v => rfl

theorem sim_put {w : World} (hI : Box.Inv w) (i : Nat) (v : Int) : Sim (put w i v) (pput (view w) i v) := by
  unfold pput
  rcases dead hI i with ⟨h', h⟩ | ⟨b, h⟩
  · right; refine ⟨?_, by rw [h, ub_bind]⟩
    unfold put; rw [h', ub_bind]
  · rw [live_of h, pure_bind]
    cases b with
    | none =>
      right
      refine ⟨put_ub hI i v (fun v0 e => ?_), rfl⟩
      rw [h] at e; cases e
    | some v0 =>
      obtain ⟨w', e, i', v'⟩ := put_ok hI i v v0 h
      rw [e]; exact Or.inl ⟨w', rfl, i', by rw [v']⟩

theorem sim_reset {w : World} (hI : Box.Inv w) (i : Nat) : Sim (reset w i) (pset (view w) i (some none)) := by
  unfold pset
  rcases dead hI i with ⟨h', h⟩ | ⟨b, h⟩
  · right; refine ⟨?_, by rw [h, ub_bind]⟩
    unfold reset; rw [h', ub_bind]
  · rw [live_of h, pure_bind]
    obtain ⟨w', e, i', v'⟩ := reset_ok hI i b h
    rw [e]; exact Or.inl ⟨w', rfl, i', by rw [v']⟩

theorem sim_destroy {w : World} (hI : Box.Inv w) (i : Nat) : Sim (destroy w i) (pset (view w) i none) := by
  unfold pset
  rcases dead hI i with ⟨h', h⟩ | ⟨b, h⟩
  · right; refine ⟨?_, by rw [h, ub_bind]⟩
    unfold destroy; rw [h', ub_bind]
  · rw [live_of h, pure_bind]
    obtain ⟨w', e, i', v'⟩ := destroy_ok hI i b h
    rw [e]; exact Or.inl ⟨w', rfl, i', by rw [v']⟩

theorem sim_renew {w : World} (hI : Box.Inv w) (i : Nat) (v : Int) : Sim (renew w i v) (pset (view w) i (some (some v))) := by
  unfold pset
  rcases dead hI i with ⟨h', h⟩ | ⟨b, h⟩
  · right; refine ⟨?_, by rw [h, ub_bind]⟩
    unfold renew; rw [h', ub_bind]
  · rw [live_of h, pure_bind]
    obtain ⟨w', e, i', v'⟩ := renew_ok hI i v b h
    rw [e]; exact Or.inl ⟨w', rfl, i', by rw [v']⟩

theorem sim_moveNew {w : World} (hI : Box.Inv w) (i : Nat) : Sim (moveNew w i) (pmoveNew (view w) i) := by
  unfold pmoveNew
  rcases dead hI i with ⟨h', h⟩ | ⟨b, h⟩
  · right; refine ⟨?_, by rw [h, ub_bind]⟩
    unfold moveNew; rw [h', ub_bind]
  · rw [live_of h, pure_bind]
    obtain ⟨w', e, i', v'⟩ := moveNew_ok hI i b h
    rw [e]; exact Or.inl ⟨w', rfl, i', by rw [v']⟩

theorem live_some {w : World} (hI : Box.Inv w) {i : Nat} {b : Option Int} (h : (view w)[i]? = some (some b)) :
    ∃ c, live w.vars i = pure c := by
  rcases cases_var hI i with ⟨_, _, h'⟩ | ⟨h', _⟩ | ⟨a, u, h1, h2, h3⟩
  · exact absurd h (h' _)
  · exact ⟨_, live_of h'⟩
  · exact ⟨_, live_of h1⟩

theorem sim_moveInto {w : World} (hI : Box.Inv w) (i j : Nat) (hij : i ≠ j) : Sim (moveInto w i j) (pmoveInto (view w) i j) := by
  unfold pmoveInto
  rcases dead hI i with ⟨h', h⟩ | ⟨b, h⟩
  · right; refine ⟨?_, by rw [h, ub_bind]⟩
    unfold moveInto; rw [h', ub_bind]
  · rw [live_of h, pure_bind]
    rcases dead hI j with ⟨k', k⟩ | ⟨c, k⟩
    · right; refine ⟨?_, by rw [k, ub_bind]⟩
      obtain ⟨d, hd⟩ := live_some hI h
      unfold moveInto; rw [hd, pure_bind, k', ub_bind]
    · rw [live_of k, pure_bind]
      obtain ⟨w', e, i', v'⟩ := moveInto_ok hI i j hij b c h k
      rw [e]; exact Or.inl ⟨w', rfl, i', by rw [v']⟩

theorem sim_swap {w : World} (hI : Box.Inv w) (i j : Nat) : Sim (swap w i j) (pswap (view w) i j) := by
  unfold pswap
  rcases dead hI i with ⟨h', h⟩ | ⟨b, h⟩
  · right; refine ⟨?_, by rw [h, ub_bind]⟩
    unfold swap; rw [h', ub_bind]
  · rw [live_of h, pure_bind]
    rcases dead hI j with ⟨k', k⟩ | ⟨c, k⟩
    · right; refine ⟨?_, by rw [k, ub_bind]⟩
      obtain ⟨d, hd⟩ := live_some hI h
      unfold swap; rw [hd, pure_bind, k', ub_bind]
    · rw [live_of k, pure_bind]
      obtain ⟨w', e, i', v'⟩ := swap_ok hI i j b c h k
      rw [e]; exact Or.inl ⟨w', rfl, i', by rw [v']⟩

/-- A test of a pointer agrees with the test of the value. -/
theorem live_bind {w : World} (hI : Box.Inv w) (i : Nat) {f : Option Nat → Cxx World} {g : Option Int → Cxx Plain}
    (h0 : Sim (f none) (g none)) (h1 : ∀ a v, Sim (f (some a)) (g (some v))) :
    Sim (live w.vars i >>= f) (live (view w) i >>= g) := by
  rcases cases_var hI i with ⟨_, h, h'⟩ | ⟨h, h'⟩ | ⟨a, v, h2, _, h3⟩
  · rcases dead hI i with ⟨k', k⟩ | ⟨b, k⟩
    · rw [k, k']; exact Or.inr ⟨rfl, rfl⟩
    · exact absurd k (h' b)
  · rw [live_of h, live_of h', pure_bind, pure_bind]; exact h0
  · rw [live_of h2, live_of h3, pure_bind, pure_bind]; exact h1 a v

theorem load_bind {w : World} (hI : Box.Inv w) (i : Nat) {f : Int → Cxx World} {g : Int → Cxx Plain} (h : ∀ v, Sim (f v) (g v)) :
    Sim (load w i >>= f) (pload (view w) i >>= g) := by
  rw [load_eq hI]
  unfold pload
  rcases dead hI i with ⟨_, k⟩ | ⟨b, k⟩
  · rw [k]; exact Or.inr ⟨rfl, rfl⟩
  · rw [live_of k]
    cases b with
    | none => exact Or.inr ⟨rfl, rfl⟩
    | some v => exact h v

theorem live_then {w : World} (hI : Box.Inv w) (i : Nat) {c : Cxx World} {a : Cxx Plain} (h : Sim c a) :
    Sim (live w.vars i >>= fun _ => c) (live (view w) i >>= fun _ => a) :=
  live_bind hI i h (fun _ _ => h)

theorem load_then {w : World} (hI : Box.Inv w) (i : Nat) {c : Cxx World} {a : Cxx Plain} (h : Sim c a) :
    Sim (load w i >>= fun _ => c) (pload (view w) i >>= fun _ => a) :=
  load_bind hI i (fun _ => h)

/-! ## value_ptr -/

/-- What a program does with its `value_ptr`s; lines of daw_value_ptr.h.  The copy assignment (89-104) and `release` (146-148) do
not compile and are left out. -/
inductive VOp where
  /-- `value_ptr( std::nullopt )`, 47 -/
  | null
  /-- `value_ptr( args... )`, 49-60 -/
  | make (v : Int)
  /-- the copy constructor, 76-81: the other pointer is dereferenced without test -/
  | copy (j : Nat)
  /-- the move constructor, 83-87 -/
  | move (j : Nat)
  /-- the move assignment, 106-111 -/
  | moveAssign (i j : Nat)
  /-- `operator=( value_type const & )`, 113-121 -/
  | assign (i : Nat) (v : Int)
  /-- `operator=( value_type && )`, 123-127: dereferences without test -/
  | assignMove (i : Nat) (v : Int)
  /-- `reset( )`, 129-132 -/
  | reset (i : Nat)
  /-- `swap`, 150-152 -/
  | swap (i j : Nat)
  /-- the destructor, 143-144 -/
  | destroy (i : Nat)

/-- One operation on pointers and free store. (Members of `value_ptr`, daw_value_ptr.h 34-212.) -/
def vstep (w : World) : VOp → Cxx World
  | .null => pure (newEmpty w)
  | .make v => pure (newFull w v)
  | .copy j => do
    let v ← load w j
    pure (newFull w v)
  | .move j => moveNew w j
  | .moveAssign i j => if i = j then do let _ ← live w.vars i; pure w else moveInto w i j
  | .assign i v => do
    match ← live w.vars i with
    | none => renew w i v
    | some _ => put w i v
  | .assignMove i v => put w i v
  | .reset i => reset w i
  | .swap i j => swap w i j
  | .destroy i => destroy w i

/-- The same operation on plain values. (Specification, no line of the source.) -/
def vplain (a : Plain) : VOp → Cxx Plain
  | .null => pure (a ++ [some none])
  | .make v => pure (a ++ [some (some v)])
  | .copy j => do
    let v ← pload a j
    pure (a ++ [some (some v)])
  | .move j => pmoveNew a j
  | .moveAssign i j => if i = j then do let _ ← live a i; pure a else pmoveInto a i j
  | .assign i v => pset a i (some (some v))
  | .assignMove i v => pput a i v
  | .reset i => pset a i (some none)
  | .swap i j => pswap a i j
  | .destroy i => pset a i none

theorem vstep_sim (w : World) (o : VOp) (hI : Box.Inv w) : Sim (vstep w o) (vplain (view w) o) := by
  cases o with
  | null => exact Sim.of (newEmpty_ok hI)
  | make v => exact Sim.of (newFull_ok hI v)
  | copy j => exact load_bind hI j (fun v => Sim.of (newFull_ok hI v))
  | move j => exact sim_moveNew hI j
  | moveAssign i j =>
    unfold vstep vplain
    dsimp only
    by_cases h : i = j
    · rw [if_pos h, if_pos h]; exact live_then hI i (Sim.of ⟨hI, rfl⟩)
    · rw [if_neg h, if_neg h]; exact sim_moveInto hI i j h
  | assign i v =>
    rcases cases_var hI i with ⟨_, h, h'⟩ | ⟨h, h'⟩ | ⟨a, u, h2, _, h3⟩
    · rcases dead hI i with ⟨k', k⟩ | ⟨b, k⟩
      · right
        unfold vstep vplain pset
        dsimp only
        rw [k, k']; exact ⟨rfl, rfl⟩
      · exact absurd k (h' b)
    · have := sim_renew hI i v
      unfold vstep
      dsimp only
      rw [live_of h, pure_bind]
      exact this
    · have := sim_put hI i v
      unfold vstep vplain pset
      dsimp only
      unfold pput at this
      rw [live_of h3, pure_bind] at this ⊢
      rw [live_of h2, pure_bind]
      exact this
  | assignMove i v => exact sim_put hI i v
  | reset i => exact sim_reset hI i
  | swap i j => exact sim_swap hI i j
  | destroy i => exact sim_destroy hI i

/-- C99, `value_ptr`: every program of these operations has the same meaning as on plain optional values, in particular
variables never influence each other; all its pointers stay valid and unshared and every object left is owned by a variable.
Missing: copying an empty `value_ptr` and move-assigning a value to one are undefined on both sides, see `C99_copy_empty_violated` and
`C99_assign_empty_violated`. -/
theorem C99_value_ptr_partial (os : List VOp) : Sim (runOps vstep os .init) (runOps vplain os []) :=
  sim_run vstep_sim os .init inv_init

/-- C99: when all variables of a program have ended, all objects have been deleted. -/
theorem C99_no_leak (os : List VOp) (w : World) (h : runOps vstep os .init = pure w) (hgone : ∀ v ∈ w.vars, v = none) :
    ∀ x ∈ w.heap, x = none := by
  rcases C99_value_ptr_partial os with ⟨w', e, hI, _⟩ | ⟨e, _⟩
  · rw [h, pure_inj] at e
    subst e
    intro x hx
    cases x with
    | none => rfl
    | some v =>
      obtain ⟨a, ha, e⟩ := List.mem_iff_getElem.1 hx
      obtain ⟨i, hi⟩ := hI.noleak a v (by rw [List.getElem?_eq_getElem ha, e])
      have := hgone _ (List.mem_of_getElem? hi)
      cases this
  · rw [h] at e; exact absurd e.symm (ub_ne_pure _)

/-- A copy is changed, the original is not; then all end. -/
example : (do let w ← runOps vstep [.make 5, .copy 0, .assign 1 7, .move 0, .reset 2, .assign 2 9] .init; pure (view w)) =
    pure [some none, some (some 7), some (some 9)] := by decide +kernel

/-- C99 does not hold for the copy of an empty `value_ptr`. -/
theorem C99_copy_empty_violated : runOps vstep [.null, .copy 0] .init = ub := rfl

/-- C99 does not hold for the move assignment of a value to an empty `value_ptr`, while the copy assignment of the value works. -/
theorem C99_assign_empty_violated (v : Int) : runOps vstep [.null, .assignMove 0 v] .init = ub ∧
    runOps vstep [.null, .assign 0 v] .init = pure ⟨[some (some 0)], [some v]⟩ := ⟨rfl, rfl⟩

/-- `compare`, daw_value_ptr.h 193-211, on the values shown; `lt` is the `Compare` object. -/
def compare (lt : Int → Int → Bool) : Option Int → Option Int → Int
  | none, none => 0
  | none, some _ => -1
  | some _, none => 1
  | some x, some y => if lt x y then -1 else if lt y x then 1 else 0

/-- C100: with a strict weak order `lt`, `compare` is a weak order in which empty comes first: exactly one of less, equivalent
and greater holds, it is antisymmetric, and less is transitive. -/
theorem C100_compare (lt : Int → Int → Bool) (irr : ∀ x, lt x x = false) (tr : ∀ x y z, lt x y = true → lt y z = true → lt x z = true)
    (itr : ∀ x y z, lt x y = false → lt y z = false → lt x z = false) (a b c : Option Int) :
    compare lt a b = - compare lt b a ∧ compare lt a a = 0 ∧
    (compare lt a b < 0 → compare lt b c < 0 → compare lt a c < 0) ∧
    (compare lt a b = 0 → compare lt b c = 0 → compare lt a c = 0) ∧
    (compare lt a b < 0 ↔ ∃ y, b = some y ∧ ∀ x, a = some x → lt x y = true) := by
  have asym : ∀ x y, lt x y = true → lt y x = false := by
    intro x y h
    cases e : lt y x with
    | false => rfl
    | true => have := tr x y x h e; rw [irr] at this; cases this
  have neg : ∀ x y, compare lt (some x) (some y) < 0 ↔ lt x y = true := by
    intro x y
    simp only [compare]
    cases e : lt x y <;> cases e' : lt y x <;> simp
  have zer : ∀ x y, compare lt (some x) (some y) = 0 ↔ lt x y = false ∧ lt y x = false := by
    intro x y
    simp only [compare]
    cases e : lt x y <;> cases e' : lt y x <;> simp
  refine ⟨?_, ?_, ?_, ?_, ?_⟩
  · cases a with
    | none => cases b <;> rfl
    | some x =>
      cases b with
      | none => rfl
      | some y =>
        simp only [compare]
        cases e : lt x y with
        | true => rw [asym x y e]; rfl
        | false => cases e' : lt y x <;> rfl
  · cases a with
    | none => rfl
    | some x => simp [compare, irr]
  · intro h1 h2
    cases c with
    | none =>
      cases b with
      | none => exact absurd h2 (by simp [compare])
      | some y => exact absurd h2 (by simp [compare])
    | some z =>
      cases a with
      | none => simp [compare]
      | some x =>
        cases b with
        | none => exact absurd h1 (by simp [compare])
        | some y => rw [neg] at *; exact tr x y z h1 h2
  · intro h1 h2
    cases a with
    | none =>
      cases b with
      | none => exact h2
      | some y => exact absurd h1 (by simp [compare])
    | some x =>
      cases b with
      | none => exact absurd h1 (by simp [compare])
      | some y =>
        cases c with
        | none => exact absurd h2 (by simp [compare])
        | some z => rw [zer] at *; exact ⟨itr x y z h1.1 h2.1, itr z y x h2.2 h1.2⟩
  · cases b with
    | none => cases a <;> simp [compare]
    | some y =>
      cases a with
      | none => simp [compare]
      | some x => rw [neg]; simp

example : compare (fun x y => decide (x < y)) none (some 3) = -1 ∧ compare (fun x y => decide (x < y)) (some 4) (some 3) = 1 := by
  decide

/-! ## heap_value -/

/-- What a program does with its `heap_value`s; lines of deprecated/daw_heap_value.h. -/
inductive HOp where
  /-- the constructors from values, 34 and 49-59 -/
  | make (v : Int)
  /-- the copy constructor, 39-40 -/
  | copy (j : Nat)
  /-- the move constructor, 36 -/
  | move (j : Nat)
  /-- the copy assignment, 42-47 -/
  | copyAssign (i j : Nat)
  /-- the move assignment, 37 -/
  | moveAssign (i j : Nat)
  /-- `*x = v` by `operator*` and `get`, 65-79 -/
  | set (i : Nat) (v : Int)
  /-- `swap`, 61-63 -/
  | swap (i j : Nat)
  /-- the destructor, 35 -/
  | destroy (i : Nat)

/-- One operation on pointers and free store. (Members of `heap_value`, deprecated/daw_heap_value.h 24-116.) -/
def hstep (w : World) : HOp → Cxx World
  | .make v => pure (newFull w v)
  | .copy j => do
    let v ← load w j
    pure (newFull w v)
  | .move j => moveNew w j
  | .copyAssign i j => if i = j then do let _ ← live w.vars i; pure w else do
    let v ← load w j
    put w i v
  | .moveAssign i j => if i = j then do let _ ← live w.vars i; pure w else moveInto w i j
  | .set i v => put w i v
  | .swap i j => swap w i j
  | .destroy i => destroy w i

/-- The same operation on plain values; a moved-from variable is empty. (Specification, no line of the source.) -/
def hplain (a : Plain) : HOp → Cxx Plain
  | .make v => pure (a ++ [some (some v)])
  | .copy j => do
    let v ← pload a j
    pure (a ++ [some (some v)])
  | .move j => pmoveNew a j
  | .copyAssign i j => if i = j then do let _ ← live a i; pure a else do
    let v ← pload a j
    pput a i v
  | .moveAssign i j => if i = j then do let _ ← live a i; pure a else pmoveInto a i j
  | .set i v => pput a i v
  | .swap i j => pswap a i j
  | .destroy i => pset a i none

theorem hstep_sim (w : World) (o : HOp) (hI : Box.Inv w) : Sim (hstep w o) (hplain (view w) o) := by
  cases o with
  | make v => exact Sim.of (newFull_ok hI v)
  | copy j => exact load_bind hI j (fun v => Sim.of (newFull_ok hI v))
  | move j => exact sim_moveNew hI j
  | copyAssign i j =>
    unfold hstep hplain
    dsimp only
    by_cases h : i = j
    · rw [if_pos h, if_pos h]; exact live_then hI i (Sim.of ⟨hI, rfl⟩)
    · rw [if_neg h, if_neg h]; exact load_bind hI j (fun v => sim_put hI i v)
  | moveAssign i j =>
    unfold hstep hplain
    dsimp only
    by_cases h : i = j
    · rw [if_pos h, if_pos h]; exact live_then hI i (Sim.of ⟨hI, rfl⟩)
    · rw [if_neg h, if_neg h]; exact sim_moveInto hI i j h
  | set i v => exact sim_put hI i v
  | swap i j => exact sim_swap hI i j
  | destroy i => exact sim_destroy hI i

/-- C101, `heap_value`: every program has the same meaning as on plain values, with valid unshared pointers and no leaks.  Missing:
a moved-from variable can neither be copied nor assigned to, see `C101_moved_from_violated`. -/
theorem C101_heap_value_partial (os : List HOp) : Sim (runOps hstep os .init) (runOps hplain os []) :=
  sim_run hstep_sim os .init inv_init

/-- No operation of the program moves. (Specification, no line of the source.) -/
def HOp.noMove : HOp → Bool
  | .move _ => false
  | .moveAssign _ _ => false
  | _ => true

/-- All live variables hold a value. (Specification, no line of the source.) -/
def Full (a : Plain) : Prop := ∀ i : Nat, a[i]? ≠ some (some none)

theorem Full.snoc {a : Plain} (h : Full a) (v : Int) : Full (a ++ [some (some v)]) := by
  intro i e
  rcases get_snoc e with e | ⟨_, e⟩
  · exact h i e
  · cases e

theorem Full.set {a : Plain} (h : Full a) (i : Nat) {x : Option (Option Int)} (hx : x ≠ some none) : Full (a.set i x) := by
  intro j e
  by_cases hij : j = i
  · subst hij
    rcases Nat.lt_or_ge j a.length with g | g
    · rw [List.getElem?_set_self g] at e
      injection e with e
      exact hx e
    · rw [List.getElem?_eq_none (by rw [List.length_set]; exact g)] at e; cases e
  · rw [List.getElem?_set_ne (Ne.symm hij)] at e; exact h j e

/-- C101: without moves no program whose variables are used within their lifetime is undefined: any live variable can be copied,
assigned and written. -/
theorem C101_no_moves (os : List HOp) (hm : ∀ o ∈ os, o.noMove = true) (a : Plain) (h : runOps hplain os [] = pure a) : Full a := by
  have key : ∀ (os : List HOp), (∀ o ∈ os, o.noMove = true) → ∀ s a, Full s → runOps hplain os s = pure a → Full a := by
    intro os
    induction os with
    | nil => intro _ s a hs h; rw [runOps, pure_inj] at h; rw [← h]; exact hs
    | cons o os ih =>
      intro hm s a hs h
      rw [runOps, bind_eq_pure] at h
      obtain ⟨s', e, h⟩ := h
      refine ih (fun o ho => hm o (List.mem_cons_of_mem _ ho)) s' a ?_ h
      have hput : ∀ i v, pput s i v = pure s' → Full s' := by
        intro i v e
        unfold pput at e
        rw [bind_eq_pure] at e
        obtain ⟨b, _, e⟩ := e
        cases b with
        | none => exact absurd e (ub_ne_pure _)
        | some _ =>
          dsimp only at e
          rw [pure_inj] at e
          rw [← e]
          exact hs.set i (by intro h; cases h)
      have ho := hm o List.mem_cons_self
      cases o with
      | make v => rw [hplain, pure_inj] at e; rw [← e]; exact hs.snoc v
      | copy j =>
        rw [hplain, bind_eq_pure] at e
        obtain ⟨v, _, e⟩ := e
        rw [pure_inj] at e; rw [← e]; exact hs.snoc v
      | move j => cases ho
      | moveAssign i j => cases ho
      | copyAssign i j =>
        rw [hplain] at e
        split at e
        · rw [bind_eq_pure] at e
          obtain ⟨_, _, e⟩ := e
          rw [pure_inj] at e; rw [← e]; exact hs
        · rw [bind_eq_pure] at e
          obtain ⟨v, _, e⟩ := e
          exact hput i v e
      | set i v => exact hput i v e
      | swap i j =>
        rw [hplain] at e
        unfold pswap at e
        rw [bind_eq_pure] at e
        obtain ⟨b, eb, e⟩ := e
        rw [bind_eq_pure] at e
        obtain ⟨c, ec, e⟩ := e
        rw [pure_inj] at e
        rw [← e]
        refine (hs.set i ?_).set j ?_
        · intro h; injection h with h; rw [h] at ec; exact hs j (live_eq ec)
        · intro h; injection h with h; rw [h] at eb; exact hs i (live_eq eb)
      | destroy i =>
        rw [hplain] at e
        unfold pset at e
        rw [bind_eq_pure] at e
        obtain ⟨_, _, e⟩ := e
        rw [pure_inj] at e
        rw [← e]
        exact hs.set i (by intro h; cases h)
  exact key os hm [] a (by intro i e; simp at e) h

example : (do let w ← runOps hstep [.make 5, .copy 0, .set 1 7, .copyAssign 0 1, .set 1 9, .swap 0 1] .init; pure (view w)) =
    pure [some (some 9), some (some 7)] := by decide +kernel

/-- C101 does not hold after a move: copying from, copy-assigning from or to, and writing to a moved-from `heap_value` are undefined. -/
theorem C101_moved_from_violated (v x : Int) :
    runOps hstep [.make v, .move 0, .copy 0] .init = ub ∧
    runOps hstep [.make v, .make x, .moveAssign 1 0, .copyAssign 0 1] .init = ub ∧
    runOps hstep [.make v, .move 0, .set 0 x] .init = ub := ⟨rfl, rfl, rfl⟩

/-! ## copiable_unique_ptr -/

/-- What a program does with its `copiable_unique_ptr`s; lines of deprecated/daw_copiable_unique_ptr.h.  `release` (89-91) hands
the object to the program and is left out. -/
inductive COp where
  /-- the default constructor, 45 -/
  | null
  /-- `copiable_unique_ptr( new T( v ) )`, 56-57 and 133-139 -/
  | make (v : Int)
  /-- the copy constructor, 59-60 -/
  | copy (j : Nat)
  /-- the move constructor, 46-47 -/
  | move (j : Nat)
  /-- the copy assignment, 62-76 -/
  | copyAssign (i j : Nat)
  /-- the move assignment, 49-54, and `swap`, 97-100 -/
  | moveAssign (i j : Nat)
  /-- `*p = v`, 110-112 -/
  | set (i : Nat) (v : Int)
  /-- `reset`, 78-83 -/
  | reset (i : Nat)
  /-- the destructor, 85-87 -/
  | destroy (i : Nat)

/-- One operation on pointers and free store. (Members of `copiable_unique_ptr`, deprecated/daw_copiable_unique_ptr.h 24-125.) -/
def cstep (w : World) : COp → Cxx World
  | .null => pure (newEmpty w)
  | .make v => pure (newFull w v)
  | .copy j => do
    match ← live w.vars j with
    | none => pure (newEmpty w)
    | some _ => do
      let v ← load w j
      pure (newFull w v)
  | .move j => moveNew w j
  | .copyAssign i j => if i = j then do let _ ← live w.vars i; pure w else do
    match ← live w.vars j with
    | none => reset w i
    | some _ => do
      match ← live w.vars i with
      | none => do
        let v ← load w j
        renew w i v
      | some _ => do
        let v ← load w j
        put w i v
  | .moveAssign i j => swap w i j
  | .set i v => put w i v
  | .reset i => reset w i
  | .destroy i => destroy w i

/-- The same operation on plain optional values: copies copy the optional value, the move assignment exchanges.
(Specification, no line of the source.) -/
def cplain (a : Plain) : COp → Cxx Plain
  | .null => pure (a ++ [some none])
  | .make v => pure (a ++ [some (some v)])
  | .copy j => do
    let b ← live a j
    pure (a ++ [some b])
  | .move j => pmoveNew a j
  | .copyAssign i j => do
    let b ← live a j
    pset a i (some b)
  | .moveAssign i j => pswap a i j
  | .set i v => pput a i v
  | .reset i => pset a i (some none)
  | .destroy i => pset a i none

theorem cstep_sim (w : World) (o : COp) (hI : Box.Inv w) : Sim (cstep w o) (cplain (view w) o) := by
  cases o with
  | null => exact Sim.of (newEmpty_ok hI)
  | make v => exact Sim.of (newFull_ok hI v)
  | copy j =>
    unfold cstep cplain
    dsimp only
    rcases cases_var hI j with ⟨_, h, h'⟩ | ⟨h, h'⟩ | ⟨a, u, h2, _, h3⟩
    · rcases dead hI j with ⟨k', k⟩ | ⟨b, k⟩
      · rw [k, k']; exact Or.inr ⟨rfl, rfl⟩
      · exact absurd k (h' b)
    · rw [live_of h, live_of h', pure_bind, pure_bind]; exact Sim.of (newEmpty_ok hI)
    · have hl : load w j = pure u := by rw [load_ok hI, h3]
      rw [live_of h2, live_of h3, pure_bind, pure_bind, hl]; exact Sim.of (newFull_ok hI u)
  | move j => exact sim_moveNew hI j
  | copyAssign i j =>
    unfold cstep cplain
    dsimp only
    by_cases hij : i = j
    · subst hij
      rw [if_pos rfl]
      unfold pset
      rcases dead hI i with ⟨k', k⟩ | ⟨b, k⟩
      · rw [k, k']; exact Or.inr ⟨rfl, rfl⟩
      · obtain ⟨c, hc⟩ := live_some hI k
        rw [live_of k, pure_bind, pure_bind, hc, pure_bind]
        refine Sim.of ⟨hI, ?_⟩
        apply List.ext_getElem?
        intro l
        by_cases hl : l = i
        · rw [hl, List.getElem?_set_self (lt_of_some k), k]
        · rw [List.getElem?_set_ne (Ne.symm hl)]
    · rw [if_neg hij]
      rcases cases_var hI j with ⟨_, h, h'⟩ | ⟨h, h'⟩ | ⟨a, u, h2, _, h3⟩
      · rcases dead hI j with ⟨k', k⟩ | ⟨b, k⟩
        · rw [k, k']; exact Or.inr ⟨rfl, rfl⟩
        · exact absurd k (h' b)
      · rw [live_of h, live_of h', pure_bind, pure_bind]; exact sim_reset hI i
      · have hl : load w j = pure u := by rw [load_ok hI, h3]
        rw [live_of h2, live_of h3, pure_bind, pure_bind]
        dsimp only
        rw [hl]
        rcases cases_var hI i with ⟨_, g, g'⟩ | ⟨g, g'⟩ | ⟨b, x, g2, _, g3⟩
        · rcases dead hI i with ⟨k', k⟩ | ⟨b, k⟩
          · unfold pset; rw [k, k']; exact Or.inr ⟨rfl, rfl⟩
          · exact absurd k (g' b)
        · rw [live_of g, pure_bind]
          exact sim_renew hI i u
        · rw [live_of g2, pure_bind]
          have := sim_put hI i u
          unfold pput at this
          unfold pset
          rw [live_of g3, pure_bind] at this ⊢
          exact this
  | moveAssign i j => exact sim_swap hI i j
  | set i v => exact sim_put hI i v
  | reset i => exact sim_reset hI i
  | destroy i => exact sim_destroy hI i

/-- C102, `copiable_unique_ptr`: every program has the same meaning as on plain optional values, where copying copies (also the
empty state) and move assignment exchanges; pointers stay valid and unshared, nothing leaks. -/
theorem C102_copiable (os : List COp) : Sim (runOps cstep os .init) (runOps cplain os []) :=
  sim_run cstep_sim os .init inv_init

/-- C102: a program that uses its variables within their lifetime and writes only through engaged ones is never undefined:
operations other than `*p = v` are defined on all live variables. -/
theorem C102_total (a : Plain) (i j : Nat) (b c : Option Int) (hi : a[i]? = some (some b)) (hj : a[j]? = some (some c)) :
    cplain a (.copyAssign i j) = pure (a.set i (some c)) ∧ cplain a (.copy j) = pure (a ++ [some c]) ∧
    cplain a (.moveAssign i j) = pure ((a.set i (some c)).set j (some b)) ∧
    cplain a (.reset i) = pure (a.set i (some none)) := by
  unfold cplain pset pswap
  dsimp only
  rw [live_of hi, live_of hj]
  exact ⟨rfl, rfl, rfl, rfl⟩

example : (do let w ← runOps cstep [.make 5, .copy 0, .set 1 7, .null, .copyAssign 0 2, .moveAssign 2 1] .init; pure (view w)) =
    pure [some none, some none, some (some 7)] := by decide +kernel

/-! ## poly_value -/

/-- What a program does with its `poly_value`s; lines of daw_poly_value.h.  The conversions from `poly_value<Child>` (134-144) do
not compile and are left out. -/
inductive POp where
  /-- the constructors from values, 97-110 -/
  | make (v : Int)
  /-- the copy constructor, 112-113 -/
  | copy (j : Nat)
  /-- the move constructor, 122-123 -/
  | move (j : Nat)
  /-- the copy assignment, 115-120 -/
  | copyAssign (i j : Nat)
  /-- the move assignment, 125-130 -/
  | moveAssign (i j : Nat)
  /-- `*x = v`, 146-168 -/
  | set (i : Nat) (v : Int)
  /-- the destructor, 132 -/
  | destroy (i : Nat)

/-- One operation on pointers and free store.  `mv v` is what moving from an object of value `v` leaves there
(`poly_value_storage::move`, 61-65); a value stands for the dynamic type and the value of an object. -/
def ystep (mv : Int → Int) (w : World) : POp → Cxx World
  | .make v => pure (newFull w v)
  | .copy j => do
    let v ← load w j
    pure (newFull w v)
  | .move j => do
    let v ← load w j
    let w ← put w j (mv v)
    pure (newFull w v)
  | .copyAssign i j => if i = j then do let _ ← live w.vars i; pure w else do
    let v ← load w j
    renew w i v
  | .moveAssign i j => if i = j then do let _ ← live w.vars i; pure w else do
    let v ← load w j
    let w ← put w j (mv v)
    renew w i v
  | .set i v => put w i v
  | .destroy i => destroy w i

/-- The same operation on plain values: a live variable always has one. (Specification, no line of the source.) -/
def yplain (mv : Int → Int) (a : List (Option Int)) : POp → Cxx (List (Option Int))
  | .make v => pure (a ++ [some v])
  | .copy j => do
    let v ← live a j
    pure (a ++ [some v])
  | .move j => do
    let v ← live a j
    pure (a.set j (some (mv v)) ++ [some v])
  | .copyAssign i j => if i = j then do let _ ← live a i; pure a else do
    let v ← live a j
    let _ ← live a i
    pure (a.set i (some v))
  | .moveAssign i j => if i = j then do let _ ← live a i; pure a else do
    let v ← live a j
    let _ ← live a i
    pure ((a.set j (some (mv v))).set i (some v))
  | .set i v => do
    let _ ← live a i
    pure (a.set i (some v))
  | .destroy i => do
    let _ ← live a i
    pure (a.set i none)

/-- Both runs are undefined, or both return and the pointers, all engaged, show the plain values.
(Specification, no line of the source.) -/
def SimY (c : Cxx World) (a : Cxx (List (Option Int))) : Prop :=
  (∃ w b, c = pure w ∧ Box.Inv w ∧ a = pure b ∧ view w = b.map (Option.map some)) ∨ (c = ub ∧ a = ub)

theorem live_map {a : List (Option Int)} (i : Nat) :
    (live a i = ub ∧ live (a.map (Option.map some)) i = ub) ∨
    ∃ v, a[i]? = some (some v) ∧ (a.map (Option.map some))[i]? = some (some (some v)) := by
  cases h : a[i]? with
  | none =>
    left
    have h' : (a.map (Option.map some))[i]? = none := by rw [List.getElem?_map, h]; rfl
    unfold live
    rw [rd_oob (List.getElem?_eq_none_iff.1 h), rd_oob (List.getElem?_eq_none_iff.1 h')]
    exact ⟨rfl, rfl⟩
  | some x =>
    cases x with
    | none =>
      left
      have h' : (a.map (Option.map some))[i]? = some none := by rw [List.getElem?_map, h]; rfl
      unfold live
      rw [rd_some h, rd_some h']
      exact ⟨rfl, rfl⟩
    | some v => right; exact ⟨v, rfl, by rw [List.getElem?_map, h]; rfl⟩

theorem ystep_sim (mv : Int → Int) (w : World) (a : List (Option Int)) (o : POp) (hI : Box.Inv w)
    (hv : view w = a.map (Option.map some)) : SimY (ystep mv w o) (yplain mv a o) := by
  have hload : ∀ j, (load w j = ub ∧ live a j = ub) ∨ ∃ v, load w j = pure v ∧ a[j]? = some (some v) := by
    intro j
    rw [load_eq hI, hv]
    unfold pload
    rcases live_map (a := a) j with ⟨h, h'⟩ | ⟨v, h, h'⟩
    · left; rw [h', h]; exact ⟨rfl, rfl⟩
    · right; refine ⟨v, ?_, h⟩
      rw [live_of h']; rfl
  have hset : ∀ (a : List (Option Int)) i x, (a.map (Option.map some)).set i (Option.map some x) = (a.set i x).map (Option.map some) := by
    intro a i x; rw [List.map_set]
  have hput : ∀ {w : World} {a : List (Option Int)} (_ : Box.Inv w) (_ : view w = a.map (Option.map some)) (i : Nat) (v u : Int),
      a[i]? = some (some u) → ∃ w', put w i v = pure w' ∧ Box.Inv w' ∧ view w' = (a.set i (some v)).map (Option.map some) := by
    intro w a hI hv i v u h
    have hi : (view w)[i]? = some (some (some u)) := by rw [hv, List.getElem?_map, h]; rfl
    obtain ⟨w', e, i', v'⟩ := put_ok hI i v u hi
    exact ⟨w', e, i', by rw [v', hv, ← hset]; rfl⟩
  have hrenew : ∀ {w : World} {a : List (Option Int)} (_ : Box.Inv w) (_ : view w = a.map (Option.map some)) (i : Nat) (v u : Int),
      a[i]? = some (some u) → ∃ w', renew w i v = pure w' ∧ Box.Inv w' ∧ view w' = (a.set i (some v)).map (Option.map some) := by
    intro w a hI hv i v u h
    have hi : (view w)[i]? = some (some (some u)) := by rw [hv, List.getElem?_map, h]; rfl
    obtain ⟨w', e, i', v'⟩ := renew_ok hI i v (some u) hi
    exact ⟨w', e, i', by rw [v', hv, ← hset]; rfl⟩
  have hnew : ∀ {w : World} {a : List (Option Int)} (_ : Box.Inv w) (_ : view w = a.map (Option.map some)) (v : Int),
      SimY (pure (newFull w v)) (pure (a ++ [some v])) := by
    intro w a hI hv v
    obtain ⟨i', v'⟩ := newFull_ok hI v
    exact Or.inl ⟨_, _, rfl, i', rfl, by rw [v', hv, List.map_append]; rfl⟩
  have hdead : ∀ i, live a i = ub → live w.vars i = ub := by
    intro i h
    rcases dead hI i with ⟨k, _⟩ | ⟨b, k⟩
    · exact k
    · rcases live_map (a := a) i with ⟨_, h'⟩ | ⟨v, h', _⟩
      · rw [← hv, live_of k] at h'; exact absurd h'.symm (ub_ne_pure _)
      · rw [live_of h'] at h; exact absurd h.symm (ub_ne_pure _)
  have hid : ∀ i, SimY (do let _ ← live w.vars i; pure w) (do let _ ← live a i; pure a) := by
    intro i
    rcases live_map (a := a) i with ⟨h, _⟩ | ⟨v, h, h'⟩
    · rw [h, hdead i h]; exact Or.inr ⟨rfl, rfl⟩
    · rw [← hv] at h'
      obtain ⟨c, hc⟩ := live_some hI h'
      rw [hc, live_of h]
      exact Or.inl ⟨w, a, rfl, hI, rfl, hv⟩
  cases o with
  | make v => exact hnew hI hv v
  | copy j =>
    unfold ystep yplain
    dsimp only
    rcases hload j with ⟨h, h'⟩ | ⟨v, h, h'⟩
    · rw [h, h']; exact Or.inr ⟨rfl, rfl⟩
    · rw [h, live_of h', pure_bind, pure_bind]; exact hnew hI hv v
  | move j =>
    unfold ystep yplain
    dsimp only
    rcases hload j with ⟨h, h'⟩ | ⟨v, h, h'⟩
    · rw [h, h']; exact Or.inr ⟨rfl, rfl⟩
    · obtain ⟨w1, e1, i1, v1⟩ := hput hI hv j (mv v) v h'
      rw [h, live_of h', pure_bind, pure_bind, e1, pure_bind]; exact hnew i1 v1 v
  | copyAssign i j =>
    unfold ystep yplain
    dsimp only
    by_cases hij : i = j
    · rw [if_pos hij, if_pos hij]; exact hid i
    · rw [if_neg hij, if_neg hij]
      rcases hload j with ⟨h, h'⟩ | ⟨v, h, h'⟩
      · rw [h, h']; exact Or.inr ⟨rfl, rfl⟩
      · rw [h, live_of h', pure_bind, pure_bind]
        rcases live_map (a := a) i with ⟨k, _⟩ | ⟨u, k, _⟩
        · right
          refine ⟨?_, by rw [k, ub_bind]⟩
          unfold renew; rw [hdead i k, ub_bind]
        · obtain ⟨w1, e1, i1, v1⟩ := hrenew hI hv i v u k
          rw [live_of k, pure_bind, e1]
          exact Or.inl ⟨_, _, rfl, i1, rfl, v1⟩
  | moveAssign i j =>
    unfold ystep yplain
    dsimp only
    by_cases hij : i = j
    · rw [if_pos hij, if_pos hij]; exact hid i
    · rw [if_neg hij, if_neg hij]
      rcases hload j with ⟨h, h'⟩ | ⟨v, h, h'⟩
      · rw [h, h']; exact Or.inr ⟨rfl, rfl⟩
      · obtain ⟨w1, e1, i1, v1⟩ := hput hI hv j (mv v) v h'
        rw [h, live_of h', pure_bind, pure_bind, e1, pure_bind]
        rcases live_map (a := a) i with ⟨k, k'⟩ | ⟨u, k, _⟩
        · right
          refine ⟨?_, by rw [k, ub_bind]⟩
          have : live w1.vars i = ub := by
            rcases dead i1 i with ⟨g, _⟩ | ⟨b, g⟩
            · exact g
            · rw [v1, List.map_set, List.getElem?_set_ne (Ne.symm hij)] at g
              rw [live_of g] at k'
              exact absurd k'.symm (ub_ne_pure _)
          unfold renew; rw [this, ub_bind]
        · obtain ⟨w2, e2, i2, v2⟩ := hrenew i1 v1 i v u (by rw [List.getElem?_set_ne (Ne.symm hij)]; exact k)
          rw [live_of k, pure_bind, e2]
          exact Or.inl ⟨_, _, rfl, i2, rfl, v2⟩
  | set i v =>
    unfold ystep yplain
    dsimp only
    rcases live_map (a := a) i with ⟨k, _⟩ | ⟨u, k, _⟩
    · right
      refine ⟨?_, by rw [k, ub_bind]⟩
      unfold put; rw [hdead i k, ub_bind]
    · obtain ⟨w1, e1, i1, v1⟩ := hput hI hv i v u k
      rw [live_of k, pure_bind, e1]
      exact Or.inl ⟨_, _, rfl, i1, rfl, v1⟩
  | destroy i =>
    unfold ystep yplain
    dsimp only
    rcases live_map (a := a) i with ⟨k, _⟩ | ⟨u, k, k'⟩
    · right
      refine ⟨?_, by rw [k, ub_bind]⟩
      unfold destroy; rw [hdead i k, ub_bind]
    · rw [← hv] at k'
      obtain ⟨w1, e1, i1, v1⟩ := destroy_ok hI i (some u) k'
      rw [live_of k, pure_bind, e1]
      exact Or.inl ⟨_, _, rfl, i1, rfl, by rw [v1, hv, ← hset]; rfl⟩

/-- C103, `poly_value`: every program has the same meaning as on plain values that always have a value: copies are independent,
also of the dynamic type, a moved-from variable keeps a (moved-from) value, pointers stay valid and unshared, nothing leaks. -/
theorem C103_poly_value (mv : Int → Int) (os : List POp) : SimY (runOps (ystep mv) os .init) (runOps (yplain mv) os []) := by
  have key : ∀ (os : List POp) w a, Box.Inv w → view w = a.map (Option.map some) →
      SimY (runOps (ystep mv) os w) (runOps (yplain mv) os a) := by
    intro os
    induction os with
    | nil => intro w a hI hv; exact Or.inl ⟨w, a, rfl, hI, rfl, hv⟩
    | cons o os ih =>
      intro w a hI hv
      rw [runOps, runOps]
      rcases ystep_sim mv w a o hI hv with ⟨w', b, e, hI', e', hv'⟩ | ⟨e, e'⟩
      · rw [e, e', pure_bind, pure_bind]; exact ih w' b hI' hv'
      · rw [e, e']; exact Or.inr ⟨rfl, rfl⟩
  exact key os .init [] inv_init rfl

example : (runOps (ystep (fun _ => 0)) [.make 5, .copy 0, .set 1 7, .move 1, .copyAssign 0 1, .moveAssign 1 2] .init >>=
    fun w => (pure (view w) : Cxx Plain)) = pure [some (some 0), some (some 7), some (some 0)] := by decide +kernel

end Verif.Own.Values
