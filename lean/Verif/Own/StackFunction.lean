import Verif.Own.Base
import Verif.Containers.Lists

/-
`daw::function`, include/daw/daw_stack_function.h: a callable stored in a fixed buffer.  The buffer is copied, moved and assigned as
plain bytes.
-/

namespace Verif.Own.StackFunction
open Cxx Own

/-- How a function holds a callable: `trivial`, in the buffer, it can be copied as bytes and needs no destructor; `managed`, in the
buffer, it has a destructor; `lvalue`, it belongs to the program and the function has a reference to it, because `function_child<Func>`
(daw_stack_function.h 243-255) with `Func` an lvalue reference has a member `Func m_func` (151) of that reference type. -/
inductive Kind where
  | trivial
  | managed
  | lvalue
  deriving DecidableEq

/-- A callable object; `alive` says that its destructor has not run (daw_stack_function.h 144-158).  What it returns is left out:
the calls are recorded. -/
structure Obj where
  kind : Kind
  alive : Bool
  deriving DecidableEq

/-- The variables (daw_stack_function.h 246-247; a dead one is `none`, an empty function, `empty_child`, is `some none`), the callable
objects that were made, and the calls that were made.  Callables that are themselves empty (186-199) are left out. -/
structure World where
  vars : List (Option (Option Nat))
  objs : List Obj
  calls : List Nat
  deriving DecidableEq

/-- Before anything happened (no line of the source). -/
def World.init : World := ⟨[], [], []⟩

/-- `clean`, daw_stack_function.h 87-89: the destructor of the object whose bytes are in the buffer; undefined if it has run before. -/
def clean (objs : List Obj) : Option Nat → Cxx (List Obj)
  | none => pure objs
  | some o =>
    match objs[o]? with
    | none => ub
    | some ⟨.managed, true⟩ => pure (objs.set o ⟨.managed, false⟩)
    | some ⟨.managed, false⟩ => ub
    | some _ => pure objs

/-- What a program does, daw_stack_function.h 238-339.  The constructor and the assignment from a function of another size (262-281)
do not compile when used, they name a private member of another class, and are left out. -/
inductive Op where
  /-- `function( )` and `function( nullptr )`, 246-247 and 258-260 -/
  | makeEmpty
  /-- `function( f )` with an rvalue, 283-293: the result of `store_if_not_empty` (204-226) is constructed in place -/
  | make (managed : Bool)
  /-- the program makes a callable object of its own -/
  | makeLocal
  /-- the lifetime of that object ends -/
  | endLocal (o : Nat)
  /-- `function( f )` with an lvalue, 283-293 -/
  | makeRef (o : Nat)
  /-- the copy and move constructors, 49-50: the bytes are copied -/
  | copy (j : Nat)
  /-- the copy and move assignments, 52-68 -/
  | copyAssign (i j : Nat)
  /-- `operator=( f )` with an rvalue, 295-306: move assignment from a temporary storage, which is then destroyed -/
  | assign (i : Nat) (managed : Bool)
  /-- `operator( )`, 308-330 -/
  | call (i : Nat)
  /-- the destructor, 45-47 -/
  | destroy (i : Nat)

/-- The kind of an rvalue callable; see `Kind`, daw_stack_function.h 144-158. -/
def kindOf : Bool → Kind
  | true => .managed
  | false => .trivial

/-- Can the object be called: its bytes are good or it is alive (daw_stack_function.h 160-182 use `m_func`). -/
def Obj.callable (x : Obj) : Bool := x.kind = .trivial || x.alive

/-- One operation; the lines of daw_stack_function.h are those at the constructors of `Op`. -/
def step (w : World) : Op → Cxx World
  | .makeEmpty => pure { w with vars := w.vars ++ [some none] }
  | .make m => pure { w with vars := w.vars ++ [some (some w.objs.length)], objs := w.objs ++ [⟨kindOf m, true⟩] }
  | .makeLocal => pure { w with objs := w.objs ++ [⟨.lvalue, true⟩] }
  | .endLocal o =>
    if w.objs[o]? = some ⟨.lvalue, true⟩ then pure { w with objs := w.objs.set o ⟨.lvalue, false⟩ } else ub
  | .makeRef o =>
    if w.objs[o]? = some ⟨.lvalue, true⟩ then pure { w with vars := w.vars ++ [some (some o)] } else ub
  | .copy j => do
    let v ← live w.vars j
    pure { w with vars := w.vars ++ [some v] }
  | .copyAssign i j => do
    let v ← live w.vars i
    let u ← live w.vars j
    if i = j then pure w
    else do
      let objs ← clean w.objs v
      pure { w with vars := w.vars.set i (some u), objs := objs }
  | .assign i m => do
    let v ← live w.vars i
    let objs ← clean (w.objs ++ [⟨kindOf m, true⟩]) v
    let objs ← clean objs (some w.objs.length)
    pure { w with vars := w.vars.set i (some (some w.objs.length)), objs := objs }
  | .call i => do
    match ← live w.vars i with
    | none => thrown
    | some o =>
      match w.objs[o]? with
      | none => ub
      | some x => if x.callable then pure { w with calls := w.calls ++ [o] } else ub
  | .destroy i => do
    let v ← live w.vars i
    let objs ← clean w.objs v
    pure { w with vars := w.vars.set i none, objs := objs }

/-- A program: operations in order (no line of the source). -/
def run : List Op → World → Cxx World
  | [], w => pure w
  | o :: os, w => do
    let w ← step w o
    run os w

/-- What daw_stack_function.h 238-339 should mean: variables with values, where construction, assignment and copy take the value. -/
structure Ideal where
  vars : List (Option (Option Nat))
  kinds : List Kind
  calls : List Nat

/-- The operations of daw_stack_function.h 238-339 on values. -/
def Ideal.step (a : Ideal) : Op → Cxx Ideal
  | .makeEmpty => pure { a with vars := a.vars ++ [some none] }
  | .make m => pure { a with vars := a.vars ++ [some (some a.kinds.length)], kinds := a.kinds ++ [kindOf m] }
  | .makeLocal => pure { a with kinds := a.kinds ++ [.lvalue] }
  | .endLocal o => if a.kinds[o]? = some .lvalue then pure a else ub
  | .makeRef o => if a.kinds[o]? = some .lvalue then pure { a with vars := a.vars ++ [some (some o)] } else ub
  | .copy j => do
    let v ← live a.vars j
    pure { a with vars := a.vars ++ [some v] }
  | .copyAssign i j => do
    let _ ← live a.vars i
    let u ← live a.vars j
    pure { a with vars := a.vars.set i (some u) }
  | .assign i m => do
    let _ ← live a.vars i
    pure { a with vars := a.vars.set i (some (some a.kinds.length)), kinds := a.kinds ++ [kindOf m] }
  | .call i => do
    match ← live a.vars i with
    | none => thrown
    | some o => pure { a with calls := a.calls ++ [o] }
  | .destroy i => do
    let _ ← live a.vars i
    pure { a with vars := a.vars.set i none }

/-- A program on values (no line of the source). -/
def Ideal.run : List Op → Ideal → Cxx Ideal
  | [], a => pure a
  | o :: os, a => do
    let a ← a.step o
    Ideal.run os a

/-- No callable in a buffer has a destructor, and the program's own callables outlive the functions.
(Specification, no line of the source.) -/
def Op.plain : Op → Prop
  | .make m => m = false
  | .assign _ m => m = false
  | .endLocal _ => False
  | _ => True

/-- The invariant for such programs. (Specification, no line of the source.) -/
def TInv (w : World) : Prop :=
  (∀ x ∈ w.objs, x.kind ≠ .managed ∧ x.alive = true) ∧ ∀ i o : Nat, w.vars[i]? = some (some (some o)) → o < w.objs.length

theorem live_cases {α : Type} (vars : List (Option α)) (i : Nat) :
    (∃ v, vars[i]? = some (some v) ∧ live vars i = pure v) ∨ live vars i = ub := by
  cases e : vars[i]? with
  | none => right; unfold live; rw [rd_oob (List.getElem?_eq_none_iff.1 e), ub_bind]
  | some x =>
    cases x with
    | none => right; unfold live; rw [rd_some e]; rfl
    | some v => exact Or.inl ⟨v, rfl, live_of e⟩

theorem clean_plain {objs : List Obj} (h : ∀ x ∈ objs, x.kind ≠ .managed ∧ x.alive = true) {v : Option Nat}
    (hv : ∀ o, v = some o → o < objs.length) : clean objs v = pure objs := by
  cases v with
  | none => rfl
  | some o =>
    have hl := hv o rfl
    have hk := h _ (List.getElem_mem hl)
    simp only [clean]
    rw [List.getElem?_eq_getElem hl]
    revert hk
    generalize objs[o] = x
    obtain ⟨k, b⟩ := x
    intro hk
    cases k with
    | managed => exact absurd rfl hk.1
    | trivial => rfl
    | lvalue => rfl

theorem set_self_of {l : List (Option (Option Nat))} {i : Nat} {v : Option Nat} (h : l[i]? = some (some v)) : l.set i (some v) = l := by
  apply List.ext_getElem?
  intro k
  by_cases hk : k = i
  · subst hk; rw [List.getElem?_set_self (lt_of_some h), h]
  · rw [List.getElem?_set_ne (Ne.symm hk)]

theorem bounds_set {l : List (Option (Option Nat))} {i n m : Nat} {x : Option (Option Nat)} (hnm : n ≤ m)
    (h : ∀ j o : Nat, l[j]? = some (some (some o)) → o < n) (hx : ∀ o, x = some (some o) → o < m) :
    ∀ j o : Nat, (l.set i x)[j]? = some (some (some o)) → o < m := by
  intro j o hj
  by_cases hk : j = i
  · subst hk
    have hl := lt_of_some hj
    rw [List.length_set] at hl
    rw [List.getElem?_set_self hl] at hj
    injection hj with hj
    exact hx o hj
  · rw [List.getElem?_set_ne (Ne.symm hk)] at hj
    exact Nat.lt_of_lt_of_le (h j o hj) hnm

theorem bounds_snoc {l : List (Option (Option Nat))} {n m : Nat} {x : Option (Option Nat)} (hnm : n ≤ m)
    (h : ∀ j o : Nat, l[j]? = some (some (some o)) → o < n) (hx : ∀ o, x = some (some o) → o < m) :
    ∀ j o : Nat, (l ++ [x])[j]? = some (some (some o)) → o < m := by
  intro j o hj
  rcases Nat.lt_or_ge j l.length with g | g
  · rw [List.getElem?_append_left g] at hj
    exact Nat.lt_of_lt_of_le (h j o hj) hnm
  · rw [List.getElem?_append_right g] at hj
    cases e : j - l.length with
    | zero => rw [e] at hj; injection hj with hj; exact hx o hj
    | succ k => rw [e] at hj; simp at hj

/-- The values that the variables show. (Specification, no line of the source.) -/
def ideal (w : World) : Ideal := ⟨w.vars, w.objs.map Obj.kind, w.calls⟩

theorem lvalue_iff {w : World} (h1 : ∀ x ∈ w.objs, x.kind ≠ .managed ∧ x.alive = true) (o : Nat) :
    w.objs[o]? = some ⟨.lvalue, true⟩ ↔ (w.objs.map Obj.kind)[o]? = some .lvalue := by
  rw [List.getElem?_map]
  constructor
  · intro h; rw [h]; rfl
  · intro h
    cases e : w.objs[o]? with
    | none => rw [e] at h; cases h
    | some x =>
      rw [e] at h
      have hx := (h1 x (List.mem_of_getElem? e)).2
      obtain ⟨k, b⟩ := x
      injection h with h
      have h : k = .lvalue := h
      have hx : b = true := hx
      rw [h, hx]

theorem plain_step {w : World} (hw : TInv w) (o : Op) (ho : o.plain) :
    (∃ w', step w o = pure w' ∧ TInv w' ∧ (ideal w).step o = pure (ideal w')) ∨
    (step w o = ub ∧ (ideal w).step o = ub) ∨ (step w o = thrown ∧ (ideal w).step o = thrown) := by
  obtain ⟨h1, h2⟩ := hw
  have happ : ∀ k : Kind, k ≠ .managed → ∀ x ∈ w.objs ++ [(⟨k, true⟩ : Obj)], x.kind ≠ .managed ∧ x.alive = true := by
    intro k hk x hx
    rcases List.mem_append.1 hx with e | e
    · exact h1 x e
    · rw [List.mem_singleton.1 e]; exact ⟨hk, rfl⟩
  have hb : ∀ {i : Nat} {v : Option Nat}, w.vars[i]? = some (some v) → ∀ o, v = some o → o < w.objs.length := by
    intro i v hv o e
    subst e
    exact h2 i o hv
  have hmono : ∀ k : Kind, ∀ i o : Nat, w.vars[i]? = some (some (some o)) → o < (w.objs ++ [(⟨k, true⟩ : Obj)]).length := by
    intro k i o h
    have := h2 i o h
    rw [List.length_append]; exact Nat.lt_add_right _ this
  cases o with
  | makeEmpty =>
    exact Or.inl ⟨_, rfl, ⟨h1, bounds_snoc (Nat.le_refl _) h2 (fun o h => by cases h)⟩, rfl⟩
  | make m =>
    have hm : m = false := ho
    subst hm
    refine Or.inl ⟨_, rfl, ⟨happ _ (by decide), ?_⟩, ?_⟩
    · refine bounds_snoc (n := w.objs.length) (by simp) h2 (fun o h => ?_)
      injection h with h; injection h with h
      simp [← h]
    · simp [Ideal.step, ideal]
  | makeLocal =>
    exact Or.inl ⟨_, rfl, ⟨happ _ (by decide), hmono _⟩, by simp [Ideal.step, ideal]⟩
  | endLocal o => exact ho.elim
  | makeRef o =>
    simp only [step, Ideal.step, ideal]
    by_cases h : w.objs[o]? = some ⟨.lvalue, true⟩
    · have g := (lvalue_iff h1 o).1 h
      rw [if_pos h]
      simp only [g, if_true]
      refine Or.inl ⟨_, rfl, ⟨h1, bounds_snoc (Nat.le_refl _) h2 (fun o' h' => ?_)⟩, rfl⟩
      injection h' with h'; injection h' with h'
      rw [← h']
      exact lt_of_some h
    · have g : ¬(w.objs.map Obj.kind)[o]? = some .lvalue := fun g => h ((lvalue_iff h1 o).2 g)
      rw [if_neg h]
      simp only [g, if_false]
      exact Or.inr (Or.inl ⟨trivial, trivial⟩)
  | copy j =>
    simp only [step, Ideal.step, ideal]
    rcases live_cases w.vars j with ⟨v, hv, e⟩ | e
    · rw [e, pure_bind, pure_bind]
      refine Or.inl ⟨_, rfl, ⟨h1, bounds_snoc (Nat.le_refl _) h2 (fun o h => ?_)⟩, rfl⟩
      injection h with h
      exact hb hv o h
    · rw [e]; exact Or.inr (Or.inl ⟨rfl, rfl⟩)
  | copyAssign i j =>
    simp only [step, Ideal.step, ideal]
    rcases live_cases w.vars i with ⟨v, hv, e⟩ | e
    · rcases live_cases w.vars j with ⟨u, hu, e'⟩ | e'
      · rw [e, e']
        simp only [pure_bind]
        by_cases hij : i = j
        · subst hij
          rw [if_pos rfl]
          exact Or.inl ⟨w, rfl, ⟨h1, h2⟩, by rw [set_self_of hu]⟩
        · rw [if_neg hij, clean_plain h1 (hb hv), pure_bind]
          refine Or.inl ⟨_, rfl, ⟨h1, bounds_set (Nat.le_refl _) h2 (fun o h => ?_)⟩, rfl⟩
          injection h with h
          exact hb hu o h
      · rw [e, e']; simp only [pure_bind]; exact Or.inr (Or.inl ⟨rfl, rfl⟩)
    · rw [e]; exact Or.inr (Or.inl ⟨rfl, rfl⟩)
  | assign i m =>
    have hm : m = false := ho
    subst hm
    simp only [step, Ideal.step, ideal]
    have hk := happ (kindOf false) (by decide)
    rcases live_cases w.vars i with ⟨v, hv, e⟩ | e
    · rw [e, pure_bind, pure_bind,
        clean_plain hk (fun o h => by have := hb hv o h; rw [List.length_append]; exact Nat.lt_add_right _ this), pure_bind,
        clean_plain hk (fun o h => by injection h with h; simp [← h]), pure_bind]
      refine Or.inl ⟨_, rfl, ⟨hk, bounds_set (n := w.objs.length) (by simp) h2 (fun o h => ?_)⟩, ?_⟩
      · injection h with h; injection h with h
        simp [← h]
      · simp
    · rw [e]; exact Or.inr (Or.inl ⟨rfl, rfl⟩)
  | call i =>
    simp only [step, Ideal.step, ideal]
    rcases live_cases w.vars i with ⟨v, hv, e⟩ | e
    · rw [e, pure_bind, pure_bind]
      cases v with
      | none => exact Or.inr (Or.inr ⟨rfl, rfl⟩)
      | some o =>
        have hl := h2 i o hv
        have hc : (w.objs[o]).callable = true := by
          unfold Obj.callable
          rw [(h1 _ (List.getElem_mem hl)).2, Bool.or_true]
        dsimp only
        rw [List.getElem?_eq_getElem hl]
        dsimp only
        rw [if_pos hc]
        exact Or.inl ⟨_, rfl, ⟨h1, h2⟩, rfl⟩
    · rw [e]; exact Or.inr (Or.inl ⟨rfl, rfl⟩)
  | destroy i =>
    simp only [step, Ideal.step, ideal]
    rcases live_cases w.vars i with ⟨v, hv, e⟩ | e
    · rw [e, pure_bind, pure_bind, clean_plain h1 (hb hv), pure_bind]
      exact Or.inl ⟨_, rfl, ⟨h1, bounds_set (Nat.le_refl _) h2 (fun o h => by cases h)⟩, rfl⟩
    · rw [e]; exact Or.inr (Or.inl ⟨rfl, rfl⟩)

/-- C121, as far as it holds: with callables that can be copied as bytes and need no destructor, or that belong to the program and
outlive the functions, every program calls exactly the callables that a program with values would call, throws where that throws, and
is undefined only where that is: where a variable is used outside its lifetime.  Missing: callables with a destructor and lvalues that
do not outlive the function, see `C121_copy_violated`, `C121_assign_violated` and `C121_lvalue_violated`. -/
theorem C121_plain_partial (os : List Op) (ho : ∀ o ∈ os, o.plain) :
    (∃ w a, run os .init = pure w ∧ Ideal.run os ⟨[], [], []⟩ = pure a ∧ w.vars = a.vars ∧ w.calls = a.calls) ∨
    (run os .init = ub ∧ Ideal.run os ⟨[], [], []⟩ = ub) ∨ (run os .init = thrown ∧ Ideal.run os ⟨[], [], []⟩ = thrown) := by
  have key : ∀ (os : List Op) (w : World), TInv w → (∀ o ∈ os, o.plain) →
      (∃ w' a, run os w = pure w' ∧ Ideal.run os (ideal w) = pure a ∧ w'.vars = a.vars ∧ w'.calls = a.calls) ∨
      (run os w = ub ∧ Ideal.run os (ideal w) = ub) ∨ (run os w = thrown ∧ Ideal.run os (ideal w) = thrown) := by
    intro os
    induction os with
    | nil => intro w _ _; exact Or.inl ⟨w, ideal w, rfl, rfl, rfl, rfl⟩
    | cons o os ih =>
      intro w hw ho
      rw [run, Ideal.run]
      rcases plain_step hw o (ho o List.mem_cons_self) with ⟨w', e, hw', e'⟩ | ⟨e, e'⟩ | ⟨e, e'⟩
      · rw [e, e', pure_bind, pure_bind]
        exact ih w' hw' (fun x hx => ho x (List.mem_cons_of_mem _ hx))
      · rw [e, e']; exact Or.inr (Or.inl ⟨rfl, rfl⟩)
      · rw [e, e']; exact Or.inr (Or.inr ⟨rfl, rfl⟩)
  exact key os .init ⟨(by intro x hx; cases hx), (by intro i o h; simp [World.init] at h)⟩ ho

/-- Two callables and one of the program; the second is assigned to the first variable and called there. -/
example : run [.make false, .make false, .copyAssign 0 1, .call 0, .destroy 1, .assign 0 false, .call 0, .makeLocal, .makeRef 3,
      .call 2] .init =
    pure ⟨[some (some 2), none, some (some 3)], [⟨.trivial, true⟩, ⟨.trivial, true⟩, ⟨.trivial, true⟩, ⟨.lvalue, true⟩], [1, 2, 3]⟩ := by
  decide +kernel

/-- The program neither copies nor assigns functions, and makes no function from an lvalue.
(Specification, no line of the source.) -/
def Op.stays : Op → Prop
  | .copy _ => False
  | .copyAssign _ _ => False
  | .assign _ _ => False
  | .makeRef _ => False
  | _ => True

/-- The invariant of such programs: every variable has its own living callable, and every callable with a destructor that lives is
held. (Specification, no line of the source.) -/
structure SInv (w : World) : Prop where
  held : ∀ i o : Nat, w.vars[i]? = some (some (some o)) → ∃ m, w.objs[o]? = some ⟨kindOf m, true⟩
  own : ∀ i j o : Nat, w.vars[i]? = some (some (some o)) → w.vars[j]? = some (some (some o)) → i = j
  kept : ∀ o : Nat, w.objs[o]? = some ⟨.managed, true⟩ → ∃ i : Nat, w.vars[i]? = some (some (some o))

theorem snoc_some {β : Type} {l : List β} {x y : β} {j : Nat} (h : (l ++ [x])[j]? = some y) :
    (j < l.length ∧ l[j]? = some y) ∨ (j = l.length ∧ x = y) := by
  rcases Nat.lt_or_ge j l.length with g | g
  · rw [List.getElem?_append_left g] at h; exact Or.inl ⟨g, h⟩
  · rw [List.getElem?_append_right g] at h
    cases e : j - l.length with
    | zero => rw [e] at h; injection h with h; exact Or.inr ⟨by omega, h⟩
    | succ k => rw [e] at h; simp at h

theorem snoc_old {β : Type} {l : List β} {x y : β} {j : Nat} (h : l[j]? = some y) : (l ++ [x])[j]? = some y := by
  rw [List.getElem?_append_left (lt_of_some h)]
  exact h

theorem kindOf_ne (m : Bool) : kindOf m ≠ .lvalue := by cases m <;> decide

theorem stays_step {w w' : World} (hw : SInv w) (o : Op) (ho : o.stays) (h : step w o = pure w') : SInv w' := by
  obtain ⟨a1, a2, a3⟩ := hw
  have hlt : ∀ i o : Nat, w.vars[i]? = some (some (some o)) → o < w.objs.length := by
    intro i o hi
    obtain ⟨t, h⟩ := a1 i o hi
    exact lt_of_some h
  cases o with
  | copy => exact ho.elim
  | copyAssign => exact ho.elim
  | assign => exact ho.elim
  | makeRef => exact ho.elim
  | makeEmpty =>
    simp only [step, pure_inj] at h
    subst h
    refine ⟨?_, ?_, ?_⟩
    · intro i o hi
      rcases snoc_some hi with ⟨_, h⟩ | ⟨_, h⟩
      · exact a1 i o h
      · cases h
    · intro i j o hi hj
      rcases snoc_some hi with ⟨_, h⟩ | ⟨_, h⟩
      · rcases snoc_some hj with ⟨_, h'⟩ | ⟨_, h'⟩
        · exact a2 i j o h h'
        · cases h'
      · cases h
    · intro o ho
      obtain ⟨i, hi⟩ := a3 o ho
      exact ⟨i, snoc_old hi⟩
  | makeLocal =>
    simp only [step, pure_inj] at h
    subst h
    refine ⟨?_, a2, ?_⟩
    · intro i o hi
      obtain ⟨m, hm⟩ := a1 i o hi
      exact ⟨m, snoc_old hm⟩
    · intro o ho
      rcases snoc_some ho with ⟨_, h⟩ | ⟨_, h⟩
      · exact a3 o h
      · cases h
  | endLocal o =>
    simp only [step] at h
    by_cases hc : w.objs[o]? = some ⟨.lvalue, true⟩
    · rw [if_pos hc, pure_inj] at h
      subst h
      refine ⟨?_, a2, ?_⟩
      · intro i o' hi
        obtain ⟨m, hm⟩ := a1 i o' hi
        refine ⟨m, ?_⟩
        have : o' ≠ o := by
          intro e
          subst e
          rw [hc] at hm
          injection hm with hm; injection hm with hm
          exact kindOf_ne m hm.symm
        rw [List.getElem?_set_ne (Ne.symm this)]
        exact hm
      · intro o' ho'
        have : o' ≠ o := by
          intro e
          subst e
          rw [List.getElem?_set_self (lt_of_some hc)] at ho'
          cases ho'
        rw [List.getElem?_set_ne (Ne.symm this)] at ho'
        exact a3 o' ho'
    · rw [if_neg hc] at h; exact absurd h (ub_ne_pure _)
  | make m =>
    simp only [step, pure_inj] at h
    subst h
    refine ⟨?_, ?_, ?_⟩
    · intro i o hi
      rcases snoc_some hi with ⟨_, h⟩ | ⟨_, h⟩
      · obtain ⟨t', h⟩ := a1 i o h
        exact ⟨t', snoc_old h⟩
      · injection h with h; injection h with h
        exact ⟨m, by simp [← h]⟩
    · intro i j o hi hj
      rcases snoc_some hi with ⟨_, h⟩ | ⟨hi', h⟩
      · rcases snoc_some hj with ⟨_, h'⟩ | ⟨_, h'⟩
        · exact a2 i j o h h'
        · injection h' with h'; injection h' with h'
          have := hlt i o h
          omega
      · injection h with h; injection h with h
        rcases snoc_some hj with ⟨_, h'⟩ | ⟨hj', h'⟩
        · have := hlt j o h'
          omega
        · omega
    · intro o ho
      rcases snoc_some ho with ⟨_, h⟩ | ⟨e, h⟩
      · obtain ⟨i, hi⟩ := a3 o h
        exact ⟨i, snoc_old hi⟩
      · exact ⟨w.vars.length, by simp [e]⟩
  | call i =>
    simp only [step] at h
    rcases live_cases w.vars i with ⟨v, hv, e⟩ | e
    · rw [e, pure_bind] at h
      cases v with
      | none => exact absurd h (thrown_ne_pure _)
      | some o =>
        dsimp only at h
        cases hx : w.objs[o]? with
        | none => rw [hx] at h; exact absurd h (ub_ne_pure _)
        | some x =>
          rw [hx] at h
          dsimp only at h
          by_cases hc : x.callable = true
          · rw [if_pos hc, pure_inj] at h
            subst h
            exact ⟨a1, a2, a3⟩
          · rw [if_neg hc] at h; exact absurd h (ub_ne_pure _)
    · rw [e] at h; exact absurd h (ub_ne_pure _)
  | destroy i =>
    simp only [step] at h
    rcases live_cases w.vars i with ⟨v, hv, e⟩ | e
    · rw [e, pure_bind] at h
      have hvars : ∀ j o : Nat, (w.vars.set i none)[j]? = some (some (some o)) → j ≠ i ∧ w.vars[j]? = some (some (some o)) := by
        intro j o hj
        by_cases hji : j = i
        · subst hji
          rw [List.getElem?_set_self (lt_of_some hv)] at hj
          injection hj with hj
          cases hj
        · rw [List.getElem?_set_ne (Ne.symm hji)] at hj
          exact ⟨hji, hj⟩
      -- nothing with a destructor was in the buffer
      have hsame : (∀ o : Nat, v = some o → w.objs[o]? ≠ some ⟨.managed, true⟩) →
          SInv { w with vars := w.vars.set i none } := by
        intro hno
        refine ⟨fun j o hj => a1 j o (hvars j o hj).2, fun j k o hj hk => a2 j k o (hvars j o hj).2 (hvars k o hk).2, fun o' ho' => ?_⟩
        obtain ⟨j, hj⟩ := a3 o' ho'
        refine ⟨j, ?_⟩
        have : j ≠ i := by
          intro e
          rw [e, hv] at hj
          injection hj with hj; injection hj with hj
          exact hno o' hj ho'
        show (w.vars.set i none)[j]? = _
        rw [List.getElem?_set_ne (Ne.symm this)]
        exact hj
      cases v with
      | none =>
        simp only [clean, pure_bind, pure_inj] at h
        subst h
        exact hsame (fun o e => by cases e)
      | some o =>
        obtain ⟨m, ht⟩ := a1 i o hv
        cases m with
        | false =>
          simp only [clean, ht, kindOf, pure_bind, pure_inj] at h
          subst h
          refine hsame (fun o' e => ?_)
          injection e with e
          subst e
          rw [ht]
          intro e
          cases e
        | true =>
          simp only [clean, ht, kindOf, pure_bind, pure_inj] at h
          subst h
          refine ⟨fun j o' hj => ?_, fun j k o hj hk => a2 j k o (hvars j o hj).2 (hvars k o hk).2, fun o' ho' => ?_⟩
          · obtain ⟨hji, hj2⟩ := hvars j o' hj
            obtain ⟨t', ht'⟩ := a1 j o' hj2
            have : o' ≠ o := by
              intro e
              rw [e] at hj2
              exact hji (a2 j i o hj2 hv)
            refine ⟨t', ?_⟩
            show (w.objs.set o _)[o']? = _
            rw [List.getElem?_set_ne (Ne.symm this)]
            exact ht'
          · have ho' : (w.objs.set o ⟨.managed, false⟩)[o']? = some ⟨.managed, true⟩ := ho'
            have hoo : o' ≠ o := by
              intro e
              subst e
              rw [List.getElem?_set_self (lt_of_some ht)] at ho'
              cases ho'
            rw [List.getElem?_set_ne (Ne.symm hoo)] at ho'
            obtain ⟨j, hj⟩ := a3 o' ho'
            refine ⟨j, ?_⟩
            have : j ≠ i := by
              intro e
              rw [e, hv] at hj
              injection hj with hj; injection hj with hj; injection hj with hj
              exact hoo hj.symm
            show (w.vars.set i none)[j]? = _
            rw [List.getElem?_set_ne (Ne.symm this)]
            exact hj
    · rw [e] at h; exact absurd h (ub_ne_pure _)

theorem stays_run : ∀ (os : List Op) (w w' : World), SInv w → (∀ o ∈ os, o.stays) → run os w = pure w' → SInv w' := by
  intro os
  induction os with
  | nil => intro w w' hw _ h; rw [run, pure_inj] at h; subst h; exact hw
  | cons o os ih =>
    intro w w' hw ho h
    rw [run, bind_eq_pure] at h
    obtain ⟨w1, h1, h2⟩ := h
    exact ih w1 w' (stays_step hw o (ho o List.mem_cons_self) h1) (fun x hx => ho x (List.mem_cons_of_mem _ hx)) h2

theorem sinv_init : SInv .init :=
  ⟨(by intro i o h; simp [World.init] at h), (by intro i j o h; simp [World.init] at h), (by intro o h; simp [World.init] at h)⟩

/-- C121, as far as it holds: in a program that neither copies nor assigns functions and makes them from rvalues only, the callable of
a live function is alive, and when all functions are gone every destructor has run.  (It cannot run twice, which would be undefined.)
Missing: copies and assignments of callables with a destructor, and lvalues, see `C121_copy_violated`, `C121_assign_violated` and
`C121_lvalue_violated`. -/
theorem C121_owned_partial (os : List Op) (ho : ∀ o ∈ os, o.stays) (w : World) (h : run os .init = pure w) :
    (∀ i o : Nat, w.vars[i]? = some (some (some o)) → ∃ x, w.objs[o]? = some x ∧ x.alive = true) ∧
    ((∀ v ∈ w.vars, v = none) → ∀ (o : Nat) (x : Obj), w.objs[o]? = some x → x.kind = .managed → x.alive = false) := by
  have hI := stays_run os .init w sinv_init ho h
  refine ⟨fun i o hi => ?_, fun hg o x hx hk => ?_⟩
  · obtain ⟨m, hm⟩ := hI.held i o hi
    exact ⟨_, hm, rfl⟩
  · obtain ⟨k, b⟩ := x
    have hk : k = .managed := hk
    subst hk
    cases b with
    | false => rfl
    | true =>
      obtain ⟨i, hi⟩ := hI.kept o hx
      have := hg _ (List.mem_of_getElem? hi)
      cases this

/-- C121: in such a program a live function can be destroyed, and calling it calls its callable, or throws if it is empty.  Missing: as
for `C121_owned_partial`. -/
theorem C121_usable_partial (os : List Op) (ho : ∀ o ∈ os, o.stays) (w : World) (h : run os .init = pure w) (i : Nat) (v : Option Nat)
    (hi : w.vars[i]? = some (some v)) :
    (∃ w', step w (.destroy i) = pure w') ∧ (step w (.call i) = match v with
      | none => thrown
      | some o => pure { w with calls := w.calls ++ [o] }) := by
  have hI := stays_run os .init w sinv_init ho h
  simp only [step]
  rw [live_of hi, pure_bind, pure_bind]
  cases v with
  | none => exact ⟨⟨_, rfl⟩, rfl⟩
  | some o =>
    obtain ⟨m, hm⟩ := hI.held i o hi
    simp only [clean, hm]
    cases m
    · exact ⟨⟨_, rfl⟩, rfl⟩
    · exact ⟨⟨_, rfl⟩, rfl⟩

example : run [.make true, .makeEmpty, .make true, .call 2, .destroy 0, .call 2, .destroy 2, .destroy 1] .init =
    pure ⟨[none, none, none], [⟨.managed, false⟩, ⟨.managed, false⟩], [1, 1]⟩ := by decide +kernel

/-- C121 does not hold for the copy of a function whose callable has a destructor (for example a lambda that captures a string): the
bytes are copied, and the destructor runs for both, which is undefined. -/
theorem C121_copy_violated : run [.make true, .copy 0, .destroy 0, .destroy 1] .init = ub := by decide +kernel

/-- C121 does not hold for the assignment of such a callable: the destructor of the temporary has run before the function is first
called. -/
theorem C121_assign_violated : run [.makeEmpty, .assign 0 true, .call 0] .init = ub := by decide +kernel

/-- C121 does not hold for a function made from an lvalue: it keeps a reference, not a copy.  After the callable is gone the call is
undefined, where the program with values makes the call. -/
theorem C121_lvalue_violated : run [.makeLocal, .makeRef 0, .endLocal 0, .call 0] .init = ub ∧
    ∃ a, Ideal.run [.makeLocal, .makeRef 0, .endLocal 0, .call 0] ⟨[], [], []⟩ = pure a ∧ a.calls = [0] :=
  ⟨by decide +kernel, _, rfl, rfl⟩

end Verif.Own.StackFunction
