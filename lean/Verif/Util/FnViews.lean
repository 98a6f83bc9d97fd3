import Verif.Base
import Verif.Containers.Lists

/-
Views of functions, include/daw/daw_function_view.h, and variants seen through a base class, include/daw/daw_poly_var.h.
-/

namespace Verif.Util.FnViews
open Verif Verif.Cxx

/-! ## Views of functions -/

/-- What a `function_view` stores, daw_function_view.h 24-60 and 62-98: a function pointer, 42-45; nothing but the type of an empty callable, 46-51; the address
of a callable, 52-57, which may itself be a `function_view`. -/
inductive View
  | fp (fn : Nat)
  | empty (fn : Nat)
  | callable (addr : Nat)
  | view (idx : Nat)
  deriving DecidableEq

/-- The callables with state, with what they do, and the views; `none` when destroyed. (Specification, no line of the source.) -/
structure World where
  callables : List (Option Nat)
  views : List (Option View)
  deriving DecidableEq

/-- What a program does.  `make` makes a view of a function pointer, an empty callable or a callable with state.  `copyLvalue` is `auto b = a;` for an `a` that
is not const, `copy` is a copy from const, `assign` is `a = b;`.  `kill` destroys a callable, `destroy` a view. (Specification, no line of the source.) -/
inductive Op
  | callable (fn : Nat)
  | makeFp (fn : Nat)
  | makeEmpty (fn : Nat)
  | make (addr : Nat)
  | copyLvalue (i : Nat)
  | copy (i : Nat)
  | assign (i j : Nat)
  | kill (addr : Nat)
  | destroy (i : Nat)
  deriving DecidableEq

/-- The operations, daw_function_view.h 103-110 and 117-124.  The constructor template, 107-110, is a better match than the copy constructor for a view that is
not const: the new view has the address of the old one.  Copying from const, moving and assigning are implicit and copy the members.  An index without a view
does nothing. -/
def step (w : World) : Op → World
  | .callable fn => { w with callables := w.callables ++ [some fn] }
  | .makeFp fn => { w with views := w.views ++ [some (.fp fn)] }
  | .makeEmpty fn => { w with views := w.views ++ [some (.empty fn)] }
  | .make addr => { w with views := w.views ++ [some (.callable addr)] }
  | .copyLvalue i => if i < w.views.length then { w with views := w.views ++ [some (.view i)] } else w
  | .copy i =>
    match w.views[i]? with
    | some v => { w with views := w.views ++ [v] }
    | none => w
  | .assign i j =>
    match w.views[j]? with
    | some v => { w with views := w.views.set i v }
    | none => w
  | .kill addr => { w with callables := w.callables.set addr none }
  | .destroy i => { w with views := w.views.set i none }

/-- A program. (Specification, no line of the source.) -/
def run (w : World) (ops : List Op) : World := ops.foldl step w

/-- `operator( )`, daw_function_view.h 112-115 and 126-129, with 43-57 and 82-95: the function that runs in the end.  Using what is destroyed is undefined. -/
def call (w : World) (i : Nat) : Cxx Nat :=
  match w.views[i]? with
  | some (some (.fp fn)) => pure fn
  | some (some (.empty fn)) => pure fn
  | some (some (.callable addr)) =>
    match w.callables[addr]? with
    | some (some fn) => pure fn
    | _ => ub
  | some (some (.view j)) => call w j
  | _ => ub
partial_fixpoint

/-! ### Proofs -/

/-- The same operations where every copy copies what is stored. (Specification, no line of the source.) -/
def specStep (w : World) : Op → World
  | .copyLvalue i => step w (.copy i)
  | op => step w op

/-- The operation neither assigns to a view nor destroys one. (Specification, no line of the source.) -/
def Op.grows : Op → Bool
  | .assign _ _ | .destroy _ => false
  | _ => true

/-- The worlds agree on all calls: views of views are of earlier ones. (Specification, no line of the source.) -/
def Sim (w s : World) : Prop :=
  w.callables = s.callables ∧ w.views.length = s.views.length ∧
  ∀ i, i < w.views.length → (w.views[i]? = s.views[i]? ∧ ∃ v, s.views[i]? = some (some v) ∧ ∀ j, v ≠ .view j) ∨
    ∃ j < i, w.views[i]? = some (some (.view j)) ∧ s.views[i]? = s.views[j]?

theorem sim_root {w s : World} (h : Sim w s) (i : Nat) (hi : i < w.views.length) : ∃ v, s.views[i]? = some (some v) ∧ ∀ j, v ≠ .view j := by
  induction i using Nat.strongRecOn with
  | ind i ih =>
    rcases h.2.2 i hi with ⟨_, hv⟩ | ⟨j, hj, _, he⟩
    · exact hv
    · rw [he]
      exact ih j hj (by omega)

theorem call_eq {w s : World} (h : Sim w s) (i : Nat) (hi : i < w.views.length) : call w i = call s i := by
  induction i using Nat.strongRecOn with
  | ind i ih =>
    rcases h.2.2 i hi with ⟨he, v, hv, hn⟩ | ⟨j, hj, hw, he⟩
    · rw [call, call, he, hv]
      cases v with
      | fp fn => rfl
      | empty fn => rfl
      | callable addr => rw [h.1]
      | view j => exact absurd rfl (hn j)
    · rw [call, hw]
      have hcall : call s i = call s j := by
        rw [call, call, he]
      rw [hcall]
      exact ih j hj (by omega)

theorem sim_append {w s : World} (h : Sim w s) (a b : Option View)
    (hab : (a = b ∧ ∃ v, b = some v ∧ ∀ j, v ≠ .view j) ∨ ∃ j < w.views.length, a = some (.view j) ∧ s.views[j]? = some b) :
    Sim { w with views := w.views ++ [a] } { s with views := s.views ++ [b] } := by
  refine ⟨h.1, by simp [h.2.1], ?_⟩
  intro i hi
  simp only [List.length_append, List.length_cons, List.length_nil] at hi
  by_cases hlt : i < w.views.length
  · have hlt' : i < s.views.length := by rw [← h.2.1]; exact hlt
    simp only [List.getElem?_append_left hlt, List.getElem?_append_left hlt']
    rcases h.2.2 i hlt with h1 | ⟨j, hj, h1, h2⟩
    · exact .inl h1
    · exact .inr ⟨j, hj, h1, by rw [h2, List.getElem?_append_left (by omega)]⟩
  · obtain rfl : i = w.views.length := by omega
    have e1 : (w.views ++ [a])[w.views.length]? = some a := by simp
    have e2 : (s.views ++ [b])[w.views.length]? = some b := by rw [h.2.1]; simp
    simp only [e1, e2]
    rcases hab with ⟨rfl, v, rfl, hv⟩ | ⟨j, hj, rfl, hb⟩
    · exact .inl ⟨rfl, v, rfl, hv⟩
    · refine .inr ⟨j, hj, rfl, ?_⟩
      rw [List.getElem?_append_left (by rw [← h.2.1]; exact hj), hb]

theorem sim_step {w s : World} (h : Sim w s) (op : Op) (ho : op.grows = true) : Sim (step w op) (specStep s op) := by
  cases op with
  | callable fn => exact ⟨by simp [step, specStep, h.1], h.2⟩
  | makeFp fn => exact sim_append h _ _ (.inl ⟨rfl, _, rfl, by simp⟩)
  | makeEmpty fn => exact sim_append h _ _ (.inl ⟨rfl, _, rfl, by simp⟩)
  | make addr => exact sim_append h _ _ (.inl ⟨rfl, _, rfl, by simp⟩)
  | copyLvalue i =>
    simp only [step, specStep]
    by_cases hi : i < w.views.length
    · obtain ⟨v, hv, _⟩ := sim_root h i hi
      rw [if_pos hi, hv]
      exact sim_append h _ _ (.inr ⟨i, hi, rfl, hv⟩)
    · rw [if_neg hi, List.getElem?_eq_none (by rw [← h.2.1]; omega)]
      exact h
  | copy i =>
    simp only [step, specStep]
    by_cases hi : i < w.views.length
    · obtain ⟨v, hv, hn⟩ := sim_root h i hi
      rcases h.2.2 i hi with ⟨he, _⟩ | ⟨j, hj, hw, he⟩
      · rw [he, hv]
        exact sim_append h _ _ (.inl ⟨rfl, v, rfl, hn⟩)
      · rw [hw, hv]
        exact sim_append h _ _ (.inr ⟨j, by omega, rfl, by rw [← he, hv]⟩)
    · rw [List.getElem?_eq_none (by omega), List.getElem?_eq_none (by rw [← h.2.1]; omega)]
      exact h
  | assign i j => cases ho
  | kill addr => exact ⟨by simp [step, specStep, h.1], h.2⟩
  | destroy i => cases ho

/-- **C310.**  As long as no view is assigned to or destroyed, every view calls what the view it was copied from was made of, which is defined exactly while that
callable lives; function pointers and empty callables need not live.  Missing: programs that assign to views or destroy them, for which it is false. -/
theorem C310_calls_partial (ops : List Op) (ho : ∀ op ∈ ops, op.grows = true) (i : Nat) (hi : i < (run ⟨[], []⟩ ops).views.length) :
    call (run ⟨[], []⟩ ops) i = call (ops.foldl specStep ⟨[], []⟩) i := by
  have key : ∀ (ops : List Op) (w s : World), (∀ op ∈ ops, op.grows = true) → Sim w s → Sim (ops.foldl step w) (ops.foldl specStep s) := by
    intro ops
    induction ops with
    | nil => intro w s _ h; exact h
    | cons op ops ih =>
      intro w s ho h
      exact ih _ _ (fun o hm => ho o (by simp [hm])) (sim_step h op (ho op (by simp)))
  exact call_eq (key ops _ _ ho ⟨rfl, rfl, fun i hi => by simp at hi⟩) i hi

/-- A program without assignments. (Specification, no line of the source.) -/
def sample : List Op := [.callable 7, .make 0, .copyLvalue 0, .copy 1, .makeFp 8]

example : (∀ op ∈ sample, op.grows = true) ∧ 2 < (run ⟨[], []⟩ sample).views.length := by decide

example : call (sample.foldl specStep ⟨[], []⟩) 2 = pure 7 := by
  rw [call]
  rfl

/-- **C310.**  In the copies that copy what is stored, a call gives the function of a living callable, and is undefined once it is destroyed. -/
theorem C310_lifetime (w : World) (i addr fn : Nat) (hv : w.views[i]? = some (some (.callable addr))) (ha : w.callables[addr]? = some (some fn)) :
    call w i = pure fn ∧ call (step w (.kill addr)) i = ub := by
  constructor
  · rw [call, hv]
    simp only [ha]
  · rw [call]
    simp only [step, hv]
    rw [List.getElem?_set_self (List.getElem?_eq_some_iff.1 ha).1]

example := C310_lifetime ⟨[none, some 9], [some (.callable 1)]⟩ 0 1 9 rfl rfl

theorem views_kept (ops : List Op) (ho : ∀ op ∈ ops, op.grows = true) (w : World) (i : Nat) (v : Option View) (h : w.views[i]? = some v) :
    (run w ops).views[i]? = some v := by
  induction ops generalizing w with
  | nil => exact h
  | cons op ops ih =>
    apply ih (fun o hm => ho o (by simp [hm]))
    have hlt := (List.getElem?_eq_some_iff.1 h).1
    have hop := ho op (by simp)
    cases op with
    | callable fn => exact h
    | makeFp fn => simp only [step, List.getElem?_append_left hlt, h]
    | makeEmpty fn => simp only [step, List.getElem?_append_left hlt, h]
    | make addr => simp only [step, List.getElem?_append_left hlt, h]
    | copyLvalue j =>
      simp only [step]
      split
      · simp only [List.getElem?_append_left hlt, h]
      · exact h
    | copy j =>
      simp only [step]
      split
      · simp only [List.getElem?_append_left hlt, h]
      · exact h
    | assign i j => cases hop
    | kill addr => exact h
    | destroy i => cases hop

/-- **C310.**  Views of function pointers and of empty callables keep calling them whatever is made, copied or destroyed among the callables: they need no object
that lives. -/
theorem C310_stateless (w : World) (fn : Nat) (ops : List Op) (ho : ∀ op ∈ ops, op.grows = true) :
    call (run (step w (.makeFp fn)) ops) w.views.length = pure fn ∧ call (run (step w (.makeEmpty fn)) ops) w.views.length = pure fn := by
  constructor
  · rw [call, views_kept ops ho _ _ (some (.fp fn)) (by simp [step])]
  · rw [call, views_kept ops ho _ _ (some (.empty fn)) (by simp [step])]

example : ∀ op ∈ [Op.kill 0, .copyLvalue 0, .make 0], op.grows = true := by decide

/-- **C310** (finding).  A copy of a view that is not const is a view of the view: assigning to the one changes what the other calls. -/
theorem C310_copy_violated (f g : Nat) : call (run ⟨[], []⟩ [.makeFp f, .copyLvalue 0, .makeFp g, .assign 0 2]) 1 = pure g := by
  simp only [run, List.foldl_cons, List.foldl_nil, step]
  rw [call]
  simp
  rw [call]
  simp

/-- **C310** (finding).  Such a copy is of no use after the view it was copied from. -/
theorem C310_destroyed_violated (f : Nat) : call (run ⟨[], []⟩ [.makeFp f, .copyLvalue 0, .destroy 0]) 1 = ub := by
  simp only [run, List.foldl_cons, List.foldl_nil, step]
  rw [call]
  simp
  rw [call]
  simp

/-- **C310** (finding).  Assigning the copy back to the view it was copied from makes a view of itself, whose calls never end. -/
theorem C310_self_violated (f : Nat) : call (run ⟨[], []⟩ [.makeFp f, .copyLvalue 0, .assign 0 1]) 0 = diverge := by
  have hw : (run ⟨[], []⟩ [.makeFp f, .copyLvalue 0, .assign 0 1]).views[0]? = some (some (.view 0)) := rfl
  generalize run ⟨[], []⟩ [.makeFp f, .copyLvalue 0, .assign 0 1] = w at hw
  have key : ∀ i, i = 0 → call w i = diverge := by
    apply call.fixpoint_induct w (motive := fun g => ∀ i, i = 0 → g i = diverge)
    · exact Cxx.admissible1 (fun (i : Nat) r => i = 0 → r = diverge) fun _ _ => rfl
    · rintro g ih i rfl
      dsimp only
      rw [hw]
      exact ih 0 rfl
  exact key 0 rfl

/-! ## Variants seen through a base class -/

/-- A value of one of the types of a `poly_var`: which type, and the value. (Specification, no line of the source.) -/
structure Value where
  type : Nat
  val : Nat
  deriving DecidableEq

/-- What an expression denotes: an object that was there before, its address, or a new value of the base class. (Rule of C++ or its library, no line of the source.) -/
inductive Expr
  | object
  | address
  | fresh
  deriving DecidableEq

/-- The result of a lambda without a return type: `auto` drops references, an object is copied, addresses stay. (Rule of C++ or its library, no line of the source.) -/
def autoReturn : Expr → Expr
  | .object => .fresh
  | e => e

/-- What is left of a result after the return, as a reference or as a pointer: the object that was there before, or nothing, because a new value is gone.
(Rule of C++ or its library, no line of the source.) -/
def refers : Expr → Bool
  | .object => true
  | .address => true
  | .fresh => false

/-- `operator->`, daw_poly_var.h 51-61: the visitor returns the address as pointer to the base class. -/
def arrow : Expr := autoReturn .address

/-- `operator*` of a const object, daw_poly_var.h 39-43: the visitor returns `*static_cast<Base const *>( &value )`.  The other one, 45-49, does not
compile when it is used. -/
def star : Expr := autoReturn .object

/-- A call of a virtual function through what was returned: for each type and value what it returns.  What is gone cannot be used. (Rule of C++ or its library, no line of the source.) -/
def virtualCall (f : Nat → Nat → Nat) (v : Value) (e : Expr) : Cxx Nat := if refers e then pure (f v.type v.val) else ub

/-- Assignments, daw_poly_var.h 32-37, after construction, 27-30. -/
def assign (v : Value) (vs : List Value) : Value := vs.foldl (fun _ x => x) v

/-- **C311.**  After any assignments `operator->` calls the function of the type last assigned on the value last assigned.  Missing: `operator*`, for which it is false. -/
theorem C311_arrow_partial (f : Nat → Nat → Nat) (v : Value) (vs : List Value) :
    virtualCall f (assign v vs) arrow = pure (f (vs.getLast?.getD v).type (vs.getLast?.getD v).val) := by
  have : assign v vs = vs.getLast?.getD v := by
    unfold assign
    induction vs generalizing v with
    | nil => rfl
    | cons x xs ih =>
      rw [List.foldl_cons, ih]
      rw [List.getLast?_cons]
      rfl
  rw [this]
  rfl

example : virtualCall (fun t x => 10 * t + x) (assign ⟨1, 2⟩ [⟨3, 4⟩]) arrow = pure 34 := rfl

/-- **C311** (finding).  `operator*` refers to a temporary whatever is stored: every use is undefined. -/
theorem C311_star_violated (f : Nat → Nat → Nat) (v : Value) : virtualCall f v star = ub := rfl

end Verif.Util.FnViews
