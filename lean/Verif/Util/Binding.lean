import Verif.Base
import Verif.Containers.Lists

/-
Binding arguments, include/daw/daw_bind_args_at.h and include/daw/daw_bind_front.h, packs of forwarded arguments, include/daw/daw_fwd_pack_apply.h, and named
parameters, include/daw/daw_named_params.h.
-/

namespace Verif.Util.Binding
open Verif Verif.Cxx

variable {α : Type}

/-! ## Binding arguments -/

/-- An argument of a call: a variable, or a variable that may be moved from, which includes temporaries. (Rule of C++ or its library, no line of the source.) -/
inductive Arg
  | lvalue (cell : Nat)
  | rvalue (cell : Nat)
  deriving DecidableEq

/-- The variable. (Rule of C++ or its library, no line of the source.) -/
def Arg.cell : Arg → Nat
  | .lvalue c => c
  | .rvalue c => c

/-- The variables of the caller; `none` when moved from. (Rule of C++ or its library, no line of the source.) -/
abbrev Mem (α : Type) := List (Option α)

/-- One element of the tuple: copied from a variable, moved from an argument that may be. (Rule of C++ or its library, no line of the source.) -/
def take1 (m : Mem α) : Arg → Option α × Mem α
  | .lvalue c => ((m[c]?).join, m)
  | .rvalue c => ((m[c]?).join, m.set c none)

/-- `split_args_impl`, daw_bind_args_at.h 25-37: the new tuple of values, element by element, for the arguments from one index to another. -/
def splitArgs (m : Mem α) : List Arg → List (Option α) × Mem α
  | [] => ([], m)
  | a :: as =>
    let (v, m₁) := take1 m a
    let (vs, m₂) := splitArgs m₁ as
    (v :: vs, m₂)

/-- `bind_args_at_fn::operator( )`, daw_bind_args_at.h 109-131: the values the function is called with and the variables after it.  `leftFirst` tells which of the
two calls of `split_args` is evaluated first.  The function gets values, never the variables of the caller. -/
def bindAt (leftFirst : Bool) (n : Nat) (bound : List (Option α)) (m : Mem α) (args : List Arg) : List (Option α) × Mem α :=
  if leftFirst then
    let (front, m₁) := splitArgs m (args.take n)
    let (back, m₂) := splitArgs m₁ (args.drop n)
    (front ++ bound ++ back, m₂)
  else
    let (back, m₁) := splitArgs m (args.drop n)
    let (front, m₂) := splitArgs m₁ (args.take n)
    (front ++ bound ++ back, m₂)

/-- A parameter of the function called: a value of its own or a variable of the caller. (Rule of C++ or its library, no line of the source.) -/
inductive Param (α : Type)
  | value (v : Option α)
  | ref (a : Arg)

/-- `bind_front::operator( )`, daw_bind_front.h 26-42: copies of the bound values and the arguments themselves. -/
def bindFront (bound : List (Option α)) (args : List Arg) : List (Param α) := bound.map .value ++ args.map .ref

/-- What the parameter gives when it is read. (Rule of C++ or its library, no line of the source.) -/
def Param.read (m : Mem α) : Param α → Option α
  | .value v => v
  | .ref a => (m[a.cell]?).join

/-! ### Proofs -/

/-- A variable that is moved from is no other argument. (Specification, no line of the source.) -/
def Apart (args : List Arg) : Prop := args.Pairwise fun a b => (a = .rvalue a.cell ∨ b = .rvalue b.cell) → a.cell ≠ b.cell

/-- The variables after all that may be moved from are moved from. (Specification, no line of the source.) -/
def moved (m : Mem α) (args : List Arg) : Mem α :=
  m.mapIdx fun c v => if Arg.rvalue c ∈ args then none else v

theorem take1_mem (m : Mem α) (a : Arg) : (take1 m a).2 = moved m [a] := by
  cases a with
  | lvalue c =>
    simp only [take1, moved]
    apply List.ext_getElem?
    intro i
    simp
  | rvalue c =>
    simp only [take1, moved]
    apply List.ext_getElem?
    intro i
    simp only [List.getElem?_set, List.getElem?_mapIdx, List.mem_cons, Arg.rvalue.injEq, List.not_mem_nil, or_false]
    by_cases h : c = i
    · subst h
      by_cases hl : c < m.length
      · simp [hl]
      · simp [hl]
    · have h' : ¬ i = c := fun e => h e.symm
      simp [h, h']

theorem moved_append (m : Mem α) (as bs : List Arg) : moved (moved m as) bs = moved m (as ++ bs) := by
  apply List.ext_getElem?
  intro i
  simp only [moved, List.getElem?_mapIdx, Option.map_map]
  congr 1
  funext v
  simp only [Function.comp_apply, List.mem_append]
  by_cases h1 : Arg.rvalue i ∈ as <;> by_cases h2 : Arg.rvalue i ∈ bs <;> simp [h1, h2]

theorem moved_perm (m : Mem α) (as bs : List Arg) : moved m (as ++ bs) = moved m (bs ++ as) := by
  unfold moved
  congr 1
  funext c v
  simp only [List.mem_append, or_comm]

theorem moved_get (m : Mem α) (as : List Arg) (b : Arg) (h : ∀ a ∈ as, a = .rvalue a.cell → a.cell ≠ b.cell) :
    ((moved m as)[b.cell]?).join = (m[b.cell]?).join := by
  have : Arg.rvalue b.cell ∉ as := fun hm => h _ hm rfl rfl
  simp only [moved, List.getElem?_mapIdx, this, if_false, Option.map_id']

theorem splitArgs_spec (m : Mem α) (args : List Arg) (h : Apart args) :
    splitArgs m args = (args.map fun a => (m[a.cell]?).join, moved m args) := by
  induction args generalizing m with
  | nil =>
    simp only [splitArgs, moved, List.map_nil]
    congr 1
    apply List.ext_getElem?
    intro i
    simp
  | cons a as ih =>
    unfold Apart at h
    rw [List.pairwise_cons] at h
    simp only [splitArgs]
    rw [ih _ h.2, take1_mem, moved_append, List.singleton_append]
    simp only [List.map_cons]
    congr 2
    · cases a <;> rfl
    · apply List.map_congr_left
      intro b hb
      apply moved_get
      intro a' ha' hr
      simp only [List.mem_cons, List.not_mem_nil, or_false] at ha'
      subst ha'
      exact h.1 b hb (.inl hr)

theorem apart_sub {args : List Arg} (h : Apart args) (n : Nat) : Apart (args.take n) ∧ Apart (args.drop n) ∧
    ∀ a ∈ args.take n, ∀ b ∈ args.drop n, (a = .rvalue a.cell ∨ b = .rvalue b.cell) → a.cell ≠ b.cell := by
  unfold Apart at h
  rw [← List.take_append_drop n args, List.pairwise_append] at h
  exact h

/-- **C312.**  Whatever order the compiler chooses, the function is called with the first `n` arguments, the bound values and the other arguments, in this order;
every argument that may be moved from is, and no other variable changes.
Missing: variables are copied instead of forwarded, see `C312_copies_violated`. -/
theorem C312_bind_at_partial (leftFirst : Bool) (n : Nat) (bound : List (Option α)) (m : Mem α) (args : List Arg) (h : Apart args) :
    bindAt leftFirst n bound m args =
      ((args.take n).map (fun a => (m[a.cell]?).join) ++ bound ++ (args.drop n).map (fun a => (m[a.cell]?).join), moved m args) := by
  obtain ⟨h1, h2, h3⟩ := apart_sub h n
  unfold bindAt
  cases leftFirst with
  | true =>
    rw [if_pos rfl, splitArgs_spec m _ h1]
    dsimp only
    rw [splitArgs_spec _ _ h2, moved_append, List.take_append_drop]
    dsimp only
    congr 2
    apply List.map_congr_left
    intro b hb
    exact moved_get m _ b fun a ha hr => h3 a ha b hb (.inl hr)
  | false =>
    rw [if_neg (by simp), splitArgs_spec m _ h2]
    dsimp only
    rw [splitArgs_spec _ _ h1, moved_append, moved_perm, List.take_append_drop]
    dsimp only
    congr 3
    apply List.map_congr_left
    intro b hb
    exact moved_get m _ b fun a ha hr e => h3 b hb a ha (.inr hr) e.symm

example : Apart [.lvalue 0, .rvalue 1, .lvalue 0] := by unfold Apart; decide

example : bindAt true 1 [some 9] [some 5, some 6] [.lvalue 0, .rvalue 1, .lvalue 0] = ([some 5, some 9, some 6, some 5], [some 5, none]) := rfl

/-- **C312.**  A function with bound first arguments sees the bound values and then the arguments themselves, so that it sees what the caller does to its
variables. -/
theorem C312_bind_front (bound : List (Option α)) (args : List Arg) (m : Mem α) :
    (bindFront bound args).map (Param.read m) = bound ++ args.map (fun a => (m[a.cell]?).join) := by
  simp only [bindFront, List.map_append, List.map_map]
  congr 1
  conv => rhs; rw [← List.map_id bound]
  rfl

/-- The variables a function is given, to which it may write. (Specification, no line of the source.) -/
def writable (ps : List (Param α)) : List Nat :=
  ps.filterMap fun
    | .ref (.lvalue c) => some c
    | _ => none

/-- The values passed by `bind_args_at` as parameters, daw_bind_args_at.h 111-116: all are values. -/
def bindAtParams (leftFirst : Bool) (n : Nat) (bound : List (Option α)) (m : Mem α) (args : List Arg) : List (Param α) :=
  (bindAt leftFirst n bound m args).1.map .value

/-- **C312** (finding).  The two differ in what the function may change: through `bind_front` all variables it is given, through `bind_args_at` none, not even those
passed by reference. -/
theorem C312_copies_violated (leftFirst : Bool) (n : Nat) (bound : List (Option α)) (m : Mem α) (cells : List Nat) :
    writable (bindFront bound (cells.map .lvalue)) = cells ∧ writable (bindAtParams leftFirst n bound m (cells.map .lvalue)) = [] := by
  constructor
  · unfold writable bindFront
    rw [List.filterMap_append, List.map_map, List.filterMap_map, List.filterMap_map]
    have h1 : bound.filterMap ((fun p : Param α => match p with | .ref (.lvalue c) => some c | _ => none) ∘ Param.value) = [] := by
      rw [List.filterMap_eq_nil_iff]; intros; rfl
    have h2 : cells.filterMap ((fun p : Param α => match p with | .ref (.lvalue c) => some c | _ => none) ∘ Param.ref ∘ Arg.lvalue) = cells := by
      conv => rhs; rw [← List.filterMap_some (l := cells)]
      rfl
    rw [h1, h2]
    rfl
  · unfold writable bindAtParams
    rw [List.filterMap_map, List.filterMap_eq_nil_iff]
    intros
    rfl

/-- **C312.**  What the function reads from the parameters of `bind_args_at` are the values at the call, whatever happens to the variables later. -/
theorem C312_bind_at_values (leftFirst : Bool) (n : Nat) (bound : List (Option α)) (m m' : Mem α) (args : List Arg) (h : Apart args) :
    (bindAtParams leftFirst n bound m args).map (Param.read m') =
      (args.take n).map (fun a => (m[a.cell]?).join) ++ bound ++ (args.drop n).map (fun a => (m[a.cell]?).join) := by
  unfold bindAtParams
  rw [List.map_map, C312_bind_at_partial leftFirst n bound m args h]
  exact List.map_id _

example : (bindAtParams true 1 [some 9] [some 5, some 6] [.lvalue 0, .rvalue 1]).map (Param.read [some 0, some 0]) = [some 5, some 9, some 6] :=
  C312_bind_at_values true 1 [some 9] [some 5, some 6] [some 0, some 0] [.lvalue 0, .rvalue 1] (by unfold Apart; decide)

/-! ## Packs of forwarded arguments -/

/-- The type of an element of a pack: a value, a reference or a reference to something that may be moved from. (Rule of C++ or its library, no line of the source.) -/
inductive Kind
  | value | lref | rref
  deriving DecidableEq

/-- What a leaf of the pack points to: a variable of the caller, or a parameter of the constructor, which is gone. (Specification, no line of the source.) -/
inductive Leaf
  | cell (c : Nat)
  | gone
  deriving DecidableEq

/-- The constructor, daw_fwd_pack_apply.h 53-54: the addresses of its parameters; for an element type that is no reference this is the parameter itself. -/
def makeLeaf : Kind → Nat → Leaf
  | .value, _ => .gone
  | .lref, c => .cell c
  | .rref, c => .cell c

/-- The pack of arguments with given element types, daw_fwd_pack_apply.h 42-54. -/
def makePack (ts : List Kind) (cells : List Nat) : List (Kind × Leaf) := List.zipWith (fun t c => (t, makeLeaf t c)) ts cells

/-- The element types by deduction, daw_fwd_pack_apply.h 107-108. -/
def deduce : Arg → Kind
  | .lvalue _ => .lref
  | .rvalue _ => .rref

/-- `get`, daw_fwd_pack_apply.h 56-98: the argument as it was passed.  What is gone cannot be used. -/
def getArg : Kind × Leaf → Cxx Arg
  | (_, .gone) => ub
  | (.lref, .cell c) => pure (.lvalue c)
  | (.rref, .cell c) => pure (.rvalue c)
  | (.value, .cell c) => pure (.lvalue c)

/-- `apply`, daw_fwd_pack_apply.h 127-143: the arguments the function is called with. -/
def applyPack (p : List (Kind × Leaf)) : Cxx (List Arg) := p.mapM getArg

/-- **C313.**  With deduced element types the function is called with exactly the arguments of the pack, in order and with the same right to move from them.  Missing:
element types that are given and are no references, for which it is false. -/
theorem C313_forward_partial (args : List Arg) : applyPack (makePack (args.map deduce) (args.map Arg.cell)) = pure args := by
  unfold applyPack makePack
  induction args with
  | nil => rfl
  | cons a as ih =>
    have hg : getArg (deduce a, makeLeaf (deduce a) a.cell) = pure a := by cases a <;> rfl
    simp only [List.map_cons, List.zipWith_cons_cons, List.mapM_cons, hg, pure_bind, ih]

example : applyPack (makePack [.lref, .rref] [4, 7]) = pure [.lvalue 4, .rvalue 7] := C313_forward_partial [.lvalue 4, .rvalue 7]

/-- **C313** (finding).  A pack with an element type that is no reference points to a parameter of its constructor: using it is undefined. -/
theorem C313_value_violated (ts us : List Kind) (cells : List Nat) (h : (ts ++ .value :: us).length = cells.length) :
    applyPack (makePack (ts ++ .value :: us) cells) = ub := by
  unfold applyPack makePack
  induction ts generalizing cells with
  | nil =>
    obtain ⟨c, cs, rfl⟩ : ∃ c cs, cells = c :: cs := by
      cases cells with
      | nil => simp at h
      | cons c cs => exact ⟨c, cs, rfl⟩
    rw [List.nil_append, List.zipWith_cons_cons, List.mapM_cons]
    rfl
  | cons t ts ih =>
    obtain ⟨c, cs, rfl⟩ : ∃ c cs, cells = c :: cs := by
      cases cells with
      | nil => simp at h
      | cons c cs => exact ⟨c, cs, rfl⟩
    rw [List.cons_append, List.zipWith_cons_cons, List.mapM_cons]
    have := ih cs (by simpa using h)
    cases t
    · rfl
    · rw [show getArg (.lref, makeLeaf .lref c) = pure (.lvalue c) from rfl, pure_bind, this, ub_bind]
    · rw [show getArg (.rref, makeLeaf .rref c) = pure (.rvalue c) from rfl, pure_bind, this, ub_bind]

example : applyPack (makePack [.lref, .value] [4, 7]) = ub := C313_value_violated [.lref] [] [4, 7] rfl

/-! ## Named parameters -/

/-- An option passed by a caller: its name, how it is passed, and its value. (Specification, no line of the source.) -/
structure Opt (α : Type) where
  name : Nat
  kind : Kind
  value : α

/-- `is_unique_v`, daw_named_params.h 28-34: the types are compared as they are deduced, with reference and const. -/
def isUnique (os : List (Opt α)) : Bool :=
  os.all fun o => decide ((os.filter fun p => decide (p.name = o.name ∧ p.kind = o.kind)).length ≤ 1)

/-- `get_opt`, daw_named_params.h 54-75: `none` if the constraint, 55, is not met and the call does not compile. -/
def getOpt (name : Nat) (default : α) : List (Opt α) → Option α
  | [] => some default
  | o :: os =>
    if isUnique (o :: os) then
      if o.name = name then some o.value else getOpt name default os
    else none

/-! ### Proofs -/

theorem isUnique_tail {o : Opt α} {os : List (Opt α)} (h : isUnique (o :: os) = true) : isUnique os = true := by
  unfold isUnique at h ⊢
  rw [List.all_eq_true] at h ⊢
  intro p hp
  have := h p (by simp [hp])
  simp only [decide_eq_true_eq, List.filter_cons] at this ⊢
  split at this
  · simp only [List.length_cons] at this
    omega
  · exact this

/-- The options have different names. (Specification, no line of the source.) -/
def Distinct (os : List (Opt α)) : Prop := (os.map Opt.name).Nodup

theorem distinct_unique {os : List (Opt α)} (h : Distinct os) : isUnique os = true := by
  unfold isUnique
  rw [List.all_eq_true]
  intro o ho
  clear ho
  simp only [decide_eq_true_eq]
  unfold Distinct at h
  induction os with
  | nil => simp
  | cons p ps ih =>
    rw [List.map_cons, List.nodup_cons] at h
    simp only [List.filter_cons]
    split
    · rename_i hp
      simp only [decide_eq_true_eq] at hp
      have : ps.filter (fun q => decide (q.name = o.name ∧ q.kind = o.kind)) = [] := by
        rw [List.filter_eq_nil_iff]
        intro q hq he
        simp only [decide_eq_true_eq] at he
        exact h.1 (List.mem_map.2 ⟨q, hq, by rw [he.1, hp.1]⟩)
      rw [this]
      simp
    · exact ih h.2

theorem getOpt_find (name : Nat) (default : α) (os : List (Opt α)) (h : isUnique os = true) :
    getOpt name default os = some (((os.find? fun o => decide (o.name = name)).map Opt.value).getD default) := by
  induction os with
  | nil => rfl
  | cons o os ih =>
    rw [getOpt, if_pos h, List.find?_cons]
    by_cases hn : o.name = name
    · rw [if_pos hn]
      simp [hn]
    · rw [if_neg hn, ih (isUnique_tail h)]
      simp [hn]

/-- **C314.**  With options of different names, the value is that of the option with the name, or the default if there is none. -/
theorem C314_value_partial (name : Nat) (default : α) (os : List (Opt α)) (h : Distinct os) :
    (∀ o ∈ os, o.name = name → getOpt name default os = some o.value) ∧ ((∀ o ∈ os, o.name ≠ name) → getOpt name default os = some default) := by
  rw [getOpt_find name default os (distinct_unique h)]
  constructor
  · intro o ho hn
    have : os.find? (fun o => decide (o.name = name)) = some o := by
      unfold Distinct at h
      induction os with
      | nil => simp at ho
      | cons p ps ih =>
        rw [List.map_cons, List.nodup_cons] at h
        rw [List.find?_cons]
        rcases List.mem_cons.1 ho with rfl | ho
        · simp [hn]
        · have : p.name ≠ name := fun e => h.1 (List.mem_map.2 ⟨o, ho, by rw [e, hn]⟩)
          simp only [this, decide_false]
          exact ih h.2 ho
    rw [this]
    rfl
  · intro hn
    have : os.find? (fun o => decide (o.name = name)) = none := by
      rw [List.find?_eq_none]
      intro o ho
      simpa using hn o ho
    rw [this]
    rfl

/-- Two options. (Specification, no line of the source.) -/
def sample : List (Opt Nat) := [⟨1, .lref, 5⟩, ⟨2, .rref, 6⟩]

example : Distinct sample ∧ getOpt 2 0 sample = some 6 ∧ getOpt 3 0 sample = some 0 := by
  refine ⟨by unfold Distinct; decide, by decide, by decide⟩

/-- **C314.**  The order of options of different names does not matter. -/
theorem C314_order (name : Nat) (default : α) (os ps : List (Opt α)) (h : Distinct os) (hp : os.Perm ps) : getOpt name default os = getOpt name default ps := by
  have hd : Distinct ps := (hp.map Opt.name).nodup_iff.1 h
  by_cases hn : ∃ o ∈ os, o.name = name
  · obtain ⟨o, ho, hn⟩ := hn
    rw [(C314_value_partial name default os h).1 o ho hn, (C314_value_partial name default ps hd).1 o (hp.mem_iff.1 ho) hn]
  · have hn' : ∀ o ∈ os, o.name ≠ name := fun o ho he => hn ⟨o, ho, he⟩
    rw [(C314_value_partial name default os h).2 hn', (C314_value_partial name default ps hd).2 fun o ho => hn' o (hp.mem_iff.2 ho)]

example := C314_order 2 (0 : Nat) [⟨1, .value, 7⟩, ⟨2, .value, 8⟩] [⟨2, .value, 8⟩, ⟨1, .value, 7⟩] (by unfold Distinct; decide) (List.Perm.swap _ _ _)

/-- **C314** (finding).  An option may be given twice if it is passed in two ways, as a variable and as a temporary: the first wins, and the order matters. -/
theorem C314_repeated_violated (name : Nat) (default a b : α) :
    getOpt name default [⟨name, .lref, a⟩, ⟨name, .rref, b⟩] = some a ∧ getOpt name default [⟨name, .rref, b⟩, ⟨name, .lref, a⟩] = some b := by
  constructor <;> simp [getOpt, isUnique]

end Verif.Util.Binding
