import Verif.Containers.Lists

/-
`daw::optional_poly`, include/daw/deprecated/daw_optional_poly.h: an optional with an object of a type or of one derived from it.
-/

namespace Verif.Own.Poly
open Cxx

/-- An object: its type as it was made (zero is the type of the optional), what the base has, and what the derived type adds.
(Rule of C++ or its library, no line of the source.) -/
structure Obj where
  type : Nat
  base : Int
  extra : Int
  deriving DecidableEq

/-- An object of type `t` made from one of that type or of one derived from it: what the derived type adds is lost for the base.
(Rule of C++ or its library, no line of the source.) -/
def Obj.copyAs (t : Nat) (o : Obj) : Obj := if t = 0 then ⟨0, o.base, 0⟩ else ⟨t, o.base, o.extra⟩

/-- A variable: the object of `m_value`. (daw_optional_poly.h 31.) -/
abbrev Var := Option Obj

/-- `make_copy`, deprecated/daw_optional_poly.h 33-43, for a pointer to `t`: the copy is of the type of the pointer. -/
def makeCopy (t : Nat) (p : Var) : Var := p.map (Obj.copyAs t)

/-- What is done with variables.  A `t` is the type that an optional is for, or that an expression has. (Specification, no line of the
source.) -/
inductive Op where
  | empty
  | value (t : Nat) (o : Obj)
  | copy (i : Nat)
  | assign (i j : Nat)
  | assignValue (i t : Nat) (o : Obj)
  | move (i j : Nat)
  | swap (i j : Nat)
  | reset (i : Nat)

/-- One operation on variables of `optional_poly<Base>`; a variable that does not exist is a mistake of the list, and undefined.
(deprecated/daw_optional_poly.h: 49, 67-79, 54-55, 57-60, 115-122, 51-52 and 104-113, 124-126, 164-166.) -/
def step (vs : List Var) (op : Op) : Cxx (List Var) :=
  match op with
  | .empty => pure (vs ++ [none])
  | .value t o => pure (vs ++ [some (o.copyAs t)])
  | .copy i => do
    let x ← rd vs i
    pure (vs ++ [makeCopy 0 x])
  | .assign i j => do
    let x ← rd vs j
    wr vs i (makeCopy 0 x)
  | .assignValue i _ o => wr vs i (some (o.copyAs 0))
  | .move i j => do
    let x ← rd vs j
    if i = j then pure vs
    else
      let vs ← wr vs j none
      wr vs i x
  | .swap i j => do
    let x ← rd vs i
    let y ← rd vs j
    let vs ← wr vs i y
    wr vs j x
  | .reset i => wr vs i none

/-- Many operations. (Specification, no line of the source.) -/
def run : List Op → List Var → Cxx (List Var)
  | [], vs => pure vs
  | op :: ops, vs => do
    let vs ← step vs op
    run ops vs

/-- What a user expects of an operation: an optional has the object that was put into it, a copy or an assigned one too; a moved one is
empty. (Specification, no line of the source.) -/
def want (vs : List Var) (op : Op) : Cxx (List Var) :=
  match op with
  | .empty => pure (vs ++ [none])
  | .value t o => pure (vs ++ [some (o.copyAs t)])
  | .copy i => (match vs[i]? with | some x => pure (vs ++ [x]) | none => ub)
  | .assign i j => (match vs[j]? with | some x => if i < vs.length then pure (vs.set i x) else ub | none => ub)
  | .assignValue i t o => if i < vs.length then pure (vs.set i (some (o.copyAs t))) else ub
  | .move i j => (match vs[j]? with
    | some x => if i = j then pure vs else if i < vs.length then pure ((vs.set j none).set i x) else ub
    | none => ub)
  | .swap i j => (match vs[i]?, vs[j]? with
    | some x, some y => pure ((vs.set i y).set j x)
    | _, _ => ub)
  | .reset i => if i < vs.length then pure (vs.set i none) else ub

/-- What a user expects of many operations. (Specification, no line of the source.) -/
def wants : List Op → List Var → Cxx (List Var)
  | [], vs => pure vs
  | op :: ops, vs => do
    let vs ← want vs op
    wants ops vs

/-- No variable has an object of a derived type. (Specification, no line of the source.) -/
def Plain (vs : List Var) : Prop := ∀ v ∈ vs, ∀ o, v = some o → o.type = 0 ∧ o.extra = 0

/-- The operation puts no object of a derived type anywhere. (Specification, no line of the source.) -/
def Op.Plain : Op → Prop
  | .value t _ => t = 0
  | .assignValue _ t _ => t = 0
  | _ => True

/-- The operation copies or assigns nothing. (Specification, no line of the source.) -/
def Op.NoCopy : Op → Prop
  | .copy _ => False
  | .assign _ _ => False
  | .assignValue _ _ _ => False
  | _ => True

theorem copyAs_plain {o : Obj} (h : o.type = 0 ∧ o.extra = 0) : o.copyAs 0 = o := by
  obtain ⟨t, b, e⟩ := o
  obtain ⟨rfl, rfl⟩ : t = 0 ∧ e = 0 := h
  rfl

theorem makeCopy_plain {vs : List Var} (hp : Plain vs) {i : Nat} {x : Var} (h : rd vs i = pure x) : makeCopy 0 x = x := by
  cases x with
  | none => rfl
  | some o =>
    have hmem : some o ∈ vs := by
      unfold rd at h
      split at h
      · rename_i y hy
        have := Cxx.pure_inj.mp h
        subst this
        exact List.mem_of_getElem? hy
      · cases h
    simp only [makeCopy, Option.map_some]
    rw [copyAs_plain (hp _ hmem o rfl)]

theorem rd_mem {vs : List Var} {i : Nat} {x : Var} (h : rd vs i = pure x) : x ∈ vs := by
  unfold rd at h
  split at h
  · rename_i y hy
    have := Cxx.pure_inj.mp h
    subst this
    exact List.mem_of_getElem? hy
  · cases h

theorem wr_plain {vs ws : List Var} {i : Nat} {x : Var} (hp : Plain vs) (hx : ∀ o, x = some o → o.type = 0 ∧ o.extra = 0)
    (h : wr vs i x = pure ws) : Plain ws := by
  unfold wr at h
  split at h
  · have := Cxx.pure_inj.mp h
    subst this
    intro v hv
    rcases List.mem_or_eq_of_mem_set hv with h | h
    · exact hp v h
    · subst h; exact hx
  · cases h

theorem step_plain {vs ws : List Var} {op : Op} (hp : Plain vs) (ho : op.Plain) (h : step vs op = pure ws) : Plain ws := by
  have app : ∀ x : Var, (∀ o, x = some o → o.type = 0 ∧ o.extra = 0) → Plain (vs ++ [x]) := by
    intro x hx v hv
    rcases List.mem_append.mp hv with hv | hv
    · exact hp v hv
    · simp at hv; subst hv; exact hx
  have cp : ∀ o : Obj, (o.copyAs 0).type = 0 ∧ (o.copyAs 0).extra = 0 := fun o => ⟨rfl, rfl⟩
  have mc : ∀ (x : Var) (o : Obj), makeCopy 0 x = some o → o.type = 0 ∧ o.extra = 0 := by
    intro x o h
    cases x with
    | none => simp [makeCopy] at h
    | some y => simp [makeCopy] at h; rw [← h]; exact cp y
  cases op with
  | empty =>
    have := Cxx.pure_inj.mp h
    subst this
    exact app none (by intro o h; cases h)
  | value t o =>
    have := Cxx.pure_inj.mp h
    subst this
    have ht : t = 0 := ho
    subst ht
    exact app _ (by intro o' h; cases h; exact cp o)
  | copy i =>
    obtain ⟨x, hx, h⟩ := bind_eq_pure.mp h
    have := Cxx.pure_inj.mp h
    subst this
    exact app _ (mc x)
  | assign i j =>
    obtain ⟨x, hx, h⟩ := bind_eq_pure.mp h
    exact wr_plain hp (mc x) h
  | assignValue i t o => exact wr_plain hp (by intro o' h; cases h; exact cp o) h
  | move i j =>
    obtain ⟨x, hx, h⟩ := bind_eq_pure.mp h
    by_cases hij : i = j
    · rw [if_pos hij] at h
      have := Cxx.pure_inj.mp h
      subst this
      exact hp
    · rw [if_neg hij] at h
      obtain ⟨us, hu, h⟩ := bind_eq_pure.mp h
      exact wr_plain (wr_plain hp (by intro o h; cases h) hu) (hp x (rd_mem hx)) h
  | swap i j =>
    obtain ⟨x, hx, h⟩ := bind_eq_pure.mp h
    obtain ⟨y, hy, h⟩ := bind_eq_pure.mp h
    obtain ⟨us, hu, h⟩ := bind_eq_pure.mp h
    exact wr_plain (wr_plain hp (hp y (rd_mem hy)) hu) (hp x (rd_mem hx)) h
  | reset i => exact wr_plain hp (by intro o h; cases h) h

theorem bind_congr_pure {α β : Type} {x : Cxx α} {f g : α → Cxx β} (h : ∀ a, x = pure a → f a = g a) : (x >>= f) = (x >>= g) := by
  match x, h with
  | some (.ok a), h => exact h a rfl
  | some (.error _), _ => rfl
  | none, _ => rfl

theorem rd_bind {β : Type} (vs : List Var) (i : Nat) (f : Var → Cxx β) :
    (rd vs i >>= f) = match vs[i]? with | some x => f x | none => ub := by
  unfold rd
  cases vs[i]? <;> rfl

theorem wr_if (vs : List Var) (i : Nat) (x : Var) : wr vs i x = if i < vs.length then pure (vs.set i x) else ub := by
  unfold wr
  rfl

/-- The operations that neither copy nor assign an object do what is expected for all objects. -/
theorem step_want_no_copy {vs : List Var} {op : Op} (ho : op.NoCopy) : step vs op = want vs op := by
  cases op with
  | empty => rfl
  | value t o => rfl
  | copy i => exact absurd ho (by simp [Op.NoCopy])
  | assign i j => exact absurd ho (by simp [Op.NoCopy])
  | assignValue i t o => exact absurd ho (by simp [Op.NoCopy])
  | move i j =>
    simp only [step, want]
    rw [rd_bind]
    cases hj : vs[j]? with
    | none => rfl
    | some x =>
      by_cases hij : i = j
      · simp only [if_pos hij]
      · have hlt : j < vs.length := (List.getElem?_eq_some_iff.mp hj).1
        simp only [if_neg hij]
        rw [wr_if, if_pos hlt, pure_bind, wr_if, List.length_set]
  | swap i j =>
    simp only [step, want]
    rw [rd_bind]
    cases hi : vs[i]? with
    | none => rfl
    | some x =>
      have hli : i < vs.length := (List.getElem?_eq_some_iff.mp hi).1
      dsimp only
      rw [rd_bind]
      cases hj : vs[j]? with
      | none => rfl
      | some y =>
        have hlj : j < vs.length := (List.getElem?_eq_some_iff.mp hj).1
        dsimp only
        rw [wr_if, if_pos hli, pure_bind, wr_if, List.length_set, if_pos hlj]
  | reset i => exact wr_if vs i none

theorem step_want {vs : List Var} {op : Op} (hp : Plain vs) (ho : op.Plain) : step vs op = want vs op := by
  have mc : ∀ (i : Nat) (x : Var), vs[i]? = some x → makeCopy 0 x = x := fun i x h => makeCopy_plain hp (rd_some h)
  cases op with
  | copy i =>
    simp only [step, want]
    rw [rd_bind]
    cases hi : vs[i]? with
    | none => rfl
    | some x => simp only [mc i x hi]
  | assign i j =>
    simp only [step, want]
    rw [rd_bind]
    cases hj : vs[j]? with
    | none => rfl
    | some x => simp only [mc j x hj]; exact wr_if vs i x
  | assignValue i t o =>
    have ht : t = 0 := ho
    subst ht
    exact wr_if vs i _
  | empty => exact step_want_no_copy trivial
  | value t o => exact step_want_no_copy trivial
  | move i j => exact step_want_no_copy trivial
  | swap i j => exact step_want_no_copy trivial
  | reset i => exact step_want_no_copy trivial

/-- Optionals have the objects that were put into them, copied, assigned, moved and swapped, over all histories without objects of
derived types. -/
theorem C251_plain_partial (ops : List Op) : ∀ vs : List Var, Plain vs → (∀ op ∈ ops, op.Plain) → run ops vs = wants ops vs := by
  induction ops with
  | nil => intro vs _ _; rfl
  | cons op ops ih =>
    intro vs hp ho
    unfold run wants
    have he := step_want hp (ho op (by simp))
    rw [← he]
    exact bind_congr_pure fun ws h => ih ws (step_plain hp (ho op (by simp)) h) (fun o h => ho o (by simp [h]))

example : run [.value 0 ⟨0, 5, 0⟩, .copy 0, .assignValue 0 0 ⟨0, 7, 0⟩, .empty, .assign 2 1] [] =
    wants [.value 0 ⟨0, 5, 0⟩, .copy 0, .assignValue 0 0 ⟨0, 7, 0⟩, .empty, .assign 2 1] [] :=
  C251_plain_partial _ [] (by intro v hv; cases hv) (by intro op h; simp at h; rcases h with rfl | rfl | rfl | rfl | rfl <;> simp [Op.Plain])

/-- And over all histories without copies and assignments of objects, with objects of any types: a variable that has an object has one
that was put into some variable, as it was. -/
theorem C251_no_copy_partial (ops : List Op) (h : ∀ op ∈ ops, op.NoCopy) : ∀ vs : List Var, run ops vs = wants ops vs := by
  induction ops with
  | nil => intro vs; rfl
  | cons op ops ih =>
    intro vs
    unfold run wants
    have he : step vs op = want vs op := step_want_no_copy (h op (by simp))
    rw [he]
    exact congrArg (want vs op >>= ·) (funext fun ws => ih (fun o ho => h o (by simp [ho])) ws)

example : run [.value 1 ⟨1, 5, 6⟩, .empty, .move 1 0, .swap 0 1] [] = pure [some ⟨1, 5, 6⟩, none] := rfl
example : run [.value 1 ⟨1, 5, 6⟩, .empty, .move 1 0] [] = wants [.value 1 ⟨1, 5, 6⟩, .empty, .move 1 0] [] :=
  C251_no_copy_partial _ (by intro op h; simp at h; rcases h with rfl | rfl | rfl <;> simp [Op.NoCopy]) []

/-- An optional that is made from an object of a derived type has it, but a copy of that optional, an optional that it is assigned to, and
one that such an object is assigned to have an object of the base type only. -/
theorem C251_sliced_violated (t : Nat) (ht : t ≠ 0) (b e : Int) :
    run [.value t ⟨t, b, e⟩, .copy 0, .empty, .assign 2 0, .empty, .assignValue 3 t ⟨t, b, e⟩] [] =
      pure [some ⟨t, b, e⟩, some ⟨0, b, 0⟩, some ⟨0, b, 0⟩, some ⟨0, b, 0⟩] := by
  have : Obj.copyAs t ⟨t, b, e⟩ = ⟨t, b, e⟩ := if_neg ht
  simp only [run, step, this, List.nil_append, List.cons_append, pure_bind]
  rfl

example : run [.value 1 ⟨1, 123, 321⟩, .copy 0, .empty, .assign 2 0, .empty, .assignValue 3 1 ⟨1, 123, 321⟩] [] =
    pure [some ⟨1, 123, 321⟩, some ⟨0, 123, 0⟩, some ⟨0, 123, 0⟩, some ⟨0, 123, 0⟩] := C251_sliced_violated 1 (by omega) 123 321

/-! ## Comparisons -/

/-- `operator==`, deprecated/daw_optional_poly.h 181-191. -/
def opEq (a b : Var) : Bool :=
  match a with
  | some x => (match b with | some y => decide (x = y) | none => false)
  | none => !b.isSome

/-- `operator!=`, deprecated/daw_optional_poly.h 193-203. -/
def opNe (a b : Var) : Bool :=
  match a with
  | some x => (match b with | some y => decide (x ≠ y) | none => true)
  | none => b.isSome

/-- `operator<`, deprecated/daw_optional_poly.h 205-215. -/
def opLt (lt : Obj → Obj → Bool) (a b : Var) : Bool :=
  match a with
  | some x => (match b with | some y => lt x y | none => false)
  | none => true

/-- `operator<=`, deprecated/daw_optional_poly.h 217-227: for the type within `x <= y` is `!( y < x )`. -/
def opLe (lt : Obj → Obj → Bool) (a b : Var) : Bool :=
  match a with
  | some x => (match b with | some y => !lt y x | none => false)
  | none => true

/-- `operator>`, deprecated/daw_optional_poly.h 229-239. -/
def opGt (lt : Obj → Obj → Bool) (a b : Var) : Bool :=
  match a with
  | some x => (match b with | some y => lt y x | none => true)
  | none => false

/-- `operator>=`, deprecated/daw_optional_poly.h 241-251. -/
def opGe (lt : Obj → Obj → Bool) (a b : Var) : Bool :=
  match a with
  | some x => (match b with | some y => !lt x y | none => true)
  | none => false

/-- The order of optionals that `std::optional` has: an empty one is before all others. (Specification, no line of the source.) -/
def Before (lt : Obj → Obj → Bool) (a b : Var) : Prop :=
  (a = none ∧ b ≠ none) ∨ ∃ x y, a = some x ∧ b = some y ∧ lt x y = true

/-- Equality is right for all; the other four are right unless both are empty; `<=` and `>` are right then too. -/
theorem C252_compare_partial (lt : Obj → Obj → Bool) (a b : Var) :
    (opEq a b = true ↔ a = b) ∧ (opNe a b = true ↔ a ≠ b) ∧
      (opLe lt a b = true ↔ ¬ Before lt b a) ∧ (opGt lt a b = true ↔ Before lt b a) ∧
      (a ≠ none ∨ b ≠ none → (opLt lt a b = true ↔ Before lt a b) ∧ (opGe lt a b = true ↔ ¬ Before lt a b)) := by
  cases a <;> cases b <;> simp [opEq, opNe, opLe, opGt, opLt, opGe, Before]

example : opLt (fun x y => decide (x.base < y.base)) none (some ⟨0, 1, 0⟩) = true :=
  ((C252_compare_partial _ none (some ⟨0, 1, 0⟩)).2.2.2.2 (Or.inr (by simp))).1.mpr (Or.inl ⟨rfl, by simp⟩)

/-- An empty optional is less than itself, and not greater or equal to itself, although it equals itself. -/
theorem C252_empty_violated (lt : Obj → Obj → Bool) :
    opLt lt none none = true ∧ opGe lt none none = false ∧ opEq none none = true ∧ ¬ StrictWeak (fun a b => opLt lt a b) := by
  refine ⟨rfl, rfl, rfl, fun h => ?_⟩
  have := h.irrefl none
  simp [opLt] at this

end Verif.Own.Poly
