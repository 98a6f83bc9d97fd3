import Verif.Own.Base

/-
include/daw/daw_union_pair.h, daw_validated.h and daw_sbo.h.
-/

namespace Verif.Own
open Cxx
variable {A B α : Type}

/-! ## union_pair_t -/

/-- `data_types`, daw_union_pair.h 26. -/
inductive Tag where
  | t0 | t1 | nothing
  deriving DecidableEq, Repr

/-- The member of the union, daw_union_pair.h 28-32, that is alive; `nothing` stands for the member `nothing` and for no member. -/
inductive Member (A B : Type) where
  | nothing
  | v0 (a : A)
  | v1 (b : B)
  deriving DecidableEq

/-- `union_pair_t`, daw_union_pair.h 28-34. -/
structure UPair (A B : Type) where
  type : Tag
  act : Member A B
  deriving DecidableEq

/-- The default constructor, daw_union_pair.h 106-107. -/
def UPair.mkEmpty : UPair A B := ⟨.nothing, .nothing⟩

/-- `clear`, daw_union_pair.h 52-77, and so the destructor 109-111. Destroying a member that is not alive is undefined. -/
def UPair.clear (u : UPair A B) : Cxx (UPair A B) :=
  match u.type with
  | .nothing => pure u
  | .t0 => match u.act with
    | .v0 _ => pure ⟨.nothing, .nothing⟩
    | _ => ub
  | .t1 => match u.act with
    | .v1 _ => pure ⟨.nothing, .nothing⟩
    | _ => ub

/-- `store_type0` after the `clear`, daw_union_pair.h 87-89. Assigning to a member that is not alive makes it alive if its type
is trivial (`triv`), and is undefined otherwise. -/
def UPair.put0 (triv : Bool) (u : UPair A B) (a : A) : Cxx (UPair A B) :=
  match u.act with
  | .v0 _ => pure ⟨.t0, .v0 a⟩
  | _ => if triv then pure ⟨.t0, .v0 a⟩ else ub

/-- `store_type0`, daw_union_pair.h 79-90. -/
def UPair.store0 (triv : Bool) (u : UPair A B) (a : A) : Cxx (UPair A B) := do
  let u ← (if u.type ≠ .t0 then u.clear else pure u : Cxx (UPair A B))
  u.put0 triv a

/-- `store_type1` after the `clear`, daw_union_pair.h 100-102. -/
def UPair.put1 (triv : Bool) (u : UPair A B) (b : B) : Cxx (UPair A B) :=
  match u.act with
  | .v1 _ => pure ⟨.t1, .v1 b⟩
  | _ => if triv then pure ⟨.t1, .v1 b⟩ else ub

/-- `store_type1`, daw_union_pair.h 92-103. -/
def UPair.store1 (triv : Bool) (u : UPair A B) (b : B) : Cxx (UPair A B) := do
  let u ← (if u.type ≠ .t1 then u.clear else pure u : Cxx (UPair A B))
  u.put1 triv b

/-- The assignment operators, daw_union_pair.h 197-233, of different objects; the constructors 161-195 do the same from the
default state. Moving is copying for the values of this model. -/
def UPair.assign (triv0 triv1 : Bool) (u rhs : UPair A B) : Cxx (UPair A B) :=
  match rhs.type with
  | .t0 => match rhs.act with
    | .v0 a => u.store0 triv0 a
    | _ => ub
  | .t1 => match rhs.act with
    | .v1 b => u.store1 triv1 b
    | _ => ub
  | .nothing => u.clear

/-- `visit`, daw_union_pair.h 235-248: what the visitor is called with. -/
def UPair.visit (u : UPair A B) : Cxx (A ⊕ B) :=
  match u.type with
  | .t0 => match u.act with
    | .v0 a => pure (.inl a)
    | _ => ub
  | .t1 => match u.act with
    | .v1 b => pure (.inr b)
    | _ => ub
  | .nothing => thrown

/-- `which`, daw_union_pair.h 113-115. -/
def UPair.which (u : UPair A B) : Nat :=
  match u.type with
  | .t0 => 0
  | .t1 => 1
  | .nothing => 2

/-- `store_type0` if the assignment throws, daw_union_pair.h 84-88: what is left. -/
def UPair.store0Threw (u : UPair A B) : Cxx (UPair A B) := do
  let u ← (if u.type ≠ .t0 then u.clear else pure u : Cxx (UPair A B))
  pure { u with type := .nothing }

/-- What a program does with several such variables. (Specification, no line of the source.) -/
inductive UOp (A B : Type) where
  | new
  | newCopy (j : Nat)
  | set0 (i : Nat) (a : A)
  | set1 (i : Nat) (b : B)
  | assign (i j : Nat)

/-- One operation. (Specification, no line of the source.) -/
def uStep (triv0 triv1 : Bool) (vars : List (UPair A B)) : UOp A B → Cxx (List (UPair A B))
  | .new => pure (vars ++ [.mkEmpty])
  | .newCopy j => do
    let v ← rd vars j
    let u ← UPair.mkEmpty.assign triv0 triv1 v
    pure (vars ++ [u])
  | .set0 i a => do
    let u ← rd vars i
    let u ← u.store0 triv0 a
    pure (vars.set i u)
  | .set1 i b => do
    let u ← rd vars i
    let u ← u.store1 triv1 b
    pure (vars.set i u)
  | .assign i j => do
    let u ← rd vars i
    let v ← rd vars j
    if i = j then pure vars
    else
      let u ← u.assign triv0 triv1 v
      pure (vars.set i u)

/-- A program. (Specification, no line of the source.) -/
def uRun (triv0 triv1 : Bool) : List (UOp A B) → List (UPair A B) → Cxx (List (UPair A B))
  | [], vars => pure vars
  | op :: ops, vars => do
    let vars ← uStep triv0 triv1 vars op
    uRun triv0 triv1 ops vars

/-- The same program on variables that hold one of the two or nothing. (Specification, no line of the source.) -/
def refStep (vars : List (Option (A ⊕ B))) : UOp A B → Cxx (List (Option (A ⊕ B)))
  | .new => pure (vars ++ [none])
  | .newCopy j => do
    let v ← rd vars j
    pure (vars ++ [v])
  | .set0 i a => do
    let _ ← rd vars i
    pure (vars.set i (some (.inl a)))
  | .set1 i b => do
    let _ ← rd vars i
    pure (vars.set i (some (.inr b)))
  | .assign i j => do
    let _ ← rd vars i
    let v ← rd vars j
    pure (vars.set i v)

/-- The program on such variables. (Specification, no line of the source.) -/
def refRun : List (UOp A B) → List (Option (A ⊕ B)) → Cxx (List (Option (A ⊕ B)))
  | [], vars => pure vars
  | op :: ops, vars => do
    let vars ← refStep vars op
    refRun ops vars

/-- How the class represents them. (Specification, no line of the source.) -/
def conc : Option (A ⊕ B) → UPair A B
  | none => ⟨.nothing, .nothing⟩
  | some (.inl a) => ⟨.t0, .v0 a⟩
  | some (.inr b) => ⟨.t1, .v1 b⟩

theorem store0_conc (o : Option (A ⊕ B)) (a : A) : (conc o).store0 true a = pure (conc (some (.inl a))) := by
  rcases o with _ | (a' | b') <;> rfl

theorem store1_conc (o : Option (A ⊕ B)) (b : B) : (conc o).store1 true b = pure (conc (some (.inr b))) := by
  rcases o with _ | (a' | b') <;> rfl

theorem assign_conc (o p : Option (A ⊕ B)) : (conc o).assign true true (conc p) = pure (conc p) := by
  rcases p with _ | (a' | b')
  · rcases o with _ | (a' | b') <;> rfl
  · exact store0_conc o a'
  · exact store1_conc o b'

theorem rd_map {α β : Type} (f : α → β) (l : List α) (i : Nat) : rd (l.map f) i = (do let a ← rd l i; pure (f a)) := by
  by_cases h : i < l.length
  · rw [rd_eq h, pure_bind, rd_eq (by simpa using h)]
    simp
  · rw [rd_oob (by simpa using h), rd_oob (Nat.le_of_not_lt h)]
    rfl

theorem uStep_conc (vars : List (Option (A ⊕ B))) (op : UOp A B) :
    uStep true true (vars.map conc) op = (do let r ← refStep vars op; pure (r.map conc)) := by
  cases op with
  | new => simp [uStep, refStep, UPair.mkEmpty, conc]
  | newCopy j =>
    simp only [uStep, refStep, rd_map, bind_assoc, pure_bind]
    congr 1
    funext v
    have : (UPair.mkEmpty : UPair A B) = conc none := rfl
    rw [this, assign_conc, pure_bind]
    simp
  | set0 i a =>
    simp only [uStep, refStep, rd_map, bind_assoc, pure_bind]
    congr 1
    funext v
    rw [store0_conc, pure_bind, List.map_set]
  | set1 i b =>
    simp only [uStep, refStep, rd_map, bind_assoc, pure_bind]
    congr 1
    funext v
    rw [store1_conc, pure_bind, List.map_set]
  | assign i j =>
    by_cases hi : i < vars.length
    · by_cases hj : j < vars.length
      · simp only [uStep, refStep, rd_map, pure_bind, rd_eq hi, rd_eq hj]
        by_cases e : i = j
        · subst e
          rw [if_pos rfl, List.set_getElem_self]
        · rw [if_neg e, assign_conc, pure_bind, List.map_set]
      · simp only [uStep, refStep, rd_map, bind_assoc, pure_bind, rd_eq hi, rd_oob (Nat.le_of_not_lt hj)]
        rfl
    · simp only [uStep, refStep, rd_map, bind_assoc, pure_bind, rd_oob (Nat.le_of_not_lt hi)]
      rfl

/-- For types that are trivial, programs with any number of such variables, of any length, do what they do with variables that hold one of
the two types or nothing; `visit` and `which` tell what is held, and nothing is undefined in between. -/
theorem C156_trivial_partial (ops : List (UOp A B)) :
    uRun true true ops [] = (do let r ← refRun ops []; pure (r.map conc)) ∧
    ∀ o : Option (A ⊕ B), (conc o).visit = o.elim thrown pure ∧
      (conc o).which = (match o with | some (.inl _) => 0 | some (.inr _) => 1 | none => 2) ∧
      (conc o).clear = pure (conc none) := by
  constructor
  · have key : ∀ (ops : List (UOp A B)) (vars : List (Option (A ⊕ B))),
        uRun true true ops (vars.map conc) = (do let r ← refRun ops vars; pure (r.map conc)) := by
      intro ops
      induction ops with
      | nil => intro vars; rfl
      | cons op ops ih =>
        intro vars
        show (uStep true true (vars.map conc) op >>= uRun true true ops) = ((refStep vars op >>= refRun ops) >>= _)
        rw [uStep_conc, bind_assoc, bind_assoc]
        congr 1
        funext r
        rw [pure_bind, ih]
    exact key ops []
  · intro o
    rcases o with _ | (a' | b') <;> exact ⟨rfl, rfl, rfl⟩

example : (do let r ← uRun true true [.new, .set0 0 5, .newCopy 0, .set1 0 'x'] ([] : List (UPair Nat Char)); rd r 0) =
    pure ⟨.t1, .v1 'x'⟩ := by decide +kernel

/-- For other types, such as `std::string`, every constructor from a value and every change of the held type assigns to an object that
does not exist. -/
theorem C156_union_violated (a : A) (b b' : B) (o : Option (A ⊕ B)) (h : ∀ a', o ≠ some (.inl a')) (triv1 : Bool) :
    (UPair.mkEmpty : UPair A B).store0 false a = ub ∧ (UPair.mkEmpty : UPair A B).store1 false b = ub ∧
    (conc o).store0 false a = ub ∧ (conc o).assign false triv1 (conc (some (.inl a))) = ub ∧
    (conc (some (.inl a)) : UPair A B).store1 false b' = ub := by
  rcases o with _ | (a' | b')
  · exact ⟨rfl, rfl, rfl, rfl, rfl⟩
  · exact absurd rfl (h a')
  · exact ⟨rfl, rfl, rfl, rfl, rfl⟩

example := C156_union_violated 1 'b' 'c' (some (.inr 'd')) (by simp) true

/-- C156.  A value of the type that is held is assigned in place, for types that are not trivial too: the pair has the new value, and nothing is undefined. -/
theorem C156_same_partial (triv : Bool) (a a' : A) (b b' : B) :
    (conc (some (.inl a)) : UPair A B).store0 triv a' = pure (conc (some (.inl a'))) ∧
    (conc (some (.inr b)) : UPair A B).store1 triv b' = pure (conc (some (.inr b'))) := ⟨rfl, rfl⟩

example : (conc (some (.inl 3)) : UPair Nat Bool).store0 false 4 = pure (conc (some (.inl 4))) := rfl

/-- If the assignment to the held object throws, the object is forgotten: it is still alive when the destructor is done. -/
theorem C156_throw_violated (a : A) : ∃ u u' : UPair A B, (conc (some (.inl a)) : UPair A B).store0Threw = pure u ∧ u.clear = pure u' ∧
    u'.act = .v0 a := ⟨_, _, rfl, rfl, rfl⟩

/-! ## validated -/

/-- `validate`, daw_validated.h 40-47, where `ok` is the validator: the value passes or `std::out_of_range` is thrown. -/
def validate (ok : α → Bool) (v : α) : Cxx α := if !ok v then thrown else pure v

/-- The constructors from a value or from arguments, daw_validated.h 62-72, through `make_value` 49-57: `v` is the value made of the
arguments. For an enumeration the validator sees the underlying value. -/
def validatedMake (ok : α → Bool) (v : α) : Cxx α := do
  let v ← validate ok v
  pure v

/-- The assignments, daw_validated.h 74-82. -/
def validatedAssign (ok : α → Bool) (_old v : α) : Cxx α := do
  let v ← validate ok v
  pure v

/-- The default constructor, daw_validated.h 38 and 60: `dflt` is `value_t{ }`. -/
def validatedDefault (dflt : α) : α := dflt

/-- `get( ) &&`, daw_validated.h 88-90: the value, and what the move leaves behind, which is up to the type. -/
def validatedTake (moved : α → α) (v : α) : α × α := (v, moved v)

/-- What a program does with `validated` variables. (Specification, no line of the source.) -/
inductive VOp (α : Type) where
  | make (v : α)
  | assign (i : Nat) (v : α)
  | copy (i : Nat)
  | copyAssign (i j : Nat)

/-- A program that catches the exception of an operation goes on with what it had. 
(Rule of C++ or its library, no line of the source.) -/
def catching {β : Type} (x : Cxx β) (old : β) : Cxx β := tryCatch x fun e => if e = .thrown then pure old else throw e

/-- One operation, whose exception the program catches. (Specification, no line of the source.) -/
def vStep (ok : α → Bool) (vars : List α) : VOp α → Cxx (List α)
  | .make v => catching (do let v ← validatedMake ok v; pure (vars ++ [v])) vars
  | .assign i v => do
    let old ← rd vars i
    catching (do let v ← validatedAssign ok old v; pure (vars.set i v)) vars
  | .copy i => do
    let v ← rd vars i
    pure (vars ++ [v])
  | .copyAssign i j => do
    let _ ← rd vars i
    let v ← rd vars j
    pure (vars.set i v)

/-- A program. (Specification, no line of the source.) -/
def vRun (ok : α → Bool) : List (VOp α) → List α → Cxx (List α)
  | [], vars => pure vars
  | op :: ops, vars => do
    let vars ← vStep ok vars op
    vRun ok ops vars

theorem vStep_ok (ok : α → Bool) {vars vars' : List α} (h : ∀ v ∈ vars, ok v = true) (op : VOp α)
    (hr : vStep ok vars op = pure vars') : ∀ v ∈ vars', ok v = true := by
  have hmem : ∀ {i v}, rd vars i = pure v → ok v = true := by
    intro i v e
    by_cases hi : i < vars.length
    · rw [rd_eq hi] at e
      exact Cxx.pure_inj.mp e ▸ h _ (List.getElem_mem hi)
    · rw [rd_oob (Nat.le_of_not_lt hi)] at e
      exact absurd e (Cxx.ub_ne_pure _)
  have hset : ∀ {i v}, ok v = true → ∀ w ∈ vars.set i v, ok w = true := by
    intro i v hv w hw
    rcases List.mem_or_eq_of_mem_set hw with hw | rfl
    · exact h w hw
    · exact hv
  have happ : ∀ {v}, ok v = true → ∀ w ∈ vars ++ [v], ok w = true := by
    intro v hv w hw
    rcases List.mem_append.mp hw with hw | hw
    · exact h w hw
    · exact List.mem_singleton.mp hw ▸ hv
  cases op with
  | make v =>
    by_cases hv : ok v = true
    · have e : vStep ok vars (.make v) = pure (vars ++ [v]) := by
        simp only [vStep, validatedMake, validate, hv]; rfl
      exact Cxx.pure_inj.mp (e.symm.trans hr) ▸ happ hv
    · have e : vStep ok vars (.make v) = pure vars := by
        simp only [vStep, validatedMake, validate, Bool.eq_false_iff.mpr hv]; rfl
      exact Cxx.pure_inj.mp (e.symm.trans hr) ▸ h
  | assign i v =>
    obtain ⟨old, _, hr⟩ := Cxx.bind_eq_pure.mp hr
    by_cases hv : ok v = true
    · have e : catching (do let v ← validatedAssign ok old v; pure (vars.set i v)) vars = pure (vars.set i v) := by
        simp only [validatedAssign, validate, hv]; rfl
      exact Cxx.pure_inj.mp (e.symm.trans hr) ▸ hset hv
    · have e : catching (do let v ← validatedAssign ok old v; pure (vars.set i v)) vars = pure vars := by
        simp only [validatedAssign, validate, Bool.eq_false_iff.mpr hv]; rfl
      exact Cxx.pure_inj.mp (e.symm.trans hr) ▸ h
  | copy i =>
    obtain ⟨v, e, hr⟩ := Cxx.bind_eq_pure.mp hr
    exact Cxx.pure_inj.mp hr ▸ happ (hmem e)
  | copyAssign i j =>
    obtain ⟨_, _, hr⟩ := Cxx.bind_eq_pure.mp hr
    obtain ⟨v, e, hr⟩ := Cxx.bind_eq_pure.mp hr
    exact Cxx.pure_inj.mp hr ▸ hset (hmem e)

/-- Whatever a program does with variables made from values, by assignments and by copies, catching the exceptions: every variable
holds a value that the validator accepts. A value it accepts is stored, one it does not accept throws. -/
theorem C157_validated_partial (ok : α → Bool) :
    (∀ (ops : List (VOp α)) (vars : List α), vRun ok ops [] = pure vars → ∀ v ∈ vars, ok v = true) ∧
    ∀ old v : α, (ok v = true → validatedMake ok v = pure v ∧ validatedAssign ok old v = pure v) ∧
      (ok v = false → validatedMake ok v = thrown ∧ validatedAssign ok old v = thrown) := by
  constructor
  · intro ops
    have key : ∀ (ops : List (VOp α)) (vars vars' : List α), (∀ v ∈ vars, ok v = true) → vRun ok ops vars = pure vars' →
        ∀ v ∈ vars', ok v = true := by
      intro ops
      induction ops with
      | nil => intro vars vars' h e; exact Cxx.pure_inj.mp e ▸ h
      | cons op ops ih =>
        intro vars vars' h e
        obtain ⟨w, e1, e2⟩ := Cxx.bind_eq_pure.mp e
        exact ih w vars' (vStep_ok ok h op e1) e2
    exact fun vars e => key ops [] vars (by simp) e
  · intro old v
    constructor <;> intro hv <;> simp [validatedMake, validatedAssign, validate, hv]

example : vRun (fun n : Nat => n < 10) [.make 3, .make 12, .copy 0, .assign 0 7, .assign 1 20] [] = pure [7, 3] := by decide +kernel

/-- A variable made with the default constructor is not validated, and neither is what `std::move( v ).get( )` leaves behind: both can hold
values the validator rejects. -/
theorem C157_validated_violated : ∃ (ok : Nat → Bool) (moved : Nat → Nat) (v : Nat),
    ok (validatedDefault 0) = false ∧ validatedMake ok v = pure v ∧ ok (validatedTake moved v).2 = false :=
  ⟨fun n => n ≠ 0, fun _ => 0, 5, by decide, by decide +kernel, by decide⟩

end Verif.Own
