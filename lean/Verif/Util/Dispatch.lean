import Verif.Containers.Lists

/-
Choosing among alternatives: include/daw/daw_visit.h, daw_variant_cast.h, daw_any_if.h, daw_function_table.h and daw_contract.h.
A variant is its alternative and the value in it, or nothing; the alternatives have one type of values here.
-/

namespace Verif.Util.Dispatch
open Cxx

variable {α β : Type}

/-! ## Variants -/

/-- A variant without value has none. (Rule of C++ or its library, no line of the source.) -/
abbrev Variant (α : Type) := Option (Nat × α)

/-- `std::variant_npos`. (Rule of C++ or its library, no line of the source.) -/
def vnpos : Nat := 2 ^ 64 - 1

/-- `get_index`, daw_visit.h 83-86. -/
def getIndex (v : Variant α) : Nat :=
  match v with
  | none => vnpos
  | some (i, _) => i

/-- `is_empty`, daw_visit.h 90-93. -/
def isEmpty (v : Variant α) : Bool := decide (getIndex v = vnpos)

/-- `get_nt<Idx>`, daw_visit.h 53-72: the pointer of `get_if` is assumed not to be null. -/
def getNt (idx : Nat) (v : Variant α) : Cxx α :=
  match v with
  | none => ub
  | some (i, a) => if i = idx then pure a else ub

/-- The cases of one `switch`, daw_visit.h 136-138: `n` of them from `base`, and `default`. -/
def cases (base n : Nat) (v : Variant α) (vis : Nat → α → Cxx β) (dflt : Cxx β) : Cxx β :=
  match n with
  | 0 => dflt
  | n + 1 =>
    if getIndex v = base then do
      let a ← getNt base v
      vis base a
    else cases (base + 1) n v vis dflt

/-- `visit_details::visit_nt<N, R>`, daw_visit.h 140-359.  The ladder of `if constexpr` for 15 to 2 alternatives, 169-355, is written once.
The `switch` for ten alternatives, 259-271, has no `default`, and the function ends without a result, which is undefined like
`DAW_UNREACHABLE`. -/
def visitFrom (vsz n : Nat) (v : Variant α) (vis : Nat → α → Cxx β) : Cxx β :=
  if h : vsz - n ≥ 16 then
    cases n 16 v vis (if vsz - n > 16 then visitFrom vsz (n + 16) v vis else ub)
  else if vsz - n ≥ 2 then cases n (vsz - n) v vis ub
  else do
    let a ← getNt n v
    vis n a
  termination_by vsz - n

/-- `visit_nt`, daw_visit.h 372-380 and 413-418. -/
def visitNt (vsz : Nat) (v : Variant α) (vis : Nat → α → Cxx β) : Cxx β := visitFrom vsz 0 v vis

/-- `visit`, daw_visit.h 385-397. -/
def visit (vsz : Nat) (v : Variant α) (vis : Nat → α → Cxx β) : Cxx β :=
  if isEmpty v then thrown else visitFrom vsz 0 v vis

/-- `visit<Result>`, daw_visit.h 400-409: an index of `std::variant` is never below zero. -/
def visitR (vsz : Nat) (v : Variant α) (vis : Nat → α → Cxx β) : Cxx β :=
  if getIndex v < 0 then thrown else visitFrom vsz 0 v vis

theorem cases_hit (vis : Nat → α → Cxx β) (d : Cxx β) (i : Nat) (a : α) :
    ∀ n base, base ≤ i → i < base + n → cases base n (some (i, a)) vis d = vis i a := by
  intro n
  induction n with
  | zero => intro base h1 h2; omega
  | succ n ih =>
    intro base h1 h2
    unfold cases
    by_cases h : i = base
    · subst h
      simp [getIndex, getNt]
    · rw [if_neg (by simpa [getIndex] using h)]
      exact ih (base + 1) (by omega) (by omega)

theorem cases_miss (v : Variant α) (vis : Nat → α → Cxx β) (d : Cxx β) :
    ∀ n base, (getIndex v < base ∨ base + n ≤ getIndex v) → cases base n v vis d = d := by
  intro n
  induction n with
  | zero => intro base _; rfl
  | succ n ih =>
    intro base h
    unfold cases
    rw [if_neg (by omega)]
    exact ih (base + 1) (by omega)

theorem visitFrom_value (vis : Nat → α → Cxx β) (vsz i : Nat) (a : α) (hi : i < vsz) :
    ∀ m n, vsz - n ≤ m → n ≤ i → visitFrom vsz n (some (i, a)) vis = vis i a := by
  intro m
  induction m with
  | zero => intro n h1 h2; omega
  | succ m ih =>
    intro n h1 h2
    unfold visitFrom
    by_cases h16 : vsz - n ≥ 16
    · rw [dif_pos h16]
      by_cases h : i < n + 16
      · exact cases_hit vis _ i a 16 n h2 h
      · rw [cases_miss (some (i, a)) vis _ 16 n (Or.inr (by simp only [getIndex]; omega)), if_pos (by omega)]
        exact ih (n + 16) (by omega) (by omega)
    · rw [dif_neg h16]
      by_cases h2' : vsz - n ≥ 2
      · rw [if_pos h2']
        exact cases_hit vis _ i a (vsz - n) n h2 (by omega)
      · rw [if_neg h2']
        have : i = n := by omega
        subst this
        simp [getNt]

theorem visitFrom_empty (vis : Nat → α → Cxx β) (vsz : Nat) (hv : vsz ≤ vnpos) :
    ∀ m n, vsz - n ≤ m → n ≤ vsz → visitFrom vsz n none vis = ub := by
  intro m
  induction m with
  | zero =>
    intro n h1 h2
    unfold visitFrom
    rw [dif_neg (by omega), if_neg (by omega)]
    rfl
  | succ m ih =>
    intro n h1 h2
    unfold visitFrom
    by_cases h16 : vsz - n ≥ 16
    · rw [dif_pos h16, cases_miss none vis _ 16 n (Or.inr (by simp only [getIndex]; omega))]
      by_cases h : vsz - n > 16
      · rw [if_pos h]
        exact ih (n + 16) (by omega) (by omega)
      · rw [if_neg h]
    · rw [dif_neg h16]
      by_cases h2' : vsz - n ≥ 2
      · rw [if_pos h2']
        exact cases_miss none vis _ (vsz - n) n (Or.inr (by simp only [getIndex]; omega))
      · rw [if_neg h2']
        rfl

/-- `visit` calls the visitor with the value that is in the variant, of whatever number of alternatives, and for the alternative
that it is of. -/
theorem C245_visit_value (vis : Nat → α → Cxx β) (vsz i : Nat) (a : α) (hi : i < vsz) (hv : vsz ≤ 2 ^ 64 - 1) :
    visit vsz (some (i, a)) vis = vis i a := by
  unfold visit
  have hne : isEmpty (some (i, a)) = false := decide_eq_false (by simp only [getIndex, vnpos]; omega)
  rw [hne, if_neg (by simp)]
  exact visitFrom_value vis vsz i a hi vsz 0 (by omega) (by omega)

example : visit 40 (some (37, 5)) (fun i a => pure (100 * i + a)) = (pure 3705 : Cxx Nat) :=
  C245_visit_value _ 40 37 5 (by omega) (by omega)

/-- `visit` throws for a variant without value. -/
theorem C245_visit_empty (vis : Nat → α → Cxx β) (vsz : Nat) : visit vsz none vis = thrown := by
  unfold visit isEmpty getIndex
  simp

example : visit 3 none (fun i (a : Nat) => pure (100 * i + a)) = (thrown : Cxx Nat) := C245_visit_empty _ 3

/-- `visit` with any variant that can be: it does what the visitor does, or throws, and is undefined only if the visitor is. -/
theorem C245_visit_defined (vis : Nat → α → Cxx β) (vsz : Nat) (hv : vsz ≤ 2 ^ 64 - 1) (v : Variant α)
    (hw : ∀ i a, v = some (i, a) → i < vsz) (hvis : ∀ i a, vis i a ≠ ub) : visit vsz v vis ≠ ub := by
  match v with
  | none => rw [C245_visit_empty]; intro h; cases h
  | some (i, a) => rw [C245_visit_value vis vsz i a (hw i a rfl) hv]; exact hvis i a

example : visit 20 (some (19, 5)) (fun i a => if i = 3 then thrown else pure (i + a)) ≠ (ub : Cxx Nat) :=
  C245_visit_defined _ 20 (by omega) _ (by intro i a h; cases h; omega) (by
    intro i a h
    split at h <;> cases h)

/-- `visit_nt` with a value: the same. -/
theorem C245_visit_nt (vis : Nat → α → Cxx β) (vsz i : Nat) (a : α) (hi : i < vsz) :
    visitNt vsz (some (i, a)) vis = vis i a :=
  visitFrom_value vis vsz i a hi vsz 0 (by omega) (by omega)

example : visitNt 17 (some (16, 5)) (fun i a => pure (100 * i + a)) = (pure 1605 : Cxx Nat) :=
  C245_visit_nt _ 17 16 5 (by omega)

/-- `visit<Result>` with a value: the same. -/
theorem C246_visit_result_partial (vis : Nat → α → Cxx β) (vsz i : Nat) (a : α) (hi : i < vsz) :
    visitR vsz (some (i, a)) vis = vis i a := by
  unfold visitR
  rw [if_neg (by omega)]
  exact visitFrom_value vis vsz i a hi vsz 0 (by omega) (by omega)

example : visitR 10 (some (9, 5)) (fun i a => pure (100 * i + a)) = (pure 905 : Cxx Nat) :=
  C246_visit_result_partial _ 10 9 5 (by omega)

/-- `visit<Result>` of a variant without value is undefined, whatever the visitor and the number of alternatives: the check before it
compares an index of an unsigned type with zero. -/
theorem C246_visit_result_violated (vis : Nat → α → Cxx β) (vsz : Nat) (hv : vsz ≤ 2 ^ 64 - 1) :
    visitR vsz none vis = ub := by
  unfold visitR
  rw [if_neg (by omega)]
  exact visitFrom_empty vis vsz hv vsz 0 (by omega) (by omega)

example : visitR 2 none (fun i (a : Nat) => pure (100 * i + a)) = (ub : Cxx Nat) := C246_visit_result_violated _ 2 (by omega)

/-! ## variant_cast -/

/-- `variant_visitor_t`, daw_variant_cast.h 26-42: `conv` has the conversions that there are, by alternative. -/
def castVisitor (conv : Nat → Option (α → β)) (i : Nat) (a : α) : Cxx β :=
  match conv i with
  | some f => pure (f a)
  | none => thrown

/-- `variant_cast<T>`, daw_variant_cast.h 59-78. -/
def variantCast (vsz : Nat) (conv : Nat → Option (α → β)) (v : Variant α) : Cxx β := visitNt vsz v (castVisitor conv)

/-- `can_extract<T>`, daw_variant_cast.h 80-88 with 44-56: `same` says which alternatives are of the type itself. -/
def canExtract (vsz : Nat) (same : Nat → Bool) (v : Variant α) : Cxx Bool := visitNt vsz v (fun i _ => pure (same i))

/-- `variant_cast` of a variant with a value gives that value converted, or throws if its type does not convert; and it gives the value
if `can_extract` says so, as a type converts to itself. -/
theorem C247_variant_cast_partial (vsz i : Nat) (a : α) (hi : i < vsz) (conv : Nat → Option (α → β)) (same : Nat → Bool)
    (hs : ∀ j, same j = true → (conv j).isSome) :
    (∀ f, conv i = some f → variantCast vsz conv (some (i, a)) = pure (f a)) ∧
      (conv i = none → variantCast vsz conv (some (i, a)) = thrown) ∧
      (canExtract vsz same (some (i, a)) = pure true → ∃ b, variantCast vsz conv (some (i, a)) = pure b) ∧
      (canExtract vsz same (some (i, a)) = pure true ↔ same i = true) := by
  have hc : variantCast vsz conv (some (i, a)) = castVisitor conv i a := C245_visit_nt _ vsz i a hi
  have he : canExtract vsz same (some (i, a)) = pure (same i) := C245_visit_nt _ vsz i a hi
  refine ⟨fun f hf => ?_, fun hn => ?_, fun h => ?_, ?_⟩
  · rw [hc]; simp [castVisitor, hf]
  · rw [hc]; simp [castVisitor, hn]
  · rw [he] at h
    obtain ⟨f, hf⟩ := Option.isSome_iff_exists.mp (hs i (Cxx.pure_inj.mp h))
    exact ⟨f a, by rw [hc]; simp [castVisitor, hf]⟩
  · rw [he]
    exact Cxx.pure_inj

example : variantCast 3 (fun i => if i = 1 then none else some (fun a : Nat => a + i)) (some (2, 5)) = pure 7 :=
  (C247_variant_cast_partial 3 2 5 (by omega) (fun i => if i = 1 then none else some (fun a : Nat => a + i)) (fun j => j == 2)
    (by intro j h; simp at h; simp [h])).1 _ rfl

example : variantCast 3 (fun i => if i = 1 then none else some (fun a : Nat => a + i)) (some (1, 5)) = thrown :=
  (C247_variant_cast_partial 3 1 5 (by omega) (fun i => if i = 1 then none else some (fun a : Nat => a + i)) (fun j => j == 2)
    (by intro j h; simp at h; simp [h])).2.1 rfl

/-- A variant without value is undefined for both, where `std::get` throws. -/
theorem C247_variant_cast_violated (vsz : Nat) (hv : vsz ≤ 2 ^ 64 - 1) (conv : Nat → Option (α → β)) (same : Nat → Bool) :
    variantCast vsz conv none = ub ∧ canExtract (α := α) vsz same none = ub :=
  ⟨visitFrom_empty _ vsz hv vsz 0 (by omega) (by omega), visitFrom_empty _ vsz hv vsz 0 (by omega) (by omega)⟩

example : variantCast 2 (fun i => some (fun a : Nat => a + i)) none = ub :=
  (C247_variant_cast_violated 2 (by omega) _ (fun _ => true)).1

/-- `can_extract` denies what `variant_cast` gives: a type that converts without being the type itself. -/
theorem C247_can_extract_finding :
    canExtract 2 (fun i => i == 0) (some (1, 5)) = pure false ∧
      variantCast 2 (fun _ => some (fun a : Nat => a)) (some (1, 5)) = pure 5 :=
  ⟨by rw [show canExtract 2 (fun i => i == 0) (some (1, 5)) = _ from C245_visit_nt _ 2 1 5 (by omega)]; rfl,
    by rw [show variantCast 2 (fun _ => some (fun a : Nat => a)) (some (1, 5)) = _ from C245_visit_nt _ 2 1 5 (by omega)]; rfl⟩

/-! ## any_if -/

/-- `any_if`, daw_any_if.h 15-26: the fold is with `and`.  A predicate is what it does when it is called; a plain value is one that
returns itself. -/
def anyIf : List (Cxx Bool) → Cxx Bool
  | [] => pure true
  | p :: ps => do
    let b ← p
    if b then anyIf ps else pure false

/-- `any_if` of values says whether all are true. -/
theorem anyIf_values (bs : List Bool) : anyIf (bs.map pure) = pure (bs.all id) := by
  induction bs with
  | nil => rfl
  | cons b bs ih =>
    rw [List.map_cons, anyIf, pure_bind, ih]
    cases b <;> simp

/-- `any_if` of some values gives true only if one of them is true, and it says what one value is. -/
theorem C248_any_if_partial (b : Bool) (bs : List Bool) :
    (anyIf ((b :: bs).map pure) = pure true → ∃ c ∈ b :: bs, c = true) ∧ anyIf [pure b] = pure b := by
  refine ⟨fun h => ?_, by cases b <;> rfl⟩
  rw [anyIf_values] at h
  have h := Cxx.pure_inj.mp h
  refine ⟨b, by simp, ?_⟩
  simp only [List.all_cons, id_eq, Bool.and_eq_true] at h
  exact h.1

example : ∃ c ∈ [true, true], c = true := (C248_any_if_partial true [true]).1 rfl

/-- `any_if` denies as soon as one value is not true, whatever the others are, and is true of no values. -/
theorem C248_any_if_violated :
    (∀ xs ys : List Bool, anyIf ((xs ++ false :: ys).map pure) = pure false) ∧ anyIf [] = pure true := by
  refine ⟨fun xs ys => ?_, rfl⟩
  rw [anyIf_values]
  simp

example : anyIf [pure true, pure false] = pure false := C248_any_if_violated.1 [true] []

/-! ## function_table -/

/-- A function of a table: what it does with the arguments, and without any, where it can be called so. (`is_t_callable_v`,
daw_function_table.h 62-65.) -/
structure Fn (α β : Type) where
  withArgs : Option (α → Cxx β)
  noArgs : Option (Cxx β)

/-- The body of the first `if`, daw_function_table.h 70-78. -/
def Fn.apply (f : Fn α β) (allowEmpty : Bool) (a : α) : Cxx β :=
  match f.withArgs with
  | some g => g a
  | none =>
    match allowEmpty, f.noArgs with
    | true, some g => g
    | _, _ => abort

/-- `apply_at_impl`, daw_function_table.h 67-84, from `I` on: the list has the functions from there. -/
def applyAt (allowEmpty : Bool) (a : α) (idx : Nat) : Nat → List (Fn α β) → Cxx β
  | _, [] => abort
  | i, f :: fs => if idx = i then f.apply allowEmpty a else applyAt allowEmpty a idx (i + 1) fs

/-- `call`, daw_function_table.h 120-128.  `arr` says that all functions are of one type, `using_array_v`. -/
def call (arr : Bool) (fns : List (Fn α β)) (allowEmpty : Bool) (idx : Nat) (a : α) : Cxx β :=
  if arr then do
    let f ← rd fns idx
    match f.withArgs with
    | some g => g a
    | none => ub
  else applyAt allowEmpty a idx 0 fns

/-- `operator( )`, daw_function_table.h 130-133: `allow_empty` is not passed on. -/
def callOp (arr : Bool) (fns : List (Fn α β)) (_allowEmpty : Bool) (idx : Nat) (a : α) : Cxx β := call arr fns false idx a

theorem applyAt_hit (ae : Bool) (a : α) (idx : Nat) (f : Fn α β) :
    ∀ (fns : List (Fn α β)) (i k : Nat), fns[k]? = some f → idx = i + k → applyAt ae a idx i fns = f.apply ae a := by
  intro fns
  induction fns with
  | nil => intro i k h; simp at h
  | cons g gs ih =>
    intro i k h hk
    unfold applyAt
    match k with
    | 0 => rw [if_pos (by omega)]; simp at h; rw [h]
    | k + 1 =>
      rw [if_neg (by omega)]
      exact ih (i + 1) k (by simpa using h) (by omega)

theorem applyAt_out (ae : Bool) (a : α) (idx : Nat) :
    ∀ (fns : List (Fn α β)) (i : Nat), i + fns.length ≤ idx → applyAt ae a idx i fns = abort := by
  intro fns
  induction fns with
  | nil => intro i _; rfl
  | cons g gs ih =>
    intro i h
    simp only [List.length_cons] at h
    unfold applyAt
    rw [if_neg (by omega)]
    exact ih (i + 1) (by omega)

/-- A table calls the function of the index, of however many; a table of functions of different types ends the program for an index that
no function has. -/
theorem C249_function_table_partial (fns : List (Fn α β)) (ae : Bool) (idx : Nat) (a : α) :
    (∀ arr f g, fns[idx]? = some f → f.withArgs = some g → call arr fns ae idx a = g a) ∧
      (∀ f g, fns[idx]? = some f → f.withArgs = none → f.noArgs = some g → call false fns true idx a = g) ∧
      (fns.length ≤ idx → call false fns ae idx a = abort) := by
  refine ⟨fun arr f g hf hg => ?_, fun f g hf hn hg => ?_, fun h => ?_⟩
  · cases arr
    · simp only [call, Bool.false_eq_true, if_false]
      rw [applyAt_hit ae a idx f fns 0 idx hf (by omega)]
      simp [Fn.apply, hg]
    · simp only [call, if_true]
      rw [rd_some hf, pure_bind]
      simp [hg]
  · simp only [call, Bool.false_eq_true, if_false]
    rw [applyAt_hit true a idx f fns 0 idx hf (by omega)]
    simp [Fn.apply, hn, hg]
  · simp only [call, Bool.false_eq_true, if_false]
    exact applyAt_out ae a idx fns 0 (by omega)

/-- A table for the cases. (Specification, no line of the source.) -/
def sampleTable : List (Fn Nat Nat) :=
  [⟨some fun a => pure (a + 1), none⟩, ⟨none, some (pure 7)⟩, ⟨some fun a => pure (a * 10), none⟩]

example : call true sampleTable false 2 4 = pure 40 := (C249_function_table_partial sampleTable false 2 4).1 true _ _ rfl rfl
example : call false sampleTable true 1 4 = pure 7 := (C249_function_table_partial sampleTable true 1 4).2.1 _ _ rfl rfl rfl
example : call false sampleTable false 3 4 = abort := (C249_function_table_partial sampleTable false 3 4).2.2 (by simp [sampleTable])

/-- A table of functions of one type, with an index that no function has, is undefined.  The program of the unit test is such a table with
58 functions for the characters up to `9`: any later character in its argument does that. -/
theorem C249_function_table_violated (fns : List (Fn α β)) (ae : Bool) (idx : Nat) (a : α) (h : fns.length ≤ idx) :
    call true fns ae idx a = ub ∧ callOp true fns ae idx a = ub := by
  refine ⟨?_, ?_⟩ <;>
    (simp only [call, callOp, if_true]; rw [rd_oob (by omega)]; rfl)

example : call true sampleTable false 3 4 = ub := (C249_function_table_violated sampleTable false 3 4 (by simp [sampleTable])).1

/-- `operator( )<true>` ends the program for a function without arguments, which `call<true>` calls. -/
theorem C249_call_operator_finding :
    call false sampleTable true 1 4 = pure 7 ∧ callOp false sampleTable true 1 4 = abort := ⟨rfl, rfl⟩

/-! ## contract -/

/-- `validate`, daw_contract.h 53-55. -/
def validate (ps : List (α → Bool)) (v : α) : Bool := ps.all fun p => p v

/-- The constructor, daw_contract.h 64-71 and 78-84, with what the handler of failures does, 38-43. -/
def mk (handler : Cxx Unit) (ps : List (α → Bool)) (v : α) : Cxx α := do
  if validate ps v then pure v
  else
    handler
    pure v

/-- `get`, `operator*`, `operator->` and the conversion to `T`, daw_contract.h 92-114. -/
def get (ps : List (α → Bool)) (v : α) : Cxx α := if validate ps v then pure v else ub

/-- `extract`, daw_contract.h 87-90: `DAW_FWD` moves the value out, and `moved` of it stays. -/
def extract (ps : List (α → Bool)) (moved : α → α) (v : α) : Cxx (α × α) :=
  if validate ps v then pure (v, moved v) else ub

/-- `add_condition` and the conversion to another contract, daw_contract.h 119-134. -/
def addCondition (handler : Cxx Unit) (ps qs : List (α → Bool)) (v : α) : Cxx α :=
  if validate ps v then mk handler (ps ++ qs) v else ub

/-- Uses of a contract. (Specification, no line of the source.) -/
inductive Use (α : Type) where
  | get
  | extract
  | add (qs : List (α → Bool))

/-- Uses of a contract one after the other; `add` goes on with the new one. (Specification, no line of the source.) -/
def uses (handler : Cxx Unit) (moved : α → α) : List (Use α) → List (α → Bool) → α → Cxx (List α)
  | [], _, _ => pure []
  | .get :: us, ps, v => do
    let r ← get ps v
    let rs ← uses handler moved us ps v
    pure (r :: rs)
  | .extract :: us, ps, v => do
    let r ← extract ps moved v
    let rs ← uses handler moved us ps r.2
    pure (r.1 :: rs)
  | .add qs :: us, ps, v => do
    let w ← addCondition handler ps qs v
    uses handler moved us (ps ++ qs) w

/-- The handler does not return. (Specification, no line of the source.) -/
def Stops (handler : Cxx Unit) : Prop := handler = thrown ∨ handler = abort

/-- With a handler that does not return, a contract has only values that fulfil it. -/
theorem C250_contract_holds_partial (handler : Cxx Unit) (hh : Stops handler) (ps : List (α → Bool)) (v w : α) :
    mk handler ps v = pure w ↔ w = v ∧ ∀ p ∈ ps, p v = true := by
  unfold mk
  by_cases h : validate ps v = true
  · rw [if_pos h]
    refine ⟨fun e => ⟨(Cxx.pure_inj.mp e).symm, ?_⟩, fun e => by rw [e.1]⟩
    simpa [validate] using h
  · rw [if_neg h]
    refine ⟨fun e => ?_, fun e => ?_⟩
    · rcases hh with rfl | rfl <;> cases e
    · exact absurd (by simpa [validate] using e.2) h

example : mk thrown [fun n : Nat => decide (n > 3)] 5 = pure 5 :=
  (C250_contract_holds_partial thrown (Or.inl rfl) _ 5 5).mpr ⟨rfl, by simp⟩
example : mk thrown [fun n : Nat => decide (n > 3)] 2 ≠ pure 2 := fun h => by
  have := ((C250_contract_holds_partial thrown (Or.inl rfl) _ 2 2).mp h).2
  simp at this

/-- With such a handler, and if a value that was moved away still fulfils what it did, no use of a contract is undefined, however often
conditions are added. -/
theorem C250_contract_uses_partial (handler : Cxx Unit) (hh : Stops handler) (moved : α → α)
    (us : List (Use α)) : ∀ (ps : List (α → Bool)) (v : α),
    (∀ (qs : List (α → Bool)) (x : α), validate qs x = true → validate qs (moved x) = true) →
    (mk handler ps v >>= fun c => uses handler moved us ps c) ≠ ub := by
  intro ps v hm
  have key : ∀ (us : List (Use α)) (ps : List (α → Bool)) (v : α), validate ps v = true → uses handler moved us ps v ≠ ub := by
    intro us
    induction us with
    | nil => intro ps v _ h; cases h
    | cons u us ih =>
      intro ps v hv
      cases u with
      | get =>
        unfold uses get
        rw [if_pos hv, pure_bind]
        intro h
        apply ih ps v hv
        match hr : uses handler moved us ps v with
        | some (.ok r) => rw [hr] at h; cases h
        | some (.error e) => rw [hr] at h; exact h
        | none => rw [hr] at h; exact h
      | extract =>
        unfold uses extract
        rw [if_pos hv, pure_bind]
        intro h
        apply ih ps (moved v) (hm ps v hv)
        dsimp only at h
        match hr : uses handler moved us ps (moved v) with
        | some (.ok r) => rw [hr] at h; cases h
        | some (.error e) => rw [hr] at h; exact h
        | none => rw [hr] at h; exact h
      | add qs =>
        unfold uses addCondition mk
        rw [if_pos hv]
        by_cases h2 : validate (ps ++ qs) v = true
        · rw [if_pos h2, pure_bind]
          exact ih (ps ++ qs) v h2
        · rw [if_neg h2]
          rcases hh with rfl | rfl <;> (intro h; cases h)
  unfold mk
  by_cases h : validate ps v = true
  · rw [if_pos h, pure_bind]
    exact key us ps v h
  · rw [if_neg h]
    rcases hh with rfl | rfl <;> (intro h; cases h)

example : (mk thrown [fun n : Nat => decide (n > 3)] 5 >>=
    fun c => uses thrown id [.get, .add [fun n => decide (n < 9)], .extract, .get] [fun n : Nat => decide (n > 3)] c) ≠ ub :=
  C250_contract_uses_partial thrown (Or.inl rfl) id _ _ _ (fun _ _ h => h)

/-- With a handler that returns, which its type allows, a contract has a value that does not fulfil it, and any use is undefined. -/
theorem C250_contract_violated (ps : List (α → Bool)) (v : α) (h : ∃ p ∈ ps, p v = false) :
    mk (pure ()) ps v = pure v ∧ get ps v = ub := by
  have hn : validate ps v = false := by
    obtain ⟨p, hp, hv⟩ := h
    simp only [validate, List.all_eq_false]
    exact ⟨p, hp, by simp [hv]⟩
  simp [mk, get, hn]

example : mk (pure ()) [fun n : Nat => decide (n > 3)] 2 = pure 2 :=
  (C250_contract_violated [fun n : Nat => decide (n > 3)] 2 ⟨fun n => decide (n > 3), by simp, by simp⟩).1

/-- After `extract` a value that moving empties, such as a text, does not fulfil its contract: the next use is undefined. -/
theorem C250_extract_violated :
    (mk thrown [fun s : List Nat => !s.isEmpty] [104, 105] >>= fun c =>
      uses thrown (fun _ => []) [.extract, .get] [fun s : List Nat => !s.isEmpty] c) = ub := rfl

end Verif.Util.Dispatch
