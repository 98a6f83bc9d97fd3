import Verif.Own.Base

/-
include/daw/daw_sbo.h.
-/

namespace Verif.Own
open Cxx
variable {V : Type}

/-- A type, as far as the storage looks at it. (Rule of C++ or its library, no line of the source.) -/
structure STy where
  id : Nat
  size : Nat
  deriving DecidableEq

/-- `engaged_types`, daw_sbo.h 30. -/
inductive Engaged where
  | none | local_ | allocated
  deriving DecidableEq

/-- What the bytes `data`, daw_sbo.h 28, hold: nothing, an object of a type, or a pointer to an object of a type on the heap. -/
inductive Bytes (V : Type) where
  | empty
  | obj (t : STy) (v : V)
  | ptr (t : STy) (b : Nat)
  deriving DecidableEq

/-- `sbo_storage`, daw_sbo.h 24-32, with the objects its allocator has made, `none` for those given back: `some none` has storage but no value. -/
structure Sbo (V : Type) where
  size : Nat
  data : Bytes V
  engaged : Engaged
  heap : List (Option (Option V))
  deriving DecidableEq

/-- `storage_size`, daw_sbo.h 25-26, for pointers of 8 bytes. -/
def Sbo.storageSize (s : Sbo V) : Nat := if s.size ≥ 8 then s.size else 8

/-- `assert`: checks if the assertions are compiled in. (Rule of C++ or its library, no line of the source.) -/
def check (asserts : Bool) (c : Prop) [Decidable c] : Cxx Unit := if asserts = true ∧ ¬ c then abort else pure ()

/-- The object on the heap, which has to be there. (Rule of C++ or its library, no line of the source.) -/
def atHeap (heap : List (Option (Option V))) (b : Nat) : Cxx V := do
  match ← rd heap b with
  | some (some v) => pure v
  | _ => ub

theorem atHeap_some {heap : List (Option (Option V))} {b : Nat} {v : V} (h : heap[b]? = some (some (some v))) : atHeap heap b = pure v := by
  unfold atHeap
  rw [rd_some h]; rfl

/-- `get<T>( )`, daw_sbo.h 34-44, read through: the bytes have to hold what they are taken for. -/
def Sbo.get (asserts : Bool) (s : Sbo V) (t : STy) : Cxx V :=
  if t.size ≤ s.storageSize then do
    check asserts (s.engaged = .local_)
    match s.data with
    | .obj t' v => if t' = t then pure v else ub
    | _ => ub
  else do
    check asserts (s.engaged = .allocated)
    match s.data with
    | .ptr t' b => if t' = t then atHeap s.heap b else ub
    | _ => ub

/-- `get<T>( ) const`, daw_sbo.h 46-55, with `AllocatedType` the same, for types that fit: line 53 does not compile for the others. -/
def Sbo.getConst (asserts : Bool) (s : Sbo V) (t : STy) : Cxx V := do
  check asserts (s.engaged = .allocated)
  match s.data with
  | .obj t' v => if t' = t then pure v else ub
  | _ => ub

/-- `deallocate<T>( )`, daw_sbo.h 57-72. -/
def Sbo.deallocate (asserts : Bool) (s : Sbo V) (t : STy) : Cxx (Sbo V) :=
  if t.size ≤ s.storageSize then do
    check asserts (s.engaged = .local_)
    match s.data with
    | .obj t' _ => if t' = t then pure { s with data := .empty, engaged := .none } else ub
    | _ => ub
  else do
    check asserts (s.engaged = .allocated)
    match s.data with
    | .ptr t' b =>
      if t' = t then do
        let _ ← atHeap s.heap b
        pure { s with engaged := .none, heap := s.heap.set b none }
      else ub
    | _ => ub

/-- `allocate( value )`, daw_sbo.h 74-105, where the allocator does not fail and the constructor does not throw. -/
def Sbo.allocate (asserts : Bool) (s : Sbo V) (t : STy) (v : V) : Cxx (Sbo V) := do
  check asserts (s.engaged = .none)
  if t.size ≤ s.storageSize then pure { s with data := .obj t v, engaged := .local_ }
  else pure { s with data := .ptr t s.heap.length, engaged := .allocated, heap := s.heap ++ [some (some v)] }

/-- `allocate( value )`, daw_sbo.h 92-101, where the constructor of a type that does not fit throws: what is left. -/
def Sbo.allocateThrew (asserts : Bool) (s : Sbo V) (t : STy) : Cxx (Sbo V) := do
  check asserts (s.engaged = .none)
  pure { s with data := .ptr t s.heap.length, heap := s.heap ++ [some none] }

/-- What a program does with a storage. (Specification, no line of the source.) -/
inductive SOp (V : Type) where
  | put (t : STy) (v : V)
  | drop

/-- The program, as the storage does it; `drop` names the type of what is held, `held`. (Specification, no line of the source.) -/
def Sbo.run (asserts : Bool) : List (SOp V) → Sbo V → Option (STy × V) → Cxx (Sbo V)
  | [], s, _ => pure s
  | .put t v :: ops, s, _ => do
    let s ← s.allocate asserts t v
    Sbo.run asserts ops s (some (t, v))
  | .drop :: ops, s, held =>
    match held with
    | none => Sbo.run asserts ops s none
    | some (t, _) => do
      let s ← s.deallocate asserts t
      Sbo.run asserts ops s none

/-- What a program holds after it, for programs that put something only into an empty storage. (Specification, no line of the
source.) -/
def heldAfter : List (SOp V) → Option (STy × V) → Option (Option (STy × V))
  | [], held => some held
  | .put t v :: ops, none => heldAfter ops (some (t, v))
  | .put _ _ :: _, some _ => none
  | .drop :: ops, _ => heldAfter ops none

/-- The storage holds `held`, and nothing on the heap but that. (Specification, no line of the source.) -/
def Sbo.Holds (s : Sbo V) : Option (STy × V) → Prop
  | none => s.engaged = .none ∧ ∀ x ∈ s.heap, x = none
  | some (t, v) =>
    if t.size ≤ s.storageSize then s.engaged = .local_ ∧ s.data = .obj t v ∧ ∀ x ∈ s.heap, x = none
    else ∃ b, s.engaged = .allocated ∧ s.data = .ptr t b ∧ s.heap[b]? = some (some (some v)) ∧ ∀ k x, s.heap[k]? = some x → k ≠ b → x = none

theorem check_ok (asserts : Bool) {c : Prop} [Decidable c] (h : c) : check asserts c = pure () := by
  unfold check
  rw [if_neg (fun h' => h'.2 h)]

theorem allocate_holds (asserts : Bool) {s : Sbo V} (hs : s.Holds none) (t : STy) (v : V) :
    ∃ s', s.allocate asserts t v = pure s' ∧ s'.Holds (some (t, v)) ∧ s'.size = s.size := by
  obtain ⟨h1, h2⟩ := hs
  unfold Sbo.allocate
  rw [check_ok asserts h1, pure_bind]
  by_cases hf : t.size ≤ s.storageSize
  · rw [if_pos hf]
    refine ⟨_, rfl, ?_, rfl⟩
    show if _ then _ else _
    split
    · exact ⟨rfl, rfl, h2⟩
    · rename_i hn; exact absurd hf hn
  · rw [if_neg hf]
    refine ⟨_, rfl, ?_, rfl⟩
    show if _ then _ else _
    split
    · rename_i hn; exact absurd hn hf
    refine ⟨s.heap.length, rfl, rfl, by simp, ?_⟩
    intro k x hk hne
    simp only [] at hk
    rw [List.getElem?_append] at hk
    split at hk
    · exact h2 x (List.mem_iff_getElem?.mpr ⟨k, hk⟩)
    · rename_i hl
      rcases hc : k - s.heap.length with _ | m
      · omega
      · rw [hc] at hk; simp at hk

theorem deallocate_holds (asserts : Bool) {s : Sbo V} {t : STy} {v : V} (hs : s.Holds (some (t, v))) :
    ∃ s', s.deallocate asserts t = pure s' ∧ s'.Holds none ∧ s'.size = s.size := by
  simp only [Sbo.Holds] at hs
  unfold Sbo.deallocate
  by_cases hf : t.size ≤ s.storageSize
  · rw [if_pos hf] at hs
    obtain ⟨h1, h2, h3⟩ := hs
    rw [if_pos hf, check_ok asserts h1, pure_bind, h2]
    simp only [if_true]
    exact ⟨_, rfl, ⟨rfl, h3⟩, rfl⟩
  · rw [if_neg hf] at hs
    obtain ⟨b, h1, h2, h3, h4⟩ := hs
    rw [if_neg hf, check_ok asserts h1, pure_bind, h2]
    simp only [if_true, atHeap_some h3, pure_bind]
    refine ⟨_, rfl, ⟨rfl, ?_⟩, rfl⟩
    intro x hx
    obtain ⟨k, hk⟩ := List.mem_iff_getElem?.mp hx
    simp only [] at hk
    by_cases e : b = k
    · subst e
      rw [List.getElem?_set_self (lt_of_some h3)] at hk
      injection hk with hk
      exact hk.symm
    · rw [List.getElem?_set_ne e] at hk
      exact h4 k x hk (Ne.symm e)

/-- Whatever values of whatever sizes a program puts into a storage and takes out again, as long as it puts something only into an empty
one and takes out what is in: `get` reads what was put, whether it lies inside or on the heap; what was taken out is given back,
so that an empty storage has nothing on the heap; with and without assertions. -/
theorem C160_sbo_partial (asserts : Bool) (size : Nat) (ops : List (SOp V)) (held : Option (STy × V)) (h : heldAfter ops none = some held) :
    ∃ s, Sbo.run asserts ops ⟨size, .empty, .none, []⟩ none = pure s ∧
      (∀ t v, held = some (t, v) → s.get asserts t = pure v) ∧
      (held = none → s.engaged = .none ∧ ∀ x ∈ s.heap, x = none) ∧
      (∀ t v, held = some (t, v) → t.size ≤ max size 8 → ∀ x ∈ s.heap, x = none) := by
  have key : ∀ (ops : List (SOp V)) (s : Sbo V) (h0 : Option (STy × V)), s.Holds h0 → heldAfter ops h0 = some held →
      ∃ s', Sbo.run asserts ops s h0 = pure s' ∧ s'.Holds held ∧ s'.size = s.size := by
    intro ops
    induction ops with
    | nil =>
      intro s h0 hs e
      injection e with e
      exact ⟨s, rfl, e ▸ hs, rfl⟩
    | cons op ops ih =>
      intro s h0 hs e
      cases op with
      | put t v =>
        cases h0 with
        | some _ => cases e
        | none =>
          obtain ⟨s1, e1, hs1, hz⟩ := allocate_holds asserts hs t v
          obtain ⟨s2, e2, hs2, hz2⟩ := ih s1 (some (t, v)) hs1 e
          refine ⟨s2, ?_, hs2, hz2.trans hz⟩
          show (s.allocate asserts t v >>= _) = _
          rw [e1]; exact e2
      | drop =>
        cases h0 with
        | none => exact ih s none hs e
        | some p =>
          obtain ⟨t, v⟩ := p
          obtain ⟨s1, e1, hs1, hz⟩ := deallocate_holds asserts hs
          obtain ⟨s2, e2, hs2, hz2⟩ := ih s1 none hs1 e
          refine ⟨s2, ?_, hs2, hz2.trans hz⟩
          show (s.deallocate asserts t >>= _) = _
          rw [e1]; exact e2
  obtain ⟨s, e, hs, hz⟩ := key ops ⟨size, .empty, .none, []⟩ none ⟨rfl, by simp⟩ h
  refine ⟨s, e, ?_, ?_, ?_⟩
  · rintro t v rfl
    simp only [Sbo.Holds] at hs
    unfold Sbo.get
    by_cases hf : t.size ≤ s.storageSize
    · rw [if_pos hf] at hs
      obtain ⟨h1, h2, _⟩ := hs
      rw [if_pos hf, check_ok asserts h1, pure_bind, h2]
      simp
    · rw [if_neg hf] at hs
      obtain ⟨b, h1, h2, h3, _⟩ := hs
      rw [if_neg hf, check_ok asserts h1, pure_bind, h2]
      simp [atHeap_some h3]
  · rintro rfl
    exact hs
  · rintro t v rfl hsz
    simp only [Sbo.Holds] at hs
    have hf : t.size ≤ s.storageSize := by
      unfold Sbo.storageSize
      have hz : s.size = size := hz
      rw [hz]
      split <;> omega
    rw [if_pos hf] at hs
    exact hs.2.2

example : heldAfter [SOp.put ⟨0, 4⟩ 'a', .drop, .put ⟨1, 64⟩ 'b'] none = some (some (⟨1, 64⟩, 'b')) := rfl

/-- Reading a storage that is `const` ends the program for every value that lies inside, if assertions are on. -/
theorem C160_const_violated (size : Nat) (t : STy) (v : V) (ht : t.size ≤ max size 8) :
    ∃ s : Sbo V, Sbo.run true [.put t v] ⟨size, .empty, .none, []⟩ none = pure s ∧ s.get true t = pure v ∧ s.getConst true t = abort := by
  have hf : t.size ≤ (⟨size, .empty, .none, []⟩ : Sbo V).storageSize := by
    unfold Sbo.storageSize
    simp only []
    split <;> omega
  refine ⟨⟨size, .obj t v, .local_, []⟩, ?_, ?_, ?_⟩
  · show ((⟨size, .empty, .none, []⟩ : Sbo V).allocate true t v >>= _) = _
    unfold Sbo.allocate
    rw [check_ok true rfl, pure_bind, if_pos hf]
    rfl
  · unfold Sbo.get
    split
    · rw [check_ok true rfl, pure_bind]; simp
    · rename_i hn; exact absurd hf hn
  · rfl

/-- If the constructor of a value that does not fit throws, its storage is lost: the next `allocate` forgets where it is. -/
theorem C160_throw_violated (asserts : Bool) (t t' : STy) (v : V) (ht' : t'.size ≤ 8) :
    ∃ s1 s2 s3 : Sbo V, (⟨8, .empty, .none, []⟩ : Sbo V).allocateThrew asserts t = pure s1 ∧ s1.engaged = .none ∧
      s1.allocate asserts t' v = pure s2 ∧ s2.deallocate asserts t' = pure s3 ∧ s3.heap = [some none] := by
  refine ⟨⟨8, .ptr t 0, .none, [some none]⟩, ⟨8, .obj t' v, .local_, [some none]⟩, ⟨8, .empty, .none, [some none]⟩, ?_, rfl, ?_, ?_, rfl⟩
  · unfold Sbo.allocateThrew; rw [check_ok asserts rfl]; rfl
  · unfold Sbo.allocate
    rw [check_ok asserts rfl, pure_bind, if_pos (by exact ht')]
  · unfold Sbo.deallocate
    rw [if_pos (by exact ht'), check_ok asserts rfl, pure_bind]
    simp

/-- Without assertions, reading a storage that is `const` gives the value that lies inside, as reading any other does. -/
theorem C160_const_partial (s : Sbo V) (t : STy) (ht : t.size ≤ s.storageSize) : s.getConst false t = s.get false t := by
  unfold Sbo.getConst Sbo.get
  rw [if_pos ht]
  rfl

example : (⟨16, .obj ⟨0, 4⟩ 7, .local_, []⟩ : Sbo Nat).getConst false ⟨0, 4⟩ = pure 7 := rfl

end Verif.Own
