import Verif.Base
import Verif.Containers.Lists

/-
Iterators that wrap a pointer: include/daw/iterator/daw_random_iterator.h, include/daw/wrap_iter.h and include/daw/daw_prop_const_ptr.h.

All point into one array of `len` elements; a pointer is its position from 0 to `len`.
-/

namespace Verif.Iter.Wrapped
open Verif Verif.Cxx

/-- What a program does with iterators, which it keeps in a list: those that return an iterator add it to the list.  The difference is a `ptrdiff_t`.
(Specification, no line of the source.) -/
inductive Op
  | inc (i : Nat) | dec (i : Nat) | postInc (i : Nat) | postDec (i : Nat)
  | addEq (i : Nat) (n : Int) | subEq (i : Nat) (n : Int) | plus (i : Nat) (n : Int) | minus (i : Nat) (n : Int)

/-- The iterators of a program; `none` is a reference to an object that does not exist any more. (Rule of C++ or its library, no line of the source.) -/
abbrev Regs := List (Option Int)

/-- The pointer of the `i`th iterator; reading an object that does not exist is undefined. (Rule of C++ or its library, no line of the source.) -/
def get (r : Regs) (i : Nat) : Cxx Int :=
  match r[i]? with
  | some (some p) => pure p
  | _ => ub

/-- `p + n` for a pointer, undefined outside of the array. (Rule of C++ or its library, no line of the source.) -/
def move (len : Nat) (p n : Int) : Cxx Int := if 0 ≤ p + n ∧ p + n ≤ len then pure (p + n) else ub

/-- `-n` in `ptrdiff_t`. (Rule of C++ or its library, no line of the source.) -/
def neg (n : Int) : Cxx Int := if n = -2 ^ 63 then ub else pure (-n)

/-- The operations on plain pointers. (Rule of C++ or its library, no line of the source.) -/
def pointer (len : Nat) (r : Regs) : Op → Cxx Regs
  | .inc i => do let p ← get r i; let q ← move len p 1; pure (r.set i (some q))
  | .dec i => do let p ← get r i; let q ← move len p (-1); pure (r.set i (some q))
  | .postInc i => do let p ← get r i; let q ← move len p 1; pure (r.set i (some q) ++ [some p])
  | .postDec i => do let p ← get r i; let q ← move len p (-1); pure (r.set i (some q) ++ [some p])
  | .addEq i n => do let p ← get r i; let q ← move len p n; pure (r.set i (some q))
  | .subEq i n => do let p ← get r i; let q ← move len p (-n); pure (r.set i (some q))
  | .plus i n => do let p ← get r i; let q ← move len p n; pure (r ++ [some q])
  | .minus i n => do let p ← get r i; let q ← move len p (-n); pure (r ++ [some q])

/-- `RandomIterator`, daw_random_iterator.h 43-51 and 65-101.  `+` and `-` move the iterator itself, copy it and put it back. -/
def random (len : Nat) (r : Regs) : Op → Cxx Regs
  | .inc i => do let p ← get r i; let q ← move len p 1; pure (r.set i (some q))
  | .dec i => do let p ← get r i; let q ← move len p (-1); pure (r.set i (some q))
  | .postInc i => do
    let result ← get r i
    let q ← move len result 1
    pure (r.set i (some q) ++ [some result])
  | .postDec i => do
    let result ← get r i
    let q ← move len result (-1)
    pure (r.set i (some q) ++ [some result])
  | .addEq i n => do let p ← get r i; let q ← move len p n; pure (r.set i (some q))
  | .subEq i n => do let p ← get r i; let q ← move len p (-n); pure (r.set i (some q))
  | .plus i n => do
    let old ← get r i
    let q ← move len old n
    let r₁ := r.set i (some q)
    let temp ← get r₁ i
    let r₂ := r₁.set i (some old)
    pure (r₂ ++ [some temp])
  | .minus i n => do
    let old ← get r i
    let q ← move len old (-n)
    let r₁ := r.set i (some q)
    let temp ← get r₁ i
    let r₂ := r₁.set i (some old)
    pure (r₂ ++ [some temp])

/-- `wrap_iter` of a pointer, wrap_iter.h 54-94: `-` and `-=` negate the number. -/
def wrap (len : Nat) (r : Regs) : Op → Cxx Regs
  | .inc i => do let p ← get r i; let q ← move len p 1; pure (r.set i (some q))
  | .dec i => do let p ← get r i; let q ← move len p (-1); pure (r.set i (some q))
  | .postInc i => do
    let tmp ← get r i
    let q ← move len tmp 1
    pure (r.set i (some q) ++ [some tmp])
  | .postDec i => do
    let tmp ← get r i
    let q ← move len tmp (-1)
    pure (r.set i (some q) ++ [some tmp])
  | .addEq i n => do let p ← get r i; let q ← move len p n; pure (r.set i (some q))
  | .subEq i n => do
    let p ← get r i
    let m ← neg n
    let q ← move len p m
    pure (r.set i (some q))
  | .plus i n => do let p ← get r i; let w ← move len p n; pure (r ++ [some w])
  | .minus i n => do
    let p ← get r i
    let m ← neg n
    let w ← move len p m
    pure (r ++ [some w])

/-- `prop_const_ptr`, daw_prop_const_ptr.h 77-113.  Increment and decrement after use return a reference to the local `result`, 82-86 and 93-97, which is gone.
There is no `-` with a number: here it does nothing. -/
def prop (len : Nat) (r : Regs) : Op → Cxx Regs
  | .inc i => do let p ← get r i; let q ← move len p 1; pure (r.set i (some q))
  | .dec i => do let p ← get r i; let q ← move len p (-1); pure (r.set i (some q))
  | .postInc i => do let p ← get r i; let q ← move len p 1; pure (r.set i (some q) ++ [none])
  | .postDec i => do let p ← get r i; let q ← move len p (-1); pure (r.set i (some q) ++ [none])
  | .addEq i n => do let p ← get r i; let q ← move len p n; pure (r.set i (some q))
  | .subEq i n => do let p ← get r i; let q ← move len p (-n); pure (r.set i (some q))
  | .plus i n => do let p ← get r i; let result ← move len p n; pure (r ++ [some result])
  | .minus _ _ => pure r

/-- A program: the iterators at its end. (Specification, no line of the source.) -/
def run (f : Regs → Op → Cxx Regs) (r : Regs) (ops : List Op) : Cxx Regs := ops.foldlM f r

/-! ## Proofs -/

/-- The iterators point into the array. (Specification, no line of the source.) -/
def Inside (len : Nat) (r : Regs) : Prop := ∀ p : Int, some p ∈ r → 0 ≤ p ∧ p ≤ len

theorem get_mem {r : Regs} {i : Nat} {p : Int} (h : get r i = pure p) : r[i]? = some (some p) := by
  unfold get at h
  split at h
  · rename_i q hq
    rw [hq]
    rw [Cxx.pure_inj] at h
    rw [h]
  · exact absurd h (Cxx.ub_ne_pure _)

theorem get_cases (r : Regs) (i : Nat) : get r i = ub ∨ ∃ p, get r i = pure p ∧ r[i]? = some (some p) := by
  unfold get
  split
  · rename_i q hq
    exact .inr ⟨q, rfl, hq⟩
  · exact .inl rfl

theorem get_set {r : Regs} {i : Nat} {p : Int} (h : r[i]? = some (some p)) (q : Int) : get (r.set i (some q)) i = pure q := by
  unfold get
  rw [List.getElem?_set_self (List.getElem?_eq_some_iff.1 h).1]

theorem set_back {r : Regs} {i : Nat} {p : Int} (h : r[i]? = some (some p)) (q : Int) : (r.set i (some q)).set i (some p) = r := by
  rw [List.set_set]
  obtain ⟨hi, he⟩ := List.getElem?_eq_some_iff.1 h
  rw [← he, List.set_getElem_self]

theorem random_step (len : Nat) (r : Regs) (op : Op) : random len r op = pointer len r op := by
  cases op <;> simp only [random, pointer]
  all_goals
    rename_i i n
    rcases get_cases r i with h | ⟨p, h, hm⟩
    · rw [h]; rfl
    · rw [h]
      simp only [pure_bind]
      unfold move
      split
      · simp only [pure_bind, get_set hm, set_back hm]
      · rfl

/-- **C307.**  Every program on iterators of type `RandomIterator` does what it does on pointers, also where that is undefined. -/
theorem C307_random (len : Nat) (r : Regs) (ops : List Op) : run (random len) r ops = run (pointer len) r ops := by
  unfold run
  induction ops generalizing r with
  | nil => rfl
  | cons op ops ih =>
    rw [List.foldlM_cons, List.foldlM_cons, random_step]
    congr 1
    funext r'
    exact ih r'

example : run (random 5) [some 1] [.plus 0 3, .postInc 0, .subEq 1 2] = pure [some 2, some 2, some 1] := by decide +kernel

theorem inside_step {len : Nat} {r r' : Regs} {op : Op} (hr : Inside len r) (h : pointer len r op = pure r') : Inside len r' := by
  have hset : ∀ (i : Nat) (q : Int), 0 ≤ q ∧ q ≤ len → Inside len (r.set i (some q)) := by
    intro i q hq p hp
    rcases List.mem_or_eq_of_mem_set hp with hp | hp
    · exact hr p hp
    · obtain rfl : p = q := by simpa using hp
      exact hq
  have happ : ∀ (s : Regs) (q : Int), Inside len s → 0 ≤ q ∧ q ≤ len → Inside len (s ++ [some q]) := by
    intro s q hs hq p hp
    rw [List.mem_append] at hp
    rcases hp with hp | hp
    · exact hs p hp
    · obtain rfl : p = q := by simpa using hp
      exact hq
  have hmove : ∀ p n q, move len p n = pure q → 0 ≤ q ∧ q ≤ len := by
    intro p n q hm
    unfold move at hm
    split at hm
    · rw [Cxx.pure_inj] at hm
      omega
    · exact absurd hm (Cxx.ub_ne_pure _)
  cases op <;> simp only [pointer] at h <;> rw [Cxx.bind_eq_pure] at h <;> obtain ⟨p, hp, h⟩ := h <;> rw [Cxx.bind_eq_pure] at h <;>
    obtain ⟨q, hq, h⟩ := h <;> rw [Cxx.pure_inj] at h <;> subst h
  · exact hset _ _ (hmove _ _ _ hq)
  · exact hset _ _ (hmove _ _ _ hq)
  · exact happ _ _ (hset _ _ (hmove _ _ _ hq)) (hr _ (List.mem_of_getElem? (get_mem hp)))
  · exact happ _ _ (hset _ _ (hmove _ _ _ hq)) (hr _ (List.mem_of_getElem? (get_mem hp)))
  · exact hset _ _ (hmove _ _ _ hq)
  · exact hset _ _ (hmove _ _ _ hq)
  · exact happ _ _ hr (hmove _ _ _ hq)
  · exact happ _ _ hr (hmove _ _ _ hq)

theorem wrap_step (len : Nat) (hl : len < 2 ^ 63) (r : Regs) (hr : Inside len r) (op : Op) : wrap len r op = pointer len r op := by
  have hneg : ∀ (p n : Int), 0 ≤ p → (do let m ← neg n; move len p m) = move len p (-n) := by
    intro p n hp
    unfold neg
    by_cases h : n = -2 ^ 63
    · rw [if_pos h, ub_bind]
      unfold move
      rw [if_neg (by omega)]
    · rw [if_neg h, pure_bind]
  cases op <;> simp only [wrap, pointer]
  all_goals
    rename_i i n
    rcases get_cases r i with h | ⟨p, h, hm⟩
    · rw [h]; rfl
    · rw [h]
      simp only [pure_bind]
      rw [← hneg p n (hr p (List.mem_of_getElem? hm)).1]
      simp only [bind_assoc]

/-- **C307.**  Every program on iterators of type `wrap_iter` into an array does what it does on pointers, also where that is undefined. -/
theorem C307_wrap (len : Nat) (hl : len < 2 ^ 63) (r : Regs) (hr : Inside len r) (ops : List Op) : run (wrap len) r ops = run (pointer len) r ops := by
  unfold run
  induction ops generalizing r with
  | nil => rfl
  | cons op ops ih =>
    rw [List.foldlM_cons, List.foldlM_cons, wrap_step len hl r hr]
    rcases hp : pointer len r op with _ | (e | r')
    · rfl
    · rfl
    · exact ih r' (inside_step hr hp)

example : Inside 5 [some 1, some 5] := by
  intro p hp
  simp only [List.mem_cons, Option.some.injEq, List.not_mem_nil, or_false] at hp
  omega

/-- The operation is none of those that are wrong or missing. (Specification, no line of the source.) -/
def Op.sound : Op → Bool
  | .postInc _ | .postDec _ | .minus _ _ => false
  | _ => true

/-- **C307.**  Every program on pointers of type `prop_const_ptr` that does not use increment and decrement after use does what it does on pointers.
Missing: these two operations, for which it is false, and subtraction of a number, which does not exist. -/
theorem C307_prop_partial (len : Nat) (r : Regs) (ops : List Op) (h : ∀ op ∈ ops, op.sound = true) : run (prop len) r ops = run (pointer len) r ops := by
  unfold run
  induction ops generalizing r with
  | nil => rfl
  | cons op ops ih =>
    have hs := h op (by simp)
    have he : prop len r op = pointer len r op := by
      cases op <;> first | rfl | cases hs
    rw [List.foldlM_cons, List.foldlM_cons, he]
    congr 1
    funext r'
    exact ih r' fun o ho => h o (by simp [ho])

example : run (prop 5) [some 1] [.plus 0 3, .inc 0, .subEq 1 2] = pure [some 2, some 2] := by decide +kernel

/-- **C307** (finding).  `p++` and `p--` of a `prop_const_ptr` return a reference to a local variable: every use of the result is undefined, though it is not
for a pointer. -/
theorem C307_post_violated (len : Nat) (p : Int) (hp : 0 ≤ p) (hl : p < len) :
    run (prop len) [some p] [.postInc 0, .addEq 1 0] = ub ∧ run (pointer len) [some p] [.postInc 0, .addEq 1 0] = pure [some (p + 1), some p] ∧
    run (prop len) [some (p + 1)] [.postDec 0, .addEq 1 0] = ub ∧
    run (pointer len) [some (p + 1)] [.postDec 0, .addEq 1 0] = pure [some p, some (p + 1)] := by
  have h1 : move len p 1 = pure (p + 1) := by unfold move; rw [if_pos (by omega)]
  have h2 : move len (p + 1) (-1) = pure p := by
    unfold move; rw [if_pos (by omega)]; congr 1; omega
  have h3 : move len p 0 = pure p := by
    unfold move; rw [if_pos (by omega)]; congr 1; omega
  have h4 : move len (p + 1) 0 = pure (p + 1) := by
    unfold move; rw [if_pos (by omega)]; congr 1; omega
  refine ⟨?_, ?_, ?_, ?_⟩
  · simp [run, prop, get, h1, ub_bind]
  · simp [run, pointer, get, h1, h3]
  · simp [run, prop, get, h2, ub_bind]
  · simp [run, pointer, get, h2, h4]

example := C307_post_violated 4 2 (by decide) (by decide)

/-! ## Constness of `prop_const_ptr` -/

/-- A `prop_const_ptr<T>` as a program sees it, daw_prop_const_ptr.h 16-27: whether `T` is const, and whether the object is. -/
structure View where
  /-- The type argument is const, daw_prop_const_ptr.h 16-17. -/
  elemConst : Bool
  /-- The object is const. -/
  objConst : Bool
  deriving DecidableEq

/-- Whether `*p`, `p->` and `p[ ]` give access that may write, daw_prop_const_ptr.h 53-75. -/
def View.writes (v : View) : Bool := if v.objConst then false else !v.elemConst

/-- What a program derives from such a pointer: a reference to const; the conversion to a pointer to const elements, daw_prop_const_ptr.h 35-51; a copy with the
implicit copy constructor; a sum with `+` of a pointer to const elements or of an object not const, 109-119. -/
inductive Derive
  | asConst | convert | copy | plus
  deriving DecidableEq

/-- The view derived, daw_prop_const_ptr.h 35-51 and 109-119; copies and sums are new objects that are not const. -/
def derive (v : View) : Derive → View
  | .asConst => { v with objConst := true }
  | .convert => ⟨true, false⟩
  | .copy => { v with objConst := false }
  | .plus => { v with objConst := false }

/-- What lies on the way from one view to another. (Specification, no line of the source.) -/
def deriveAll (v : View) (ds : List Derive) : View := ds.foldl derive v

/-- **C307.**  From a view that may not write, none that may write is derived without copying or adding a number.  Missing: copies of const objects, for
which it is false. -/
theorem C307_const_partial (v : View) (ds : List Derive) (hv : v.writes = false) (h : ∀ d ∈ ds, v.elemConst = true ∨ d = .asConst ∨ d = .convert) :
    (deriveAll v ds).writes = false := by
  unfold deriveAll
  induction ds generalizing v with
  | nil => exact hv
  | cons d ds ih =>
    rw [List.foldl_cons]
    have hd := h d (by simp)
    apply ih
    · rcases v with ⟨a, b⟩
      cases d <;> cases a <;> cases b <;> simp_all [derive, View.writes]
    · intro e he
      have := h e (by simp [he])
      rcases v with ⟨a, b⟩
      cases d <;> cases a <;> simp_all [derive]

example : (deriveAll ⟨false, false⟩ [.asConst, .convert, .asConst]).writes = false := by decide

/-- **C307** (finding).  A copy of a const pointer may write to what the const pointer may not. -/
theorem C307_copy_violated (v : View) (h : v.elemConst = false) :
    (derive v .asConst).writes = false ∧ (derive (derive v .asConst) .copy).writes = true := by
  rcases v with ⟨a, b⟩
  cases h
  exact ⟨rfl, rfl⟩

example := C307_copy_violated ⟨false, false⟩ rfl

end Verif.Iter.Wrapped
