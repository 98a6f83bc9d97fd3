import Verif.Containers.Lists
import Verif.Algorithm.Spec

/-
`daw::heap_array`, include/daw/deprecated/daw_heap_array.h.  Allocation succeeds and `new T[n]` makes `n` default values; an
allocation that throws ends the program (38-47).
-/

namespace Verif.Own.HeapArray
open Cxx

variable {α : Type}

/-- The blocks ever allocated; a freed one is nothing. (Rule of C++ or its library, no line of the source.) -/
abbrev Heap (α : Type) := List (Option (List α))

/-- A pointer: null or a place in a block. (Rule of C++ or its library, no line of the source.) -/
abbrev Ptr := Option (Nat × Nat)

/-- The elements of the block of a pointer. (Rule of C++ or its library, no line of the source.) -/
def block (h : Heap α) (b : Nat) : Cxx (List α) :=
  match h[b]? with
  | some (some c) => pure c
  | _ => ub

/-- Reading through a pointer. (Rule of C++ or its library, no line of the source.) -/
def load (h : Heap α) : Ptr → Cxx α
  | none => ub
  | some (b, i) => do
    let c ← block h b
    rd c i

/-- Writing through a pointer. (Rule of C++ or its library, no line of the source.) -/
def save (h : Heap α) (v : α) : Ptr → Cxx (Heap α)
  | none => ub
  | some (b, i) => do
    let c ← block h b
    let c ← wr c i v
    pure (h.set b (some c))

/-- `p + n`. (Rule of C++ or its library, no line of the source.) -/
def advance (h : Heap α) (n : Nat) : Ptr → Cxx Ptr
  | none => if n = 0 then pure none else ub
  | some (b, i) => do
    let c ← block h b
    if i + n ≤ c.length then pure (some (b, i + n)) else ub

/-- `delete[] p`. (Rule of C++ or its library, no line of the source.) -/
def free (h : Heap α) : Ptr → Cxx (Heap α)
  | none => pure h
  | some (b, i) =>
    if i = 0 then do
      let _ ← block h b
      pure (h.set b none)
    else ub

/-- `create_value`, daw_heap_array.h 37-47. -/
def create (h : Heap α) (dflt : α) (n : Nat) : Heap α × Ptr := (h ++ [some (List.replicate n dflt)], some (h.length, 0))

/-- `heap_array`, daw_heap_array.h 33-35. -/
structure Arr where
  first : Ptr
  fin : Ptr
  size : Nat
  deriving DecidableEq

/-- The default constructor, daw_heap_array.h 33-35 and 50. -/
def Arr.null : Arr := ⟨none, none, 0⟩

/-- `std::fill` and `std::copy_n` from a list of values to a pointer. (Rule of C++ or its library, no line of the source.) -/
def saveAll (h : Heap α) (p : Ptr) : List α → Cxx (Heap α × Ptr)
  | [] => pure (h, p)
  | v :: vs => do
    let h ← save h v p
    let p ← advance h 1 p
    saveAll h p vs

/-- The `n` values from a pointer on, as `std::copy_n` reads them. (Rule of C++ or its library, no line of the source.) -/
def loadAll (h : Heap α) (p : Ptr) : Nat → Cxx (List α)
  | 0 => pure []
  | n + 1 => do
    let v ← load h p
    let p ← advance h 1 p
    let vs ← loadAll h p n
    pure (v :: vs)

/-- The constructor from a size, daw_heap_array.h 52-55: there is one more element than asked for. -/
def ofSize (h : Heap α) (dflt : α) (n : Nat) : Cxx (Heap α × Arr) := do
  let (h, p) := create h dflt (n + 1)
  let e ← advance h n p
  pure (h, ⟨p, e, n⟩)

/-- The constructor from a size and a value, daw_heap_array.h 57-61. -/
def ofValue (h : Heap α) (dflt : α) (n : Nat) (v : α) : Cxx (Heap α × Arr) := do
  let (h, a) ← ofSize h dflt n
  let (h, _) ← saveAll h a.first (List.replicate n v)
  pure (h, a)

/-- The constructor from a pointer and a size, daw_heap_array.h 101-107; `vs` are the values at the pointer. -/
def ofValues (h : Heap α) (dflt : α) (vs : List α) : Cxx (Heap α × Arr) := do
  let (h, p) := create h dflt vs.length
  let e ← advance h vs.length p
  let (h, _) ← saveAll h p vs
  pure (h, ⟨p, e, vs.length⟩)

/-- The move constructor, daw_heap_array.h 63-66: the new array and the old one.  `m_end` is taken from `m_begin` of the other, which
is null by then. -/
def moveCtor (other : Arr) : Arr × Arr :=
  let first := other.first
  let other := { other with first := none }
  let fin := other.first
  let other := { other with first := none }
  let size := other.size
  (⟨first, fin, size⟩, { other with size := 0 })

/-- The move assignment to a different array, daw_heap_array.h 68-73: this array and the other one; what this array had is lost. -/
def moveAssign (_this rhs : Arr) : Arr × Arr := (⟨rhs.first, rhs.fin, rhs.size⟩, ⟨none, none, 0⟩)

/-- The copy constructor, daw_heap_array.h 75-81. -/
def copyCtor (h : Heap α) (dflt : α) (other : Arr) : Cxx (Heap α × Arr) := do
  let (h, p) := create h dflt other.size
  let e ← advance h other.size p
  let vs ← loadAll h other.first other.size
  let (h, _) ← saveAll h p vs
  pure (h, ⟨p, e, other.size⟩)

/-- `clear`, daw_heap_array.h 109-114. -/
def clear (h : Heap α) (a : Arr) : Cxx (Heap α × Arr) := do
  let h ← free h a.first
  pure (h, ⟨none, none, 0⟩)

/-- The copy assignment, daw_heap_array.h 83-92. -/
def copyAssign (h : Heap α) (dflt : α) (this rhs : Arr) : Cxx (Heap α × Arr) := do
  let (h, tmp) := create h dflt rhs.size
  let vs ← loadAll h rhs.first rhs.size
  let (h, tmpEnd) ← saveAll h tmp vs
  let (h, _) ← clear h this
  pure (h, ⟨tmp, tmpEnd, rhs.size⟩)

/-- `swap`, daw_heap_array.h 116-120. -/
def swap (a b : Arr) : Arr × Arr := (⟨b.first, b.fin, b.size⟩, ⟨a.first, a.fin, a.size⟩)

/-- The assignment of a list, daw_heap_array.h 94-99, by the member `swap` (daw_swap.h 55-57), with the destructor of the
temporary (122-124). -/
def listAssign (h : Heap α) (dflt : α) (this : Arr) (vs : List α) : Cxx (Heap α × Arr) := do
  let (h, tmp) ← ofSize h dflt vs.length
  let (h, _) ← saveAll h tmp.first vs
  let (this, tmp) := swap this tmp
  let (h, _) ← clear h tmp
  pure (h, this)

/-- `operator bool`, daw_heap_array.h 126-128. -/
def toBool (a : Arr) : Bool := decide (none = a.first)

/-- `empty`, daw_heap_array.h 134-136. -/
def empty (a : Arr) : Bool := decide (a.first = a.fin)

/-- `operator[]`, daw_heap_array.h 170-176. -/
def index (h : Heap α) (a : Arr) (pos : Nat) : Cxx α := do
  let p ← advance h pos a.first
  load h p

/-- `at`, daw_heap_array.h 178-190. -/
def at' (h : Heap α) (a : Arr) (pos : Nat) : Cxx α := if pos < a.size then index h a pos else thrown

/-- `front`, daw_heap_array.h 192-198. -/
def front (h : Heap α) (a : Arr) : Cxx α := load h a.first

/-- `back`, daw_heap_array.h 200-210: there is no place before the first one of a block. -/
def back (h : Heap α) (a : Arr) : Cxx α :=
  match a.fin with
  | some (b, i + 1) => load h (some (b, i))
  | _ => ub

/-- The loop of `find_first_of`, daw_heap_array.h 218-220. -/
def seek [DecidableEq α] (h : Heap α) (v : α) (p : Ptr) : Cxx Ptr := do
  let x ← load h p
  if x ≠ v then do
    let p ← advance h 1 p
    seek h v p
  else pure p
  partial_fixpoint

/-- `find_first_of`, daw_heap_array.h 212-223; with a null pointer an `assert` ends the program. -/
def findFirstOf [DecidableEq α] (h : Heap α) (a : Arr) (v : α) (start : Ptr) : Cxx (Heap α × Ptr) := do
  if a.first = none then abort
  else if start = none then abort
  else do
    let h ← save h v a.fin
    let p ← seek h v start
    pure (h, p)

/-- A loop from `begin( )` to `end( )`, daw_heap_array.h 146-168: the elements met. -/
def walk (h : Heap α) (p fin : Ptr) : Cxx (List α) := do
  if p = fin then pure []
  else do
    let x ← load h p
    let p ← advance h 1 p
    let xs ← walk h p fin
    pure (x :: xs)
  partial_fixpoint

/-! ### What an array holds -/

/-- The array owns block `b` with the elements `xs` followed by `tail`. (Specification, no line of the source.) -/
structure Owns (h : Heap α) (a : Arr) (b : Nat) (xs tail : List α) : Prop where
  first : a.first = some (b, 0)
  fin : a.fin = some (b, xs.length)
  size : a.size = xs.length
  cells : h[b]? = some (some (xs ++ tail))

/-- All other blocks are the same. (Specification, no line of the source.) -/
def Same (h h' : Heap α) (b : Nat) : Prop := ∀ b', b' ≠ b → b' < h.length → h'[b']? = h[b']?

theorem block_of {h : Heap α} {b : Nat} {c : List α} (hb : h[b]? = some (some c)) : block h b = pure c := by
  unfold block; rw [hb]

theorem load_at (h : Heap α) (b i : Nat) : load h (some (b, i)) = (block h b >>= fun c => rd c i) := rfl

theorem save_at (h : Heap α) (v : α) (b i : Nat) :
    save h v (some (b, i)) = (block h b >>= fun c => wr c i v >>= fun c => pure (h.set b (some c))) := rfl

theorem advance_at (h : Heap α) (n b i : Nat) : advance h n (some (b, i)) =
    (block h b >>= fun c => if i + n ≤ c.length then pure (some (b, i + n)) else ub) := rfl

theorem saveAll_ok {b : Nat} (vs : List α) : ∀ (h : Heap α) (pre mid post : List α), h[b]? = some (some (pre ++ mid ++ post)) →
    mid.length = vs.length →
    saveAll h (some (b, pre.length)) vs = pure (h.set b (some (pre ++ vs ++ post)), some (b, pre.length + vs.length)) := by
  induction vs with
  | nil =>
    intro h pre mid post hb hl
    have : mid = [] := List.eq_nil_of_length_eq_zero hl
    subst this
    have hlt : b < h.length := by
      rcases Nat.lt_or_ge b h.length with h' | h'
      · exact h'
      · rw [List.getElem?_eq_none h'] at hb; cases hb
    rw [List.getElem?_eq_getElem hlt] at hb
    injection hb with hb
    rw [← hb, List.set_getElem_self]
    rfl
  | cons v vs ih =>
    intro h pre mid post hb hl
    cases mid with
    | nil => simp at hl
    | cons m mid =>
      have hlt : b < h.length := by
        rcases Nat.lt_or_ge b h.length with h' | h'
        · exact h'
        · rw [List.getElem?_eq_none h'] at hb; cases hb
      have hset : (pre ++ m :: mid ++ post).set pre.length v = pre ++ [v] ++ mid ++ post := by simp
      have h1 : save h v (some (b, pre.length)) = pure (h.set b (some (pre ++ [v] ++ mid ++ post))) := by
        rw [save_at, block_of hb]
        simp only [pure_bind]
        rw [wr_eq (by simp), hset]
        rfl
      have hb' : (h.set b (some (pre ++ [v] ++ mid ++ post)))[b]? = some (some (pre ++ [v] ++ mid ++ post)) :=
        List.getElem?_set_self hlt
      have h2 : advance (h.set b (some (pre ++ [v] ++ mid ++ post))) 1 (some (b, pre.length)) = pure (some (b, (pre ++ [v]).length)) := by
        rw [advance_at, block_of hb']
        simp only [pure_bind]
        rw [if_pos (by simp)]
        simp
      rw [saveAll, h1]
      simp only [pure_bind]
      rw [h2]
      simp only [pure_bind]
      rw [ih _ (pre ++ [v]) mid post hb' (by simpa using hl), List.set_set]
      simp only [List.append_assoc, List.singleton_append, List.length_append, List.length_cons, List.length_nil]
      rw [show pre.length + (0 + 1) + vs.length = pre.length + (vs.length + 1) by omega]

theorem loadAll_ok {h : Heap α} {b : Nat} (vs : List α) : ∀ (pre post : List α), h[b]? = some (some (pre ++ vs ++ post)) →
    loadAll h (some (b, pre.length)) vs.length = pure vs := by
  induction vs with
  | nil => intro pre post _; rfl
  | cons v vs ih =>
    intro pre post hb
    have h1 : load h (some (b, pre.length)) = pure v := by
      rw [load_at, block_of hb]
      simp only [pure_bind]
      exact rd_some (by simp)
    have h2 : advance h 1 (some (b, pre.length)) = pure (some (b, (pre ++ [v]).length)) := by
      rw [advance_at, block_of hb]
      simp only [pure_bind]
      rw [if_pos (by simp)]
      simp
    rw [List.length_cons, loadAll, h1]
    simp only [pure_bind]
    rw [h2]
    simp only [pure_bind]
    rw [ih (pre ++ [v]) post (by simpa using hb)]
    rfl

theorem create_get (h : Heap α) (dflt : α) (n : Nat) :
    (create h dflt n).1[h.length]? = some (some (List.replicate n dflt)) := by simp [create]

theorem same_append (h : Heap α) (c d : Option (List α)) : Same h ((h ++ [c]).set h.length d) h.length := by
  intro b' hne hlt
  rw [List.getElem?_set_ne (by omega), List.getElem?_append_left hlt]

/-- C197, construction: an array of `n` copies of a value, or of given values, holds them in a block of its own. -/
theorem C197_construct (h : Heap α) (dflt v : α) (n : Nat) (vs : List α) :
    (∃ h' a, ofValue h dflt n v = pure (h', a) ∧ Owns h' a h.length (List.replicate n v) [dflt] ∧ Same h h' h.length) ∧
    (∃ h' a, ofValues h dflt vs = pure (h', a) ∧ Owns h' a h.length vs [] ∧ Same h h' h.length) := by
  constructor
  · have hb := create_get h dflt (n + 1)
    have hadv : advance (create h dflt (n + 1)).1 n (some (h.length, 0)) = pure (some (h.length, n)) := by
      rw [advance_at, block_of hb]
      simp only [pure_bind]
      rw [if_pos (by simp)]; simp
    have hs := saveAll_ok (List.replicate n v) (create h dflt (n + 1)).1 [] (List.replicate n dflt) [dflt]
      (by rw [hb, List.nil_append, ← List.replicate_succ']) (by simp)
    refine ⟨(create h dflt (n + 1)).1.set h.length (some (List.replicate n v ++ [dflt])), ⟨some (h.length, 0), some (h.length, n), n⟩, ?_, ?_, ?_⟩
    · unfold ofValue ofSize
      show (do
        let r ← (advance (create h dflt (n + 1)).1 n (some (h.length, 0)) >>= fun e =>
          (pure ((create h dflt (n + 1)).1, (⟨some (h.length, 0), e, n⟩ : Arr)) : Cxx (Heap α × Arr)))
        let q ← saveAll r.1 r.2.first (List.replicate n v)
        pure (q.1, r.2)) = _
      rw [hadv]
      simp only [pure_bind]
      rw [show some (h.length, 0) = some (h.length, ([] : List α).length) from rfl, hs]
      simp
    · refine ⟨rfl, by simp, by simp, ?_⟩
      rw [List.getElem?_set_self (by simp [create])]
    · exact same_append h _ _
  · have hb := create_get h dflt vs.length
    have hadv : advance (create h dflt vs.length).1 vs.length (some (h.length, 0)) = pure (some (h.length, vs.length)) := by
      rw [advance_at, block_of hb]
      simp only [pure_bind]
      rw [if_pos (by simp)]; simp
    have hs := saveAll_ok vs (create h dflt vs.length).1 [] (List.replicate vs.length dflt) [] (by rw [hb]; simp) (by simp)
    refine ⟨(create h dflt vs.length).1.set h.length (some vs), ⟨some (h.length, 0), some (h.length, vs.length), vs.length⟩, ?_, ?_, ?_⟩
    · unfold ofValues
      show (do
        let e ← advance (create h dflt vs.length).1 vs.length (some (h.length, 0))
        let q ← saveAll (create h dflt vs.length).1 (some (h.length, 0)) vs
        pure (q.1, (⟨some (h.length, 0), e, vs.length⟩ : Arr))) = _
      rw [hadv]
      simp only [pure_bind]
      rw [show some (h.length, 0) = some (h.length, ([] : List α).length) from rfl, hs]
      simp
    · refine ⟨rfl, rfl, rfl, ?_⟩
      rw [List.getElem?_set_self (by simp [create])]; simp
    · exact same_append h _ _

example : ofValue [some [1]] 0 3 7 = pure ([some [1], some [7, 7, 7, 0]], ⟨some (1, 0), some (1, 3), 3⟩) := by decide +kernel

theorem Owns.lt {h : Heap α} {a : Arr} {b : Nat} {xs t : List α} (o : Owns h a b xs t) : b < h.length := by
  rcases Nat.lt_or_ge b h.length with h' | h'
  · exact h'
  · have := o.cells
    rw [List.getElem?_eq_none h'] at this; cases this

theorem Owns.keep {h h' : Heap α} {a : Arr} {b : Nat} {xs t : List α} (o : Owns h a b xs t) (e : h'[b]? = h[b]?) : Owns h' a b xs t :=
  ⟨o.first, o.fin, o.size, e.trans o.cells⟩

theorem copied {h : Heap α} (dflt : α) {a : Arr} {b : Nat} {xs t : List α} (o : Owns h a b xs t) :
    loadAll (create h dflt a.size).1 a.first a.size = pure xs ∧
    saveAll (create h dflt a.size).1 (some (h.length, 0)) xs =
      pure ((create h dflt a.size).1.set h.length (some xs), some (h.length, xs.length)) := by
  have o' : Owns (create h dflt a.size).1 a b xs t := o.keep (by unfold create; exact List.getElem?_append_left o.lt)
  constructor
  · rw [o.first, o.size]
    rw [o.size] at o'
    exact loadAll_ok xs [] t (by simpa using o'.cells)
  · have := saveAll_ok xs (create h dflt a.size).1 [] (List.replicate a.size dflt) [] (by rw [create_get]; simp) (by simp [o.size])
    simpa using this

/-- C197, copies: a copy holds the same values in a block of its own and nothing else changes. -/
theorem C197_copy (h : Heap α) (dflt : α) {a : Arr} {b : Nat} {xs t : List α} (o : Owns h a b xs t) :
    ∃ h' a', copyCtor h dflt a = pure (h', a') ∧ Owns h' a' h.length xs [] ∧ Owns h' a b xs t ∧ Same h h' h.length := by
  obtain ⟨hl, hs⟩ := copied dflt o
  have hadv : advance (create h dflt a.size).1 a.size (some (h.length, 0)) = pure (some (h.length, a.size)) := by
    rw [advance_at, block_of (create_get h dflt a.size)]
    simp only [pure_bind]
    rw [if_pos (by simp)]; simp
  have hsame : Same h ((create h dflt a.size).1.set h.length (some xs)) h.length := same_append h _ _
  refine ⟨(create h dflt a.size).1.set h.length (some xs), ⟨some (h.length, 0), some (h.length, a.size), a.size⟩, ?_, ?_, ?_, hsame⟩
  · unfold copyCtor
    show (do
      let e ← advance (create h dflt a.size).1 a.size (some (h.length, 0))
      let vs ← loadAll (create h dflt a.size).1 a.first a.size
      let q ← saveAll (create h dflt a.size).1 (some (h.length, 0)) vs
      pure (q.1, (⟨some (h.length, 0), e, a.size⟩ : Arr))) = _
    rw [hadv, hl]
    simp only [pure_bind]
    rw [hs]
    rfl
  · refine ⟨rfl, by rw [o.size], o.size, ?_⟩
    rw [List.getElem?_set_self (by simp [create])]; simp
  · exact o.keep (hsame b (Nat.ne_of_lt o.lt) o.lt)

/-- What is left of the block of an array that has been cleared. (Specification, no line of the source.) -/
def Freed (h' : Heap α) (a : Arr) : Prop := ∀ b i, a.first = some (b, i) → h'[b]? = some none

/-- The array is null or owns a block. (Specification, no line of the source.) -/
def Valid (h : Heap α) (a : Arr) : Prop := a = Arr.null ∨ ∃ b xs t, Owns h a b xs t

/-- All blocks but that of `a` and the new one are the same. (Specification, no line of the source.) -/
def SameBut (h h' : Heap α) (a : Arr) : Prop :=
  ∀ b', (∀ i, a.first ≠ some (b', i)) → b' < h.length → h'[b']? = h[b']?

theorem free_valid {h : Heap α} {a : Arr} (v : Valid h a) :
    ∃ h', clear h a = pure (h', Arr.null) ∧ Freed h' a ∧ SameBut h h' a ∧ h'.length = h.length := by
  rcases v with rfl | ⟨b, xs, t, o⟩
  · refine ⟨h, rfl, ?_, fun _ _ _ => rfl, rfl⟩
    intro b i hb; cases hb
  · refine ⟨h.set b none, ?_, ?_, ?_, by simp⟩
    · unfold clear
      rw [o.first]
      show ((if 0 = 0 then (block h b >>= fun _ => pure (h.set b none)) else ub) >>= fun h => (pure (h, Arr.null) : Cxx _)) = _
      rw [if_pos rfl, block_of o.cells]
      rfl
    · intro b' i hb
      rw [o.first] at hb
      injection hb with hb
      injection hb with hb _
      subst hb
      exact List.getElem?_set_self o.lt
    · intro b' hne _
      refine List.getElem?_set_ne ?_
      intro e
      subst e
      exact hne 0 o.first

/-- C197, destruction: the destructor and `clear` free the block of the array and touch no other. -/
theorem C197_clear {h : Heap α} {a : Arr} (v : Valid h a) :
    ∃ h', clear h a = pure (h', Arr.null) ∧ Freed h' a ∧ SameBut h h' a := by
  obtain ⟨h', h1, h2, h3, _⟩ := free_valid v
  exact ⟨h', h1, h2, h3⟩

example : clear [some [1], some [2, 3]] ⟨some (1, 0), some (1, 2), 2⟩ = pure ([some [1], none], Arr.null) := by decide +kernel

theorem Valid.extend {h : Heap α} {a : Arr} (v : Valid h a) {h' : Heap α} (e : ∀ b, b < h.length → h'[b]? = h[b]?) :
    Valid h' a ∧ ∀ i, a.first ≠ some (h.length, i) := by
  rcases v with rfl | ⟨b, xs, t, o⟩
  · exact ⟨.inl rfl, fun i hc => by cases hc⟩
  · refine ⟨.inr ⟨b, xs, t, o.keep (e b o.lt)⟩, fun i hc => ?_⟩
    rw [o.first] at hc
    injection hc with hc
    injection hc with hc _
    have := o.lt
    omega

/-- C197, assignment: assigning an array, itself included, or a list of values frees the old block and leaves the array with the
values in a block of its own; nothing else changes. -/
theorem C197_assign (h : Heap α) (dflt : α) {this : Arr} (v : Valid h this) {rhs : Arr} {b : Nat} {xs t : List α}
    (o : Owns h rhs b xs t) (vs : List α) :
    (∃ h' a, copyAssign h dflt this rhs = pure (h', a) ∧ Owns h' a h.length xs [] ∧ Freed h' this ∧ SameBut h h' this) ∧
    (∃ h' a, listAssign h dflt this vs = pure (h', a) ∧ Owns h' a h.length vs [dflt] ∧ Freed h' this ∧ SameBut h h' this) := by
  constructor
  · obtain ⟨hl, hs⟩ := copied dflt o
    have hsame : ∀ b, b < h.length → ((create h dflt rhs.size).1.set h.length (some xs))[b]? = h[b]? :=
      fun b hb => same_append h _ _ b (Nat.ne_of_lt hb) hb
    obtain ⟨v', hne⟩ := v.extend hsame
    obtain ⟨h', h1, h2, h3, h4⟩ := free_valid v'
    refine ⟨h', ⟨some (h.length, 0), some (h.length, xs.length), rhs.size⟩, ?_, ?_, h2, ?_⟩
    · unfold copyAssign
      show (do
        let vs ← loadAll (create h dflt rhs.size).1 rhs.first rhs.size
        let q ← saveAll (create h dflt rhs.size).1 (some (h.length, 0)) vs
        let r ← clear q.1 this
        pure (r.1, (⟨some (h.length, 0), q.2, rhs.size⟩ : Arr))) = _
      rw [hl]
      simp only [pure_bind]
      rw [hs]
      simp only [pure_bind]
      rw [h1]
      rfl
    · refine ⟨rfl, rfl, o.size, ?_⟩
      rw [h3 h.length hne (by simp [create]), List.getElem?_set_self (by simp [create])]
      simp
    · intro b' hb' hlt
      rw [h3 b' hb' (by simp [create]; omega), hsame b' hlt]
  · have hb := create_get h dflt (vs.length + 1)
    have hadv : advance (create h dflt (vs.length + 1)).1 vs.length (some (h.length, 0)) = pure (some (h.length, vs.length)) := by
      rw [advance_at, block_of hb]
      simp only [pure_bind]
      rw [if_pos (by simp)]; simp
    have hs := saveAll_ok vs (create h dflt (vs.length + 1)).1 [] (List.replicate vs.length dflt) [dflt]
      (by rw [hb, List.nil_append, ← List.replicate_succ']) (by simp)
    have hsame : ∀ b, b < h.length → ((create h dflt (vs.length + 1)).1.set h.length (some ([] ++ vs ++ [dflt])))[b]? = h[b]? :=
      fun b hb => same_append h _ _ b (Nat.ne_of_lt hb) hb
    obtain ⟨v', hne⟩ := v.extend hsame
    obtain ⟨h', h1, h2, h3, h4⟩ := free_valid v'
    refine ⟨h', ⟨some (h.length, 0), some (h.length, vs.length), vs.length⟩, ?_, ?_, h2, ?_⟩
    · unfold listAssign ofSize
      show (do
        let r ← (advance (create h dflt (vs.length + 1)).1 vs.length (some (h.length, 0)) >>= fun e =>
          (pure ((create h dflt (vs.length + 1)).1, (⟨some (h.length, 0), e, vs.length⟩ : Arr)) : Cxx (Heap α × Arr)))
        let q ← saveAll r.1 r.2.first vs
        let z ← clear q.1 (swap this r.2).2
        pure (z.1, (swap this r.2).1)) = _
      rw [hadv]
      simp only [pure_bind]
      rw [show some (h.length, 0) = some (h.length, ([] : List α).length) from rfl, hs]
      simp only [pure_bind]
      show (clear _ ⟨this.first, this.fin, this.size⟩ >>= fun z => (pure (z.1, _) : Cxx _)) = _
      rw [h1]
      rfl
    · refine ⟨rfl, rfl, rfl, ?_⟩
      rw [h3 h.length hne (by simp [create]), List.getElem?_set_self (by simp [create])]
      simp
    · intro b' hb' hlt
      rw [h3 b' hb' (by simp [create]; omega), hsame b' hlt]

example : copyAssign [some [5, 6, 0], some [7, 8, 9]] 0 ⟨some (0, 0), some (0, 2), 2⟩ ⟨some (1, 0), some (1, 3), 3⟩ =
    pure ([none, some [7, 8, 9], some [7, 8, 9]], ⟨some (2, 0), some (2, 3), 3⟩) := by decide +kernel
example : copyAssign [some [5, 6, 0]] 0 ⟨some (0, 0), some (0, 2), 2⟩ ⟨some (0, 0), some (0, 2), 2⟩ =
    pure ([none, some [5, 6]], ⟨some (1, 0), some (1, 2), 2⟩) := by decide +kernel

/-- The pointer of element `i` moved on. -/
theorem step_ok {h : Heap α} {b : Nat} {c : List α} (hb : h[b]? = some (some c)) {i n : Nat} (hi : i + n ≤ c.length) :
    advance h n (some (b, i)) = pure (some (b, i + n)) := by
  rw [advance_at, block_of hb]
  simp only [pure_bind]
  rw [if_pos hi]

theorem walk_ok {h : Heap α} {b : Nat} (xs : List α) : ∀ (pre post : List α), h[b]? = some (some (pre ++ xs ++ post)) →
    walk h (some (b, pre.length)) (some (b, pre.length + xs.length)) = pure xs := by
  induction xs with
  | nil => intro pre post _; rw [walk]; simp
  | cons x xs ih =>
    intro pre post hb
    rw [walk]
    rw [if_neg (by simp), load_at, block_of hb]
    simp only [pure_bind]
    rw [rd_some (a := x) (by simp), step_ok hb (by simp)]
    simp only [pure_bind]
    have := ih (pre ++ [x]) post (by simpa using hb)
    rw [show (pre ++ [x]).length = pre.length + 1 by simp] at this
    rw [show pre.length + (x :: xs).length = pre.length + 1 + xs.length by simp; omega, this]
    rfl

/-- C197, reading: a loop meets the values in order; `size`, `empty`, `operator[]`, `at`, `front` and `back` agree with them. -/
theorem C197_read {h : Heap α} {a : Arr} {b : Nat} {xs t : List α} (o : Owns h a b xs t) :
    walk h a.first a.fin = pure xs ∧ a.size = xs.length ∧ (empty a = true ↔ xs = []) ∧
    (∀ (i : Nat) x, xs[i]? = some x → index h a i = pure x ∧ at' h a i = pure x) ∧ (∀ i : Nat, xs.length ≤ i → at' h a i = thrown) ∧
    (∀ x ys, xs = x :: ys → front h a = pure x) ∧ (∀ x ys, xs = ys ++ [x] → back h a = pure x) := by
  have hix : ∀ (i : Nat) x, xs[i]? = some x → index h a i = pure x := by
    intro i x hx
    obtain ⟨hlt, _⟩ := List.getElem?_eq_some_iff.mp hx
    unfold index
    rw [o.first, step_ok o.cells (by simp; omega)]
    simp only [pure_bind]
    rw [load_at, block_of o.cells]
    simp only [pure_bind]
    exact rd_some (by rw [Nat.zero_add, List.getElem?_append_left hlt]; exact hx)
  refine ⟨?_, o.size, ?_, ?_, ?_, ?_, ?_⟩
  · rw [o.first, o.fin]
    have := walk_ok xs [] t (by simpa using o.cells)
    simpa using this
  · unfold empty
    rw [o.first, o.fin]
    constructor
    · intro h'
      have := of_decide_eq_true h'
      injection this with this
      injection this with _ this
      exact List.eq_nil_of_length_eq_zero this.symm
    · rintro rfl; simp
  · intro i x hx
    refine ⟨hix i x hx, ?_⟩
    unfold at'
    obtain ⟨hlt, _⟩ := List.getElem?_eq_some_iff.mp hx
    rw [if_pos (by rw [o.size]; exact hlt)]
    exact hix i x hx
  · intro i hi
    unfold at'
    rw [if_neg (by rw [o.size]; omega)]
  · rintro x ys rfl
    unfold front
    rw [o.first, load_at, block_of o.cells]
    simp only [pure_bind]
    exact rd_some (by simp)
  · rintro x ys rfl
    unfold back
    rw [o.fin]
    rw [show (ys ++ [x]).length = ys.length + 1 by simp]
    show load h (some (b, ys.length)) = _
    rw [load_at, block_of o.cells]
    simp only [pure_bind]
    exact rd_some (by simp)

example := C197_read (h := [some [1], some [7, 7, 7, 0]]) (a := ⟨some (1, 0), some (1, 3), 3⟩) (b := 1) (xs := [7, 7, 7]) (t := [0]) ⟨rfl, rfl, rfl, rfl⟩

/-! ### `find_first_of` -/

theorem seek_ok [DecidableEq α] {h : Heap α} {b : Nat} {v : α} : ∀ (n i : Nat) (c : List α), h[b]? = some (some c) → i ≤ n →
    n < c.length → c[n]? = some v → (∀ k : Nat, i ≤ k → k < n → c[k]? ≠ some v) → seek h v (some (b, i)) = pure (some (b, n)) := by
  intro n i c hb hin hn hv hno
  generalize hd : n - i = d
  induction d generalizing i with
  | zero =>
    have : i = n := by omega
    subst this
    rw [seek, load_at, block_of hb]
    simp only [pure_bind]
    rw [rd_some hv]
    simp
  | succ d ih =>
    have hi : i < c.length := by omega
    have hne : c[i] ≠ v := by
      intro e
      exact hno i (Nat.le_refl i) (by omega) (by rw [List.getElem?_eq_getElem hi, e])
    rw [seek, load_at, block_of hb]
    simp only [pure_bind]
    rw [rd_eq hi]
    simp only [pure_bind]
    rw [if_pos hne, step_ok hb (by omega)]
    simp only [pure_bind]
    exact ih (i + 1) (by omega) (fun k h1 h2 => hno k (by omega) h2) (by omega)

/-- C198, for an array that has the extra element, as those made from a size have: `find_first_of` finds the first element from
`start` on that equals the value, or the end, and no element changes.  Missing: see `C198_copy_violated`. -/
theorem C198_find_first_of_partial [DecidableEq α] {h : Heap α} {a : Arr} {b : Nat} {xs : List α} {e : α} {t : List α}
    (o : Owns h a b xs (e :: t)) (v : α) (start : Nat) (hs : start ≤ xs.length) :
    ∃ h' n, findFirstOf h a v (some (b, start)) = pure (h', some (b, n)) ∧ Owns h' a b xs (v :: t) ∧ Same h h' b ∧
      start ≤ n ∧ n ≤ xs.length ∧ (∀ k : Nat, start ≤ k → k < n → xs[k]? ≠ some v) ∧ (n < xs.length → xs[n]? = some v) := by
  have hset : (xs ++ e :: t).set xs.length v = xs ++ v :: t := by simp
  have hsave : save h v a.fin = pure (h.set b (some (xs ++ v :: t))) := by
    rw [o.fin, save_at, block_of o.cells]
    simp only [pure_bind]
    rw [wr_eq (by simp), hset]
    rfl
  have hb' : (h.set b (some (xs ++ v :: t)))[b]? = some (some (xs ++ v :: t)) := List.getElem?_set_self o.lt
  have hex : ∃ n, start ≤ n ∧ n ≤ xs.length ∧ (xs ++ v :: t)[n]? = some v ∧
      ∀ k : Nat, start ≤ k → k < n → (xs ++ v :: t)[k]? ≠ some v := by
    have key : ∀ d i, xs.length - i = d → i ≤ xs.length → ∃ n, i ≤ n ∧ n ≤ xs.length ∧ (xs ++ v :: t)[n]? = some v ∧
        ∀ k : Nat, i ≤ k → k < n → (xs ++ v :: t)[k]? ≠ some v := by
      intro d
      induction d with
      | zero =>
        intro i hd hi
        have : i = xs.length := by omega
        subst this
        exact ⟨xs.length, Nat.le_refl _, Nat.le_refl _, by simp, fun k h1 h2 => by omega⟩
      | succ d ih =>
        intro i hd hi
        by_cases hc : (xs ++ v :: t)[i]? = some v
        · exact ⟨i, Nat.le_refl _, hi, hc, fun k h1 h2 => by omega⟩
        · obtain ⟨n, h1, h2, h3, h4⟩ := ih (i + 1) (by omega) (by omega)
          refine ⟨n, by omega, h2, h3, fun k hk1 hk2 => ?_⟩
          by_cases hki : k = i
          · subst hki; exact hc
          · exact h4 k (by omega) hk2
    exact key _ start rfl hs
  obtain ⟨n, h1, h2, h3, h4⟩ := hex
  refine ⟨h.set b (some (xs ++ v :: t)), n, ?_, ⟨o.first, o.fin, o.size, hb'⟩, ?_, h1, h2, ?_, ?_⟩
  · unfold findFirstOf
    rw [if_neg (by rw [o.first]; simp), if_neg (by simp), hsave]
    simp only [pure_bind]
    rw [seek_ok n start _ hb' h1 (by simp; omega) h3 h4]
    rfl
  · intro b' hne _
    exact List.getElem?_set_ne (Ne.symm hne)
  · intro k hk1 hk2
    have := h4 k hk1 hk2
    rwa [List.getElem?_append_left (by omega)] at this
  · intro hn
    rwa [List.getElem?_append_left hn] at h3

/-- C198: in an array without memory, and from a null pointer, nothing is searched for, the program ends. -/
theorem C198_null [DecidableEq α] (h : Heap α) (a : Arr) (v : α) (start : Ptr) (hn : a.first = none ∨ start = none) :
    findFirstOf h a v start = abort := by
  unfold findFirstOf
  by_cases h1 : a.first = none
  · rw [if_pos h1]
  · rw [if_neg h1, if_pos (hn.resolve_left h1)]

example := C198_null [some [1, 2, 0]] Arr.null 2 (some (0, 0)) (Or.inl rfl)

example : Owns [some [4, 5, 0]] ⟨some (0, 0), some (0, 2), 2⟩ 0 [4, 5] [0] := ⟨rfl, rfl, rfl, rfl⟩

/-- C198 fails: `find_first_of` writes past the block of every array that was copied or made from a pointer and a size, even if the
value is there. -/
theorem C198_copy_violated [DecidableEq α] {h : Heap α} {dflt : α} {a : Arr} {b : Nat} {xs t : List α} (o : Owns h a b xs t) (v : α)
    (start : Nat) :
    (∃ h' a', copyCtor h dflt a = pure (h', a') ∧ findFirstOf h' a' v (some (h.length, start)) = ub) ∧
    (∃ h' a', ofValues h dflt xs = pure (h', a') ∧ findFirstOf h' a' v (some (h.length, start)) = ub) := by
  have key : ∀ (h : Heap α) (a : Arr) (b : Nat) (xs : List α), Owns h a b xs [] → findFirstOf h a v (some (b, start)) = ub := by
    intro h a b xs o
    unfold findFirstOf
    rw [if_neg (by rw [o.first]; simp), if_neg (by simp), o.fin, save_at, block_of o.cells]
    simp only [pure_bind]
    rw [wr_oob (by simp)]
    rfl
  obtain ⟨h1, a1, e1, o1, -⟩ := C197_copy h dflt o
  obtain ⟨-, h2, a2, e2, o2, -⟩ := C197_construct h dflt dflt 0 xs
  exact ⟨⟨h1, a1, e1, key _ _ _ _ o1⟩, ⟨h2, a2, e2, key _ _ _ _ o2⟩⟩

/-! ### Moves and tests -/

/-- C199, the parts that hold: swapping exchanges the arrays, and move assignment to a null array hands the block over and leaves
the source null.  Missing: the move constructor, see `C199_move_violated`, the old block of the target, see `C199_leak_violated`, and
the conversion to `bool`, see `C199_bool_violated`. -/
theorem C199_moves_partial {h : Heap α} {a c : Arr} {b d : Nat} {xs t ys u : List α} (o : Owns h a b xs t) (p : Owns h c d ys u) :
    Owns h (swap a c).1 d ys u ∧ Owns h (swap a c).2 b xs t ∧
    Owns h (moveAssign Arr.null a).1 b xs t ∧ (moveAssign Arr.null a).2 = Arr.null :=
  ⟨⟨p.first, p.fin, p.size, p.cells⟩, ⟨o.first, o.fin, o.size, o.cells⟩, ⟨o.first, o.fin, o.size, o.cells⟩, rfl⟩

example : ∃ (h : Heap Nat) (a c : Arr), Owns h a 0 [4, 5] [0] ∧ Owns h c 1 [6] [] :=
  ⟨[some [4, 5, 0], some [6]], ⟨some (0, 0), some (0, 2), 2⟩, ⟨some (1, 0), some (1, 1), 1⟩, ⟨rfl, rfl, rfl, rfl⟩, ⟨rfl, rfl, rfl, rfl⟩⟩

theorem walk_off {h : Heap α} {b : Nat} {c : List α} (hb : h[b]? = some (some c)) (i : Nat) : i ≤ c.length →
    walk h (some (b, i)) none = ub := by
  generalize hd : c.length - i = d
  induction d generalizing i with
  | zero =>
    intro hi
    rw [walk, if_neg (by simp), load_at, block_of hb]
    simp only [pure_bind]
    rw [rd_oob (by omega)]
    rfl
  | succ d ih =>
    intro hi
    rw [walk, if_neg (by simp), load_at, block_of hb]
    simp only [pure_bind]
    rw [rd_eq (show i < c.length by omega), step_ok hb (by omega)]
    simp only [pure_bind]
    rw [ih (i + 1) (by omega) (by omega)]
    rfl

/-- C199 fails: the end of a move-constructed array is null, so a loop over it leaves its block and it is not `empty` even if it has
no elements; the array moved from has no elements but is not `empty`. -/
theorem C199_move_violated {h : Heap α} {a : Arr} {b : Nat} {xs t : List α} (o : Owns h a b xs t) :
    walk h (moveCtor a).1.first (moveCtor a).1.fin = ub ∧ empty (moveCtor a).1 = false ∧
    (moveCtor a).2.size = 0 ∧ empty (moveCtor a).2 = false ∧ back h (moveCtor a).1 = ub := by
  refine ⟨?_, ?_, rfl, ?_, rfl⟩
  · show walk h a.first none = ub
    rw [o.first]
    exact walk_off o.cells 0 (Nat.zero_le _)
  · show decide (a.first = none) = false
    rw [o.first]; rfl
  · show decide (none = a.fin) = false
    rw [o.fin]; rfl

/-- C199 fails: move assignment does not free the block the target had, and no array refers to it any more. -/
theorem C199_leak_violated {h : Heap α} {a c : Arr} {b d : Nat} {xs t ys u : List α} (o : Owns h a b xs t) (p : Owns h c d ys u)
    (hne : b ≠ d) : h[b]? = some (some (xs ++ t)) ∧ (∀ i, (moveAssign a c).1.first ≠ some (b, i)) ∧
      (∀ i, (moveAssign a c).2.first ≠ some (b, i)) := by
  refine ⟨o.cells, fun i hc => ?_, fun i hc => by cases hc⟩
  have : c.first = some (b, i) := hc
  rw [p.first] at this
  injection this with this
  injection this with this _
  exact hne this.symm

/-- C199 fails: an array with storage converts to `false`, one without to `true`. -/
theorem C199_bool_violated {h : Heap α} {a : Arr} {b : Nat} {xs t : List α} (o : Owns h a b xs t) :
    toBool a = false ∧ toBool Arr.null = true := by
  refine ⟨?_, rfl⟩
  unfold toBool
  rw [o.first]; rfl

end Verif.Own.HeapArray
