import Verif.Base

/-
Output iterators that put values into containers, include/daw/iterator/daw_back_inserter.h, daw_end_inserter.h and daw_inserter.h, and those that call a function,
include/daw/iterator/daw_function_iterator.h.
-/

namespace Verif.Inserters
open Verif Verif.Cxx

variable {α C σ : Type}

/-- The containers of a program and its inserters, each with the number of the container its member `m_container` points to (daw_back_inserter.h 30, daw_inserter.h
30, daw_end_inserter.h 29). -/
structure World (C : Type) where
  cs : List C
  its : List Nat

/-- The calls: making an inserter for a container, copying one, assigning one to another, incrementing and assigning a value (daw_back_inserter.h 33-54, daw_inserter.h
33-54, daw_end_inserter.h 32-54). -/
inductive Op (α : Type)
  | make (c : Nat)
  | copy (i : Nat)
  | assign (i j : Nat)
  | next (i : Nat)
  | write (i : Nat) (x : α)

/-- A call; `add` is what the container does with a value.  Constructors, daw_back_inserter.h 33-34, daw_inserter.h 33-34 and daw_end_inserter.h 32-33; copies and
assignments of inserters are those of the pointer, `operator++( int )` of daw_back_inserter.h 52-54 makes a copy too; `operator++`, daw_back_inserter.h 48-50,
daw_inserter.h 48-54 and daw_end_inserter.h 48-54, changes nothing; `operator=`, daw_back_inserter.h 39-42, daw_inserter.h 39-42 and daw_end_inserter.h 39-42. -/
def step (add : C → α → C) (w : World C) : Op α → Cxx (World C)
  | .make c => if c < w.cs.length then pure ⟨w.cs, w.its ++ [c]⟩ else ub
  | .copy i => do
    let t ← rd w.its i
    pure ⟨w.cs, w.its ++ [t]⟩
  | .assign i j => do
    let t ← rd w.its j
    let its ← wr w.its i t
    pure ⟨w.cs, its⟩
  | .next i => do
    let _ ← rd w.its i
    pure w
  | .write i x => do
    let t ← rd w.its i
    let c ← rd w.cs t
    let cs ← wr w.cs t (add c x)
    pure ⟨cs, w.its⟩

/-- Calls one after another (daw_back_inserter.h 33-54). -/
def run (add : C → α → C) : World C → List (Op α) → Cxx (World C)
  | w, [] => pure w
  | w, o :: os => do
    let w ← step add w o
    run add w os

/-- `push_back` as called in daw_back_inserter.h 40. -/
def pushBack (l : List α) (x : α) : List α := l ++ [x]

/-- `insert` at `std::end` of a sequence as called in daw_end_inserter.h 40. -/
def insertEnd (l : List α) (x : α) : List α := l.take l.length ++ x :: l.drop l.length

/-- `insert` of a set of numbers as called in daw_inserter.h 40: before the first greater one, unless the number is there. -/
def insertSet : List Nat → Nat → List Nat
  | [], x => [x]
  | y :: ys, x => if x < y then x :: y :: ys else if x = y then y :: ys else y :: insertSet ys x

/-- Copying values to an output iterator, the loop of daw_utility.h 448-452: assign, then increment. -/
def copyTo (i : Nat) : List α → List (Op α)
  | [] => []
  | x :: xs => .write i x :: .next i :: copyTo i xs

/-- The calls refer to inserters and containers that exist, for `nc` containers and `n` inserters made before. (Specification, no line of the source.) -/
def Valid (nc : Nat) : Nat → List (Op α) → Prop
  | _, [] => True
  | n, .make c :: os => c < nc ∧ Valid nc (n + 1) os
  | n, .copy i :: os => i < n ∧ Valid nc (n + 1) os
  | n, .assign i j :: os => i < n ∧ j < n ∧ Valid nc n os
  | n, .next i :: os => i < n ∧ Valid nc n os
  | n, .write i _ :: os => i < n ∧ Valid nc n os

/-- `home i` is the container that inserter `i` was made for, and inserters are only assigned to those of the same container. (Specification, no line of the source.) -/
def Homes (home : Nat → Nat) : Nat → List (Op α) → Prop
  | _, [] => True
  | n, .make c :: os => home n = c ∧ Homes home (n + 1) os
  | n, .copy i :: os => home n = home i ∧ Homes home (n + 1) os
  | n, .assign i j :: os => home i = home j ∧ Homes home n os
  | n, .next _ :: os => Homes home n os
  | n, .write _ _ :: os => Homes home n os

/-- The values assigned through inserters of container `c`, in their order. (Specification, no line of the source.) -/
def valuesFor (home : Nat → Nat) (c : Nat) (os : List (Op α)) : List α :=
  os.filterMap fun o => match o with
    | .write i x => if home i = c then some x else none
    | _ => none

theorem snoc_home {its : List Nat} {home : Nat → Nat} (h : ∀ i t, its[i]? = some t → home i = t) {t : Nat} (ht : home its.length = t) :
    ∀ i u, (its ++ [t])[i]? = some u → home i = u := by
  intro i u hu
  rcases Nat.lt_trichotomy i its.length with hi | hi | hi
  · rw [List.getElem?_append_left hi] at hu
    exact h i u hu
  · subst hi
    rw [List.getElem?_append_right (Nat.le_refl _), Nat.sub_self] at hu
    rw [ht]
    exact Option.some.inj hu
  · rw [List.getElem?_eq_none (by rw [List.length_append, List.length_singleton]; omega)] at hu
    cases hu

theorem snoc_lt {its : List Nat} {n t : Nat} (h : ∀ u ∈ its, u < n) (ht : t < n) : ∀ u ∈ its ++ [t], u < n := by
  intro u hu
  rcases List.mem_append.1 hu with hu | hu
  · exact h u hu
  · rw [List.mem_singleton.1 hu]
    exact ht

/-- C367.  For all calls on inserters that exist: every value assigned through an inserter arrives in the container the inserter was made for, whichever copy is
used and whatever is incremented in between, in the order of the assignments, and nothing else arrives there. -/
theorem C367_values (add : C → α → C) (home : Nat → Nat) (os : List (Op α)) : ∀ (w : World C), Valid w.cs.length w.its.length os →
    Homes home w.its.length os → (∀ t ∈ w.its, t < w.cs.length) → (∀ i t, w.its[i]? = some t → home i = t) →
    ∃ w', run add w os = pure w' ∧ w'.cs.length = w.cs.length ∧
      (∀ c, w'.cs[c]? = w.cs[c]?.map fun s => (valuesFor home c os).foldl add s) ∧ ∀ i t, w'.its[i]? = some t → home i = t := by
  induction os with
  | nil =>
    intro w _ _ _ hh
    exact ⟨w, rfl, rfl, fun c => by cases w.cs[c]? <;> rfl, hh⟩
  | cons o os ih =>
    intro w hv ho hl hh
    cases o with
    | make c =>
      obtain ⟨w', e, hn, hc, hi⟩ := ih ⟨w.cs, w.its ++ [c]⟩ (by rw [List.length_append]; exact hv.2) (by rw [List.length_append]; exact ho.2)
        (snoc_lt hl hv.1) (snoc_home hh ho.1)
      refine ⟨w', ?_, hn, hc, hi⟩
      show (step add w (.make c) >>= fun w => run add w os) = _
      rw [show step add w (.make c) = pure ⟨w.cs, w.its ++ [c]⟩ from if_pos hv.1, pure_bind, e]
    | copy i =>
      have hi' := hv.1
      obtain ⟨w', e, hn, hc, hi⟩ := ih ⟨w.cs, w.its ++ [w.its[i]]⟩ (by rw [List.length_append]; exact hv.2) (by rw [List.length_append]; exact ho.2)
        (snoc_lt hl (hl _ (List.getElem_mem _))) (snoc_home hh (by rw [ho.1]; exact hh i _ (List.getElem?_eq_getElem hi')))
      refine ⟨w', ?_, hn, hc, hi⟩
      show ((rd w.its i >>= fun t => pure ⟨w.cs, w.its ++ [t]⟩) >>= fun w => run add w os) = _
      rw [rd_eq hi', pure_bind, pure_bind, e]
    | assign i j =>
      have hi' := hv.1
      have hj' := hv.2.1
      obtain ⟨w', e, hn, hc, hi⟩ := ih ⟨w.cs, w.its.set i w.its[j]⟩ (by rw [List.length_set]; exact hv.2.2) (by rw [List.length_set]; exact ho.2)
        (fun t ht => by
          rcases List.mem_or_eq_of_mem_set ht with h | h
          · exact hl t h
          · rw [h]; exact hl _ (List.getElem_mem _))
        (fun k t ht => by
          rw [List.getElem?_set] at ht
          by_cases hk : i = k
          · subst hk
            rw [if_pos rfl, if_pos hi'] at ht
            rw [ho.1, ← Option.some.inj ht]
            exact hh j _ (List.getElem?_eq_getElem hj')
          · rw [if_neg hk] at ht
            exact hh k t ht)
      refine ⟨w', ?_, hn, hc, hi⟩
      show ((rd w.its j >>= fun t => wr w.its i t >>= fun its => pure ⟨w.cs, its⟩) >>= fun w => run add w os) = _
      rw [rd_eq hj', pure_bind, wr_eq hi', pure_bind, pure_bind, e]
    | next i =>
      obtain ⟨w', e, hn, hc, hi⟩ := ih w hv.2 ho hl hh
      refine ⟨w', ?_, hn, hc, hi⟩
      show ((rd w.its i >>= fun _ => pure w) >>= fun w => run add w os) = _
      rw [rd_eq hv.1, pure_bind, pure_bind, e]
    | write i x =>
      have hi' := hv.1
      have ht := hl _ (List.getElem_mem hi')
      have hhome := hh i _ (List.getElem?_eq_getElem hi')
      obtain ⟨w', e, hn, hc, hi⟩ := ih ⟨w.cs.set w.its[i] (add w.cs[w.its[i]] x), w.its⟩ (by rw [List.length_set]; exact hv.2) ho
        (by rw [List.length_set]; exact hl) hh
      refine ⟨w', ?_, by rw [hn, List.length_set], fun c => ?_, hi⟩
      · show ((rd w.its i >>= fun t => rd w.cs t >>= fun c => wr w.cs t (add c x) >>= fun cs => pure ⟨cs, w.its⟩) >>= fun w => run add w os) = _
        rw [rd_eq hi', pure_bind, rd_eq ht, pure_bind, wr_eq ht, pure_bind, pure_bind, e]
      · rw [hc c]
        show (w.cs.set w.its[i] (add w.cs[w.its[i]] x))[c]?.map _ = _
        by_cases hcc : home i = c
        · have hv' : valuesFor home c (.write i x :: os) = x :: valuesFor home c os := by
            unfold valuesFor
            rw [List.filterMap_cons]
            simp only [if_pos hcc]
          have htc : w.its[i] = c := by rw [← hhome, hcc]
          have hc' : c < w.cs.length := htc ▸ ht
          rw [hv', List.getElem?_set, if_pos htc, if_pos (by rw [htc]; exact hc'), List.getElem?_eq_getElem hc']
          simp only [htc]
          rfl
        · have hv' : valuesFor home c (.write i x :: os) = valuesFor home c os := by
            unfold valuesFor
            rw [List.filterMap_cons]
            simp only [if_neg hcc]
          rw [hv', List.getElem?_set, if_neg (by rw [← hhome]; exact hcc)]

example : Valid 2 0 [.make 0, .make 1, .copy 0, .write 0 'a', .next 0, .write 1 'b', .assign 2 0, .write 2 'c'] ∧
    Homes (fun i => i % 2) 0 [.make 0, .make 1, .copy 0, .write 0 'a', .next 0, .write 1 'b', .assign 2 0, .write 2 'c'] := by
  simp [Valid, Homes]

theorem foldl_push (xs : List α) : ∀ l : List α, xs.foldl pushBack l = l ++ xs := by
  induction xs with
  | nil => intro l; exact (List.append_nil l).symm
  | cons x xs ih =>
    intro l
    show xs.foldl pushBack (l ++ [x]) = _
    rw [ih, List.append_assoc]
    rfl

theorem valuesFor_copy (home : Nat → Nat) (i : Nat) (xs : List α) : valuesFor home (home i) (copyTo i xs) = xs := by
  induction xs with
  | nil => rfl
  | cons x xs ih =>
    unfold valuesFor at ih
    simp only [valuesFor, copyTo, List.filterMap_cons, ih, if_true]

theorem valid_copy (nc n i : Nat) (h : i < n) (xs : List α) : Valid nc n (copyTo i xs) := by
  induction xs with
  | nil => trivial
  | cons x xs ih => exact ⟨h, h, ih⟩

theorem homes_copy (home : Nat → Nat) (n i : Nat) (xs : List α) : Homes home n (copyTo i xs) := by
  induction xs with
  | nil => trivial
  | cons x xs ih => exact ih

/-- C367.  Copying a range to a back inserter appends the range to its container. -/
theorem C367_back (w : World (List α)) (i t : Nat) (l : List α) (xs : List α) (hl : ∀ t ∈ w.its, t < w.cs.length) (hi : w.its[i]? = some t)
    (ht : w.cs[t]? = some l) : ∃ w', run pushBack w (copyTo i xs) = pure w' ∧ w'.cs[t]? = some (l ++ xs) := by
  have hlt : i < w.its.length := (List.getElem?_eq_some_iff.1 hi).1
  obtain ⟨w', e, _, hc, _⟩ := C367_values pushBack (fun i => w.its.getD i 0) (copyTo i xs) w (valid_copy _ _ _ hlt _) (homes_copy _ _ _ _) hl
    (fun k u hu => by simp [hu])
  refine ⟨w', e, ?_⟩
  have hv := valuesFor_copy (fun i => w.its.getD i 0) i xs
  have hg : w.its.getD i 0 = t := by simp [hi]
  simp only [hg] at hv
  rw [hc, ht, hv]
  exact congrArg some (foldl_push xs l)

example : run pushBack ⟨[[1], [5]], [1, 0]⟩ (copyTo 0 [2, 3]) = pure ⟨[[1], [5, 2, 3]], [1, 0]⟩ := rfl

/-- C367.  Inserting at the end of a sequence is appending, so that end inserters append like back inserters. -/
theorem C367_end (w : World (List α)) (os : List (Op α)) : run insertEnd w os = run pushBack w os := by
  have h : (insertEnd : List α → α → List α) = pushBack := by
    funext l x
    unfold insertEnd pushBack
    rw [List.take_length, List.drop_length]
  rw [h]

theorem mem_insertSet (l : List Nat) (x y : Nat) : y ∈ insertSet l x ↔ y = x ∨ y ∈ l := by
  induction l with
  | nil => simp [insertSet]
  | cons z l ih =>
    unfold insertSet
    split
    · simp
    · split
      next h => subst h; simp
      next h =>
        simp only [List.mem_cons, ih]
        constructor
        · rintro (h | h | h) <;> simp [h]
        · rintro (h | h | h) <;> simp [h]

theorem sorted_insertSet (l : List Nat) (x : Nat) (h : l.Pairwise (· < ·)) : (insertSet l x).Pairwise (· < ·) := by
  induction l with
  | nil => exact List.pairwise_singleton _ _
  | cons z l ih =>
    obtain ⟨h1, h2⟩ := List.pairwise_cons.1 h
    unfold insertSet
    split
    next hx =>
      refine List.pairwise_cons.2 ⟨fun y hy => ?_, h⟩
      rcases List.mem_cons.1 hy with rfl | hy
      · exact hx
      · exact Nat.lt_trans hx (h1 y hy)
    next hx =>
      split
      · exact h
      next hxz =>
        refine List.pairwise_cons.2 ⟨fun y hy => ?_, ih h2⟩
        rcases (mem_insertSet l x y).1 hy with rfl | hy
        · omega
        · exact h1 y hy

/-- C367.  A set that gets values through an inserter stays in order and without repetitions, and has the elements it had and the values. -/
theorem C367_set (xs : List Nat) : ∀ l : List Nat, l.Pairwise (· < ·) →
    (xs.foldl insertSet l).Pairwise (· < ·) ∧ ∀ y, y ∈ xs.foldl insertSet l ↔ y ∈ l ∨ y ∈ xs := by
  induction xs with
  | nil => intro l h; exact ⟨h, fun y => by simp⟩
  | cons x xs ih =>
    intro l h
    obtain ⟨h1, h2⟩ := ih (insertSet l x) (sorted_insertSet l x h)
    refine ⟨h1, fun y => ?_⟩
    show y ∈ xs.foldl insertSet (insertSet l x) ↔ _
    rw [h2, mem_insertSet, List.mem_cons]
    constructor
    · rintro ((h | h) | h) <;> simp [h]
    · rintro (h | h | h) <;> simp [h]

example : [5, 1, 5, 3].foldl insertSet [2, 3] = [1, 2, 3, 5] := rfl

/-- Writing a value to a stream, daw_output_stream_iterator.h 23-31; the callable holds a pointer to the stream, 18-21, so that the stream is a container here and `put x` the text written for `x`. -/
def streamPut (put : α → List Char) (text : List Char) (x : α) : List Char := text ++ put x

/-- C367.  Copying a range to an output stream iterator writes the texts of its values one after another, through whichever copy of the iterator. -/
theorem C367_stream (put : α → List Char) (w : World (List Char)) (i t : Nat) (l : List Char) (xs : List α) (hl : ∀ t ∈ w.its, t < w.cs.length)
    (hi : w.its[i]? = some t) (ht : w.cs[t]? = some l) : ∃ w', run (streamPut put) w (copyTo i xs) = pure w' ∧ w'.cs[t]? = some (l ++ xs.flatMap put) := by
  have hlt : i < w.its.length := (List.getElem?_eq_some_iff.1 hi).1
  obtain ⟨w', e, _, hc, _⟩ := C367_values (streamPut put) (fun i => w.its.getD i 0) (copyTo i xs) w (valid_copy _ _ _ hlt _) (homes_copy _ _ _ _) hl
    (fun k u hu => by simp [hu])
  refine ⟨w', e, ?_⟩
  have hv := valuesFor_copy (fun i => w.its.getD i 0) i xs
  have hg : w.its.getD i 0 = t := by simp [hi]
  simp only [hg] at hv
  rw [hc, ht, hv]
  refine congrArg some ?_
  have hf : ∀ (xs : List α) (l : List Char), xs.foldl (streamPut put) l = l ++ xs.flatMap put := by
    intro xs
    induction xs with
    | nil => intro l; simp
    | cons x xs ih =>
      intro l
      show xs.foldl (streamPut put) (l ++ put x) = _
      rw [ih, List.flatMap_cons, List.append_assoc]
  exact hf xs l

example : run (streamPut fun n => if n = 0 then ['o'] else ['x', 'y']) ⟨[['a']], [0, 0]⟩ (copyTo 1 [0, 1]) = pure ⟨[['a', 'o', 'x', 'y']], [0, 0]⟩ := rfl

/-- C367.  An inserter assigned to another takes its container: what is assigned to it afterwards goes there, and no container changes by it. -/
theorem C367_reseat (add : C → α → C) (w : World C) (i j t : Nat) (x : α) (s : C) (hi : i < w.its.length) (hj : w.its[j]? = some t) (ht : w.cs[t]? = some s) :
    ∃ w', run add w [.assign i j] = pure w' ∧ w'.cs = w.cs ∧ (∀ k, k ≠ i → w'.its[k]? = w.its[k]?) ∧
      ∃ w'', run add w' [.write i x] = pure w'' ∧ w''.cs = w.cs.set t (add s x) ∧ w''.its = w'.its := by
  have hts : t < w.cs.length := (List.getElem?_eq_some_iff.1 ht).1
  refine ⟨⟨w.cs, w.its.set i t⟩, ?_, rfl, fun k hk => ?_, ⟨w.cs.set t (add s x), w.its.set i t⟩, ?_, rfl, rfl⟩
  · show ((rd w.its j >>= fun t => wr w.its i t >>= fun its => pure (World.mk w.cs its)) >>= fun w => pure w) = _
    rw [rd_some hj, pure_bind, wr_eq hi, pure_bind, pure_bind]
  · exact List.getElem?_set_ne (Ne.symm hk)
  · show ((rd (w.its.set i t) i >>= fun u => rd w.cs u >>= fun c => wr w.cs u (add c x) >>= fun cs => pure (World.mk cs (w.its.set i t))) >>= fun w => pure w) = _
    rw [rd_some (show (w.its.set i t)[i]? = some t by rw [List.getElem?_set, if_pos rfl, if_pos hi]), pure_bind, rd_some ht, pure_bind, wr_eq hts, pure_bind, pure_bind]

example : run pushBack ⟨[[1], [5]], [0, 1]⟩ [.assign 0 1, .write 0 7] = pure ⟨[[1], [5, 7]], [1, 1]⟩ := rfl

/-- Calls on iterators that call a function, each with the state of its own function: copying, incrementing and assigning a value, daw_function_iterator.h 41-56; `f` is
the call of the function.  Simplified: the constructor gives the states at the start. -/
def fstep (f : σ → α → σ) (its : List σ) : Op α → Cxx (List σ)
  | .make _ => pure its
  | .copy i => do
    let t ← rd its i
    pure (its ++ [t])
  | .assign i j => do
    let t ← rd its j
    wr its i t
  | .next i => do
    let _ ← rd its i
    pure its
  | .write i x => do
    let t ← rd its i
    wr its i (f t x)

/-- Calls one after another (daw_function_iterator.h 41-56). -/
def frun (f : σ → α → σ) : List σ → List (Op α) → Cxx (List σ)
  | its, [] => pure its
  | its, o :: os => do
    let its ← fstep f its o
    frun f its os

/-- The values assigned to iterator `i` itself. (Specification, no line of the source.) -/
def own (i : Nat) (os : List (Op α)) : List α :=
  os.filterMap fun o => match o with
    | .write j x => if j = i then some x else none
    | _ => none

/-- C367.  The function of an iterator that is not assigned another iterator is called with exactly the values assigned to this iterator, in their order; those
assigned to its copies go to the copies of its function. -/
theorem C367_function (f : σ → α → σ) (os : List (Op α)) : ∀ (its its' : List σ) (i : Nat), i < its.length → (∀ j, Op.assign i j ∉ os) →
    frun f its os = pure its' → its'[i]? = its[i]?.map fun s => (own i os).foldl f s := by
  induction os with
  | nil =>
    intro its its' i _ _ h
    have e : its = its' := Cxx.pure_inj.1 h
    rw [e]
    cases its'[i]? <;> rfl
  | cons o os ih =>
    intro its its' i hi hn h
    have hn' : ∀ j, Op.assign i j ∉ os := fun j hj => hn j (List.mem_cons_of_mem _ hj)
    obtain ⟨its1, h1, h2⟩ := Cxx.bind_eq_pure.1 (show (fstep f its o >>= fun its => frun f its os) = pure its' from h)
    cases o with
    | make c =>
      rw [← Cxx.pure_inj.1 (show (pure its : Cxx (List σ)) = pure its1 from h1)] at h2
      exact ih _ _ _ hi hn' h2
    | copy j =>
      obtain ⟨t, _, h3⟩ := Cxx.bind_eq_pure.1 (show (rd its j >>= fun t => pure (its ++ [t])) = pure its1 from h1)
      rw [← Cxx.pure_inj.1 h3] at h2
      rw [ih _ _ _ (by rw [List.length_append]; omega) hn' h2, List.getElem?_append_left hi]
      rfl
    | assign j k =>
      obtain ⟨t, _, h3⟩ := Cxx.bind_eq_pure.1 (show (rd its k >>= fun t => wr its j t) = pure its1 from h1)
      have hji : j ≠ i := fun e => hn k (by rw [e]; exact List.mem_cons_self)
      unfold wr at h3
      split at h3
      · rw [← Cxx.pure_inj.1 h3] at h2
        rw [ih _ _ _ (by rw [List.length_set]; exact hi) hn' h2, List.getElem?_set_ne hji]
        rfl
      · cases h3
    | next j =>
      obtain ⟨t, _, h3⟩ := Cxx.bind_eq_pure.1 (show (rd its j >>= fun _ => pure its) = pure its1 from h1)
      rw [← Cxx.pure_inj.1 h3] at h2
      exact ih _ _ _ hi hn' h2
    | write j x =>
      obtain ⟨t, h3, h4⟩ := Cxx.bind_eq_pure.1 (show (rd its j >>= fun t => wr its j (f t x)) = pure its1 from h1)
      unfold wr at h4
      split at h4
      next hj =>
        rw [← Cxx.pure_inj.1 h4] at h2
        have := ih _ _ _ (by rw [List.length_set]; exact hi) hn' h2
        rw [this]
        by_cases hji : j = i
        · subst hji
          rw [rd_eq hj] at h3
          have ht := Cxx.pure_inj.1 h3
          have hv : own j (.write j x :: os) = x :: own j os := by
            unfold own
            rw [List.filterMap_cons]
            simp only [if_true]
          rw [hv, List.getElem?_set, if_pos rfl, if_pos hj, List.getElem?_eq_getElem hj, ← ht]
          rfl
        · have hv : own i (.write j x :: os) = own i os := by
            unfold own
            rw [List.filterMap_cons]
            simp only [if_neg hji]
          rw [hv, List.getElem?_set_ne hji]
      · cases h4

/-- A copy is written through; the sum of the original stays. -/
example : frun (fun s x => s + x) [10] [.copy 0, .write 1 5, .next 1, .write 1 6, .write 0 1] = pure [11, 21] := rfl

end Verif.Inserters
