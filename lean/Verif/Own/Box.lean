import Verif.Own.Base

/-
Variables that own a value on the free store: the common layer of value_ptr, heap_value, copiable_unique_ptr and poly_value.
-/

namespace Verif.Own.Box
open Cxx

/-- The variables (a dead one is `none`, one holding a null pointer is `some none`) and the free store: an address is an index,
a freed address is `none`.  The value may stand for an object of any type.
(Common to daw_value_ptr.h 34-212, deprecated/daw_heap_value.h 24-116, deprecated/daw_copiable_unique_ptr.h 24-125 and daw_poly_value.h 92-185.) -/
structure World where
  vars : List (Option (Option Nat))
  heap : List (Option Int)
  deriving DecidableEq

/-- Before anything happened.
(Common to daw_value_ptr.h 34-212, deprecated/daw_heap_value.h 24-116, deprecated/daw_copiable_unique_ptr.h 24-125 and daw_poly_value.h 92-185.) -/
def World.init : World := ⟨[], []⟩

/-- `*m_value` of variable `i`.
(Common to daw_value_ptr.h 34-212, deprecated/daw_heap_value.h 24-116, deprecated/daw_copiable_unique_ptr.h 24-125 and daw_poly_value.h 92-185.) -/
def load (w : World) (i : Nat) : Cxx Int := do
  match ← live w.vars i with
  | none => ub
  | some a => live w.heap a

/-- `*m_value = v` of variable `i`.
(Common to daw_value_ptr.h 34-212, deprecated/daw_heap_value.h 24-116, deprecated/daw_copiable_unique_ptr.h 24-125 and daw_poly_value.h 92-185.) -/
def put (w : World) (i : Nat) (v : Int) : Cxx World := do
  match ← live w.vars i with
  | none => ub
  | some a => do
    let _ ← live w.heap a
    pure { w with heap := w.heap.set a (some v) }

/-- `delete p`.
(Common to daw_value_ptr.h 34-212, deprecated/daw_heap_value.h 24-116, deprecated/daw_copiable_unique_ptr.h 24-125 and daw_poly_value.h 92-185.) -/
def free (w : World) : Option Nat → Cxx World
  | none => pure w
  | some a => do
    let _ ← live w.heap a
    pure { w with heap := w.heap.set a none }

/-- A new variable that owns a new object with value `v`.
(Common to daw_value_ptr.h 34-212, deprecated/daw_heap_value.h 24-116, deprecated/daw_copiable_unique_ptr.h 24-125 and daw_poly_value.h 92-185.) -/
def newFull (w : World) (v : Int) : World := ⟨w.vars ++ [some (some w.heap.length)], w.heap ++ [some v]⟩

/-- A new variable holding a null pointer.
(Common to daw_value_ptr.h 34-212, deprecated/daw_heap_value.h 24-116, deprecated/daw_copiable_unique_ptr.h 24-125 and daw_poly_value.h 92-185.) -/
def newEmpty (w : World) : World := { w with vars := w.vars ++ [some none] }

/-- Variable `i` becomes empty and its object is deleted.
(Common to daw_value_ptr.h 34-212, deprecated/daw_heap_value.h 24-116, deprecated/daw_copiable_unique_ptr.h 24-125 and daw_poly_value.h 92-185.) -/
def reset (w : World) (i : Nat) : Cxx World := do
  let b ← live w.vars i
  free { w with vars := w.vars.set i (some none) } b

/-- Variable `i` takes a new object with value `v`; what it held is deleted.
(Common to daw_value_ptr.h 34-212, deprecated/daw_heap_value.h 24-116, deprecated/daw_copiable_unique_ptr.h 24-125 and daw_poly_value.h 92-185.) -/
def renew (w : World) (i : Nat) (v : Int) : Cxx World := do
  let b ← live w.vars i
  free ⟨w.vars.set i (some (some w.heap.length)), w.heap ++ [some v]⟩ b

/-- A new variable that takes over the pointer of variable `j`, which becomes empty.
(Common to daw_value_ptr.h 34-212, deprecated/daw_heap_value.h 24-116, deprecated/daw_copiable_unique_ptr.h 24-125 and daw_poly_value.h 92-185.) -/
def moveNew (w : World) (j : Nat) : Cxx World := do
  let b ← live w.vars j
  pure { w with vars := w.vars.set j (some none) ++ [some b] }

/-- Variable `i` takes over the pointer of variable `j`, which becomes empty; what `i` held is deleted.
(Common to daw_value_ptr.h 34-212, deprecated/daw_heap_value.h 24-116, deprecated/daw_copiable_unique_ptr.h 24-125 and daw_poly_value.h 92-185.) -/
def moveInto (w : World) (i j : Nat) : Cxx World := do
  let b ← live w.vars i
  let c ← live w.vars j
  free { w with vars := (w.vars.set j (some none)).set i (some c) } b

/-- The pointers of two variables are exchanged.
(Common to daw_value_ptr.h 34-212, deprecated/daw_heap_value.h 24-116, deprecated/daw_copiable_unique_ptr.h 24-125 and daw_poly_value.h 92-185.) -/
def swap (w : World) (i j : Nat) : Cxx World := do
  let b ← live w.vars i
  let c ← live w.vars j
  pure { w with vars := (w.vars.set i (some c)).set j (some b) }

/-- Variable `i` ends and its object is deleted.
(Common to daw_value_ptr.h 34-212, deprecated/daw_heap_value.h 24-116, deprecated/daw_copiable_unique_ptr.h 24-125 and daw_poly_value.h 92-185.) -/
def destroy (w : World) (i : Nat) : Cxx World := do
  let b ← live w.vars i
  free { w with vars := w.vars.set i none } b

/-- The value at an address. (Specification, no line of the source.) -/
def val (h : List (Option Int)) (a : Nat) : Int := (h[a]?.join).getD 0

/-- What the program sees: for every live variable, nothing or a value. (Specification, no line of the source.) -/
def view (w : World) : List (Option (Option Int)) := w.vars.map (fun v => v.map (fun b => b.map (val w.heap)))

/-- Every pointer points to a live object, no two variables share one, and every live object is owned.
(Specification, no line of the source.) -/
structure Inv (w : World) : Prop where
  ok : ∀ i a : Nat, w.vars[i]? = some (some (some a)) → ∃ v, w.heap[a]? = some (some v)
  inj : ∀ i j a : Nat, w.vars[i]? = some (some (some a)) → w.vars[j]? = some (some (some a)) → i = j
  noleak : ∀ (a : Nat) (v : Int), w.heap[a]? = some (some v) → ∃ i : Nat, w.vars[i]? = some (some (some a))

theorem inv_init : Inv .init := ⟨by intro i a h; simp [World.init] at h, by intro i j a h; simp [World.init] at h,
  by intro a v h; simp [World.init] at h⟩

theorem view_length (w : World) : (view w).length = w.vars.length := by unfold view; rw [List.length_map]

theorem view_get (w : World) (i : Nat) :
    (view w)[i]? = (w.vars[i]?).map (fun v => v.map (fun b => b.map (val w.heap))) := by
  unfold view; rw [List.getElem?_map]

theorem val_eq {h : List (Option Int)} {a : Nat} {v : Int} (e : h[a]? = some (some v)) : val h a = v := by
  unfold val; rw [e]; rfl

/-- The three cases of a variable. -/
theorem cases_var {w : World} (hI : Inv w) (i : Nat) :
    ((∀ b, live w.vars i ≠ pure b) ∧ live w.vars i = ub ∧ ∀ b, (view w)[i]? ≠ some (some b)) ∨
    (w.vars[i]? = some (some none) ∧ (view w)[i]? = some (some none)) ∨
    (∃ a v, w.vars[i]? = some (some (some a)) ∧ w.heap[a]? = some (some v) ∧ (view w)[i]? = some (some (some v))) := by
  cases h : w.vars[i]? with
  | none =>
    have hu : live w.vars i = ub := by
      unfold live; rw [rd_oob (List.getElem?_eq_none_iff.1 h), ub_bind]
    left
    refine ⟨fun b hb => ?_, hu, fun b => ?_⟩
    · rw [hu] at hb; exact ub_ne_pure b hb
    · rw [view_get, h]; simp
  | some x =>
    cases x with
    | none =>
      have hu : live w.vars i = ub := by unfold live; rw [rd_some h]; rfl
      left
      refine ⟨fun b hb => ?_, hu, fun b => ?_⟩
      · rw [hu] at hb; exact ub_ne_pure b hb
      · rw [view_get, h]; simp
    | some b =>
      cases b with
      | none => right; left; refine ⟨rfl, ?_⟩; rw [view_get, h]; rfl
      | some a =>
        right; right
        obtain ⟨v, hv⟩ := hI.ok i a h
        refine ⟨a, v, rfl, hv, ?_⟩
        rw [view_get, h]
        simp [val_eq hv]

theorem view_set {w : World} {i : Nat} {x : Option (Option Nat)} :
    view { w with vars := w.vars.set i x } = (view w).set i (x.map (fun b => b.map (val w.heap))) := by
  unfold view
  rw [List.map_set]

/-- If the values of all addresses in use agree, the views agree. -/
theorem map_congr {vs : List (Option (Option Nat))} {h h' : List (Option Int)}
    (e : ∀ i a : Nat, vs[i]? = some (some (some a)) → val h a = val h' a) :
    vs.map (fun v => v.map (fun b => b.map (val h))) = vs.map (fun v => v.map (fun b => b.map (val h'))) := by
  apply List.ext_getElem?
  intro i
  rw [List.getElem?_map, List.getElem?_map]
  cases hv : vs[i]? with
  | none => rfl
  | some x =>
    cases x with
    | none => rfl
    | some b =>
      cases b with
      | none => rfl
      | some a => simp [e i a hv]

theorem load_ok {w : World} (hI : Inv w) (i : Nat) :
    load w i = match (view w)[i]? with
      | some (some (some v)) => pure v
      | _ => ub := by
  unfold load
  rcases cases_var hI i with ⟨_, h, h'⟩ | ⟨h, h'⟩ | ⟨a, v, h1, h2, h3⟩
  · rw [h, ub_bind]
    split
    · rename_i e; exact absurd e (h' _)
    · rfl
  · rw [live_of h, h']; rfl
  · rw [live_of h1, h3, pure_bind]
    dsimp only
    rw [live_of h2]

theorem put_ok {w : World} (hI : Inv w) (i : Nat) (v v0 : Int) (h : (view w)[i]? = some (some (some v0))) :
    ∃ w', put w i v = pure w' ∧ Inv w' ∧ view w' = (view w).set i (some (some v)) := by
  rcases cases_var hI i with ⟨_, _, h'⟩ | ⟨_, h'⟩ | ⟨a, u, h1, h2, h3⟩
  · exact absurd h (h' _)
  · rw [h'] at h; cases h
  · refine ⟨{ w with heap := w.heap.set a (some v) }, ?_, ⟨?_, ?_, ?_⟩, ?_⟩
    · unfold put
      rw [live_of h1, pure_bind]
      dsimp only
      rw [live_of h2, pure_bind]
    · intro j b hj
      obtain ⟨x, hx⟩ := hI.ok j b hj
      dsimp only
      by_cases hab : b = a
      · exact ⟨v, by rw [hab, List.getElem?_set_self (lt_of_some h2)]⟩
      · exact ⟨x, by rw [List.getElem?_set_ne (Ne.symm hab)]; exact hx⟩
    · exact hI.inj
    · intro b x hb
      dsimp only at hb
      by_cases hab : b = a
      · exact ⟨i, by rw [hab]; exact h1⟩
      · rw [List.getElem?_set_ne (Ne.symm hab)] at hb
        exact hI.noleak b x hb
    · apply List.ext_getElem?
      intro j
      rw [view_get]
      dsimp only
      by_cases hij : j = i
      · subst hij
        rw [h1, List.getElem?_set_self (lt_of_some h3)]
        have : val (w.heap.set a (some v)) a = v := val_eq (by rw [List.getElem?_set_self (lt_of_some h2)])
        simp [this]
      · rw [List.getElem?_set_ne (Ne.symm hij), view_get]
        cases hv : w.vars[j]? with
        | none => rfl
        | some x =>
          cases x with
          | none => rfl
          | some b =>
            cases b with
            | none => rfl
            | some c =>
              have hc : c ≠ a := fun e => hij (hI.inj j i a (by rw [hv, e]) h1)
              have : val (w.heap.set a (some v)) c = val w.heap c := by
                unfold val; rw [List.getElem?_set_ne (Ne.symm hc)]
              simp [this]

theorem put_ub {w : World} (hI : Inv w) (i : Nat) (v : Int) (h : ∀ v0, (view w)[i]? ≠ some (some (some v0))) : put w i v = ub := by
  unfold put
  rcases cases_var hI i with ⟨_, h', _⟩ | ⟨h', _⟩ | ⟨a, u, h1, h2, h3⟩
  · rw [h', ub_bind]
  · rw [live_of h']; rfl
  · exact absurd h3 (h u)

theorem lt_heap {w : World} (hI : Inv w) {i a : Nat} (h : w.vars[i]? = some (some (some a))) : a < w.heap.length := by
  obtain ⟨v, hv⟩ := hI.ok i a h
  exact lt_of_some hv

theorem get_snoc {α : Type} {l : List α} {a x : α} {i : Nat} (h : (l ++ [a])[i]? = some x) :
    l[i]? = some x ∨ (i = l.length ∧ x = a) := by
  rcases Nat.lt_or_ge i l.length with g | g
  · left; rw [List.getElem?_append_left g] at h; exact h
  · rw [List.getElem?_append_right g] at h
    right
    have : i - l.length = 0 := by
      rcases Nat.eq_zero_or_pos (i - l.length) with e | e
      · exact e
      · rw [List.getElem?_eq_none (by rw [List.length_singleton]; omega)] at h; cases h
    rw [this] at h
    exact ⟨by omega, by injection h with h; exact h.symm⟩

/-- The free store grows by an object that a new variable owns. -/
theorem grow_val {h : List (Option Int)} {v : Int} {a : Nat} (ha : a < h.length) : val (h ++ [some v]) a = val h a := by
  unfold val; rw [List.getElem?_append_left ha]

theorem newFull_ok {w : World} (hI : Inv w) (v : Int) : Inv (newFull w v) ∧ view (newFull w v) = view w ++ [some (some v)] := by
  unfold newFull
  refine ⟨⟨?_, ?_, ?_⟩, ?_⟩
  · intro i a h
    dsimp only at h ⊢
    rcases get_snoc h with h | ⟨_, h⟩
    · obtain ⟨x, hx⟩ := hI.ok i a h
      exact ⟨x, by rw [List.getElem?_append_left (lt_of_some hx)]; exact hx⟩
    · injection h with h; injection h with h
      exact ⟨v, by rw [h, List.getElem?_concat_length]⟩
  · intro i j a h h'
    dsimp only at h h'
    rcases get_snoc h with h | ⟨e, h⟩
    · rcases get_snoc h' with h' | ⟨e', h'⟩
      · exact hI.inj i j a h h'
      · injection h' with h'; injection h' with h'
        have := lt_heap hI h
        omega
    · injection h with h; injection h with h
      rcases get_snoc h' with h' | ⟨e', h'⟩
      · have := lt_heap hI h'
        omega
      · omega
  · intro a x h
    dsimp only at h ⊢
    rcases get_snoc h with h | ⟨e, h⟩
    · obtain ⟨i, hi⟩ := hI.noleak a x h
      exact ⟨i, by rw [List.getElem?_append_left (lt_of_some hi)]; exact hi⟩
    · exact ⟨w.vars.length, by rw [List.getElem?_concat_length, e]⟩
  · unfold view
    rw [List.map_append]
    congr 1
    · exact map_congr (fun i a h => grow_val (lt_heap hI h))
    · have : val (w.heap ++ [some v]) w.heap.length = v := val_eq (by rw [List.getElem?_concat_length])
      simp [this]

theorem newEmpty_ok {w : World} (hI : Inv w) : Inv (newEmpty w) ∧ view (newEmpty w) = view w ++ [some none] := by
  unfold newEmpty
  refine ⟨⟨?_, ?_, ?_⟩, ?_⟩
  · intro i a h
    dsimp only at h ⊢
    rcases get_snoc h with h | ⟨_, h⟩
    · exact hI.ok i a h
    · cases h
  · intro i j a h h'
    dsimp only at h h'
    rcases get_snoc h with h | ⟨_, h⟩
    · rcases get_snoc h' with h' | ⟨_, h'⟩
      · exact hI.inj i j a h h'
      · cases h'
    · cases h
  · intro a x h
    obtain ⟨i, hi⟩ := hI.noleak a x h
    exact ⟨i, by dsimp only; rw [List.getElem?_append_left (lt_of_some hi)]; exact hi⟩
  · unfold view
    rw [List.map_append]; rfl

/-- Giving up the pointer of variable `i` and deleting its object: the new contents `x` of the variable may be dead, empty, or a
pointer that came from elsewhere (`y`, an address that nobody else in `vs` holds any more). -/
theorem drop_ok {w : World} (hI : Inv w) (i : Nat) (x : Option (Option Nat)) (hx : x = none ∨ x = some none) (b : Option Nat)
    (hb : w.vars[i]? = some (some b)) :
    ∃ w', free { w with vars := w.vars.set i x } b = pure w' ∧ Inv w' ∧ view w' = (view w).set i (x.map (fun _ => none)) ∧
      w'.vars = w.vars.set i x := by
  have key : ∀ j c, (w.vars.set i x)[j]? = some (some (some c)) → j ≠ i ∧ w.vars[j]? = some (some (some c)) := by
    intro j c h
    by_cases e : j = i
    · rw [e, List.getElem?_set_self (lt_of_some hb)] at h
      injection h with h
      rcases hx with hx | hx <;> rw [hx] at h <;> cases h
    · rw [List.getElem?_set_ne (Ne.symm e)] at h
      exact ⟨e, h⟩
  have hmap : ∀ h : List (Option Int), x.map (fun b => b.map (val h)) = x.map (fun _ => none) := by
    intro h
    rcases hx with hx | hx <;> rw [hx] <;> rfl
  cases b with
  | none =>
    refine ⟨_, rfl, ⟨?_, ?_, ?_⟩, ?_, rfl⟩
    · intro j c h; exact hI.ok j c (key j c h).2
    · intro j k c h h'; exact hI.inj j k c (key j c h).2 (key k c h').2
    · intro a v h
      obtain ⟨j, hj⟩ := hI.noleak a v h
      refine ⟨j, ?_⟩
      dsimp only
      rw [List.getElem?_set_ne]
      · exact hj
      · intro e; rw [e, hj] at hb; cases hb
    · rw [view_set, hmap]
  | some a =>
    obtain ⟨v, hv⟩ := hI.ok i a hb
    refine ⟨⟨w.vars.set i x, w.heap.set a none⟩, ?_, ⟨?_, ?_, ?_⟩, ?_, rfl⟩
    · unfold free
      dsimp only
      rw [live_of hv, pure_bind]
    · intro j c h
      obtain ⟨h1, h2⟩ := key j c h
      obtain ⟨u, hu⟩ := hI.ok j c h2
      have hc : c ≠ a := fun e => h1 (hI.inj j i a (by rw [h2, e]) hb)
      exact ⟨u, by dsimp only; rw [List.getElem?_set_ne (Ne.symm hc)]; exact hu⟩
    · intro j k c h h'; exact hI.inj j k c (key j c h).2 (key k c h').2
    · intro c u h
      dsimp only at h ⊢
      have hc : c ≠ a := by
        intro e
        rw [e, List.getElem?_set_self (lt_of_some hv)] at h
        cases h
      rw [List.getElem?_set_ne (Ne.symm hc)] at h
      obtain ⟨j, hj⟩ := hI.noleak c u h
      refine ⟨j, ?_⟩
      rw [List.getElem?_set_ne]
      · exact hj
      · intro e; rw [e, hj] at hb; injection hb with hb; injection hb with hb; injection hb with hb; exact hc hb
    · unfold view
      dsimp only
      rw [← hmap w.heap, ← List.map_set]
      apply map_congr
      intro j c h
      obtain ⟨h1, h2⟩ := key j c h
      have hc : c ≠ a := fun e => h1 (hI.inj j i a (by rw [h2, e]) hb)
      unfold val
      rw [List.getElem?_set_ne (Ne.symm hc)]

theorem reset_ok {w : World} (hI : Inv w) (i : Nat) (b : Option Int) (h : (view w)[i]? = some (some b)) :
    ∃ w', reset w i = pure w' ∧ Inv w' ∧ view w' = (view w).set i (some none) := by
  obtain ⟨c, hc⟩ : ∃ c, w.vars[i]? = some (some c) := by
    rcases cases_var hI i with ⟨_, _, h'⟩ | ⟨h', _⟩ | ⟨a, u, h1, h2, h3⟩
    · exact absurd h (h' _)
    · exact ⟨_, h'⟩
    · exact ⟨_, h1⟩
  obtain ⟨w', e, h1, h2, _⟩ := drop_ok hI i (some none) (Or.inr rfl) c hc
  exact ⟨w', by unfold reset; rw [live_of hc, pure_bind]; exact e, h1, h2⟩

theorem destroy_ok {w : World} (hI : Inv w) (i : Nat) (b : Option Int) (h : (view w)[i]? = some (some b)) :
    ∃ w', destroy w i = pure w' ∧ Inv w' ∧ view w' = (view w).set i none := by
  obtain ⟨c, hc⟩ : ∃ c, w.vars[i]? = some (some c) := by
    rcases cases_var hI i with ⟨_, _, h'⟩ | ⟨h', _⟩ | ⟨a, u, h1, h2, h3⟩
    · exact absurd h (h' _)
    · exact ⟨_, h'⟩
    · exact ⟨_, h1⟩
  obtain ⟨w', e, h1, h2, _⟩ := drop_ok hI i none (Or.inl rfl) c hc
  exact ⟨w', by unfold destroy; rw [live_of hc, pure_bind]; exact e, h1, h2⟩

/-- Exchanging the contents of two places keeps the invariant and exchanges the views. -/
theorem swap_inv {w : World} (hI : Inv w) (i j : Nat) (b c : Option Nat) (hb : w.vars[i]? = some (some b))
    (hc : w.vars[j]? = some (some c)) : Inv { w with vars := (w.vars.set i (some c)).set j (some b) } := by
  have li := lt_of_some hb
  have lj := lt_of_some hc
  -- the position from which each pointer came
  have key : ∀ k, ((w.vars.set i (some c)).set j (some b))[k]? = w.vars[if k = j then i else if k = i then j else k]? := by
    intro k
    by_cases h1 : k = j
    · rw [if_pos h1, h1, List.getElem?_set_self (by rw [List.length_set]; exact lj), hb]
    · rw [if_neg h1, List.getElem?_set_ne (Ne.symm h1)]
      by_cases h2 : k = i
      · rw [if_pos h2, h2, List.getElem?_set_self li, hc]
      · rw [if_neg h2, List.getElem?_set_ne (Ne.symm h2)]
  refine ⟨?_, ?_, ?_⟩
  · intro k a h
    dsimp only at h ⊢
    rw [key] at h
    exact hI.ok _ a h
  · intro k l a h h'
    dsimp only at h h'
    rw [key] at h h'
    have := hI.inj _ _ a h h'
    split at this <;> split at this <;> (try split at this) <;> (try split at this) <;> omega
  · intro a v h
    obtain ⟨k, hk⟩ := hI.noleak a v h
    refine ⟨if k = j then i else if k = i then j else k, ?_⟩
    dsimp only
    rw [key]
    have : (if (if k = j then i else if k = i then j else k) = j then i
      else if (if k = j then i else if k = i then j else k) = i then j
      else (if k = j then i else if k = i then j else k)) = k := by
      split <;> split <;> (try split at *) <;> (try split at *) <;> omega
    rw [this]
    exact hk

theorem swap_ok {w : World} (hI : Inv w) (i j : Nat) (b c : Option Int) (hb : (view w)[i]? = some (some b))
    (hc : (view w)[j]? = some (some c)) :
    ∃ w', swap w i j = pure w' ∧ Inv w' ∧ view w' = ((view w).set i (some c)).set j (some b) := by
  have get : ∀ (k : Nat) (d : Option Int), (view w)[k]? = some (some d) → ∃ e : Option Nat, w.vars[k]? = some (some e) ∧ d = e.map (val w.heap) := by
    intro k d h
    rw [view_get] at h
    cases hv : w.vars[k]? with
    | none => rw [hv] at h; cases h
    | some x =>
      rw [hv] at h
      cases x with
      | none => cases h
      | some e =>
        refine ⟨e, rfl, ?_⟩
        injection h with h; injection h with h; exact h.symm
  obtain ⟨b', hb', eb⟩ := get i b hb
  obtain ⟨c', hc', ec⟩ := get j c hc
  refine ⟨_, ?_, swap_inv hI i j b' c' hb' hc', ?_⟩
  · unfold swap
    rw [live_of hb', pure_bind, live_of hc', pure_bind]
  · unfold view
    dsimp only
    rw [List.map_set, List.map_set, eb, ec]
    rfl

theorem moveNew_ok {w : World} (hI : Inv w) (j : Nat) (b : Option Int) (hb : (view w)[j]? = some (some b)) :
    ∃ w', moveNew w j = pure w' ∧ Inv w' ∧ view w' = (view w).set j (some none) ++ [some b] := by
  obtain ⟨i1, v1⟩ := newEmpty_ok hI
  have hlt := lt_of_some hb
  have hb1 : (view (newEmpty w))[j]? = some (some b) := by rw [v1, List.getElem?_append_left hlt]; exact hb
  have hn : (view (newEmpty w))[w.vars.length]? = some (some none) := by
    rw [v1, ← view_length w, List.getElem?_concat_length]
  obtain ⟨w', e, i2, v2⟩ := swap_ok i1 j w.vars.length b none hb1 hn
  rw [v1] at v2
  rw [view_length] at hlt
  have hv2 : view w' = (view w).set j (some none) ++ [some b] := by
    rw [v2, List.set_append_left _ _ (by rw [view_length]; exact hlt),
      List.set_append_right _ _ (by rw [List.length_set, view_length]; omega), List.length_set, view_length, Nat.sub_self]
    rfl
  refine ⟨w', ?_, i2, hv2⟩
  rw [← e]
  cases hx : w.vars[j]? with
  | none => rw [List.getElem?_eq_none_iff] at hx; omega
  | some x =>
    cases x with
    | none => rw [view_get, hx] at hb; cases hb
    | some c =>
      unfold moveNew swap newEmpty
      dsimp only
      rw [live_of hx, pure_bind, live_of (vars := w.vars ++ [some none]) (i := j) (a := c) (by rw [List.getElem?_append_left hlt]; exact hx),
        pure_bind, live_of (vars := w.vars ++ [some none]) (i := w.vars.length) (a := none) (by rw [List.getElem?_concat_length]),
        pure_bind, List.set_append_left _ _ hlt, List.set_append_right _ _ (by rw [List.length_set]; omega),
        List.length_set, Nat.sub_self]
      rfl

theorem free_vars_comm (w : World) (vs : List (Option (Option Nat))) (b : Option Nat) :
    free { w with vars := vs } b = (free w b >>= fun w' => pure { w' with vars := vs }) := by
  cases b with
  | none => rfl
  | some a =>
    unfold free
    dsimp only
    cases h : w.heap[a]? with
    | none =>
      have : live w.heap a = ub := by unfold live; rw [rd_oob (List.getElem?_eq_none_iff.1 h), ub_bind]
      rw [this]; rfl
    | some x =>
      cases x with
      | none =>
        have : live w.heap a = ub := by unfold live; rw [rd_some h]; rfl
        rw [this]; rfl
      | some v => rw [live_of h]; rfl

theorem moveInto_ok {w : World} (hI : Inv w) (i j : Nat) (hij : i ≠ j) (b c : Option Int) (hb : (view w)[i]? = some (some b))
    (hc : (view w)[j]? = some (some c)) :
    ∃ w', moveInto w i j = pure w' ∧ Inv w' ∧ view w' = ((view w).set j (some none)).set i (some c) := by
  obtain ⟨b', hb'⟩ : ∃ c, w.vars[i]? = some (some c) := by
    rcases cases_var hI i with ⟨_, _, h'⟩ | ⟨h', _⟩ | ⟨a, u, h1, h2, h3⟩
    · exact absurd hb (h' _)
    · exact ⟨_, h'⟩
    · exact ⟨_, h1⟩
  obtain ⟨c', hc'⟩ : ∃ c, w.vars[j]? = some (some c) := by
    rcases cases_var hI j with ⟨_, _, h'⟩ | ⟨h', _⟩ | ⟨a, u, h1, h2, h3⟩
    · exact absurd hc (h' _)
    · exact ⟨_, h'⟩
    · exact ⟨_, h1⟩
  obtain ⟨w1, e1, i1, v1, s1⟩ := drop_ok hI i (some none) (Or.inr rfl) b' hb'
  have hi1 : (view w1)[i]? = some (some none) := by
    rw [v1]
    exact List.getElem?_set_self (lt_of_some hb)
  have hj1 : (view w1)[j]? = some (some c) := by
    rw [v1, List.getElem?_set_ne hij]; exact hc
  obtain ⟨w2, e2, i2, v2⟩ := swap_ok i1 i j none c hi1 hj1
  refine ⟨w2, ?_, i2, ?_⟩
  · unfold moveInto
    rw [live_of hb', pure_bind, live_of hc', pure_bind, free_vars_comm]
    rw [free_vars_comm, bind_eq_pure] at e1
    obtain ⟨w0, e0, e1⟩ := e1
    rw [pure_inj] at e1
    rw [e0, pure_bind, ← e2]
    unfold swap
    rw [s1]
    rw [live_of (i := i) (a := none) (by rw [List.getElem?_set_self (lt_of_some hb')]), pure_bind,
      live_of (i := j) (a := c') (by rw [List.getElem?_set_ne hij]; exact hc'), pure_bind, ← e1]
    congr 2
    rw [List.set_set, List.set_comm _ _ hij]
  · rw [v2, v1, Option.map_some, List.set_set, List.set_comm _ _ hij]

theorem renew_ok {w : World} (hI : Inv w) (i : Nat) (v : Int) (b : Option Int) (hb : (view w)[i]? = some (some b)) :
    ∃ w', renew w i v = pure w' ∧ Inv w' ∧ view w' = (view w).set i (some (some v)) := by
  obtain ⟨b', hb'⟩ : ∃ c, w.vars[i]? = some (some c) := by
    rcases cases_var hI i with ⟨_, _, h'⟩ | ⟨h', _⟩ | ⟨a, u, h1, h2, h3⟩
    · exact absurd hb (h' _)
    · exact ⟨_, h'⟩
    · exact ⟨_, h1⟩
  have hlt := lt_of_some hb'
  obtain ⟨i1, v1⟩ := newFull_ok hI v
  have hb1 : (view (newFull w v))[i]? = some (some b) := by rw [v1, List.getElem?_append_left (lt_of_some hb)]; exact hb
  have hn1 : (view (newFull w v))[w.vars.length]? = some (some (some v)) := by
    rw [v1, ← view_length w, List.getElem?_concat_length]
  obtain ⟨w2, e2, i2, v2⟩ := moveInto_ok i1 i w.vars.length (by omega) b (some v) hb1 hn1
  -- the auxiliary variable is empty and can be forgotten
  have hw2 : w2.vars = w.vars.set i (some (some w.heap.length)) ++ [some none] := by
    have e3 := e2
    unfold moveInto newFull at e3
    dsimp only at e3
    rw [live_of (i := i) (a := b') (by rw [List.getElem?_append_left hlt]; exact hb'), pure_bind,
      live_of (vars := w.vars ++ [some (some w.heap.length)]) (i := w.vars.length) (a := some w.heap.length)
        (by rw [List.getElem?_concat_length]), pure_bind, free_vars_comm ⟨w.vars, w.heap ++ [some v]⟩, bind_eq_pure] at e3
    obtain ⟨w0, e0, e3⟩ := e3
    rw [pure_inj] at e3
    rw [← e3]
    dsimp only
    rw [List.set_append_right _ _ (by omega), Nat.sub_self, List.set_append_left _ _ hlt]
    rfl
  have hren : renew w i v = pure { w2 with vars := w.vars.set i (some (some w.heap.length)) } := by
    have e3 := e2
    unfold moveInto newFull at e3
    dsimp only at e3
    rw [live_of (i := i) (a := b') (by rw [List.getElem?_append_left hlt]; exact hb'), pure_bind,
      live_of (vars := w.vars ++ [some (some w.heap.length)]) (i := w.vars.length) (a := some w.heap.length)
        (by rw [List.getElem?_concat_length]), pure_bind, free_vars_comm ⟨w.vars, w.heap ++ [some v]⟩, bind_eq_pure] at e3
    obtain ⟨w0, e0, e3⟩ := e3
    rw [pure_inj] at e3
    unfold renew
    rw [live_of hb', pure_bind, free_vars_comm ⟨w.vars, w.heap ++ [some v]⟩, e0, pure_bind, ← e3]
  have hmem : ∀ k a : Nat, (w.vars.set i (some (some w.heap.length)))[k]? = some (some (some a)) → w2.vars[k]? = some (some (some a)) := by
    intro k a h
    rw [hw2, List.getElem?_append_left (lt_of_some h)]; exact h
  refine ⟨_, hren, ⟨?_, ?_, ?_⟩, ?_⟩
  · intro k a h; exact i2.ok k a (hmem k a h)
  · intro k l a h h'; exact i2.inj k l a (hmem k a h) (hmem l a h')
  · intro a u h
    obtain ⟨k, hk⟩ := i2.noleak a u h
    rw [hw2] at hk
    rcases get_snoc hk with hk | ⟨_, hk⟩
    · exact ⟨k, hk⟩
    · cases hk
  · have h3 : view w2 = view { w2 with vars := w.vars.set i (some (some w.heap.length)) } ++ [some none] := by
      unfold view
      rw [hw2, List.map_append]
      rfl
    rw [v1, List.set_append_right _ _ (by rw [view_length]; omega), view_length, Nat.sub_self,
      List.set_append_left _ _ (by rw [view_length]; exact hlt)] at v2
    rw [v2] at h3
    exact (List.append_cancel_right h3).symm

end Verif.Own.Box
