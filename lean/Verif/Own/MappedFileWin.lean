import Verif.Own.Base

/-
`daw::filesystem::memory_mapped_file_t` on Windows, include/daw/daw_memory_mapped_file.h 170-358, with its
`unique_resource`, daw_unique_resource.h.  What the system answers is part of the program; the system keeps the open
handles and the views.
-/

namespace Verif.Own.MappedFileWin
open Cxx

/-- `fdata_t`, daw_memory_mapped_file.h 207-211; `none` is null. -/
structure FData where
  handle : Option Nat
  size : Nat
  ptr : Option Nat
  deriving DecidableEq

/-- The values that the members of `fdata_t` begin with, daw_memory_mapped_file.h 208-210. -/
def FData.fresh : FData := ⟨none, 0, none⟩

/-- The system: open handles and views. (Rule of C++ or its library, no line of the source.) -/
structure Sys where
  handles : List Nat
  views : List Nat
  deriving DecidableEq

/-- What the system answers to `CreateFile`, `GetFileSizeEx`, `CreateFileMapping` and `MapViewOfFile`.
(Rule of C++ or its library, no line of the source.) -/
structure Answer where
  file : Option Nat
  size : Option Int
  mapping : Option Nat
  view : Option Nat
  deriving DecidableEq

/-- `CloseHandle`; the null handle is refused. (Rule of C++ or its library, no line of the source.) -/
def closeHandle (k : Sys) : Option Nat → Sys
  | some h => { k with handles := k.handles.erase h }
  | none => k

/-- `UnmapViewOfFile`. (Rule of C++ or its library, no line of the source.) -/
def unmap (k : Sys) (p : Nat) : Sys := { k with views := k.views.erase p }

/-- `cleanup_t`, daw_memory_mapped_file.h 213-223: `d.handle` is closed after it was exchanged for null. -/
def cleanup (k : Sys) (d : FData) : Sys × FData :=
  let d := { d with size := 0 }
  let (k, d) := match d.ptr with
    | some p => (unmap k p, { d with ptr := none })
    | none => (k, d)
  match d.handle with
  | some _ =>
    let d := { d with handle := none }
    (closeHandle k d.handle, d)
  | none => (k, d)

/-- `m_fdata.reset( )`, daw_unique_resource.h 52-56. -/
def reset (k : Sys) (v : Option FData) : Sys × Option FData :=
  match v with
  | some d => let r := cleanup k d; (r.1, some r.2)
  | none => (k, none)

/-- `m_fdata.emplace( )`, daw_unique_resource.h 45-50 and 58-65. -/
def emplace (k : Sys) (v : Option FData) : Sys × Option FData := ((reset k v).1, some FData.fresh)

/-- `m_fdata->`, daw_unique_resource.h 90-93. -/
def arrow (v : Option FData) : Cxx FData :=
  match v with
  | some d => pure d
  | none => abort

/-- `open`, daw_memory_mapped_file.h 248-281, and with a `wstring_view` (`wide`), 286-318, which does not begin with
`emplace`: the system, `m_fdata` and the result.  A system that gives a handle or a view that is in use does not exist: no
outcome. -/
def openOn (wide : Bool) (k : Sys) (v : Option FData) (a : Answer) : Cxx (Sys × Option FData × Bool) := do
  let (k, v) := if wide then (k, v) else emplace k v
  match a.file with
  | none => pure (k, v, false)
  | some f =>
    if f ∈ k.handles then diverge
    else
      let k := { k with handles := f :: k.handles }
      match a.size with
      | none => let r := reset k v; pure (r.1, r.2, false)
      | some n =>
        if n ≤ 0 then
          let r := reset k v
          pure (r.1, r.2, false)
        else do
          let d ← arrow v
          let d := { d with size := n.toNat, handle := a.mapping }
          match a.mapping with
          | none => let r := cleanup k d; pure (r.1, some r.2, false)
          | some h =>
            if h ∈ k.handles then diverge
            else
              let k := { k with handles := h :: k.handles }
              let k := closeHandle k (some f)
              match a.view with
              | none => let r := cleanup k d; pure (r.1, some r.2, false)
              | some p =>
                if p ∈ k.views then diverge
                else pure ({ k with views := p :: k.views }, some { d with ptr := some p }, true)

/-- The variables (dead, without a value or with one) and the system.
(Objects of `memory_mapped_file_t`, daw_memory_mapped_file.h 196-357.) -/
structure World where
  vars : List (Option (Option FData))
  sys : Sys
  deriving DecidableEq

/-- Before anything happened. (Objects of `memory_mapped_file_t`, daw_memory_mapped_file.h 196-357.) -/
def World.init : World := ⟨[], ⟨[], []⟩⟩

/-- What a program does with its files; lines of daw_memory_mapped_file.h and daw_unique_resource.h. -/
inductive Op where
  /-- the default constructor, daw_memory_mapped_file.h 228 -/
  | makeEmpty
  /-- the constructors with a path, daw_memory_mapped_file.h 232-244 -/
  | make (wide : Bool) (a : Answer)
  /-- `open`, daw_memory_mapped_file.h 248-281 and 286-318 -/
  | openF (wide : Bool) (i : Nat) (a : Answer)
  /-- the move constructor, daw_unique_resource.h 24-26 -/
  | move (j : Nat)
  /-- the move assignment, daw_unique_resource.h 28-32 -/
  | moveAssign (i j : Nat)
  /-- the destructor, daw_unique_resource.h 37-39 -/
  | destroy (i : Nat)
  deriving DecidableEq

/-- One operation; the lines are those at the constructors of `Op`.
(Objects of `memory_mapped_file_t`, daw_memory_mapped_file.h 196-357.) -/
def step (w : World) : Op → Cxx World
  | .makeEmpty => pure { w with vars := w.vars ++ [some none] }
  | .make wide a => do
    let (k, v, _) ← openOn wide w.sys none a
    pure ⟨w.vars ++ [some v], k⟩
  | .openF wide i a => do
    let v ← live w.vars i
    let (k, v, _) ← openOn wide w.sys v a
    pure ⟨w.vars.set i (some v), k⟩
  | .move j => do
    let v ← live w.vars j
    pure { w with vars := w.vars.set j (some none) ++ [some v] }
  | .moveAssign i j => do
    match ← live w.vars j with
    | none => ub
    | some d =>
      let vars := w.vars.set j (some none)
      let v ← live vars i
      pure ⟨vars.set i (some (some d)), (reset w.sys v).1⟩
  | .destroy i => do
    let v ← live w.vars i
    pure ⟨w.vars.set i none, (reset w.sys v).1⟩

/-- A program. (Objects of `memory_mapped_file_t`, daw_memory_mapped_file.h 196-357.) -/
def run : List Op → World → Cxx World
  | [], w => pure w
  | o :: os, w => do
    let w ← step w o
    run os w

/-- `operator bool`, daw_memory_mapped_file.h 345-348. -/
def isOpen (v : Option FData) : Cxx Bool := do
  let d ← arrow v
  pure (decide (d.size = 0) || decide (d.ptr = none) || decide (d.handle = none))

/-- `empty`, daw_memory_mapped_file.h 341-343. -/
def empty (v : Option FData) : Cxx Bool := do
  let b ← isOpen v
  let d ← arrow v
  pure (!b || decide (d.size = 0))

/-! ### Who holds what -/

/-- One if `CreateFile` succeeds. (Specification, no line of the source.) -/
def opened : Op → Nat
  | .make _ a => if a.file.isSome then 1 else 0
  | .openF _ _ a => if a.file.isSome then 1 else 0
  | _ => 0

/-- One if the value has the view. (Specification, no line of the source.) -/
def hasView (p : Nat) : Option (Option FData) → Nat
  | some (some d) => if d.ptr = some p then 1 else 0
  | _ => 0

/-- The operation does not use the `open` with a `wstring_view`. (Specification, no line of the source.) -/
def narrow : Op → Prop
  | .make wide _ => wide = false
  | .openF wide _ _ => wide = false
  | _ => True

theorem cleanup_handles (k : Sys) (d : FData) : (cleanup k d).1.handles = k.handles ∧ (cleanup k d).2 = FData.fresh := by
  obtain ⟨h, n, p⟩ := d
  cases h <;> cases p <;> exact ⟨rfl, rfl⟩

theorem cleanup_views {k : Sys} {d : FData} (hv : ∀ p, hasView p (some (some d)) ≤ k.views.count p) (p : Nat) :
    (cleanup k d).1.views.count p + hasView p (some (some d)) = k.views.count p := by
  obtain ⟨h, n, q⟩ := d
  cases q with
  | none => cases h <;> rfl
  | some q =>
    have h1 : (cleanup k ⟨h, n, some q⟩).1.views = k.views.erase q := by cases h <;> rfl
    rw [h1, List.count_erase]
    have := hv q
    simp only [hasView, if_true] at this
    by_cases e : q = p
    · subst e
      simp [hasView]
      omega
    · have e' : (q == p) = false := by simpa using e
      simp [hasView, e, e']

theorem reset_handles (k : Sys) (v : Option FData) : (reset k v).1.handles = k.handles := by
  cases v with
  | none => rfl
  | some d => exact (cleanup_handles k d).1

theorem reset_views {k : Sys} {v : Option FData} (hv : ∀ p, hasView p (some v) ≤ k.views.count p) (p : Nat) :
    (reset k v).1.views.count p + hasView p (some v) = k.views.count p := by
  cases v with
  | none => rfl
  | some d => exact cleanup_views hv p

theorem openOn_handles {wide : Bool} {k k' : Sys} {v v' : Option FData} {a : Answer} {b : Bool}
    (h : openOn wide k v a = pure (k', v', b)) :
    k'.handles.length = k.handles.length + (if a.file.isSome then 1 else 0) := by
  obtain ⟨file, size, mapping, view⟩ := a
  have key : ∀ (k1 : Sys) (v1 : Option FData), k1.handles = k.handles → openOn true k1 v1 ⟨file, size, mapping, view⟩ =
      pure (k', v', b) → k'.handles.length = k.handles.length + (if file.isSome then 1 else 0) := by
    intro k1 v1 e1 h
    simp only [openOn, if_true] at h
    cases file with
    | none =>
      dsimp only at h
      rw [pure_inj, Prod.mk.injEq] at h
      rw [← h.1, e1]
      rfl
    | some f =>
      dsimp only at h
      by_cases hin : f ∈ k1.handles
      · rw [if_pos hin] at h
        exact absurd h (diverge_ne_pure _)
      · rw [if_neg hin] at h
        have hreset : ∀ v : Option FData,
            (reset { k1 with handles := f :: k1.handles } v).1.handles.length = k.handles.length + 1 := by
          intro v
          rw [reset_handles, List.length_cons, e1]
        cases size with
        | none =>
          dsimp only at h
          rw [pure_inj, Prod.mk.injEq] at h
          rw [← h.1]
          exact hreset v1
        | some n =>
          dsimp only at h
          by_cases hn : n ≤ 0
          · rw [if_pos hn, pure_inj, Prod.mk.injEq] at h
            rw [← h.1]
            exact hreset v1
          · rw [if_neg hn, bind_eq_pure] at h
            obtain ⟨d, ed, h⟩ := h
            cases mapping with
            | none =>
              dsimp only at h
              rw [pure_inj, Prod.mk.injEq] at h
              rw [← h.1, (cleanup_handles _ _).1, List.length_cons, e1]
              rfl
            | some hm =>
              dsimp only at h
              by_cases hin2 : hm ∈ f :: k1.handles
              · rw [if_pos hin2] at h
                exact absurd h (diverge_ne_pure _)
              · rw [if_neg hin2] at h
                have hl : ((hm :: f :: k1.handles).erase f).length = k.handles.length + 1 := by
                  rw [List.length_erase_of_mem (by simp), List.length_cons, List.length_cons, e1]
                  rfl
                cases view with
                | none =>
                  dsimp only at h
                  rw [pure_inj, Prod.mk.injEq] at h
                  rw [← h.1, (cleanup_handles _ _).1]
                  exact hl
                | some p =>
                  dsimp only at h
                  split at h
                  · exact absurd h (diverge_ne_pure _)
                  · rw [pure_inj, Prod.mk.injEq] at h
                    rw [← h.1]
                    exact hl
  cases wide with
  | true => exact key k v rfl h
  | false => exact key _ _ (reset_handles k v) h

theorem openOn_views {k k' : Sys} {v v' : Option FData} {a : Answer} {b : Bool}
    (hv : ∀ p, hasView p (some v) ≤ k.views.count p) (h : openOn false k v a = pure (k', v', b)) (p : Nat) :
    k'.views.count p + hasView p (some v) = k.views.count p + hasView p (some v') := by
  obtain ⟨file, size, mapping, view⟩ := a
  have e0 := reset_views hv p
  simp only [openOn, Bool.false_eq_true, if_false, emplace] at h
  have hf0 : hasView p (some (some FData.fresh)) = 0 := rfl
  cases file with
  | none =>
    dsimp only at h
    rw [pure_inj, Prod.mk.injEq, Prod.mk.injEq] at h
    obtain ⟨rfl, rfl, _⟩ := h
    omega
  | some f =>
    dsimp only at h
    by_cases hin : f ∈ (reset k v).1.handles
    · rw [if_pos hin] at h
      exact absurd h (diverge_ne_pure _)
    · rw [if_neg hin] at h
      cases size with
      | none =>
        dsimp only at h
        rw [pure_inj, Prod.mk.injEq, Prod.mk.injEq] at h
        obtain ⟨rfl, rfl, _⟩ := h
        show (reset k v).1.views.count p + _ = _ + 0
        omega
      | some n =>
        dsimp only at h
        by_cases hn : n ≤ 0
        · rw [if_pos hn, pure_inj, Prod.mk.injEq, Prod.mk.injEq] at h
          obtain ⟨rfl, rfl, _⟩ := h
          show (reset k v).1.views.count p + _ = _ + 0
          omega
        · rw [if_neg hn] at h
          simp only [arrow, pure_bind] at h
          cases mapping with
          | none =>
            dsimp only at h
            rw [pure_inj, Prod.mk.injEq, Prod.mk.injEq] at h
            obtain ⟨rfl, rfl, _⟩ := h
            show (reset k v).1.views.count p + _ = _ + 0
            omega
          | some hm =>
            dsimp only at h
            split at h
            · exact absurd h (diverge_ne_pure _)
            · cases view with
              | none =>
                dsimp only at h
                rw [pure_inj, Prod.mk.injEq, Prod.mk.injEq] at h
                obtain ⟨rfl, rfl, _⟩ := h
                show (reset k v).1.views.count p + _ = _ + 0
                omega
              | some q =>
                dsimp only at h
                split at h
                · exact absurd h (diverge_ne_pure _)
                · rw [pure_inj, Prod.mk.injEq, Prod.mk.injEq] at h
                  obtain ⟨rfl, rfl, _⟩ := h
                  show (q :: (reset k v).1.views).count p + _ = _ + (if some q = some p then 1 else 0)
                  rw [List.count_cons]
                  simp only [beq_iff_eq, Option.some.injEq]
                  omega

/-- C282 does not hold: in every program the number of handles that are open is the number of files that were opened; no
handle that matters is ever closed. -/
theorem C282_handles_violated {os : List Op} {w : World} (h : run os World.init = pure w) :
    w.sys.handles.length = tot opened os := by
  have hs : ∀ (w w' : World) (o : Op), step w o = pure w' → w'.sys.handles.length = w.sys.handles.length + opened o := by
    intro w w' o h
    cases o with
    | makeEmpty =>
      simp only [step] at h
      rw [pure_inj] at h
      subst h
      rfl
    | make wide a =>
      simp only [step] at h
      rw [bind_eq_pure] at h
      obtain ⟨⟨k, v, b⟩, e, h⟩ := h
      dsimp only at h
      rw [pure_inj] at h
      subst h
      exact openOn_handles e
    | openF wide i a =>
      simp only [step] at h
      rw [bind_eq_pure] at h
      obtain ⟨v0, _, h⟩ := h
      rw [bind_eq_pure] at h
      obtain ⟨⟨k, v, b⟩, e, h⟩ := h
      dsimp only at h
      rw [pure_inj] at h
      subst h
      exact openOn_handles e
    | move j =>
      simp only [step] at h
      rw [bind_eq_pure] at h
      obtain ⟨v0, _, h⟩ := h
      rw [pure_inj] at h
      subst h
      rfl
    | moveAssign i j =>
      simp only [step] at h
      rw [bind_eq_pure] at h
      obtain ⟨v0, _, h⟩ := h
      cases v0 with
      | none => exact absurd h (ub_ne_pure _)
      | some d =>
        dsimp only at h
        rw [bind_eq_pure] at h
        obtain ⟨v, _, h⟩ := h
        rw [pure_inj] at h
        subst h
        show (reset w.sys v).1.handles.length = _
        rw [reset_handles]
        rfl
    | destroy i =>
      simp only [step] at h
      rw [bind_eq_pure] at h
      obtain ⟨v, _, h⟩ := h
      rw [pure_inj] at h
      subst h
      show (reset w.sys v).1.handles.length = _
      rw [reset_handles]
      rfl
  have hr : ∀ (os : List Op) (w w' : World), run os w = pure w' →
      w'.sys.handles.length = w.sys.handles.length + tot opened os := by
    intro os
    induction os with
    | nil =>
      intro w w' h
      rw [run, pure_inj] at h
      subst h
      rfl
    | cons o os ih =>
      intro w w' h
      rw [run, bind_eq_pure] at h
      obtain ⟨w1, e, h⟩ := h
      rw [ih _ _ h, hs _ _ _ e, tot_cons]
      omega
  rw [hr os _ _ h]
  simp [World.init]

example : run [.make false ⟨some 3, some 10, some 4, some 7⟩, .destroy 0] World.init = pure ⟨[none], ⟨[4], []⟩⟩ ∧
    run [.make false ⟨some 3, some 0, none, none⟩, .destroy 0] World.init = pure ⟨[none], ⟨[3], []⟩⟩ := by decide +kernel

/-- Every view is held by one variable. (Specification, no line of the source.) -/
def Inv (w : World) : Prop := ∀ p, w.sys.views.count p = tot (hasView p) w.vars

theorem hasView_le {w : World} (hi : Inv w) {i : Nat} {v : Option FData} (h : w.vars[i]? = some (some v)) (p : Nat) :
    hasView p (some v) ≤ w.sys.views.count p := by
  rw [hi]
  exact le_tot _ _ _ (List.mem_of_getElem? h)

theorem step_inv {w w' : World} {o : Op} (hi : Inv w) (hn : narrow o) (h : step w o = pure w') : Inv w' := by
  cases o with
  | makeEmpty =>
    simp only [step] at h
    rw [pure_inj] at h
    subst h
    intro p
    rw [tot_snoc, ← hi p]
    rfl
  | make wide a =>
    simp only [narrow] at hn
    subst hn
    simp only [step] at h
    rw [bind_eq_pure] at h
    obtain ⟨⟨k, v, b⟩, e, h⟩ := h
    dsimp only at h
    rw [pure_inj] at h
    subst h
    intro p
    have := openOn_views (fun p => Nat.zero_le _) e p
    rw [tot_snoc, ← hi p]
    exact this
  | openF wide i a =>
    simp only [narrow] at hn
    subst hn
    simp only [step] at h
    rw [bind_eq_pure] at h
    obtain ⟨v0, ev, h⟩ := h
    rw [bind_eq_pure] at h
    obtain ⟨⟨k, v, b⟩, e, h⟩ := h
    dsimp only at h
    rw [pure_inj] at h
    subst h
    intro p
    have lv := live_eq ev
    have := openOn_views (hasView_le hi lv) e p
    have := tot_set (hasView p) w.vars i _ (some v) lv
    have := hi p
    show k.views.count p = tot (hasView p) (w.vars.set i (some v))
    omega
  | move j =>
    simp only [step] at h
    rw [bind_eq_pure] at h
    obtain ⟨v, ev, h⟩ := h
    rw [pure_inj] at h
    subst h
    intro p
    have := tot_set (hasView p) w.vars j _ (some none) (live_eq ev)
    have := hi p
    have h0 : hasView p (some none) = 0 := rfl
    rw [tot_snoc]
    show w.sys.views.count p = _
    omega
  | moveAssign i j =>
    simp only [step] at h
    rw [bind_eq_pure] at h
    obtain ⟨v0, ev0, h⟩ := h
    cases v0 with
    | none => exact absurd h (ub_ne_pure _)
    | some d =>
      dsimp only at h
      rw [bind_eq_pure] at h
      obtain ⟨v, ev, h⟩ := h
      rw [pure_inj] at h
      subst h
      have li := live_eq ev
      have lj := live_eq ev0
      have t : ∀ p, tot (hasView p) (w.vars.set j (some none)) + hasView p (some (some d)) = w.sys.views.count p := by
        intro p
        have := tot_set (hasView p) w.vars j _ (some none) lj
        have := hi p
        have h0 : hasView p (some none) = 0 := rfl
        omega
      intro p
      have := reset_views (k := w.sys) (v := v)
        (fun p => by have := le_tot (hasView p) _ _ (List.mem_of_getElem? li); have := t p; omega) p
      have := tot_set (hasView p) _ i _ (some (some d)) li
      have := t p
      show (reset w.sys v).1.views.count p = tot (hasView p) ((w.vars.set j (some none)).set i (some (some d)))
      omega
  | destroy i =>
    simp only [step] at h
    rw [bind_eq_pure] at h
    obtain ⟨v, ev, h⟩ := h
    rw [pure_inj] at h
    subst h
    intro p
    have lv := live_eq ev
    have := reset_views (hasView_le hi lv) p
    have := tot_set (hasView p) w.vars i _ none lv
    have := hi p
    have h0 : hasView p none = 0 := rfl
    show (reset w.sys v).1.views.count p = tot (hasView p) (w.vars.set i none)
    omega

/-- C282, part: in a program that does not use the `open` with a `wstring_view` every view is held by exactly one variable,
and with the last variable gone there is none. -/
theorem C282_views_partial {os : List Op} {w : World} (hn : ∀ o ∈ os, narrow o) (h : run os World.init = pure w) :
    (∀ p, w.sys.views.count p = tot (hasView p) w.vars) ∧ ((∀ v ∈ w.vars, v = none) → w.sys.views = []) := by
  have hr : ∀ (os : List Op) (w w' : World), (∀ o ∈ os, narrow o) → Inv w → run os w = pure w' → Inv w' := by
    intro os
    induction os with
    | nil =>
      intro w w' _ hi h
      rw [run, pure_inj] at h
      subst h
      exact hi
    | cons o os ih =>
      intro w w' hn hi h
      rw [run, bind_eq_pure] at h
      obtain ⟨w1, e, h⟩ := h
      exact ih _ _ (fun o ho => hn o (List.mem_cons_of_mem _ ho)) (step_inv hi (hn o List.mem_cons_self) e) h
  have hi := hr os _ _ hn (fun _ => rfl) h
  refine ⟨hi, fun hv => List.eq_nil_iff_forall_not_mem.2 fun p hp => ?_⟩
  have h1 := List.count_pos_iff.2 hp
  rw [hi, tot_eq_zero] at h1
  · omega
  · intro v hv'; rw [hv v hv']; rfl

example := C282_views_partial (os := [.make false ⟨some 3, some 10, some 4, some 7⟩, .destroy 0]) (w := ⟨[none], ⟨[4], []⟩⟩) (by simp [narrow]) (by decide +kernel)

/-- C282 does not hold for the `open` with a `wstring_view`: a second one loses the view of the first for ever, and on an
object that was never opened, which is what the constructor calls it on, it ends the program. -/
theorem C282_wide_violated :
    run [.make false ⟨some 3, some 10, some 4, some 7⟩, .openF true 0 ⟨some 5, some 20, some 6, some 8⟩, .destroy 0]
      World.init = pure ⟨[none], ⟨[6, 4], [7]⟩⟩ ∧
    (∀ k a f n, a.file = some f → f ∉ k.handles → a.size = some n → 0 < n → openOn true k none a = abort) := by
  refine ⟨by decide +kernel, ?_⟩
  intro k a f n hf hin hs hn
  simp only [openOn, if_true, hf, if_neg hin, hs]
  rw [if_neg (by omega)]
  rfl

/-- C283 does not hold: after `open` the object says that it is open exactly if `open` failed, and it says that it is empty
in any case. -/
theorem C283_bool_violated {k k' : Sys} {v v' : Option FData} {a : Answer} {b : Bool}
    (h : openOn false k v a = pure (k', v', b)) :
    isOpen v' = pure (!b) ∧ empty v' = pure true ∧ (b = true ↔ ∃ f n m p, a = ⟨some f, some n, some m, some p⟩ ∧ 0 < n) := by
  obtain ⟨file, size, mapping, view⟩ := a
  simp only [openOn, Bool.false_eq_true, if_false, emplace] at h
  have hc : ∀ k d, isOpen (some (cleanup k d).2) = pure true ∧ empty (some (cleanup k d).2) = pure true := by
    intro k d
    rw [(cleanup_handles k d).2]
    exact ⟨rfl, rfl⟩
  cases file with
  | none =>
    dsimp only at h
    rw [pure_inj, Prod.mk.injEq, Prod.mk.injEq] at h
    obtain ⟨rfl, rfl, rfl⟩ := h
    exact ⟨rfl, rfl, by simp⟩
  | some f =>
    dsimp only at h
    split at h
    · exact absurd h (diverge_ne_pure _)
    · cases size with
      | none =>
        dsimp only at h
        rw [pure_inj, Prod.mk.injEq, Prod.mk.injEq] at h
        obtain ⟨rfl, rfl, rfl⟩ := h
        exact ⟨rfl, rfl, by simp⟩
      | some n =>
        dsimp only at h
        by_cases hn : n ≤ 0
        · rw [if_pos hn, pure_inj, Prod.mk.injEq, Prod.mk.injEq] at h
          obtain ⟨rfl, rfl, rfl⟩ := h
          refine ⟨rfl, rfl, ?_⟩
          simp
          omega
        · rw [if_neg hn] at h
          simp only [arrow, pure_bind] at h
          cases mapping with
          | none =>
            dsimp only at h
            rw [pure_inj, Prod.mk.injEq, Prod.mk.injEq] at h
            obtain ⟨rfl, rfl, rfl⟩ := h
            exact ⟨rfl, rfl, by simp⟩
          | some hm =>
            dsimp only at h
            split at h
            · exact absurd h (diverge_ne_pure _)
            · cases view with
              | none =>
                dsimp only at h
                rw [pure_inj, Prod.mk.injEq, Prod.mk.injEq] at h
                obtain ⟨rfl, rfl, rfl⟩ := h
                exact ⟨rfl, rfl, by simp⟩
              | some q =>
                dsimp only at h
                split at h
                · exact absurd h (diverge_ne_pure _)
                · rw [pure_inj, Prod.mk.injEq, Prod.mk.injEq] at h
                  obtain ⟨rfl, rfl, rfl⟩ := h
                  have hz : n.toNat ≠ 0 := by omega
                  refine ⟨?_, ?_, ⟨fun _ => ⟨f, n, hm, q, rfl, by omega⟩, fun _ => rfl⟩⟩
                  · simp [isOpen, arrow, hz]
                  · simp [empty, isOpen, arrow, hz]

example : openOn false ⟨[], []⟩ none ⟨some 3, some 10, some 4, some 7⟩ =
    pure (⟨[4], [7]⟩, some ⟨some 4, 10, some 7⟩, true) := by decide +kernel

end Verif.Own.MappedFileWin
