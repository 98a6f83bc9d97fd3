import Verif.Own.Base

/-
`daw::filesystem::memory_mapped_file_t` where there is `mmap`, include/daw/daw_memory_mapped_file.h 39-169, with its
`unique_resource`, daw_unique_resource.h.  What the system answers is part of the program; the system keeps the open
descriptors, the mappings and the number of calls that name something that is not there.
-/

namespace Verif.Own.MappedFile
open Cxx

/-- A pointer: null, `MAP_FAILED` or the mapping with a number. (Rule of C++ or its library, no line of the source.) -/
inductive Ptr where
  | null
  | failed
  | map (p : Nat)
  deriving DecidableEq

/-- `fdata_t`, daw_memory_mapped_file.h 51-55; `none` is a negative descriptor. -/
structure FData where
  file : Option Nat
  ptr : Ptr
  size : Nat
  deriving DecidableEq

/-- The values that the members of `fdata_t` begin with, daw_memory_mapped_file.h 52-54. -/
def FData.fresh : FData := ⟨none, .null, 0⟩

/-- The system: open descriptors, mappings with their sizes, and how many calls named something that is not there.
(Rule of C++ or its library, no line of the source.) -/
structure Sys where
  fds : List Nat
  maps : List (Nat × Nat)
  bad : Nat
  deriving DecidableEq

/-- What the system answers to `open`, `lseek` and `mmap`. (Rule of C++ or its library, no line of the source.) -/
structure Answer where
  fd : Option Nat
  size : Int
  map : Option Nat
  deriving DecidableEq

/-- `munmap`. (Rule of C++ or its library, no line of the source.) -/
def munmap (k : Sys) (p : Ptr) (size : Nat) : Sys :=
  match p with
  | .map q => if (q, size) ∈ k.maps then { k with maps := k.maps.erase (q, size) } else { k with bad := k.bad + 1 }
  | _ => { k with bad := k.bad + 1 }

/-- `close`. (Rule of C++ or its library, no line of the source.) -/
def close (k : Sys) (fd : Nat) : Sys :=
  if fd ∈ k.fds then { k with fds := k.fds.erase fd } else { k with bad := k.bad + 1 }

/-- `cleanup_t`, daw_memory_mapped_file.h 57-67. -/
def cleanup (k : Sys) (d : FData) : Sys × FData :=
  let k := if d.ptr ≠ .null then munmap k d.ptr d.size else k
  let k := match d.file with
    | some fd => close k fd
    | none => k
  (k, ⟨none, .null, 0⟩)

/-- `m_fdata.emplace( )`, daw_memory_mapped_file.h 86, and daw_unique_resource.h 45-50 and 58-65. -/
def emplace (k : Sys) (v : Option FData) : Sys :=
  match v with
  | some d => (cleanup k d).1
  | none => k

/-- `open`, daw_memory_mapped_file.h 83-111, for an object with `m_fdata` equal to `v`: the system, the new value and the
result.  A system that gives a descriptor or a mapping that is in use does not exist: no outcome. -/
def openOn (k : Sys) (v : Option FData) (a : Answer) : Cxx (Sys × FData × Bool) :=
  let k := emplace k v
  match a.fd with
  | none => pure (k, FData.fresh, false)
  | some fd =>
    if fd ∈ k.fds then diverge
    else
      let k := { k with fds := fd :: k.fds }
      if a.size ≤ 0 then
        let r := cleanup k ⟨some fd, .null, 0⟩
        pure (r.1, r.2, false)
      else
        match a.map with
        | none =>
          let r := cleanup k ⟨some fd, .failed, a.size.toNat⟩
          pure (r.1, r.2, false)
        | some p =>
          if p ∈ k.maps.map Prod.fst then diverge
          else pure ({ k with maps := (p, a.size.toNat) :: k.maps }, ⟨some fd, .map p, a.size.toNat⟩, true)

/-- The variables (dead, without a value or with one) and the system.
(Objects of `memory_mapped_file_t`, daw_memory_mapped_file.h 42-169.) -/
structure World where
  vars : List (Option (Option FData))
  sys : Sys
  deriving DecidableEq

/-- Before anything happened. (Objects of `memory_mapped_file_t`, daw_memory_mapped_file.h 42-169.) -/
def World.init : World := ⟨[], ⟨[], [], 0⟩⟩

/-- What a program does with its files; lines of daw_memory_mapped_file.h and daw_unique_resource.h. -/
inductive Op where
  /-- the default constructor, daw_memory_mapped_file.h 71 -/
  | makeEmpty
  /-- the constructor with a path, daw_memory_mapped_file.h 75-79 -/
  | make (a : Answer)
  /-- `open`, daw_memory_mapped_file.h 83-111 -/
  | openF (i : Nat) (a : Answer)
  /-- the move constructor, daw_unique_resource.h 24-26 -/
  | move (j : Nat)
  /-- the move assignment, daw_unique_resource.h 28-32 -/
  | moveAssign (i j : Nat)
  /-- the destructor, daw_unique_resource.h 37-39 -/
  | destroy (i : Nat)
  deriving DecidableEq

/-- One operation; the lines are those at the constructors of `Op`.
(Objects of `memory_mapped_file_t`, daw_memory_mapped_file.h 42-169.) -/
def step (w : World) : Op → Cxx World
  | .makeEmpty => pure { w with vars := w.vars ++ [some none] }
  | .make a => do
    let (k, d, _) ← openOn w.sys none a
    pure ⟨w.vars ++ [some (some d)], k⟩
  | .openF i a => do
    let v ← live w.vars i
    let (k, d, _) ← openOn w.sys v a
    pure ⟨w.vars.set i (some (some d)), k⟩
  | .move j => do
    let v ← live w.vars j
    pure { w with vars := w.vars.set j (some none) ++ [some v] }
  | .moveAssign i j => do
    match ← live w.vars j with
    | none => ub
    | some d =>
      let vars := w.vars.set j (some none)
      let v ← live vars i
      pure ⟨vars.set i (some (some d)), emplace w.sys v⟩
  | .destroy i => do
    let v ← live w.vars i
    pure ⟨w.vars.set i none, emplace w.sys v⟩

/-- A program. (Objects of `memory_mapped_file_t`, daw_memory_mapped_file.h 42-169.) -/
def run : List Op → World → Cxx World
  | [], w => pure w
  | o :: os, w => do
    let w ← step w o
    run os w

/-- `operator bool`, daw_memory_mapped_file.h 161-163; `operator->` without a value fails its `assert`,
daw_unique_resource.h 95-98. -/
def isOpen (v : Option FData) : Cxx Bool :=
  match v with
  | none => abort
  | some d => pure (d.file.isSome && decide (d.ptr ≠ .null))

/-- `empty`, daw_memory_mapped_file.h 157-159. -/
def empty (v : Option FData) : Cxx Bool := do
  let b ← isOpen v
  match v with
  | none => abort
  | some d => pure (!b || decide (d.size = 0))

/-- `operator[]`, daw_memory_mapped_file.h 113-119, for elements of `sz` bytes: reading needs all bytes in the file, given
by `bytes`.  Simplified: bytes after the end of the file on its last page count as outside. -/
def at' (sz : Nat) (bytes : List Nat) (v : Option FData) (pos : Nat) : Cxx (List Nat) :=
  match v with
  | none => abort
  | some d =>
    match d.ptr with
    | .map _ => if (pos + 1) * sz ≤ bytes.length then pure ((bytes.drop (pos * sz)).take sz) else ub
    | _ => ub

/-- A loop from `begin( )` to `end( )`, daw_memory_mapped_file.h 129-151, from element `pos` with `n` elements left. -/
def readLoop (sz : Nat) (bytes : List Nat) (v : Option FData) (pos : Nat) : Nat → Cxx (List (List Nat))
  | 0 => pure []
  | n + 1 => do
    let x ← at' sz bytes v pos
    let xs ← readLoop sz bytes v (pos + 1) n
    pure (x :: xs)

/-- A loop from `begin( )` to `end( )`, daw_memory_mapped_file.h 129-151: `end( )` is `size` elements after `begin( )`. -/
def readAll (sz : Nat) (bytes : List Nat) (v : Option FData) : Cxx (List (List Nat)) :=
  match v with
  | none => abort
  | some d => readLoop sz bytes v 0 d.size

/-! ### Who holds what -/

/-- One if the value has the descriptor. (Specification, no line of the source.) -/
def hasFd (fd : Nat) : Option (Option FData) → Nat
  | some (some d) => if d.file = some fd then 1 else 0
  | _ => 0

/-- One if the value has the mapping. (Specification, no line of the source.) -/
def hasMap (m : Nat × Nat) : Option (Option FData) → Nat
  | some (some d) => if d.ptr = .map m.1 ∧ d.size = m.2 then 1 else 0
  | _ => 0

/-- No variable keeps `MAP_FAILED`. (Specification, no line of the source.) -/
def NoFailed (w : World) : Prop := ∀ d, some (some d) ∈ w.vars → d.ptr ≠ .failed

/-- What is open in the system is what the variables hold, once. (Specification, no line of the source.) -/
def Inv (w : World) : Prop :=
  (∀ fd, w.sys.fds.count fd = tot (hasFd fd) w.vars) ∧ (∀ m, w.sys.maps.count m = tot (hasMap m) w.vars) ∧ NoFailed w

/-- One if `mmap` fails. (Specification, no line of the source.) -/
def answerFails (a : Answer) : Nat := if a.fd.isSome ∧ 0 < a.size ∧ a.map = none then 1 else 0

/-- One for an operation whose `mmap` fails. (Specification, no line of the source.) -/
def mapFails : Op → Nat
  | .make a => answerFails a
  | .openF _ a => answerFails a
  | _ => 0

theorem cleanup_eq {k : Sys} {d : FData} (hf : ∀ fd, hasFd fd (some (some d)) ≤ k.fds.count fd)
    (hm : ∀ m, hasMap m (some (some d)) ≤ k.maps.count m) :
    (∀ fd, (cleanup k d).1.fds.count fd + hasFd fd (some (some d)) = k.fds.count fd) ∧
    (∀ m, (cleanup k d).1.maps.count m + hasMap m (some (some d)) = k.maps.count m) ∧
    (cleanup k d).1.bad = k.bad + (if d.ptr = .failed then 1 else 0) ∧ (cleanup k d).2 = FData.fresh := by
  obtain ⟨file, ptr, size⟩ := d
  have hfile : ∀ (k' : Sys), k'.fds = k.fds → (match file with | some fd => close k' fd | none => k').maps = k'.maps ∧
      (match file with | some fd => close k' fd | none => k').bad = k'.bad ∧
      ∀ fd, (match file with | some fd => close k' fd | none => k').fds.count fd + hasFd fd (some (some ⟨file, ptr, size⟩)) =
        k.fds.count fd := by
    intro k' e
    cases file with
    | none => exact ⟨rfl, rfl, fun fd => by simp [hasFd, e]⟩
    | some f =>
      have hin : f ∈ k'.fds := by
        have := hf f
        simp only [hasFd, if_true] at this
        rw [e]
        exact List.count_pos_iff.1 (by omega)
      refine ⟨by simp [close, hin], by simp [close, hin], fun fd => ?_⟩
      simp only [close, if_pos hin, hasFd, Option.some.injEq]
      rw [← e, List.count_erase]
      by_cases h : f = fd
      · subst h
        have := List.count_pos_iff.2 hin
        simp
        omega
      · have : (f == fd) = false := by simpa using h
        simp [h, this]
  cases ptr with
  | null =>
    obtain ⟨h1, h2, h3⟩ := hfile k rfl
    refine ⟨h3, fun m => ?_, ?_, rfl⟩
    · simp only [cleanup, ne_eq, not_true_eq_false, if_false, hasMap, reduceCtorEq, false_and]
      exact congrArg (List.count m) h1
    · simp only [cleanup, ne_eq, not_true_eq_false, if_false, reduceCtorEq]
      exact h2
  | failed =>
    obtain ⟨h1, h2, h3⟩ := hfile { k with bad := k.bad + 1 } rfl
    refine ⟨?_, fun m => ?_, ?_, rfl⟩
    · simpa [cleanup, munmap] using h3
    · simp only [cleanup, ne_eq, reduceCtorEq, not_false_eq_true, if_true, munmap, hasMap, false_and, if_false]
      exact congrArg (List.count m) h1
    · simp only [cleanup, ne_eq, reduceCtorEq, not_false_eq_true, if_true, munmap]
      exact h2
  | map p =>
    have hin : (p, size) ∈ k.maps := by
      have := hm (p, size)
      simp only [hasMap, and_self, if_true] at this
      exact List.count_pos_iff.1 (by omega)
    obtain ⟨h1, h2, h3⟩ := hfile { k with maps := k.maps.erase (p, size) } rfl
    refine ⟨?_, fun m => ?_, ?_, rfl⟩
    · simpa [cleanup, munmap, hin] using h3
    · simp only [cleanup, ne_eq, reduceCtorEq, not_false_eq_true, if_true, munmap, if_pos hin, hasMap]
      rw [h1, List.count_erase]
      by_cases h : (p, size) = m
      · subst h
        have := List.count_pos_iff.2 hin
        simp
        omega
      · have h' : ((p, size) == m) = false := by simpa using h
        have h2 : ¬ (Ptr.map p = Ptr.map m.1 ∧ size = m.2) := by
          rintro ⟨e1, e2⟩
          injection e1 with e1
          exact h (by rw [e1, e2])
        rw [if_neg h2, h']
        simp
    · simp only [cleanup, ne_eq, reduceCtorEq, not_false_eq_true, if_true, munmap, if_pos hin, if_false, Nat.add_zero]
      exact h2

theorem emplace_eq {k : Sys} {v : Option FData} (hf : ∀ fd, hasFd fd (some v) ≤ k.fds.count fd)
    (hm : ∀ m, hasMap m (some v) ≤ k.maps.count m) (hn : ∀ d, v = some d → d.ptr ≠ .failed) :
    (∀ fd, (emplace k v).fds.count fd + hasFd fd (some v) = k.fds.count fd) ∧
    (∀ m, (emplace k v).maps.count m + hasMap m (some v) = k.maps.count m) ∧ (emplace k v).bad = k.bad := by
  cases v with
  | none => exact ⟨fun fd => by simp [emplace, hasFd], fun m => by simp [emplace, hasMap], rfl⟩
  | some d =>
    obtain ⟨h1, h2, h3, _⟩ := cleanup_eq hf hm
    refine ⟨h1, h2, ?_⟩
    rw [emplace, h3, if_neg (hn d rfl)]
    rfl

theorem openOn_eq {k k' : Sys} {v : Option FData} {a : Answer} {d : FData} {b : Bool}
    (hf : ∀ fd, hasFd fd (some v) ≤ k.fds.count fd)
    (hm : ∀ m, hasMap m (some v) ≤ k.maps.count m) (hn : ∀ d, v = some d → d.ptr ≠ .failed)
    (h : openOn k v a = pure (k', d, b)) :
    (∀ fd, k'.fds.count fd + hasFd fd (some v) = k.fds.count fd + hasFd fd (some (some d))) ∧
    (∀ m, k'.maps.count m + hasMap m (some v) = k.maps.count m + hasMap m (some (some d))) ∧
    d.ptr ≠ .failed ∧ k'.bad = k.bad + answerFails a := by
  obtain ⟨e1, e2, e3⟩ := emplace_eq hf hm hn
  unfold openOn at h
  obtain ⟨fd, size, map⟩ := a
  cases fd with
  | none =>
    dsimp only at h
    rw [pure_inj, Prod.mk.injEq, Prod.mk.injEq] at h
    obtain ⟨rfl, rfl, rfl⟩ := h
    refine ⟨fun fd => ?_, fun m => ?_, by simp [FData.fresh], by rw [e3]; rfl⟩
    · rw [e1]; simp [hasFd, FData.fresh]
    · rw [e2]; simp [hasMap, FData.fresh]
  | some f =>
    dsimp only at h
    by_cases hin : f ∈ (emplace k v).fds
    · rw [if_pos hin] at h
      exact absurd h (diverge_ne_pure _)
    · rw [if_neg hin] at h
      by_cases hsz : size ≤ 0
      · rw [if_pos hsz, pure_inj, Prod.mk.injEq, Prod.mk.injEq] at h
        obtain ⟨rfl, rfl, rfl⟩ := h
        obtain ⟨c1, c2, c3, c4⟩ := cleanup_eq (k := { emplace k v with fds := f :: (emplace k v).fds })
          (d := ⟨some f, .null, 0⟩) (fun fd => by simp [hasFd, List.count_cons])
          (fun m => by simp [hasMap])
        refine ⟨fun fd => ?_, fun m => ?_, by rw [c4]; simp [FData.fresh], ?_⟩
        · have := c1 fd
          have := e1 fd
          rw [c4]
          simp only [hasFd, FData.fresh, List.count_cons, Option.some.injEq, beq_iff_eq, reduceCtorEq, if_false] at *
          omega
        · have := c2 m
          have := e2 m
          rw [c4]
          simp only [hasMap, FData.fresh, reduceCtorEq, false_and, if_false, Nat.add_zero] at *
          omega
        · rw [c3, if_neg (by simp), Nat.add_zero, answerFails, if_neg (by simp; omega)]
          exact e3
      · rw [if_neg hsz] at h
        cases map with
        | none =>
          dsimp only at h
          rw [pure_inj, Prod.mk.injEq, Prod.mk.injEq] at h
          obtain ⟨rfl, rfl, rfl⟩ := h
          obtain ⟨c1, c2, c3, c4⟩ := cleanup_eq (k := { emplace k v with fds := f :: (emplace k v).fds })
            (d := ⟨some f, .failed, size.toNat⟩) (fun fd => by simp [hasFd, List.count_cons])
            (fun m => by simp [hasMap])
          refine ⟨fun fd => ?_, fun m => ?_, by rw [c4]; simp [FData.fresh], ?_⟩
          · have := c1 fd
            have := e1 fd
            rw [c4]
            simp only [hasFd, FData.fresh, List.count_cons, Option.some.injEq, beq_iff_eq, reduceCtorEq, if_false] at *
            omega
          · have := c2 m
            have := e2 m
            rw [c4]
            simp only [hasMap, FData.fresh, reduceCtorEq, false_and, if_false, Nat.add_zero] at *
            omega
          · rw [c3, if_pos rfl, answerFails, if_pos ⟨rfl, by show 0 < size; omega, rfl⟩]
            show (emplace k v).bad + 1 = k.bad + 1
            rw [e3]
        | some p =>
          dsimp only at h
          by_cases hp : p ∈ (emplace k v).maps.map Prod.fst
          · rw [if_pos hp] at h
            exact absurd h (diverge_ne_pure _)
          · rw [if_neg hp, pure_inj, Prod.mk.injEq, Prod.mk.injEq] at h
            obtain ⟨rfl, rfl, rfl⟩ := h
            refine ⟨fun fd => ?_, fun m => ?_, by simp, ?_⟩
            · have := e1 fd
              simp only [hasFd, List.count_cons, Option.some.injEq, beq_iff_eq]
              simp only [hasFd] at this
              omega
            · have := e2 m
              obtain ⟨m1, m2⟩ := m
              simp only [hasMap, List.count_cons, beq_iff_eq, Prod.mk.injEq, Ptr.map.injEq] at *
              omega
            · rw [answerFails, if_neg (by simp)]
              exact e3

theorem hasFd_le {w : World} (hi : Inv w) {i : Nat} {v : Option FData} (h : w.vars[i]? = some (some v)) (fd : Nat) :
    hasFd fd (some v) ≤ w.sys.fds.count fd := by
  rw [hi.1]
  exact le_tot _ _ _ (List.mem_of_getElem? h)

theorem hasMap_le {w : World} (hi : Inv w) {i : Nat} {v : Option FData} (h : w.vars[i]? = some (some v)) (m : Nat × Nat) :
    hasMap m (some v) ≤ w.sys.maps.count m := by
  rw [hi.2.1]
  exact le_tot _ _ _ (List.mem_of_getElem? h)

theorem noFailed_at {w : World} (hi : Inv w) {i : Nat} {v : Option FData} (h : w.vars[i]? = some (some v)) :
    ∀ d, v = some d → d.ptr ≠ .failed := by
  intro d hd
  subst hd
  exact hi.2.2 d (List.mem_of_getElem? h)

theorem step_inv {w w' : World} {o : Op} (hi : Inv w) (h : step w o = pure w') :
    Inv w' ∧ w'.sys.bad = w.sys.bad + mapFails o := by
  cases o with
  | makeEmpty =>
    simp only [step] at h
    rw [pure_inj] at h
    subst h
    refine ⟨⟨fun fd => ?_, fun m => ?_, ?_⟩, rfl⟩
    · rw [tot_snoc, hi.1]; rfl
    · rw [tot_snoc, hi.2.1]; rfl
    · intro d hd
      exact hi.2.2 d (by simpa using hd)
  | make a =>
    simp only [step] at h
    rw [bind_eq_pure] at h
    obtain ⟨⟨k, d, b⟩, e, h⟩ := h
    dsimp only at h
    rw [pure_inj] at h
    subst h
    obtain ⟨h1, h2, h3, h4⟩ := openOn_eq (fun fd => by simp [hasFd]) (fun m => by simp [hasMap]) (by simp) e
    refine ⟨⟨fun fd => ?_, fun m => ?_, ?_⟩, h4⟩
    · have := h1 fd
      rw [tot_snoc, ← hi.1]
      simpa [hasFd] using this
    · have := h2 m
      rw [tot_snoc, ← hi.2.1]
      simpa [hasMap] using this
    · intro d' hd
      rcases List.mem_append.1 hd with g | g
      · exact hi.2.2 d' g
      · simp at g; rw [g]; exact h3
  | openF i a =>
    simp only [step] at h
    rw [bind_eq_pure] at h
    obtain ⟨v, ev, h⟩ := h
    rw [bind_eq_pure] at h
    obtain ⟨⟨k, d, b⟩, e, h⟩ := h
    dsimp only at h
    rw [pure_inj] at h
    subst h
    have lv := live_eq ev
    obtain ⟨h1, h2, h3, h4⟩ := openOn_eq (hasFd_le hi lv) (hasMap_le hi lv) (noFailed_at hi lv) e
    refine ⟨⟨fun fd => ?_, fun m => ?_, ?_⟩, h4⟩
    · have := h1 fd
      have := tot_set (hasFd fd) w.vars i _ (some (some d)) lv
      have := hi.1 fd
      show k.fds.count fd = tot (hasFd fd) (w.vars.set i (some (some d)))
      omega
    · have := h2 m
      have := tot_set (hasMap m) w.vars i _ (some (some d)) lv
      have := hi.2.1 m
      show k.maps.count m = tot (hasMap m) (w.vars.set i (some (some d)))
      omega
    · intro d' hd
      rcases List.mem_or_eq_of_mem_set hd with g | g
      · exact hi.2.2 d' g
      · simp at g; rw [g]; exact h3
  | move j =>
    simp only [step] at h
    rw [bind_eq_pure] at h
    obtain ⟨v, ev, h⟩ := h
    rw [pure_inj] at h
    subst h
    have lv := live_eq ev
    refine ⟨⟨fun fd => ?_, fun m => ?_, ?_⟩, rfl⟩
    · have := tot_set (hasFd fd) w.vars j _ (some none) lv
      have := hi.1 fd
      rw [tot_snoc]
      simp only [hasFd] at *
      omega
    · have := tot_set (hasMap m) w.vars j _ (some none) lv
      have := hi.2.1 m
      rw [tot_snoc]
      simp only [hasMap] at *
      omega
    · intro d' hd
      rcases List.mem_append.1 hd with g | g
      · rcases List.mem_or_eq_of_mem_set g with g | g
        · exact hi.2.2 d' g
        · simp at g
      · simp at g; exact noFailed_at hi lv d' g.symm
  | moveAssign i j =>
    simp only [step] at h
    rw [bind_eq_pure] at h
    obtain ⟨v, ev, h⟩ := h
    have lj := live_eq ev
    cases v with
    | none => exact absurd h (ub_ne_pure _)
    | some d =>
      dsimp only at h
      rw [bind_eq_pure] at h
      obtain ⟨v, ev2, h⟩ := h
      rw [pure_inj] at h
      subst h
      have li := live_eq ev2
      have tf : ∀ fd, tot (hasFd fd) (w.vars.set j (some none)) + hasFd fd (some (some d)) = w.sys.fds.count fd := by
        intro fd
        have := tot_set (hasFd fd) w.vars j _ (some none) lj
        have := hi.1 fd
        simp only [hasFd] at *
        omega
      have tm : ∀ m, tot (hasMap m) (w.vars.set j (some none)) + hasMap m (some (some d)) = w.sys.maps.count m := by
        intro m
        have := tot_set (hasMap m) w.vars j _ (some none) lj
        have := hi.2.1 m
        simp only [hasMap] at *
        omega
      obtain ⟨h1, h2, h3⟩ := emplace_eq (k := w.sys) (v := v)
        (fun fd => by have := le_tot (hasFd fd) _ _ (List.mem_of_getElem? li); have := tf fd; omega)
        (fun m => by have := le_tot (hasMap m) _ _ (List.mem_of_getElem? li); have := tm m; omega)
        (by
          intro d' hd'
          subst hd'
          rcases List.mem_or_eq_of_mem_set (List.mem_of_getElem? li) with g | g
          · exact hi.2.2 d' g
          · simp at g)
      refine ⟨⟨fun fd => ?_, fun m => ?_, ?_⟩, h3⟩
      · have := h1 fd
        have := tot_set (hasFd fd) _ i _ (some (some d)) li
        have := tf fd
        show (emplace w.sys v).fds.count fd = tot (hasFd fd) ((w.vars.set j (some none)).set i (some (some d)))
        omega
      · have := h2 m
        have := tot_set (hasMap m) _ i _ (some (some d)) li
        have := tm m
        show (emplace w.sys v).maps.count m = tot (hasMap m) ((w.vars.set j (some none)).set i (some (some d)))
        omega
      · intro d' hd
        rcases List.mem_or_eq_of_mem_set hd with g | g
        · rcases List.mem_or_eq_of_mem_set g with g | g
          · exact hi.2.2 d' g
          · simp at g
        · simp at g; rw [g]; exact noFailed_at hi lj d rfl
  | destroy i =>
    simp only [step] at h
    rw [bind_eq_pure] at h
    obtain ⟨v, ev, h⟩ := h
    rw [pure_inj] at h
    subst h
    have lv := live_eq ev
    obtain ⟨h1, h2, h3⟩ := emplace_eq (hasFd_le hi lv) (hasMap_le hi lv) (noFailed_at hi lv)
    refine ⟨⟨fun fd => ?_, fun m => ?_, ?_⟩, h3⟩
    · have := h1 fd
      have := tot_set (hasFd fd) w.vars i _ none lv
      have := hi.1 fd
      show (emplace w.sys v).fds.count fd = tot (hasFd fd) (w.vars.set i none)
      have h0 : hasFd fd none = 0 := rfl
      omega
    · have := h2 m
      have := tot_set (hasMap m) w.vars i _ none lv
      have := hi.2.1 m
      show (emplace w.sys v).maps.count m = tot (hasMap m) (w.vars.set i none)
      have h0 : hasMap m none = 0 := rfl
      omega
    · intro d' hd
      rcases List.mem_or_eq_of_mem_set hd with g | g
      · exact hi.2.2 d' g
      · simp at g

theorem run_inv (os : List Op) : ∀ {w w' : World}, Inv w → run os w = pure w' →
    Inv w' ∧ w'.sys.bad = w.sys.bad + tot mapFails os := by
  induction os with
  | nil =>
    intro w w' hi h
    rw [run, pure_inj] at h
    subst h
    exact ⟨hi, rfl⟩
  | cons o os ih =>
    intro w w' hi h
    rw [run, bind_eq_pure] at h
    obtain ⟨w1, e, h⟩ := h
    obtain ⟨i1, b1⟩ := step_inv hi e
    obtain ⟨i2, b2⟩ := ih i1 h
    exact ⟨i2, by rw [b2, b1, tot_cons]; omega⟩

theorem init_inv : Inv World.init := ⟨fun _ => rfl, fun _ => rfl, fun _ h => by simp [World.init] at h⟩

/-- C280, part: in every program every descriptor and every mapping that is open is held by exactly one variable, and with
the last variable gone nothing is open. -/
theorem C280_mapped_file_partial {os : List Op} {w : World} (h : run os World.init = pure w) :
    (∀ fd ∈ w.sys.fds, tot (hasFd fd) w.vars = w.sys.fds.count fd) ∧
    (∀ m ∈ w.sys.maps, tot (hasMap m) w.vars = w.sys.maps.count m) ∧
    ((∀ v ∈ w.vars, v = none) → w.sys.fds = [] ∧ w.sys.maps = []) := by
  obtain ⟨hi, _⟩ := run_inv os init_inv h
  refine ⟨fun fd _ => (hi.1 fd).symm, fun m _ => (hi.2.1 m).symm, fun hv => ⟨?_, ?_⟩⟩
  · refine List.eq_nil_iff_forall_not_mem.2 fun fd hfd => ?_
    have h1 := List.count_pos_iff.2 hfd
    rw [hi.1, tot_eq_zero] at h1
    · omega
    · intro v hv'; rw [hv v hv']; rfl
  · refine List.eq_nil_iff_forall_not_mem.2 fun m hm => ?_
    have h1 := List.count_pos_iff.2 hm
    rw [hi.2.1, tot_eq_zero] at h1
    · omega
    · intro v hv'; rw [hv v hv']; rfl

example : run [.make ⟨some 3, 10, some 7⟩, .makeEmpty, .moveAssign 1 0, .openF 1 ⟨some 4, 5, none⟩, .move 1, .destroy 2]
    World.init = pure ⟨[some none, some none, none], ⟨[], [], 1⟩⟩ := by decide +kernel

/-- C280 does not hold for what is given to the system: exactly the programs in which an `mmap` fails unmap something that
is not mapped, once for every failure. -/
theorem C280_munmap_violated {os : List Op} {w : World} (h : run os World.init = pure w) :
    w.sys.bad = tot mapFails os := by
  obtain ⟨_, hb⟩ := run_inv os init_inv h
  rw [hb]
  simp [World.init]

example := C280_munmap_violated (os := [.make ⟨some 3, 10, some 7⟩, .makeEmpty, .moveAssign 1 0, .openF 1 ⟨some 4, 5, none⟩, .move 1, .destroy 2])
  (w := ⟨[some none, some none, none], ⟨[], [], 1⟩⟩) (by decide +kernel)

/-- C280 does not hold for files without a value: assigning from one that was never opened, or was moved from, is undefined,
and asking whether it is open ends the program. -/
theorem C280_empty_violated : run [.makeEmpty, .makeEmpty, .moveAssign 0 1] World.init = ub ∧
    (∀ a j w, run [.make a, .move j] World.init = pure w → w.vars[0]? = some (some none)) ∧ isOpen none = abort ∧
    empty none = abort := by
  refine ⟨by decide +kernel, ?_, rfl, rfl⟩
  intro a j w h
  rw [run, bind_eq_pure] at h
  obtain ⟨w1, e, h⟩ := h
  simp only [step] at e
  rw [bind_eq_pure] at e
  obtain ⟨⟨k, d, b⟩, _, e⟩ := e
  dsimp only at e
  rw [pure_inj] at e
  subst e
  rw [run, bind_eq_pure] at h
  obtain ⟨w2, e, h⟩ := h
  rw [run, pure_inj] at h
  subst h
  simp only [step, World.init, List.nil_append] at e
  rw [bind_eq_pure] at e
  obtain ⟨v, ev, e⟩ := e
  rw [pure_inj] at e
  subst e
  have lv := live_eq ev
  cases j with
  | zero => rfl
  | succ j => simp at lv

/-- C281: `open` says true exactly if the file was opened, has bytes and was mapped; then the object is open with the size
of the file, otherwise it is not open and empty. -/
theorem C281_open {k k' : Sys} {v : Option FData} {a : Answer} {d : FData} {b : Bool}
    (h : openOn k v a = pure (k', d, b)) :
    (b = true ↔ a.fd.isSome ∧ 0 < a.size ∧ a.map.isSome) ∧ isOpen (some d) = pure b ∧ empty (some d) = pure (!b) ∧
    (b = true → (d.size : Int) = a.size ∧ ∃ p, d.ptr = .map p ∧ a.map = some p) := by
  unfold openOn at h
  obtain ⟨fd, size, map⟩ := a
  cases fd with
  | none =>
    dsimp only at h
    rw [pure_inj, Prod.mk.injEq, Prod.mk.injEq] at h
    obtain ⟨rfl, rfl, rfl⟩ := h
    exact ⟨by simp, rfl, rfl, by simp⟩
  | some f =>
    dsimp only at h
    by_cases hin : f ∈ (emplace k v).fds
    · rw [if_pos hin] at h
      exact absurd h (diverge_ne_pure _)
    · rw [if_neg hin] at h
      by_cases hsz : size ≤ 0
      · rw [if_pos hsz, pure_inj, Prod.mk.injEq, Prod.mk.injEq] at h
        obtain ⟨rfl, rfl, rfl⟩ := h
        exact ⟨by simp; omega, rfl, rfl, by simp⟩
      · rw [if_neg hsz] at h
        cases map with
        | none =>
          dsimp only at h
          rw [pure_inj, Prod.mk.injEq, Prod.mk.injEq] at h
          obtain ⟨rfl, rfl, rfl⟩ := h
          exact ⟨by simp, rfl, rfl, by simp⟩
        | some p =>
          dsimp only at h
          by_cases hp : p ∈ (emplace k v).maps.map Prod.fst
          · rw [if_pos hp] at h
            exact absurd h (diverge_ne_pure _)
          · rw [if_neg hp, pure_inj, Prod.mk.injEq, Prod.mk.injEq] at h
            obtain ⟨rfl, rfl, rfl⟩ := h
            refine ⟨by simp; omega, rfl, ?_, fun _ => ⟨by show (size.toNat : Int) = size; omega, p, rfl, rfl⟩⟩
            simp only [empty, isOpen, pure_bind]
            have : size.toNat ≠ 0 := by omega
            simp [this]

theorem readLoop_bytes (bytes : List Nat) {v : Option FData} {d : FData} {p : Nat} (hv : v = some d) (hp : d.ptr = .map p)
    (n : Nat) : ∀ pos, pos + n = bytes.length → readLoop 1 bytes v pos n = pure ((bytes.drop pos).map fun b => [b]) := by
  subst hv
  induction n with
  | zero =>
    intro pos h
    rw [readLoop, List.drop_eq_nil_of_le (by omega)]
    rfl
  | succ n ih =>
    intro pos h
    have hlt : pos < bytes.length := by omega
    rw [readLoop, at', hp]
    dsimp only
    rw [if_pos (by omega), pure_bind, ih (pos + 1) (by omega), pure_bind, Nat.mul_one, List.drop_eq_getElem_cons hlt]
    rfl

theorem readLoop_ub {sz : Nat} {bytes : List Nat} {d : FData} {p : Nat} (hp : d.ptr = .map p)
    (n : Nat) : ∀ pos, bytes.length < (pos + n) * sz → 0 < n → readLoop sz bytes (some d) pos n = ub := by
  induction n with
  | zero => intro pos _ h; omega
  | succ n ih =>
    intro pos h _
    rw [readLoop, at', hp]
    dsimp only
    by_cases hle : (pos + 1) * sz ≤ bytes.length
    · rw [if_pos hle, pure_bind]
      by_cases hn : 0 < n
      · rw [ih (pos + 1) (by rw [show pos + 1 + n = pos + (n + 1) by omega]; exact h) hn, ub_bind]
      · obtain rfl : n = 0 := by omega
        rw [Nat.zero_add] at h
        omega
    · rw [if_neg hle, ub_bind]

/-- C281, part: for elements of one byte the elements from `begin( )` to `end( )` of a file that was opened are the bytes of
the file. -/
theorem C281_content_partial {k k' : Sys} {v : Option FData} {a : Answer} {d : FData}
    (h : openOn k v a = pure (k', d, true)) {bytes : List Nat} (hb : (bytes.length : Int) = a.size) :
    readAll 1 bytes (some d) = pure (bytes.map fun b => [b]) := by
  obtain ⟨_, _, _, h4⟩ := C281_open h
  obtain ⟨e, p, hp, _⟩ := h4 rfl
  rw [readAll]
  rw [readLoop_bytes bytes rfl hp d.size 0 (by omega), List.drop_zero]

example := C281_content_partial (k := ⟨[], [], 0⟩) (v := none) (a := ⟨some 3, 3, some 7⟩) (k' := ⟨[3], [(7, 3)], 0⟩) (d := ⟨some 3, .map 7, 3⟩) (by decide +kernel)
  (bytes := [104, 105, 10]) rfl

/-- C281: a file that was never opened or was moved from has no elements to go through; the loop ends the program. -/
theorem C281_content_none (sz : Nat) (bytes : List Nat) : readAll sz bytes none = abort ∧ ∀ pos, at' sz bytes none pos = abort := ⟨rfl, fun _ => rfl⟩

/-- C281 does not hold for larger elements: the size is in bytes but used as a number of elements, so that the loop from
`begin( )` to `end( )` leaves the file, whatever file was opened. -/
theorem C281_content_violated {k k' : Sys} {v : Option FData} {a : Answer} {d : FData}
    (h : openOn k v a = pure (k', d, true)) {bytes : List Nat} (hb : (bytes.length : Int) = a.size) {sz : Nat}
    (hsz : 1 < sz) : readAll sz bytes (some d) = ub := by
  obtain ⟨h1, _, _, h4⟩ := C281_open h
  obtain ⟨e, p, hp, _⟩ := h4 rfl
  have hpos := (h1.1 rfl).2.1
  have hd : d.size = bytes.length := by omega
  rw [readAll]
  apply readLoop_ub hp
  · rw [Nat.zero_add, hd]
    calc bytes.length < bytes.length * 2 := by omega
      _ ≤ bytes.length * sz := Nat.mul_le_mul_left _ hsz
  · omega

example : openOn ⟨[], [], 0⟩ none ⟨some 3, 3, some 7⟩ = pure (⟨[3], [(7, 3)], 0⟩, ⟨some 3, .map 7, 3⟩, true) ∧
    readAll 1 [104, 105, 10] (some ⟨some 3, .map 7, 3⟩) = pure [[104], [105], [10]] ∧
    readAll 2 [104, 105, 10] (some ⟨some 3, .map 7, 3⟩) = ub := by decide +kernel

end Verif.Own.MappedFile
