import Verif.Base
import Verif.Containers.Lists
import Mathlib.Data.List.Nodup

/-
Owners of the buffers of containers, include/daw/impl/daw_container_help_impl.h, and storage for one object, include/daw/daw_uninitialized_storage.h.
-/

namespace Verif.Own.ContainerData
open Verif Verif.Cxx

/-! ## Buffers of containers -/

/-- A buffer: its name, how many elements at its start are alive, and the capacity it was allocated with. (Rule of C++ or its library, no line of the source.) -/
structure Buff where
  name : Nat
  live : Nat
  alloc : Nat

/-- A `container_data`, daw_container_help_impl.h 57-65: the pointer and the capacity in the deleter, 27, of the `std::unique_ptr`, and the size. -/
structure Data where
  ptr : Option Buff
  cap : Nat
  size : Nat

/-- The objects, the elements destroyed, as buffer and index, and the buffers deallocated. (Specification, no line of the source.) -/
structure World where
  objs : List Data
  destroyed : List (Nat × Nat)
  freed : List Nat

/-- The loop of the deleter, daw_container_help_impl.h 47-49: elements `count` - 1 to 0 are destroyed, the last first.  Destroying an element that is
not alive is undefined. -/
def destroyLoop (b : Buff) : Nat → List (Nat × Nat) → Cxx (List (Nat × Nat))
  | 0, log => pure log
  | count + 1, log => if count < b.live then destroyLoop b count ((b.name, count) :: log) else ub

/-- `container_deleter::operator( )`, daw_container_help_impl.h 43-53, for elements with a trivial destructor or not.  Deallocating a buffer twice or with
another capacity is undefined. -/
def deleter (trivial : Bool) (w : World) (b : Buff) (cap : Nat) : Cxx World := do
  let log ← if trivial then pure w.destroyed else destroyLoop b cap w.destroyed
  if b.name ∈ w.freed ∨ cap ≠ b.alloc then ub
  else pure { w with destroyed := log, freed := b.name :: w.freed }

/-- `m_data.reset( p )` of the `std::unique_ptr` at `i`: the deleter is called for a pointer that is not null, and sets its capacity to 0,
daw_container_help_impl.h 52. -/
def resetPtr (trivial : Bool) (w : World) (i : Nat) (p : Option Buff) : Cxx World :=
  match w.objs[i]? with
  | none => pure w
  | some d =>
    match d.ptr with
    | none => pure { w with objs := w.objs.set i { d with ptr := p } }
    | some b => do
      let w' ← deleter trivial w b d.cap
      pure { w' with objs := w'.objs.set i { d with ptr := p, cap := 0 } }

/-- What a program does with these objects, daw_container_help_impl.h 57-93; copies are not possible.  `make` is the constructor with a buffer, 70-75. -/
inductive Op
  | make (name sz cap : Nat)
  | moveMake (i : Nat)
  | assign (i j : Nat)
  | reset (i : Nat)
  | destroy (i : Nat)

/-- The operations, daw_container_help_impl.h 57-93.  An index without an object does nothing.  The move constructor and the move assignment are implicit: the
pointer of the source becomes null, its capacity and size stay.  A destroyed object is left as an owner of nothing. -/
def step (trivial : Bool) (w : World) : Op → Cxx World
  | .make name sz cap => pure { w with objs := w.objs ++ [⟨some ⟨name, sz, cap⟩, cap, sz⟩] }
  | .moveMake i =>
    match w.objs[i]? with
    | none => pure w
    | some d => pure { w with objs := w.objs.set i { d with ptr := none } ++ [d] }
  | .assign i j =>
    match w.objs[j]? with
    | none => pure w
    | some d => do
      let w' ← resetPtr trivial { w with objs := w.objs.set j { d with ptr := none } } i d.ptr
      match w'.objs[i]? with
      | none => pure w
      | some e => pure { w' with objs := w'.objs.set i { e with cap := d.cap, size := d.size } }
  | .reset i => do
    let w' ← resetPtr trivial w i none
    match w'.objs[i]? with
    | none => pure w'
    | some e => pure { w' with objs := w'.objs.set i { e with size := 0 } }
  | .destroy i => resetPtr trivial w i none

/-- A program, daw_container_help_impl.h 57-93. -/
def run (trivial : Bool) (w : World) (ops : List Op) : Cxx World := ops.foldlM (step trivial) w

/-! ### Proofs -/

/-- The names of the buffers held. (Specification, no line of the source.) -/
def held (w : World) : List (Option Nat) := w.objs.map fun d => d.ptr.map Buff.name

/-- How often a buffer is held or freed. (Specification, no line of the source.) -/
def uses (w : World) (n : Nat) : Nat := (held w).count (some n) + w.freed.count n

/-- The buffers given. (Specification, no line of the source.) -/
def given : List Op → List Nat
  | [] => []
  | .make n _ _ :: ops => n :: given ops
  | _ :: ops => given ops

/-- Every buffer held is described by its owner, and deleting it destroys exactly the elements that are alive; elements were only destroyed with their
buffer, once each. (Specification, no line of the source.) -/
def Good (trivial : Bool) (w : World) : Prop :=
  (∀ n, uses w n ≤ 1) ∧ (∀ d ∈ w.objs, ∀ b, d.ptr = some b → d.cap = b.alloc ∧ (trivial = true ∨ b.live = b.alloc)) ∧
  w.destroyed.Nodup ∧ ∀ e ∈ w.destroyed, e.1 ∈ w.freed

/-- The buffers are full, or the elements have a trivial destructor. (Specification, no line of the source.) -/
def Full (trivial : Bool) (ops : List Op) : Prop := ∀ n sz cap, Op.make n sz cap ∈ ops → trivial = true ∨ sz = cap

theorem destroyLoop_eq (b : Buff) (n : Nat) (log : List (Nat × Nat)) (h : n ≤ b.live) :
    destroyLoop b n log = pure ((List.range n).map (fun i => (b.name, i)) ++ log) := by
  induction n generalizing log with
  | zero => simp [destroyLoop]
  | succ n ih => rw [destroyLoop, if_pos (by omega), ih _ (by omega), List.range_succ]; simp

theorem deleter_spec (trivial : Bool) (w : World) (b : Buff) (cap : Nat) (hc : cap = b.alloc) (hl : trivial = true ∨ b.live = b.alloc)
    (hf : b.name ∉ w.freed) (hn : w.destroyed.Nodup) (hd : ∀ e ∈ w.destroyed, e.1 ∈ w.freed) :
    ∃ log, deleter trivial w b cap = pure { w with destroyed := log, freed := b.name :: w.freed } ∧ log.Nodup ∧
      (∀ e ∈ log, e.1 ∈ b.name :: w.freed) ∧ (trivial = false → ∀ i, (b.name, i) ∈ log ↔ i < cap) := by
  unfold deleter
  cases trivial with
  | true =>
    refine ⟨w.destroyed, ?_, hn, fun e he => by simp [hd e he], by simp⟩
    simp [hf, hc]
  | false =>
    have hl : b.live = b.alloc := by simpa using hl
    refine ⟨(List.range cap).map (fun i => (b.name, i)) ++ w.destroyed, ?_, ?_, ?_, ?_⟩
    · rw [if_neg (by simp), destroyLoop_eq b cap _ (by omega), pure_bind]
      exact if_neg (by simp [hf, hc])
    · rw [List.nodup_append]
      refine ⟨?_, hn, ?_⟩
      · rw [List.nodup_iff_pairwise_ne, List.pairwise_map]
        apply List.Pairwise.imp _ (List.nodup_iff_pairwise_ne.1 List.nodup_range)
        intro a b hab h
        exact hab (by simpa using h)
      · intro x hx y hy hxy
        simp only [List.mem_map, List.mem_range] at hx
        obtain ⟨i, _, rfl⟩ := hx
        exact hf (hd _ (hxy ▸ hy))
    · intro e he
      rw [List.mem_append, List.mem_map] at he
      rcases he with ⟨i, _, rfl⟩ | he
      · simp
      · simp [hd e he]
    · intro _ i
      rw [List.mem_append, List.mem_map]
      refine ⟨?_, fun h => .inl ⟨i, by simpa using h, rfl⟩⟩
      rintro (⟨j, hj, he⟩ | h)
      · obtain rfl : j = i := by simpa using he
        simpa using hj
      · exact absurd (hd _ h) hf

theorem count_set {l : List (Option Nat)} {i : Nat} {p q : Option Nat} (h : l[i]? = some p) (x : Option Nat) :
    (l.set i q).count x + (if p = x then 1 else 0) = l.count x + (if q = x then 1 else 0) := by
  obtain ⟨hi, hp⟩ := List.getElem?_eq_some_iff.1 h
  rw [List.count_set hi, hp]
  have : (if p = x then 1 else 0) ≤ l.count x := by
    split
    · rename_i hx
      exact List.count_pos_iff.2 (hx ▸ List.mem_of_getElem? h)
    · omega
  simp only [beq_iff_eq]
  omega

theorem held_set (w : World) (i : Nat) (d : Data) :
    held { w with objs := w.objs.set i d } = (held w).set i (d.ptr.map Buff.name) := by
  simp [held, List.map_set]

theorem held_get {w : World} {i : Nat} {d : Data} (h : w.objs[i]? = some d) : (held w)[i]? = some (d.ptr.map Buff.name) := by
  simp [held, h]

theorem mem_set {α : Type} {l : List α} {i : Nat} {a x : α} (h : x ∈ l.set i a) : x ∈ l ∨ x = a := by
  rcases List.mem_or_eq_of_mem_set h with h | h
  · exact .inl h
  · exact .inr h

/-- Deleting what the object at `i` holds keeps everything in order; the object then holds `p`. -/
theorem resetPtr_spec (trivial : Bool) (w : World) (i : Nat) (p : Option Buff) (h : Good trivial w) (hi : i < w.objs.length) :
    ∃ w' d d', resetPtr trivial w i p = pure w' ∧ w.objs[i]? = some d ∧ w'.objs = w.objs.set i d' ∧ d'.ptr = p ∧ d'.size = d.size ∧
      (∀ n, uses w' n = uses w n + if p.map Buff.name = some n then 1 else 0) ∧ w'.destroyed.Nodup ∧ (∀ e ∈ w'.destroyed, e.1 ∈ w'.freed) ∧
      (∀ b, d.ptr = some b → b.name ∈ w'.freed ∧ (trivial = false → ∀ k, (b.name, k) ∈ w'.destroyed ↔ k < b.live)) := by
  obtain ⟨hu, hd, hn, hf⟩ := h
  have hg := List.getElem?_eq_getElem hi
  unfold resetPtr
  rw [hg]
  generalize hdd : w.objs[i] = d at *
  have hheld := held_get hg
  cases hdp : d.ptr with
  | none =>
    refine ⟨{ w with objs := w.objs.set i { d with ptr := p } }, d, { d with ptr := p }, by simp only [hdp], rfl, rfl, rfl, rfl, fun n => ?_, hn, hf, fun b hb => by rw [hdp] at hb; cases hb⟩
    unfold uses
    rw [held_set]
    have := count_set (q := p.map Buff.name) hheld (some n)
    simp only [hdp, Option.map_none, reduceCtorEq, if_false, Nat.add_zero] at this ⊢
    omega
  | some b =>
    have hmem : d ∈ w.objs := List.mem_of_getElem? hg
    obtain ⟨hc, hl⟩ := hd d hmem b hdp
    have hheld' : (held w).count (some b.name) > 0 := by
      apply List.count_pos_iff.2
      have := List.mem_of_getElem? hheld
      rwa [hdp] at this
    have hfr : b.name ∉ w.freed := by
      intro hm
      have := List.count_pos_iff.2 hm
      have := hu b.name
      unfold uses at this
      omega
    obtain ⟨log, hdel, hln, hlf, hle⟩ := deleter_spec trivial w b d.cap hc hl hfr hn hf
    refine ⟨_, d, { d with ptr := p, cap := 0 }, by simp only [hdp, hdel, pure_bind]; rfl, rfl, rfl, rfl, rfl, fun n => ?_, hln, hlf, fun b' hb' => ?_⟩
    · have := count_set (q := p.map Buff.name) hheld (some n)
      have hs := held_set w i { d with ptr := p, cap := 0 }
      simp only [uses, held] at hs hheld this ⊢
      rw [hs]
      simp only [hdp, Option.map_some, Option.some.injEq, List.count_cons, beq_iff_eq] at this ⊢
      omega
    · obtain rfl : b = b' := by rw [hdp] at hb'; simpa using hb'
      refine ⟨by simp, fun ht k => ?_⟩
      rw [hle ht k]
      rw [ht] at hl
      have : b.live = b.alloc := by simpa using hl
      omega

theorem good_null {trivial : Bool} {w : World} (h : Good trivial w) {j : Nat} {d : Data} (hj : w.objs[j]? = some d) :
    Good trivial { w with objs := w.objs.set j { d with ptr := none } } ∧
    ∀ n, uses { w with objs := w.objs.set j { d with ptr := none } } n + (if d.ptr.map Buff.name = some n then 1 else 0) = uses w n := by
  have hc : ∀ n, uses { w with objs := w.objs.set j { d with ptr := none } } n + (if d.ptr.map Buff.name = some n then 1 else 0) = uses w n := by
    intro n
    have := count_set (q := none) (held_get hj) (some n)
    have hs := held_set w j { d with ptr := none }
    simp only [uses, hs]
    simp only [Option.map_none, reduceCtorEq, if_false, Nat.add_zero] at this ⊢
    omega
  refine ⟨⟨fun n => ?_, ?_, h.2.2.1, h.2.2.2⟩, hc⟩
  · have := hc n
    have := h.1 n
    omega
  · intro e he b hb
    rcases mem_set he with he | rfl
    · exact h.2.1 e he b hb
    · cases hb

theorem uses_append (w : World) (d : Data) (n : Nat) :
    uses { w with objs := w.objs ++ [d] } n = uses w n + if d.ptr.map Buff.name = some n then 1 else 0 := by
  simp only [uses, held, List.map_append, List.map_cons, List.map_nil, List.count_append, List.count_cons, List.count_nil, beq_iff_eq]
  omega

theorem step_spec (trivial : Bool) (w : World) (op : Op) (h : Good trivial w) (hg : ∀ n, uses w n + (given [op]).count n ≤ 1)
    (hf : Full trivial [op]) : ∃ w', step trivial w op = pure w' ∧ Good trivial w' ∧ ∀ n, uses w' n = uses w n + (given [op]).count n := by
  cases op with
  | make name sz cap =>
    have hu := uses_append w ⟨some ⟨name, sz, cap⟩, cap, sz⟩
    have hx : ∀ n, uses { w with objs := w.objs ++ [⟨some ⟨name, sz, cap⟩, cap, sz⟩] } n = uses w n + (given [.make name sz cap]).count n := by
      intro n
      rw [hu n]
      simp [given, List.count_cons]
    refine ⟨_, rfl, ⟨fun n => by rw [hx]; exact hg n, ?_, h.2.2.1, h.2.2.2⟩, hx⟩
    intro d hd b hb
    rw [List.mem_append] at hd
    rcases hd with hd | hd
    · exact h.2.1 d hd b hb
    · simp only [List.mem_cons, List.not_mem_nil, or_false] at hd
      subst hd
      obtain rfl : (⟨name, sz, cap⟩ : Buff) = b := by simpa using hb
      exact ⟨rfl, hf name sz cap (by simp)⟩
  | moveMake i =>
    simp only [step]
    cases hi : w.objs[i]? with
    | none => exact ⟨w, rfl, h, fun n => by simp [given]⟩
    | some d =>
      obtain ⟨h1, hc⟩ := good_null h hi
      have hu := uses_append { w with objs := w.objs.set i { d with ptr := none } } d
      have hx : ∀ n, uses { w with objs := w.objs.set i { d with ptr := none } ++ [d] } n = uses w n := by
        intro n
        rw [← hc n]
        exact hu n
      refine ⟨_, rfl, ⟨fun n => by rw [hx]; exact h.1 n, ?_, h.2.2.1, h.2.2.2⟩, fun n => by rw [hx]; simp [given]⟩
      intro e he b hb
      rw [List.mem_append] at he
      rcases he with he | he
      · exact h1.2.1 e he b hb
      · simp only [List.mem_cons, List.not_mem_nil, or_false] at he
        subst he
        exact h.2.1 e (List.mem_of_getElem? hi) b hb
  | assign i j =>
    simp only [step]
    cases hj : w.objs[j]? with
    | none => exact ⟨w, rfl, h, fun n => by simp [given]⟩
    | some d =>
      obtain ⟨h1, hc⟩ := good_null h hj
      by_cases hi : i < w.objs.length
      · obtain ⟨w', e, d', hr, _, hobjs, hptr, _, huse, hnd, hfr, _⟩ := resetPtr_spec trivial _ i d.ptr h1 (by simpa using hi)
        have hlen : i < w'.objs.length := by rw [hobjs]; simpa using hi
        have hget : w'.objs[i]? = some d' := by
          rw [hobjs, List.getElem?_set_self (by simpa using hi)]
        simp only [hr, pure_bind, hget]
        have hx : ∀ n, uses { w' with objs := w'.objs.set i { d' with cap := d.cap, size := d.size } } n = uses w n := by
          intro n
          have hs := held_set w' i { d' with cap := d.cap, size := d.size }
          have h4 := count_set (q := d'.ptr.map Buff.name) (held_get hget) (some n)
          have h5 := huse n
          have h6 := hc n
          rw [← hptr] at h6 h5
          simp only [uses, hs] at h4 h5 h6 ⊢
          omega
        refine ⟨_, rfl, ⟨fun n => by rw [hx]; exact h.1 n, ?_, hnd, hfr⟩, fun n => by rw [hx]; simp [given]⟩
        intro x hxm b hb
        rw [show ({ w' with objs := w'.objs.set i { d' with cap := d.cap, size := d.size } } : World).objs = _ from rfl, hobjs, List.set_set] at hxm
        rcases mem_set hxm with hxm | rfl
        · exact h1.2.1 x hxm b hb
        · exact h.2.1 d (List.mem_of_getElem? hj) b (by rw [← hptr]; exact hb)
      · have : ∃ w', resetPtr trivial { w with objs := w.objs.set j { d with ptr := none } } i d.ptr = pure w' ∧ w'.objs[i]? = none := by
          refine ⟨{ w with objs := w.objs.set j { d with ptr := none } }, ?_, ?_⟩
          · unfold resetPtr
            rw [List.getElem?_eq_none (by simpa using hi)]
          · exact List.getElem?_eq_none (by simpa using hi)
        obtain ⟨w', hr, hget⟩ := this
        simp only [hr, pure_bind, hget]
        exact ⟨w, rfl, h, fun n => by simp [given]⟩
  | reset i =>
    simp only [step]
    by_cases hi : i < w.objs.length
    · obtain ⟨w', e, d', hr, _, hobjs, hptr, _, huse, hnd, hfr, _⟩ := resetPtr_spec trivial w i none h hi
      have hget : w'.objs[i]? = some d' := by
        rw [hobjs, List.getElem?_set_self hi]
      simp only [hr, pure_bind, hget]
      have hx : ∀ n, uses { w' with objs := w'.objs.set i { d' with size := 0 } } n = uses w n := by
        intro n
        have hs := held_set w' i { d' with size := 0 }
        have h4 := count_set (q := d'.ptr.map Buff.name) (held_get hget) (some n)
        have h5 := huse n
        simp only [Option.map_none, reduceCtorEq, if_false] at h5
        simp only [uses, hs] at h4 h5 ⊢
        omega
      refine ⟨_, rfl, ⟨fun n => by rw [hx]; exact h.1 n, ?_, hnd, hfr⟩, fun n => by rw [hx]; simp [given]⟩
      intro x hxm b hb
      rw [show ({ w' with objs := w'.objs.set i { d' with size := 0 } } : World).objs = _ from rfl, hobjs, List.set_set] at hxm
      rcases mem_set hxm with hxm | rfl
      · exact h.2.1 x hxm b hb
      · rw [show ({ d' with size := 0 } : Data).ptr = d'.ptr from rfl, hptr] at hb
        cases hb
    · have hr : resetPtr trivial w i none = pure w := by
        unfold resetPtr
        rw [List.getElem?_eq_none (by simpa using hi)]
      have hget : w.objs[i]? = none := List.getElem?_eq_none (by simpa using hi)
      simp only [hr, pure_bind, hget]
      exact ⟨w, rfl, h, fun n => by simp [given]⟩
  | destroy i =>
    simp only [step]
    by_cases hi : i < w.objs.length
    · obtain ⟨w', e, d', hr, _, hobjs, hptr, _, huse, hnd, hfr, _⟩ := resetPtr_spec trivial w i none h hi
      have hx : ∀ n, uses w' n = uses w n := fun n => by simpa using huse n
      refine ⟨w', hr, ⟨fun n => by rw [hx]; exact h.1 n, ?_, hnd, hfr⟩, fun n => by rw [hx]; simp [given]⟩
      intro x hxm b hb
      rw [hobjs] at hxm
      rcases mem_set hxm with hxm | rfl
      · exact h.2.1 x hxm b hb
      · rw [hptr] at hb
        cases hb
    · have hr : resetPtr trivial w i none = pure w := by
        unfold resetPtr
        rw [List.getElem?_eq_none (by simpa using hi)]
      exact ⟨w, hr, h, fun n => by simp [given]⟩

theorem given_cons (op : Op) (ops : List Op) (n : Nat) : List.count n (given (op :: ops)) = List.count n (given [op]) + List.count n (given ops) := by
  cases op <;> simp [given, List.count_cons]
  omega

theorem run_spec (trivial : Bool) (ops : List Op) (w : World) (h : Good trivial w) (hg : ∀ n, uses w n + (given ops).count n ≤ 1)
    (hf : Full trivial ops) : ∃ w', run trivial w ops = pure w' ∧ Good trivial w' ∧ ∀ n, uses w' n = uses w n + (given ops).count n := by
  induction ops generalizing w with
  | nil => exact ⟨w, rfl, h, by simp [given]⟩
  | cons op ops ih =>
    obtain ⟨w₁, h₁, hw₁, hu₁⟩ := step_spec trivial w op h (fun n => by have := hg n; have h2 := given_cons op ops n; omega)
      (fun n sz cap hm => hf n sz cap (by simp at hm; simp [hm]))
    obtain ⟨w₂, h₂, hw₂, hu₂⟩ := ih w₁ hw₁ (fun n => by have := hg n; have h2 := given_cons op ops n; rw [hu₁]; omega)
      (fun n sz cap hm => hf n sz cap (by simp [hm]))
    refine ⟨w₂, ?_, hw₂, fun n => by rw [hu₂, hu₁, given_cons op ops]; omega⟩
    unfold run at h₂ ⊢
    rw [List.foldlM_cons, h₁, pure_bind, h₂]

/-- **C302.**  Whatever a program does with these objects, made from different buffers that are full or of elements with a trivial destructor: nothing
undefined happens; every buffer is either held by one object or was deallocated once; no element is destroyed twice. -/
theorem C302_once_partial (trivial : Bool) (ops : List Op) (hg : (given ops).Nodup) (hf : Full trivial ops) :
    ∃ w, run trivial ⟨[], [], []⟩ ops = pure w ∧ (∀ n ∈ given ops, (held w).count (some n) + w.freed.count n = 1) ∧
      (∀ n, n ∉ given ops → some n ∉ held w ∧ n ∉ w.freed) ∧ w.destroyed.Nodup ∧ ∀ e ∈ w.destroyed, e.1 ∈ w.freed := by
  obtain ⟨w, hr, hw, hu⟩ := run_spec trivial ops ⟨[], [], []⟩ ⟨by simp [uses, held], by simp, by simp, by simp⟩
    (fun n => by simpa [uses, held] using List.nodup_iff_count_le_one.1 hg n) hf
  refine ⟨w, hr, fun n hn => ?_, fun n hn => ?_, hw.2.2.1, hw.2.2.2⟩
  · have := hu n
    have h1 := List.nodup_iff_count_le_one.1 hg n
    have h2 := List.count_pos_iff.2 hn
    simp only [uses, held, List.map_nil, List.count_nil] at this ⊢
    omega
  · have := hu n
    rw [List.count_eq_zero.2 hn] at this
    have h0 : uses w n = 0 := by simpa [uses, held] using this
    unfold uses at h0
    exact ⟨List.count_eq_zero.1 (by omega), List.count_eq_zero.1 (by omega)⟩

example : ∃ w, run false ⟨[], [], []⟩ [.make 7 2 2, .make 8 1 1, .assign 1 0, .destroy 0, .reset 1] = pure w ∧ w.freed = [7, 8] := ⟨_, rfl, rfl⟩

example : (given [.make 7 2 2, .make 8 1 1, .assign 1 0]).Nodup ∧ Full false [.make 7 2 2, .make 8 1 1, .assign 1 0] := by
  refine ⟨by decide, ?_⟩
  intro n sz cap h
  simp at h
  omega

/-- **C302.**  Destroying or resetting an object deallocates what it held and destroys exactly the elements alive in it. -/
theorem C302_destroyed (w : World) (i : Nat) (b : Buff) (d : Data) (h : Good false w) (hi : w.objs[i]? = some d) (hb : d.ptr = some b) :
    ∃ w', step false w (.destroy i) = pure w' ∧ b.name ∈ w'.freed ∧ (∀ k, (b.name, k) ∈ w'.destroyed ↔ k < b.live) ∧
      ∃ d', w'.objs = w.objs.set i d' ∧ d'.ptr = none := by
  obtain ⟨hi', _⟩ := List.getElem?_eq_some_iff.1 hi
  obtain ⟨w', e, d', hr, he, hobjs, hptr, _, _, _, _, hx⟩ := resetPtr_spec false w i none h hi'
  rw [hi] at he
  obtain rfl : d = e := by simpa using he
  exact ⟨w', hr, (hx b hb).1, (hx b hb).2 rfl, d', hobjs, hptr⟩

example : Good false ⟨[⟨some ⟨7, 2, 2⟩, 2, 2⟩], [], []⟩ := by
  refine ⟨?_, ?_, by simp, by simp⟩
  · intro n
    simp only [uses, held, List.map_cons, List.map_nil, Option.map_some, List.count_cons, List.count_nil]
    split <;> omega
  · intro d hd b hb
    simp only [List.mem_cons, List.not_mem_nil, or_false] at hd
    subst hd
    obtain rfl : (⟨7, 2, 2⟩ : Buff) = b := by simpa using hb
    simp

/-- **C302** (finding).  The deleter destroys as many elements as the buffer has room for, not as many as it holds: with elements that have a destructor
and room to spare, destroying or resetting the object is undefined. -/
theorem C302_spare_violated (name sz cap : Nat) (h : sz < cap) (w : World) :
    run false w [.make name sz cap, .destroy w.objs.length] = ub ∧ run false w [.make name sz cap, .reset w.objs.length] = ub := by
  have hl : ∀ log, destroyLoop ⟨name, sz, cap⟩ cap log = ub := by
    intro log
    obtain ⟨k, rfl⟩ : ∃ k, cap = k + 1 := ⟨cap - 1, by omega⟩
    rw [destroyLoop, if_neg (by simp; omega)]
  constructor <;> simp [run, step, resetPtr, deleter, hl, ub_bind]

example : run false ⟨[], [], []⟩ [.make 7 1 2, .destroy 0] = ub := (C302_spare_violated 7 1 2 (by omega) _).1

/-- **C302** (finding).  The implicit move constructor leaves the size and the capacity behind: the object moved from holds nothing and reports what it held. -/
theorem C302_moved_violated (trivial : Bool) (name sz cap : Nat) :
    run trivial ⟨[], [], []⟩ [.make name sz cap, .moveMake 0] = pure ⟨[⟨none, cap, sz⟩, ⟨some ⟨name, sz, cap⟩, cap, sz⟩], [], []⟩ := rfl

example : run false ⟨[], [], []⟩ [.make 7 2 2, .moveMake 0] = pure ⟨[⟨none, 2, 2⟩, ⟨some ⟨7, 2, 2⟩, 2, 2⟩], [], []⟩ := C302_moved_violated false 7 2 2

/-! ## Storage for one object -/

/-- Storages, each with its object if one is alive in it, the objects made and the objects destroyed. (Specification, no line of the source.) -/
structure Storages (T : Type) where
  slots : List (Option T)
  made : List T
  destroyed : List T

/-- What a program does with storages, daw_uninitialized_storage.h 38-47, 61-67, 89-91; `copy` is the implicit copy constructor, 22-25 and 33. -/
inductive Use (T : Type)
  | make
  | construct (i : Nat) (v : T)
  | read (i : Nat)
  | destruct (i : Nat)
  | copy (i : Nat)

/-- The uses, daw_uninitialized_storage.h 38-47, 61-67, 89-91, with the values read.  An index without a storage does nothing.  Reading or destroying without an
object is undefined.  The copy constructor copies the bytes, 33: that gives an object when `trivial`, the type being trivially copyable, and none otherwise.
The storage has no destructor. -/
def use {T : Type} (trivial : Bool) (w : Storages T) : Use T → Cxx (Storages T × Option T)
  | .make => pure ({ w with slots := w.slots ++ [none] }, none)
  | .construct i v =>
    if i < w.slots.length then pure ({ w with slots := w.slots.set i (some v), made := v :: w.made }, none) else pure (w, none)
  | .read i =>
    match w.slots[i]? with
    | none => pure (w, none)
    | some none => ub
    | some (some v) => pure (w, some v)
  | .destruct i =>
    match w.slots[i]? with
    | none => pure (w, none)
    | some none => ub
    | some (some v) => pure ({ w with slots := w.slots.set i none, destroyed := v :: w.destroyed }, none)
  | .copy i =>
    match w.slots[i]? with
    | none => pure (w, none)
    | some s => pure ({ w with slots := w.slots ++ [if trivial then s else none], made := if trivial then s.toList ++ w.made else w.made }, none)

/-- A program, daw_uninitialized_storage.h 38-91, with the state at its end. -/
def useAll {T : Type} (trivial : Bool) (w : Storages T) (us : List (Use T)) : Cxx (Storages T) :=
  us.foldlM (fun w u => do let r ← use trivial w u; pure r.1) w

/-- No object is made where one is alive. (Specification, no line of the source.) -/
def Clean {T : Type} (trivial : Bool) : Storages T → List (Use T) → Prop
  | _, [] => True
  | w, u :: us => (∀ i v, u = .construct i v → ∀ x, w.slots[i]? ≠ some (some x)) ∧
    ∀ w' r, use trivial w u = pure (w', r) → Clean trivial w' us

theorem count_set' {T : Type} [DecidableEq T] {l : List (Option T)} {i : Nat} {p q : Option T} (h : l[i]? = some p) (x : Option T) :
    (l.set i q).count x + (if p = x then 1 else 0) = l.count x + (if q = x then 1 else 0) := by
  obtain ⟨hi, hp⟩ := List.getElem?_eq_some_iff.1 h
  rw [List.count_set hi, hp]
  have : (if p = x then 1 else 0) ≤ l.count x := by
    split
    · rename_i hx
      exact List.count_pos_iff.2 (hx ▸ List.mem_of_getElem? h)
    · omega
  simp only [beq_iff_eq]
  omega

theorem use_count {T : Type} [DecidableEq T] (trivial : Bool) (w w' : Storages T) (u : Use T) (r : Option T)
    (hc : ∀ i v, u = .construct i v → ∀ x, w.slots[i]? ≠ some (some x)) (h : use trivial w u = pure (w', r)) (x : T)
    (hw : w.made.count x = w.slots.count (some x) + w.destroyed.count x) :
    w'.made.count x = w'.slots.count (some x) + w'.destroyed.count x := by
  cases u with
  | make =>
    simp only [use, Cxx.pure_inj, Prod.mk.injEq] at h
    obtain ⟨rfl, _⟩ := h
    simp [hw]
  | construct i v =>
    simp only [use] at h
    by_cases hi : i < w.slots.length
    · rw [if_pos hi] at h
      simp only [Cxx.pure_inj, Prod.mk.injEq] at h
      obtain ⟨rfl, _⟩ := h
      have hn : w.slots[i]? = some none := by
        have := hc i v rfl
        rw [List.getElem?_eq_getElem hi] at this ⊢
        cases hs : w.slots[i] with
        | none => rfl
        | some y => exact absurd (by rw [hs]) (this y)
      have := count_set' (q := some v) hn (some x)
      simp only [reduceCtorEq, if_false, Option.some.injEq] at this
      simp only [List.count_cons, beq_iff_eq]
      omega
    · rw [if_neg hi] at h
      simp only [Cxx.pure_inj, Prod.mk.injEq] at h
      obtain ⟨rfl, _⟩ := h
      exact hw
  | read i =>
    simp only [use] at h
    split at h
    · simp only [Cxx.pure_inj, Prod.mk.injEq] at h
      obtain ⟨rfl, _⟩ := h
      exact hw
    · exact absurd h (Cxx.ub_ne_pure _)
    · simp only [Cxx.pure_inj, Prod.mk.injEq] at h
      obtain ⟨rfl, _⟩ := h
      exact hw
  | destruct i =>
    simp only [use] at h
    split at h
    · simp only [Cxx.pure_inj, Prod.mk.injEq] at h
      obtain ⟨rfl, _⟩ := h
      exact hw
    · exact absurd h (Cxx.ub_ne_pure _)
    · rename_i v hv
      simp only [Cxx.pure_inj, Prod.mk.injEq] at h
      obtain ⟨rfl, _⟩ := h
      have := count_set' (q := none) hv (some x)
      simp only [reduceCtorEq, if_false, Option.some.injEq] at this
      simp only [List.count_cons, beq_iff_eq]
      omega
  | copy i =>
    simp only [use] at h
    split at h
    · simp only [Cxx.pure_inj, Prod.mk.injEq] at h
      obtain ⟨rfl, _⟩ := h
      exact hw
    · rename_i s hs
      simp only [Cxx.pure_inj, Prod.mk.injEq] at h
      obtain ⟨rfl, _⟩ := h
      cases trivial with
      | false => simp [hw]
      | true =>
        cases s with
        | none => simp [hw]
        | some v =>
          simp only [if_true, Option.toList_some, List.cons_append, List.nil_append, List.count_cons, List.count_append, List.count_nil, beq_iff_eq,
            Option.some.injEq]
          omega

/-- **C303.**  Whatever a program does with storages without making an object where one is alive: every object made is alive in one storage or was
destroyed once. -/
theorem C303_account {T : Type} [DecidableEq T] (trivial : Bool) (us : List (Use T)) (w w' : Storages T) (hc : Clean trivial w us)
    (h : useAll trivial w us = pure w') (x : T) (hw : w.made.count x = w.slots.count (some x) + w.destroyed.count x) :
    w'.made.count x = w'.slots.count (some x) + w'.destroyed.count x := by
  induction us generalizing w with
  | nil =>
    obtain rfl : w = w' := by simpa [useAll, Cxx.pure_inj] using h
    exact hw
  | cons u us ih =>
    unfold useAll at h ih
    rw [List.foldlM_cons, Cxx.bind_eq_pure] at h
    obtain ⟨w₁, h₁, h₂⟩ := h
    rw [Cxx.bind_eq_pure] at h₁
    obtain ⟨⟨w₂, r⟩, h₃, h₄⟩ := h₁
    obtain rfl : w₂ = w₁ := by simpa [Cxx.pure_inj] using h₄
    exact ih w₂ (hc.2 w₂ r h₃) h₂ (use_count trivial w w₂ u r hc.1 h₃ x hw)

example : useAll false ⟨[], [], []⟩ [.make, .construct 0 7, .read 0, .destruct 0, .construct 0 8] = pure (⟨[some 8], [8, 7], [7]⟩ : Storages Nat) := rfl

/-- **C303.**  What was put into a storage is what is read from it, until it is destroyed, whatever happens to other storages. -/
theorem C303_read_partial {T : Type} (trivial : Bool) (w w' : Storages T) (i : Nat) (v : T) (us : List (Use T)) (hi : w.slots[i]? = some (some v))
    (hu : ∀ u ∈ us, (∀ y, u ≠ .construct i y) ∧ u ≠ .destruct i) (h : useAll trivial w us = pure w') :
    use trivial w' (.read i) = pure (w', some v) := by
  suffices w'.slots[i]? = some (some v) by simp only [use, this]
  induction us generalizing w with
  | nil =>
    obtain rfl : w = w' := by simpa [useAll, Cxx.pure_inj] using h
    exact hi
  | cons u us ih =>
    unfold useAll at h ih
    rw [List.foldlM_cons, Cxx.bind_eq_pure] at h
    obtain ⟨w₁, h₁, h₂⟩ := h
    rw [Cxx.bind_eq_pure] at h₁
    obtain ⟨⟨w₂, r⟩, h₃, h₄⟩ := h₁
    obtain rfl : w₂ = w₁ := by simpa [Cxx.pure_inj] using h₄
    refine ih w₂ ?_ (fun u hm => hu u (by simp [hm])) h₂
    have hlt : i < w.slots.length := (List.getElem?_eq_some_iff.1 hi).1
    have hu := hu u (by simp)
    cases u with
    | make =>
      simp only [use, Cxx.pure_inj, Prod.mk.injEq] at h₃
      obtain ⟨rfl, _⟩ := h₃
      rw [List.getElem?_append_left hlt, hi]
    | construct j y =>
      have hne : j ≠ i := fun e => hu.1 y (by rw [e])
      simp only [use] at h₃
      by_cases hj : j < w.slots.length
      · rw [if_pos hj] at h₃
        simp only [Cxx.pure_inj, Prod.mk.injEq] at h₃
        obtain ⟨rfl, _⟩ := h₃
        rw [List.getElem?_set_ne hne, hi]
      · rw [if_neg hj] at h₃
        simp only [Cxx.pure_inj, Prod.mk.injEq] at h₃
        obtain ⟨rfl, _⟩ := h₃
        exact hi
    | read j =>
      simp only [use] at h₃
      split at h₃
      · simp only [Cxx.pure_inj, Prod.mk.injEq] at h₃
        obtain ⟨rfl, _⟩ := h₃
        exact hi
      · exact absurd h₃ (Cxx.ub_ne_pure _)
      · simp only [Cxx.pure_inj, Prod.mk.injEq] at h₃
        obtain ⟨rfl, _⟩ := h₃
        exact hi
    | destruct j =>
      have hne : j ≠ i := fun e => hu.2 (by rw [e])
      simp only [use] at h₃
      split at h₃
      · simp only [Cxx.pure_inj, Prod.mk.injEq] at h₃
        obtain ⟨rfl, _⟩ := h₃
        exact hi
      · exact absurd h₃ (Cxx.ub_ne_pure _)
      · simp only [Cxx.pure_inj, Prod.mk.injEq] at h₃
        obtain ⟨rfl, _⟩ := h₃
        rw [List.getElem?_set_ne hne, hi]
    | copy j =>
      simp only [use] at h₃
      split at h₃
      · simp only [Cxx.pure_inj, Prod.mk.injEq] at h₃
        obtain ⟨rfl, _⟩ := h₃
        exact hi
      · simp only [Cxx.pure_inj, Prod.mk.injEq] at h₃
        obtain ⟨rfl, _⟩ := h₃
        rw [List.getElem?_append_left hlt, hi]

example : useAll false ⟨[some 7], [7], []⟩ [.make, .construct 1 8, .destruct 1] = pure (⟨[some 7, none], [8, 7], [8]⟩ : Storages Nat) := rfl

/-- **C303** (finding).  A storage of a type that can be copied can be copied too, but only its bytes are: the copy holds no object unless the type is
trivially copyable, and reading or destroying it is undefined. -/
theorem C303_copy_violated {T : Type} (w : Storages T) (v : T) :
    useAll false w [.make, .construct w.slots.length v, .copy w.slots.length, .read (w.slots.length + 1)] = ub ∧
    useAll false w [.make, .construct w.slots.length v, .copy w.slots.length, .destruct (w.slots.length + 1)] = ub := by
  constructor <;> simp [useAll, use] <;> rfl

/-- **C303** (finding).  Making an object where one is alive, and giving up a storage, destroys nothing. -/
theorem C303_lost_violated {T : Type} (trivial : Bool) (v u : T) :
    useAll trivial ⟨[], [], []⟩ [.make, .construct 0 v, .construct 0 u] = pure ⟨[some u], [u, v], []⟩ := rfl

end Verif.Own.ContainerData
