import Verif.Containers.Probe
import Verif.Containers.Lists
import Mathlib.Data.List.Basic

/-
`daw::bounded_hash_set_t`, include/daw/deprecated/daw_bounded_hash_set.h.  The array `m_data` of `Capacity` items is a list; an item
without value is `none` (its key, the one erased last, is not looked at by the set).  The hash function is any function into the 64
bit numbers and `KeyEqual` is equality.  `size` (391-396) hands `accumulate` a function of one argument and the constant `find`
(459-465) calls `find_index` with one argument; neither can be instantiated and they are not modelled.
-/

namespace Verif.Containers.BoundedHashSet
open Cxx Probe

variable {κ : Type} [DecidableEq κ]

/-- `m_data`, daw_bounded_hash_set.h 300. -/
abbrev Table (κ : Type) := List (Option κ)

/-- The default constructor, daw_bounded_hash_set.h 300 and 333-334. -/
def make (κ : Type) (cap : Nat) : Table κ := List.replicate cap none

/-- `find_index`, daw_bounded_hash_set.h 309-330; `cap` is `Capacity`. -/
def findIdx (hash : κ → Nat) (cap : Nat) (t : Table κ) (x : κ) : Cxx (Option Nat) :=
  findIndex (stopAt id x) t cap (hash x)

/-- `insert`, daw_bounded_hash_set.h 336-364: the set and the position of the iterator. -/
def insert (hash : κ → Nat) (cap : Nat) (t : Table κ) (x : κ) : Cxx (Table κ × Nat) := do
  match ← findIdx hash cap t x with
  | none => abort
  | some i =>
    let o ← rd t i
    if o.isNone then do
      let t ← wr t i (some x)
      pure (t, i)
    else pure (t, i)

/-- `erase`, daw_bounded_hash_set.h 366-375. -/
def erase (hash : κ → Nat) (cap : Nat) (t : Table κ) (x : κ) : Cxx (Table κ × Option Nat) := do
  match ← findIdx hash cap t x with
  | none => pure (t, none)
  | some i =>
    let t ← wr t i none
    pure (t, some i)

/-- `exists`, daw_bounded_hash_set.h 377-381. -/
def exists' (hash : κ → Nat) (cap : Nat) (t : Table κ) (x : κ) : Cxx Bool := do
  match ← findIdx hash cap t x with
  | none => pure false
  | some i =>
    let o ← rd t i
    pure o.isSome

/-- `count`, daw_bounded_hash_set.h 383-385: the number is returned as `bool`. -/
def count (hash : κ → Nat) (cap : Nat) (t : Table κ) (x : κ) : Cxx Bool := do
  let b ← exists' hash cap t x
  pure (decide ((if b then 1 else 0) ≠ 0))

omit [DecidableEq κ] in
/-- `empty`, daw_bounded_hash_set.h 398-404. -/
def empty (t : Table κ) : Bool := t.findIdx (fun o => o.isSome) == t.length

omit [DecidableEq κ] in
/-- The loop of `begin`, daw_bounded_hash_set.h 406-431. -/
def firstFrom (cap : Nat) (t : Table κ) (i : Nat) : Cxx Nat :=
  if i ≠ cap then do
    let o ← rd t i
    if o.isNone then firstFrom cap t (i + 1) else pure i
  else pure i
  partial_fixpoint

omit [DecidableEq κ] in
/-- The loop of the iterators' `operator++`, daw_bounded_hash_set.h 79-81 and 170-172; the item is read before the end is tested.
`slack` is 0 for the constant iterator, which tests `<`, and 1 for the other, which tests `<=`. -/
def skip (cap slack : Nat) (t : Table κ) (i : Nat) : Cxx Nat := do
  let o ← rd t i
  if o.isNone ∧ i < cap + slack then skip cap slack t (i + 1) else pure i
  partial_fixpoint

omit [DecidableEq κ] in
/-- A loop from an iterator to `end( )`, daw_bounded_hash_set.h 67-83, 160-174 and 433-449: the items met. -/
def walk (cap slack : Nat) (t : Table κ) (i : Nat) : Cxx (List (Option κ)) := do
  if i = cap then pure []
  else do
    let o ← rd t i
    let i ← skip cap slack t (i + 1)
    let os ← walk cap slack t i
    pure (o :: os)
  partial_fixpoint

/-- `find`, daw_bounded_hash_set.h 451-457. -/
def find (hash : κ → Nat) (cap : Nat) (t : Table κ) (x : κ) : Cxx Nat := do
  match ← findIdx hash cap t x with
  | none => pure cap
  | some i => pure i

/-- `make_bounded_hash_set`, daw_bounded_hash_set.h 468-475. -/
def makeSet (hash : κ → Nat) (items : List κ) : Cxx (Table κ) :=
  items.foldlM (fun t x => do let (t, _) ← insert hash items.length t x; pure t) (make κ items.length)

/-- Calls. (Members of `bounded_hash_set_t`, deprecated/daw_bounded_hash_set.h 336-404.) -/
inductive Op (κ : Type) where
  | insert (x : κ)
  | erase (x : κ)
  | exists (x : κ)
  | count (x : κ)
  | empty

/-- Results. (Members of `bounded_hash_set_t`, deprecated/daw_bounded_hash_set.h 336-404.) -/
inductive Res where
  | done
  | is (b : Bool)
  deriving DecidableEq

/-- The model of a call, daw_bounded_hash_set.h 336-404. -/
def step (hash : κ → Nat) (cap : Nat) (t : Table κ) : Op κ → Cxx (Table κ × Res)
  | .insert x => do
    let (t, _) ← insert hash cap t x
    pure (t, .done)
  | .erase x => do
    let (t, _) ← erase hash cap t x
    pure (t, .done)
  | .exists x => do
    let b ← exists' hash cap t x
    pure (t, .is b)
  | .count x => do
    let b ← count hash cap t x
    pure (t, .is b)
  | .empty => pure (t, .is (empty t))

/-- A history of calls. (Members of `bounded_hash_set_t`, deprecated/daw_bounded_hash_set.h 336-404.) -/
def run (hash : κ → Nat) (cap : Nat) (t : Table κ) : List (Op κ) → Cxx (Table κ × List Res)
  | [] => pure (t, [])
  | o :: os => do
    let (t, r) ← step hash cap t o
    let (t, rs) ← run hash cap t os
    pure (t, r :: rs)

/-! ### The finite set -/

/-- The same call on a finite set, given as list; nothing if there is no room for a new key. (Specification, no line of the source.) -/
def setStep (cap : Nat) (m : List κ) : Op κ → Option (List κ × Res)
  | .insert x => if x ∈ m then some (m, .done) else if m.length < cap then some (x :: m, .done) else none
  | .erase x => some (m.filter fun y => y ≠ x, .done)
  | .exists x => some (m, .is (decide (x ∈ m)))
  | .count x => some (m, .is (decide (x ∈ m)))
  | .empty => some (m, .is (decide (m = [])))

/-- The same history on a finite set. (Specification, no line of the source.) -/
def setRun (cap : Nat) (m : List κ) : List (Op κ) → Option (List κ × List Res)
  | [] => some (m, [])
  | o :: os => do
    let (m, r) ← setStep cap m o
    let (m, rs) ← setRun cap m os
    pure (m, r :: rs)

/-- What holds of the table between calls. (Specification, no line of the source.) -/
structure Inv (hash : κ → Nat) (cap : Nat) (t : Table κ) : Prop where
  ch : Chained id (homeOf hash cap) cap t
  len : t.length = cap

theorem inv_make (κ : Type) (hash : κ → Nat) (cap : Nat) (hc : 0 < cap) :
    Inv hash cap (make κ cap) ∧ entries cap (make κ cap) = [] := by
  obtain ⟨h1, h2⟩ := chained_empty (ε := κ) id hash cap cap hc (Nat.le_refl _)
  exact ⟨⟨h1, by simp [make]⟩, h2⟩

/-- The search tells whether the key is there. -/
theorem find_mem {hash : κ → Nat} {cap : Nat} {t : Table κ} (h : Inv hash cap t) {m : List κ}
    (hm : (entries cap t).Perm m) (x : κ) :
    (∃ i l, findIdx hash cap t x = pure (some i) ∧ i < cap ∧ t[i]? = some (some x) ∧ x ∈ m ∧ m.Perm (x :: l) ∧
      (entries cap (t.set i none)).Perm l) ∨
    (∃ i, findIdx hash cap t x = pure (some i) ∧ i < cap ∧ t[i]? = some none ∧ x ∉ m ∧ m.length < cap ∧
      (entries cap (t.set i (some x))).Perm (x :: m) ∧ Inv hash cap (t.set i (some x))) ∨
    (findIdx hash cap t x = pure none ∧ x ∉ m ∧ m.length = cap) := by
  rcases find_ends id hash cap t h.ch.pos h.ch.len x with ⟨i, e, hi⟩ | ⟨e, hj⟩
  · rcases hi.choose_spec.2.2.1 with ho | ⟨y, ho, hy⟩
    · right; left
      have ha := h.ch.absent hi ho
      refine ⟨i, e, hi.lt, ho, fun hc => ha x (hm.mem_iff.2 hc) rfl, ?_, ?_, ?_⟩
      · rw [← hm.length_eq]; exact entries_lt hi.lt ho
      · exact (entries_add hi.lt ho _).trans (hm.cons _)
      · exact ⟨h.ch.write (e := x) hi, by rw [List.length_set]; exact h.len⟩
    · left
      have hy : y = x := hy
      subst hy
      obtain ⟨l, h1, h2, h3⟩ := entries_replace hi.lt ho
      exact ⟨i, l, e, hi.lt, ho, hm.mem_iff.1 (mem_entries.2 ⟨i, hi.lt, ho⟩), hm.symm.trans h1, h3⟩
  · right; right
    refine ⟨e, fun hc => ?_, ?_⟩
    · obtain ⟨i, hi, he⟩ := mem_entries.1 (hm.mem_iff.2 hc)
      obtain ⟨e', he', hne⟩ := hj i hi
      rw [he] at he'
      injection he' with he'; injection he' with he'
      exact hne he'.symm
    · rw [← hm.length_eq]
      exact entries_full h.ch.len fun j hjl => by
        obtain ⟨e', he', _⟩ := hj j hjl
        exact ⟨e', he'⟩

/-- An erase that cannot break a chain: the place after the entry is free. (Specification, no line of the source.) -/
def Safe (cap : Nat) (t : Table κ) : Op κ → Prop
  | .erase x => ∀ i : Nat, i < cap → t[i]? = some (some x) → t[(i + 1) % cap]? = some none
  | _ => True

/-- All erases of a history are of that kind. (Specification, no line of the source.) -/
def AllSafe (hash : κ → Nat) (cap : Nat) (t : Table κ) : List (Op κ) → Prop
  | [] => True
  | o :: os => Safe cap t o ∧ ∀ t' r, step hash cap t o = pure (t', r) → AllSafe hash cap t' os

omit [DecidableEq κ] in
theorem empty_eq {cap : Nat} {t : Table κ} (hl : t.length = cap) : empty t = true ↔ entries cap t = [] := by
  unfold empty entries
  rw [List.take_of_length_le (by omega), beq_iff_eq, List.findIdx_eq_length, List.filterMap_eq_nil_iff]
  constructor
  · intro h o ho
    have := h o ho
    cases o with
    | none => rfl
    | some x => simp at this
  · intro h o ho
    have := h o ho
    simp only [id] at this
    subst this
    rfl

theorem step_ok {hash : κ → Nat} {cap : Nat} {t : Table κ} (h : Inv hash cap t) {m : List κ}
    (hm : (entries cap t).Perm m) (o : Op κ) (hs : Safe cap t o) :
    (∃ t' m' r, step hash cap t o = pure (t', r) ∧ setStep cap m o = some (m', r) ∧ Inv hash cap t' ∧ (entries cap t').Perm m') ∨
    (step hash cap t o = abort ∧ setStep cap m o = none) := by
  have hnd : m.Nodup := by
    have := h.ch.nodup
    rw [List.map_id] at this
    exact hm.nodup_iff.1 this
  have hlen := h.len
  have hex : ∀ x, exists' hash cap t x = pure (decide (x ∈ m)) := by
    intro x
    unfold exists'
    rcases find_mem h hm x with ⟨i, l, e, hi, ho, hx, _⟩ | ⟨i, e, hi, ho, hx, _⟩ | ⟨e, hx, _⟩
    · rw [e]; simp only [pure_bind]; rw [rd_some ho]; simp [hx]
    · rw [e]; simp only [pure_bind]; rw [rd_some ho]; simp [hx]
    · rw [e]; simp [hx]
  cases o with
  | insert x =>
    rcases find_mem h hm x with ⟨i, l, e, hi, ho, hx, _⟩ | ⟨i, e, hi, ho, hx, hlt, hp, hinv⟩ | ⟨e, hx, hf⟩
    · refine Or.inl ⟨t, m, .done, ?_, ?_, h, hm⟩
      · simp only [step]; unfold insert; rw [e]; simp only [pure_bind]; rw [rd_some ho]; rfl
      · simp only [setStep]; rw [if_pos hx]
    · refine Or.inl ⟨t.set i (some x), x :: m, .done, ?_, ?_, hinv, hp⟩
      · simp only [step]; unfold insert; rw [e]; simp only [pure_bind]; rw [rd_some ho]; simp only [pure_bind]
        simp only [Option.isNone_none, if_true]; rw [wr_eq (by omega)]; rfl
      · simp only [setStep]; rw [if_neg hx, if_pos hlt]
    · refine Or.inr ⟨?_, ?_⟩
      · simp only [step]; unfold insert; rw [e]; rfl
      · simp only [setStep]; rw [if_neg hx, if_neg (by omega)]
  | erase x =>
    left
    have hfree : ∀ i : Nat, i < cap → t[i]? = some none → t.set i none = t := by
      intro i hi ho
      apply List.ext_getElem?
      intro j
      by_cases hj : j = i
      · rw [hj, List.getElem?_set_self (by omega), ho]
      · rw [List.getElem?_set_ne (by omega)]
    have hself : x ∉ m → (m.filter fun y => decide (y ≠ x)) = m := by
      intro hx
      rw [List.filter_eq_self]
      intro y hy
      rw [decide_eq_true_eq]
      rintro rfl
      exact hx hy
    rcases find_mem h hm x with ⟨i, l, e, hi, ho, hx, hp, hq⟩ | ⟨i, e, hi, ho, hx, hlt, hp, hinv⟩ | ⟨e, hx, hf⟩
    · refine ⟨t.set i none, _, .done, ?_, rfl, ⟨h.ch.free hi (hs i hi ho), by rw [List.length_set]; exact hlen⟩, ?_⟩
      · simp only [step]; unfold erase; rw [e]; simp only [pure_bind]; rw [wr_eq (by omega)]; rfl
      · refine hq.trans ?_
        have h1 := hp.filter fun y => decide (y ≠ x)
        rw [List.filter_cons_of_neg (by simp)] at h1
        have h2 : x ∉ l := by
          have := hp.nodup_iff.1 hnd
          rw [List.nodup_cons] at this
          exact this.1
        have h3 : (l.filter fun y => decide (y ≠ x)) = l := by
          rw [List.filter_eq_self]
          intro y hy
          rw [decide_eq_true_eq]
          rintro rfl
          exact h2 hy
        rw [h3] at h1
        exact h1.symm
    · refine ⟨t, m, .done, ?_, ?_, h, hm⟩
      · simp only [step]; unfold erase; rw [e]; simp only [pure_bind]; rw [wr_eq (by omega), hfree i hi ho]; rfl
      · simp only [setStep]; rw [hself hx]
    · refine ⟨t, m, .done, ?_, ?_, h, hm⟩
      · simp only [step]; unfold erase; rw [e]; rfl
      · simp only [setStep]; rw [hself hx]
  | «exists» x => exact Or.inl ⟨t, m, _, by simp only [step]; rw [hex]; rfl, rfl, h, hm⟩
  | count x =>
    refine Or.inl ⟨t, m, .is (decide (x ∈ m)), ?_, rfl, h, hm⟩
    simp only [step]; unfold count; rw [hex]; simp only [pure_bind]
    by_cases hx : x ∈ m <;> simp [hx]
  | empty =>
    refine Or.inl ⟨t, m, _, rfl, ?_, h, hm⟩
    have : empty t = decide (m = []) := by
      rw [Bool.eq_iff_iff, empty_eq h.len, decide_eq_true_eq]
      constructor
      · intro he; rw [he] at hm; exact List.nil_perm.1 hm
      · rintro rfl; exact List.perm_nil.1 hm
    simp only [setStep]; rw [this]

theorem run_ok {hash : κ → Nat} {cap : Nat} (os : List (Op κ)) : ∀ (t : Table κ) (m : List κ),
    Inv hash cap t → (entries cap t).Perm m → AllSafe hash cap t os →
    (∃ t' m' rs, run hash cap t os = pure (t', rs) ∧ setRun cap m os = some (m', rs) ∧ Inv hash cap t' ∧ (entries cap t').Perm m') ∨
    (run hash cap t os = abort ∧ setRun cap m os = none) := by
  induction os with
  | nil => intro t m h hm _; exact Or.inl ⟨t, m, [], rfl, rfl, h, hm⟩
  | cons o os ih =>
    intro t m h hm hs
    rcases step_ok h hm o hs.1 with ⟨t1, m1, r, e1, e2, h1, hm1⟩ | ⟨e1, e2⟩
    · rcases ih t1 m1 h1 hm1 (hs.2 t1 r e1) with ⟨t2, m2, rs, e3, e4, h2, hm2⟩ | ⟨e3, e4⟩
      · refine Or.inl ⟨t2, m2, r :: rs, ?_, ?_, h2, hm2⟩
        · simp only [run]; rw [e1]; simp only [pure_bind]; rw [e3]; rfl
        · simp only [setRun]; rw [e2]; show (setRun cap m1 os).bind _ = _; rw [e4]; rfl
      · refine Or.inr ⟨?_, ?_⟩
        · simp only [run]; rw [e1]; simp only [pure_bind]; rw [e3]; rfl
        · simp only [setRun]; rw [e2]; show (setRun cap m1 os).bind _ = _; rw [e4]; rfl
    · refine Or.inr ⟨?_, ?_⟩
      · simp only [run]; rw [e1]; rfl
      · simp only [setRun]; rw [e2]; rfl

/-- C200, histories, as far as it holds: on a new set of positive capacity, for every hash function, any history of calls has the
results of the same history on a finite set, as long as `erase` is only called for entries after which the next place is free.  The
program ends exactly if there is no room for a new key.  Missing: other erases, see `C200_erase_violated`, and the result of
`erase`, see `C200_erase_result_violated`. -/
theorem C200_history_partial (hash : κ → Nat) (cap : Nat) (hc : 0 < cap) (os : List (Op κ)) (hs : AllSafe hash cap (make κ cap) os) :
    (∃ (t : Table κ) (m : List κ) (rs : List Res), run hash cap (make κ cap) os = pure (t, rs) ∧ setRun cap [] os = some (m, rs) ∧
      (∀ x, x ∈ m ↔ ∃ i : Nat, t[i]? = some (some x)) ∧ m.Nodup) ∨
    (run hash cap (make κ cap) os = abort ∧ setRun cap [] os = none) := by
  obtain ⟨h1, h2⟩ := inv_make κ hash cap hc
  rcases run_ok os (make κ cap) [] h1 (by rw [h2]) hs with ⟨t, m, rs, e1, e2, hi, hp⟩ | h
  · refine Or.inl ⟨t, m, rs, e1, e2, fun x => ?_, ?_⟩
    · rw [← hp.mem_iff, mem_entries]
      constructor
      · rintro ⟨i, _, h⟩; exact ⟨i, h⟩
      · rintro ⟨i, h⟩
        refine ⟨i, ?_, h⟩
        rw [← hi.len]
        exact (List.getElem?_eq_some_iff.1 h).1
    · have := hi.ch.nodup
      rw [List.map_id] at this
      exact hp.nodup_iff.1 this
  · exact Or.inr h

/-- Colliding keys; an erase at the end of a chain; a full set. -/
example : run (fun _ : Nat => 7) 3 (make Nat 3) [.empty, .insert 5, .insert 6, .insert 5, .exists 6, .erase 6, .count 6, .count 5, .empty] =
    pure ([some 5, none, none], [.is true, .done, .done, .done, .is true, .done, .is false, .is true, .is false]) :=
  by decide +kernel
example : run (fun _ : Nat => 7) 2 (make Nat 2) [.insert 5, .insert 6, .insert 7] = abort ∧
    setRun 2 [] [.insert (5 : Nat), .insert 6, .insert 7] = none := ⟨by decide +kernel, by decide +kernel⟩

/-- C200: a history without `erase` needs no condition. -/
theorem C200_no_erase (hash : κ → Nat) (cap : Nat) (hc : 0 < cap) (os : List (Op κ)) (hs : ∀ o ∈ os, ∀ x, o ≠ .erase x) :
    (∃ t m rs, run hash cap (make κ cap) os = pure (t, rs) ∧ setRun cap [] os = some (m, rs)) ∨
    (run hash cap (make κ cap) os = abort ∧ setRun cap [] os = none) := by
  have : ∀ (os : List (Op κ)) (t : Table κ), (∀ o ∈ os, ∀ x, o ≠ .erase x) → AllSafe hash cap t os := by
    intro os
    induction os with
    | nil => intro t _; exact True.intro
    | cons o os ih =>
      intro t h
      refine ⟨?_, fun t' r _ => ih t' fun o' ho' => h o' (List.mem_cons_of_mem _ ho')⟩
      cases o with
      | erase x => exact absurd rfl (h _ (by simp) x)
      | _ => exact True.intro
  rcases C200_history_partial hash cap hc os (this os _ hs) with ⟨t, m, rs, e1, e2, _⟩ | h
  · exact Or.inl ⟨t, m, rs, e1, e2⟩
  · exact Or.inr h

example := C200_no_erase (fun k : Nat => k) 3 (by decide) [.insert 4, .insert 7] (by simp)

theorem findIdx_at (hash : κ → Nat) (cap : Nat) (t : Table κ) (hl : cap ≤ t.length) (x : κ) (k : Nat) (hk : k < cap)
    (o : Option κ) (ho : t[(homeOf hash cap x + k) % cap]? = some o) (hs : stopAt id x o = true)
    (hj : ∀ j, j < k → ∃ y, t[(homeOf hash cap x + j) % cap]? = some y ∧ stopAt id x y = false) :
    findIdx hash cap t x = pure (some ((homeOf hash cap x + k) % cap)) := by
  unfold findIdx
  rcases findIndex_spec (stopAt id x) t cap (hash x) hl (homeOf hash cap x)
    (by unfold scaleHash; rw [if_neg (by omega)]; rfl) (Nat.mod_lt _ (by omega)) with ⟨k', o', hk', e, ho', hs', hj'⟩ | ⟨e, hj'⟩
  · rcases Nat.lt_trichotomy k k' with h | h | h
    · obtain ⟨y, h1, h2⟩ := hj' k h
      rw [ho] at h1; injection h1 with h1; subst h1
      rw [hs] at h2; injection h2
    · rw [e, h]
    · obtain ⟨y, h1, h2⟩ := hj k' h
      rw [ho'] at h1; injection h1 with h1; subst h1
      rw [hs'] at h2; injection h2
  · obtain ⟨y, h1, h2⟩ := hj' _ (Nat.mod_lt (homeOf hash cap x + k) (by omega))
    rw [ho] at h1; injection h1 with h1; subst h1
    rw [hs] at h2; injection h2

/-- C200 does not hold for `erase` in the middle of a chain: whatever the hash, if two different keys have the same hash, then
erasing the first one makes the second one, which was not erased, disappear from a set of two or more places. -/
theorem C200_erase_violated (hash : κ → Nat) (cap : Nat) (hc : 2 ≤ cap) (x y : κ) (hne : x ≠ y) (hh : hash x = hash y) :
    ∃ t, run hash cap (make κ cap) [.insert x, .insert y, .exists y, .erase x, .exists y] =
      pure (t, [.done, .done, .is true, .done, .is false]) ∧
    setRun cap [] [.insert x, .insert y, .exists y, .erase x, .exists y] = some ([y], [.done, .done, .is true, .done, .is true]) := by
  have hhome : homeOf hash cap y = homeOf hash cap x := homeOf_congr cap hh
  have hsc := homeOf_lt hash (show 0 < cap by omega) x
  obtain ⟨s, hsd⟩ : ∃ s, homeOf hash cap x = s := ⟨_, rfl⟩
  rw [hsd] at hhome hsc
  have hs0 : (s + 0) % cap = s := by rw [Nat.add_zero]; exact Nat.mod_eq_of_lt hsc
  have hn : (s + 1) % cap < cap := Nat.mod_lt _ (by omega)
  have hns : (s + 1) % cap ≠ s := by
    intro hc'
    by_cases hlt : s + 1 < cap
    · rw [Nat.mod_eq_of_lt hlt] at hc'; omega
    · rw [show s + 1 = cap by omega, Nat.mod_self] at hc'; omega
  obtain ⟨n, hnd⟩ : ∃ n, (s + 1) % cap = n := ⟨_, rfl⟩
  rw [hnd] at hn hns
  have hget0 : ∀ i, i < cap → (make κ cap)[i]? = some none := by
    intro i hi; unfold make; rw [List.getElem?_replicate, if_pos hi]
  have hlen0 : (make κ cap).length = cap := by simp [make]
  generalize make κ cap = t0 at *
  have e1 : insert hash cap t0 x = pure (t0.set s (some x), s) := by
    unfold insert
    rw [findIdx_at hash cap t0 (by omega) x 0 (by omega) none (by rw [hsd, hs0]; exact hget0 s (by omega)) rfl (fun j hj => absurd hj (Nat.not_lt_zero j)), hsd, hs0]
    simp only [pure_bind]
    rw [rd_some (hget0 s hsc)]
    simp only [pure_bind, Option.isNone_none, if_true]
    rw [wr_eq (by omega)]
    rfl
  have hb : ∀ t : Table κ, t[s]? = some (some x) → ∀ j, j < 1 →
      ∃ o, t[(homeOf hash cap y + j) % cap]? = some o ∧ stopAt id y o = false := by
    intro t ht j hj
    refine ⟨some x, ?_, by simpa [stopAt] using hne⟩
    rw [show j = 0 by omega, hhome, hs0]
    exact ht
  have hg : (t0.set s (some x))[n]? = some none := by rw [List.getElem?_set_ne (by omega)]; exact hget0 n (by omega)
  have e2 : insert hash cap (t0.set s (some x)) y = pure ((t0.set s (some x)).set n (some y), n) := by
    unfold insert
    rw [findIdx_at hash cap _ (by rw [List.length_set]; omega) y 1 (by omega) none
      (by rw [hhome, hnd]; exact hg) rfl
      (hb _ (by rw [List.getElem?_set_self (by omega)])), hhome, hnd]
    simp only [pure_bind]
    rw [rd_some hg]
    simp only [pure_bind, Option.isNone_none, if_true]
    rw [wr_eq (by rw [List.length_set]; omega)]
    rfl
  have e3 : exists' hash cap ((t0.set s (some x)).set n (some y)) y = pure true := by
    unfold exists'
    rw [findIdx_at hash cap _ (by simp; omega) y 1 (by omega) (some y)
      (by rw [hhome, hnd, List.getElem?_set_self (by rw [List.length_set]; omega)]) (by simp [stopAt])
      (hb _ (by rw [List.getElem?_set_ne (by omega), List.getElem?_set_self (by omega)])), hhome, hnd]
    simp only [pure_bind]
    rw [rd_some (by rw [List.getElem?_set_self (by rw [List.length_set]; omega)])]
    rfl
  have hself : t0.set s none = t0 := by
    apply List.ext_getElem?
    intro i
    by_cases hi : i = s
    · rw [hi, List.getElem?_set_self (by omega), hget0 s (by omega)]
    · rw [List.getElem?_set_ne (by omega)]
  have e4 : erase hash cap ((t0.set s (some x)).set n (some y)) x = pure (t0.set n (some y), some s) := by
    unfold erase
    rw [findIdx_at hash cap _ (by simp; omega) x 0 (by omega) (some x)
      (by rw [hsd, hs0, List.getElem?_set_ne (by omega), List.getElem?_set_self (by omega)]) (by simp [stopAt]) (fun j hj => absurd hj (Nat.not_lt_zero j)), hsd, hs0]
    simp only [pure_bind]
    rw [wr_eq (by simp; omega), List.set_comm _ _ (by omega), List.set_set, hself]
    rfl
  have hs3 : (t0.set n (some y))[(homeOf hash cap y + 0) % cap]? = some none := by
    rw [hhome, hs0, List.getElem?_set_ne (by omega)]; exact hget0 s (by omega)
  have e5 : exists' hash cap (t0.set n (some y)) y = pure false := by
    unfold exists'
    rw [findIdx_at hash cap _ (by simp; omega) y 0 (by omega) none hs3 rfl (fun j hj => absurd hj (Nat.not_lt_zero j))]
    simp only [pure_bind]
    rw [rd_some hs3]
    rfl
  refine ⟨t0.set n (some y), ?_, ?_⟩
  · simp only [run, step]
    rw [e1]; simp only [pure_bind]
    rw [e2]; simp only [pure_bind]
    rw [e3]; simp only [pure_bind]
    rw [e4]; simp only [pure_bind]
    rw [e5]; simp only [pure_bind]
  · simp [setRun, setStep, hne.symm, show 0 < cap by omega, show 1 < cap by omega]

example : (2 : Nat) ≤ 3 ∧ (5 : Nat) ≠ 6 ∧ (fun _ : Nat => 7) 5 = (fun _ : Nat => 7) 6 := ⟨by omega, by omega, rfl⟩

/-- C200 does not hold for what `erase` returns: for a key that is not there it returns a place, as for one that was erased, unless
the set is full. -/
theorem C200_erase_result_violated (hash : κ → Nat) (cap : Nat) (t : Table κ) (h : Inv hash cap t) (x : κ)
    (hx : ∀ i : Nat, t[i]? ≠ some (some x)) (hf : ∃ i : Nat, t[i]? = some none) :
    ∃ i, erase hash cap t x = pure (t, some i) := by
  obtain ⟨f, hf⟩ := hf
  have hfl : f < cap := by rw [← h.len]; exact (List.getElem?_eq_some_iff.1 hf).1
  have hlen := h.len
  unfold erase
  rcases find_mem h (List.Perm.refl _) x with ⟨i, l, e, hi, ho, _⟩ | ⟨i, e, hi, ho, _⟩ | ⟨e, _, hc⟩
  · exact absurd ho (hx i)
  · refine ⟨i, ?_⟩
    rw [e]
    simp only [pure_bind]
    rw [wr_eq (by omega)]
    have : t.set i none = t := by
      apply List.ext_getElem?
      intro j
      by_cases hj : j = i
      · rw [hj, List.getElem?_set_self (by omega), ho]
      · rw [List.getElem?_set_ne (by omega)]
    rw [this]
    rfl
  · have := entries_lt hfl hf
    omega

example : erase (fun x : Nat => x) 3 (make Nat 3) 5 = pure ([none, none, none], some 1) := by decide +kernel

/-- C201, `find`, as far as it holds: for a key that is there it is the position of its entry, and `insert` returns that position;
for a key that is not there it is `end( )` if the set is full.  Missing: for such keys in a set that is not full, see
`C201_find_violated`. -/
theorem C201_find_partial (hash : κ → Nat) (cap : Nat) (t : Table κ) (h : Inv hash cap t) (x : κ) :
    ((∃ i : Nat, t[i]? = some (some x)) →
      ∃ i, find hash cap t x = pure i ∧ i ≠ cap ∧ t[i]? = some (some x) ∧ insert hash cap t x = pure (t, i)) ∧
    ((∀ i : Nat, t[i]? ≠ some (some x)) → (∀ i : Nat, t[i]? ≠ some none) → find hash cap t x = pure cap) := by
  constructor
  · rintro ⟨k, hk⟩
    have hmem : x ∈ entries cap t := mem_entries.2 ⟨k, by rw [← h.len]; exact (List.getElem?_eq_some_iff.1 hk).1, hk⟩
    unfold find insert
    rcases find_mem h (List.Perm.refl _) x with ⟨i, l, e, hi, ho, _⟩ | ⟨i, e, hi, ho, hn, _⟩ | ⟨e, hn, _⟩
    · refine ⟨i, by rw [e]; rfl, by omega, ho, ?_⟩
      rw [e]
      simp only [pure_bind]
      rw [rd_some ho]
      rfl
    · exact absurd hmem hn
    · exact absurd hmem hn
  · intro hx hfull
    unfold find
    rcases find_mem h (List.Perm.refl _) x with ⟨i, l, e, hi, ho, _⟩ | ⟨i, e, hi, ho, hn, _⟩ | ⟨e, hn, _⟩
    · exact absurd ho (hx i)
    · exact absurd ho (hfull i)
    · rw [e]; rfl

example := C201_find_partial (fun k : Nat => k) 3 _ (inv_make Nat (fun k => k) 3 (by decide)).1 5

/-- C201 does not hold for `find` of a key that is not there: unless the set is full the iterator is not `end( )`, but the position
of an item without value. -/
theorem C201_find_violated (hash : κ → Nat) (cap : Nat) (t : Table κ) (h : Inv hash cap t) (x : κ)
    (hx : ∀ i : Nat, t[i]? ≠ some (some x)) (hf : ∃ i : Nat, t[i]? = some none) :
    ∃ i, find hash cap t x = pure i ∧ i ≠ cap ∧ t[i]? = some none := by
  obtain ⟨f, hf⟩ := hf
  have hfl : f < cap := by rw [← h.len]; exact (List.getElem?_eq_some_iff.1 hf).1
  unfold find
  rcases find_mem h (List.Perm.refl _) x with ⟨i, l, e, hi, ho, _⟩ | ⟨i, e, hi, ho, _⟩ | ⟨e, _, hc⟩
  · exact absurd ho (hx i)
  · exact ⟨i, by rw [e]; rfl, by omega, ho⟩
  · have := entries_lt hfl hf
    omega

/-- Every new set. -/
example : ∃ i, find (fun x : Nat => x) 4 (make Nat 4) 9 = pure i ∧ i ≠ 4 ∧ (make Nat 4)[i]? = some none :=
  C201_find_violated _ 4 _ (inv_make Nat _ 4 (by omega)).1 9 (fun i h => by
    rw [make, List.getElem?_replicate] at h
    split at h <;> simp at h) ⟨0, rfl⟩
example : Inv (fun x : Nat => x) 4 (make Nat 4) := (inv_make Nat _ 4 (by omega)).1

omit [DecidableEq κ] in
theorem skip_to {cap slack : Nat} {t : Table κ} {j : Nat} (hj : j < cap) (he : ∃ e, t[j]? = some (some e)) :
    ∀ d i, j - i = d → i ≤ j → (∀ k : Nat, i ≤ k → k < j → t[k]? = some none) → skip cap slack t i = pure j := by
  obtain ⟨e, he⟩ := he
  intro d
  induction d with
  | zero =>
    intro i hd hij hk
    have : i = j := by omega
    subst this
    rw [skip, rd_some he]
    simp
  | succ d ih =>
    intro i hd hij hk
    rw [skip, rd_some (hk i (Nat.le_refl _) (by omega))]
    simp only [pure_bind]
    rw [if_pos ⟨rfl, by omega⟩]
    exact ih (i + 1) (by omega) (by omega) (fun k h1 h2 => hk k (by omega) h2)

omit [DecidableEq κ] in
theorem skip_off {cap slack : Nat} {t : Table κ} (hl : t.length = cap) :
    ∀ d i, cap - i = d → (∀ k : Nat, i ≤ k → k < cap → t[k]? = some none) → skip cap slack t i = ub := by
  intro d
  induction d with
  | zero =>
    intro i hd _
    rw [skip, rd_oob (by omega)]
    rfl
  | succ d ih =>
    intro i hd hk
    rw [skip, rd_some (hk i (Nat.le_refl _) (by omega))]
    simp only [pure_bind]
    rw [if_pos ⟨rfl, by omega⟩]
    exact ih (i + 1) (by omega) (fun k h1 h2 => hk k (by omega) h2)

omit [DecidableEq κ] in
theorem firstFrom_eq {cap : Nat} {t : Table κ} (hl : t.length = cap) (i : Nat) (hi : i ≤ cap) :
    ∃ j, firstFrom cap t i = pure j ∧ i ≤ j ∧ j ≤ cap ∧ (j < cap → ∃ e, t[j]? = some (some e)) ∧
      ∀ k : Nat, i ≤ k → k < j → t[k]? = some none := by
  induction hk : cap - i generalizing i with
  | zero =>
    have : i = cap := by omega
    subst this
    rw [firstFrom, if_neg (by omega)]
    exact ⟨i, rfl, Nat.le_refl _, Nat.le_refl _, fun h => by omega, fun k h1 h2 => by omega⟩
  | succ n ih =>
    rw [firstFrom, if_pos (by omega), rd_eq (by omega)]
    simp only [pure_bind]
    cases ho : t[i] with
    | none =>
      obtain ⟨j, e, h1, h2, h3, h4⟩ := ih (i + 1) (by omega) (by omega)
      refine ⟨j, e, by omega, h2, h3, fun k hk1 hk2 => ?_⟩
      by_cases hki : k = i
      · subst hki; rw [List.getElem?_eq_getElem (by omega), ho]
      · exact h4 k (by omega) hk2
    | some e =>
      exact ⟨i, rfl, Nat.le_refl _, by omega, fun _ => ⟨e, by rw [List.getElem?_eq_getElem (by omega), ho]⟩, fun k h1 h2 => by omega⟩

omit [DecidableEq κ] in
/-- C202, as far as it holds: `begin( )` is the first entry, or `end( )` if there is none, and `++` goes from an entry to the next one
if there is a next one.  Missing: leaving the last entry, see `C202_loop_violated`. -/
theorem C202_iterator_partial (cap slack : Nat) (t : Table κ) (hl : t.length = cap) :
    (∃ j, firstFrom cap t 0 = pure j ∧ (∀ k : Nat, k < j → t[k]? = some none) ∧ (j = cap ∨ ∃ e, t[j]? = some (some e))) ∧
    (∀ i j, i < j → (∃ e, t[j]? = some (some e)) → (∀ k : Nat, i < k → k < j → t[k]? = some none) → skip cap slack t (i + 1) = pure j) ∧
    ((∀ k : Nat, k < cap → t[k]? = some none) → ∃ j, firstFrom cap t 0 = pure j ∧ walk cap slack t j = pure []) := by
  obtain ⟨j, e, h1, h2, h3, h4⟩ := firstFrom_eq hl 0 (Nat.zero_le _)
  refine ⟨⟨j, e, fun k hk => h4 k (Nat.zero_le _) hk, ?_⟩, ?_, ?_⟩
  · by_cases hj : j < cap
    · exact Or.inr (h3 hj)
    · exact Or.inl (by omega)
  · intro i j hij he hk
    have hj : j < cap := by
      obtain ⟨e, he⟩ := he
      rw [← hl]; exact (List.getElem?_eq_some_iff.1 he).1
    exact skip_to hj he _ (i + 1) rfl (by omega) (fun k h1 h2 => hk k (by omega) h2)
  · intro hall
    have : j = cap := by
      by_cases hj : j < cap
      · obtain ⟨e, he⟩ := h3 hj
        rw [hall j hj] at he
        injection he with he; injection he
      · omega
    subst this
    refine ⟨j, e, ?_⟩
    rw [walk, if_pos rfl]

example := C202_iterator_partial 3 2 [none, some 7, none] rfl

/-- The last entry of a table. -/
theorem last_entry {κ : Type} {cap : Nat} {t : Table κ} (hl : t.length = cap) (hne : ∃ (i : Nat) (x : κ), t[i]? = some (some x)) :
    ∃ (j : Nat) (x : κ), t[j]? = some (some x) ∧ ∀ k : Nat, j < k → k < cap → t[k]? = some none := by
  obtain ⟨i, x, h⟩ := hne
  induction hd : cap - i using Nat.strongRecOn generalizing i x with
  | _ d ih =>
    by_cases hex : ∃ (k : Nat) (y : κ), i < k ∧ t[k]? = some (some y)
    · obtain ⟨k, y, hik, hk⟩ := hex
      have hkc : k < cap := by rw [← hl]; exact (List.getElem?_eq_some_iff.1 hk).1
      exact ih (cap - k) (by omega) k y hk rfl
    · refine ⟨i, x, h, fun k hik hkc => ?_⟩
      rw [List.getElem?_eq_getElem (by omega)]
      cases hk : t[k]'(by omega) with
      | none => rfl
      | some y => exact absurd ⟨k, y, hik, by rw [List.getElem?_eq_getElem (by omega), hk]⟩ hex

omit [DecidableEq κ] in
/-- C202 does not hold for loops: a loop over a set that is not empty, from `begin( )` or any other entry to `end( )`, reads an item
past the array, for both kinds of iterators. -/
theorem C202_loop_violated (cap slack : Nat) (t : Table κ) (hl : t.length = cap) (i : Nat) (x : κ) (hx : t[i]? = some (some x)) :
    walk cap slack t i = ub ∧ ∃ j, firstFrom cap t 0 = pure j ∧ walk cap slack t j = ub := by
  have key : ∀ d i, cap - i = d → ∀ x : κ, t[i]? = some (some x) → walk cap slack t i = ub := by
    intro d
    induction d using Nat.strongRecOn with
    | _ d ih =>
      intro i hd x hx
      have hi : i < cap := by rw [← hl]; exact (List.getElem?_eq_some_iff.1 hx).1
      rw [walk, if_neg (by omega), rd_some hx]
      simp only [pure_bind]
      by_cases hno : ∀ k : Nat, i + 1 ≤ k → k < cap → t[k]? = some none
      · rw [skip_off hl _ (i + 1) rfl hno]
        rfl
      · obtain ⟨j, e, h1, h2, h3, h4⟩ := firstFrom_eq hl (i + 1) (by omega)
        have hj : j < cap := by
          by_cases hj : j < cap
          · exact hj
          · exact absurd (fun k h5 h6 => h4 k h5 (by omega)) hno
        rw [skip_to hj (h3 hj) _ (i + 1) rfl h1 h4]
        simp only [pure_bind]
        obtain ⟨y, hy⟩ := h3 hj
        rw [ih (cap - j) (by omega) j rfl y hy]
        rfl
  refine ⟨key _ i rfl x hx, ?_⟩
  obtain ⟨j, e, h1, h2, h3, h4⟩ := firstFrom_eq hl 0 (Nat.zero_le _)
  have hi : i < cap := by rw [← hl]; exact (List.getElem?_eq_some_iff.1 hx).1
  have hj : j < cap := by
    by_cases hj : j < cap
    · exact hj
    · have := h4 i (Nat.zero_le _) (by omega)
      rw [hx] at this; injection this with this; injection this
  obtain ⟨y, hy⟩ := h3 hj
  exact ⟨j, e, key _ j rfl y hy⟩

example : ([none, some 4, none] : Table Nat).length = 3 ∧ ([none, some 4, none] : Table Nat)[1]? = some (some 4) := ⟨rfl, rfl⟩

/-- C203: `make_bounded_hash_set` never ends the program, and the keys of the set are the items given. -/
theorem C203_make (hash : κ → Nat) (items : List κ) (hne : items ≠ []) :
    ∃ t, makeSet hash items = pure t ∧ ∀ x, exists' hash items.length t x = pure (decide (x ∈ items)) := by
  have hc : 0 < items.length := by cases items with | nil => exact absurd rfl hne | cons => simp
  obtain ⟨cap, hcap⟩ : ∃ cap, items.length = cap := ⟨_, rfl⟩
  unfold makeSet
  rw [hcap] at hc ⊢
  obtain ⟨h1, h2⟩ := inv_make κ hash cap hc
  have key : ∀ (ks : List κ) (t : Table κ) (m : List κ), Inv hash cap t → (entries cap t).Perm m → m.length + ks.length ≤ cap →
      ∃ t' m', ks.foldlM (fun t x => do let (t, _) ← insert hash cap t x; pure t) t = (pure t' : Cxx _) ∧ Inv hash cap t' ∧
        (entries cap t').Perm m' ∧ ∀ x, x ∈ m' ↔ x ∈ m ∨ x ∈ ks := by
    intro ks
    induction ks with
    | nil => intro t m hi hp _; exact ⟨t, m, rfl, hi, hp, fun x => by simp⟩
    | cons k ks ih =>
      intro t m hi hp hl
      rw [List.length_cons] at hl
      rw [List.foldlM_cons]
      have hstep := step_ok hi hp (.insert k) True.intro
      simp only [step, setStep] at hstep
      rcases hstep with ⟨t1, m1, r, e1, e2, hi1, hp1⟩ | ⟨-, e2⟩
      · obtain ⟨⟨t2, n⟩, e3, e4⟩ := bind_eq_pure.mp e1
        have e4 := pure_inj.mp e4
        injection e4 with e4 _
        have e4 : t2 = t1 := e4
        subst e4
        rw [e3]
        simp only [pure_bind]
        by_cases hk : k ∈ m
        · rw [if_pos hk] at e2
          injection e2 with e2; injection e2 with e2 _
          subst e2
          obtain ⟨t', m', e5, h5, h6, h7⟩ := ih t2 m hi1 hp1 (by omega)
          refine ⟨t', m', e5, h5, h6, fun x => ?_⟩
          rw [h7, List.mem_cons]
          constructor
          · rintro (h | h)
            · exact Or.inl h
            · exact Or.inr (Or.inr h)
          · rintro (h | rfl | h)
            · exact Or.inl h
            · exact Or.inl hk
            · exact Or.inr h
        · rw [if_neg hk, if_pos (by omega)] at e2
          injection e2 with e2; injection e2 with e2 _
          subst e2
          obtain ⟨t', m', e5, h5, h6, h7⟩ := ih t2 (k :: m) hi1 hp1 (by rw [List.length_cons]; omega)
          refine ⟨t', m', e5, h5, h6, fun x => ?_⟩
          rw [h7, List.mem_cons, List.mem_cons]
          constructor
          · rintro ((h | h) | h)
            · exact Or.inr (Or.inl h)
            · exact Or.inl h
            · exact Or.inr (Or.inr h)
          · rintro (h | h | h)
            · exact Or.inl (Or.inr h)
            · exact Or.inl (Or.inl h)
            · exact Or.inr h
      · split at e2
        · cases e2
        · rw [if_pos (by omega)] at e2; cases e2
  obtain ⟨t, m, e, hi, hp, hmem⟩ := key items (make κ cap) [] h1 (by rw [h2]) (by simp [hcap])
  refine ⟨t, e, fun x => ?_⟩
  have hstep := step_ok hi hp (.exists x) True.intro
  simp only [step, setStep] at hstep
  rcases hstep with ⟨t1, m1, r, e1, e2, -, -⟩ | ⟨-, e2⟩
  · obtain ⟨b, e3, e4⟩ := bind_eq_pure.mp e1
    have e4 := pure_inj.mp e4
    injection e2 with e2; injection e2 with _ e2
    injection e4 with _ e4
    rw [← e2] at e4
    injection e4 with e4
    rw [e3, e4]
    congr 1
    rw [decide_eq_decide, hmem]
    simp
  · cases e2

example : makeSet (fun x : Nat => x % 2) [3, 5, 3, 4] = pure [none, some 4, some 3, some 5] := by decide +kernel

end Verif.Containers.BoundedHashSet
