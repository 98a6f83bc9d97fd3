import Verif.Containers.Probe

/-
`daw::hash_set_t`, include/daw/daw_hash_set.h.  The table is the list of its places; the hash function is any function into the
64 bit numbers and `==` of the keys is equality.  `erase` (72-80) indexes a vector by an optional and `size` (99-105) calls a
function of one parameter with two: neither can be instantiated, so neither is modelled.
-/

namespace Verif.Containers.HashSet
open Cxx Probe

variable {κ : Type} [DecidableEq κ]

/-- The constructor, daw_hash_set.h 58-60. -/
def make (κ : Type) (cap : Nat) : List (Option κ) := List.replicate cap none

/-- `find_index`, daw_hash_set.h 35-56. -/
def find (hash : κ → Nat) (t : List (Option κ)) (x : κ) : Cxx (Option Nat) := findIndex (stopAt id x) t t.length (hash x)

/-- `insert`, daw_hash_set.h 62-70: the table afterwards and the place. -/
def insert (hash : κ → Nat) (t : List (Option κ)) (x : κ) : Cxx (List (Option κ) × Nat) := do
  match ← find hash t x with
  | none => thrown
  | some i =>
    let t ← wr t i (some x)
    pure (t, i)

/-- `exists`, daw_hash_set.h 82-89. -/
def exists' (hash : κ → Nat) (t : List (Option κ)) (x : κ) : Cxx Bool := do
  match ← find hash t x with
  | none => pure false
  | some i =>
    let o ← rd t i
    pure o.isSome

/-- `count`, daw_hash_set.h 91-93. -/
def count (hash : κ → Nat) (t : List (Option κ)) (x : κ) : Cxx Nat := do
  let b ← exists' hash t x
  pure (if b then 1 else 0)

/-- Calls. (Members of `hash_set_t`, daw_hash_set.h 24-106.) -/
inductive Op (κ : Type) where
  | insert (x : κ)
  | exists (x : κ)
  | count (x : κ)

/-- What the caller sees of a call; the place returned by `insert` is treated in `C50_places`.
(Members of `hash_set_t`, daw_hash_set.h 24-106.) -/
inductive Res where
  | inserted
  | refused
  | is (b : Bool)
  | number (n : Nat)
  deriving DecidableEq

/-- The model of a call, daw_hash_set.h 62-93; an exception of `insert` is caught by the caller. -/
def step (hash : κ → Nat) (t : List (Option κ)) : Op κ → Cxx (List (Option κ) × Res)
  | .insert x =>
    match insert hash t x with
    | some (.ok (t, _)) => pure (t, .inserted)
    | some (.error .thrown) => pure (t, .refused)
    | some (.error e) => throw e
    | none => diverge
  | .exists x => do
    let b ← exists' hash t x
    pure (t, .is b)
  | .count x => do
    let n ← count hash t x
    pure (t, .number n)

/-- A history of calls, daw_hash_set.h 62-93. -/
def run (hash : κ → Nat) (t : List (Option κ)) : List (Op κ) → Cxx (List (Option κ) × List Res)
  | [] => pure (t, [])
  | o :: os => do
    let (t, r) ← step hash t o
    let (t, rs) ← run hash t os
    pure (t, r :: rs)

/-- The same call on a finite set of at most `cap` keys. (Specification, no line of the source.) -/
def setStep (cap : Nat) (s : List κ) : Op κ → List κ × Res
  | .insert x => if x ∈ s then (s, .inserted) else if s.length < cap then (x :: s, .inserted) else (s, .refused)
  | .exists x => (s, .is (decide (x ∈ s)))
  | .count x => (s, .number (if x ∈ s then 1 else 0))

/-- The same history on a finite set. (Specification, no line of the source.) -/
def setRun (cap : Nat) (s : List κ) : List (Op κ) → List κ × List Res
  | [] => (s, [])
  | o :: os =>
    let r := setStep cap s o
    let q := setRun cap r.1 os
    (q.1, r.2 :: q.2)

/-- `find` tells whether the key is there. -/
theorem find_mem (hash : κ → Nat) (t : List (Option κ)) (h : Chained id (homeOf hash t.length) t.length t) (x : κ) :
    (∃ i, find hash t x = pure (some i) ∧ i < t.length ∧ EndsAt id (homeOf hash t.length) t.length t x i ∧
      ((t[i]? = some (some x) ∧ x ∈ entries t.length t) ∨ (t[i]? = some none ∧ x ∉ entries t.length t))) ∨
    (find hash t x = pure none ∧ x ∉ entries t.length t ∧ (entries t.length t).length = t.length) := by
  rcases find_ends id hash t.length t h.pos (Nat.le_refl _) x with ⟨i, e, hi⟩ | ⟨e, hj⟩
  · left
    refine ⟨i, e, hi.lt, hi, ?_⟩
    rcases hi.choose_spec.2.2.1 with ho | ⟨e', ho, rfl⟩
    · exact Or.inr ⟨ho, fun hc => h.absent hi ho x hc rfl⟩
    · exact Or.inl ⟨ho, mem_entries.2 ⟨i, hi.lt, ho⟩⟩
  · right
    refine ⟨e, fun hc => ?_, entries_full (Nat.le_refl _) fun j hjl => ?_⟩
    · obtain ⟨i, hi, he⟩ := mem_entries.1 hc
      obtain ⟨e', he', hne⟩ := hj i hi
      rw [he] at he'
      injection he' with he'; injection he' with he'
      exact hne he'.symm
    · obtain ⟨e', he', _⟩ := hj j hjl
      exact ⟨e', he'⟩

/-- What `insert` does. -/
theorem insert_ok (hash : κ → Nat) (t : List (Option κ)) (h : Chained id (homeOf hash t.length) t.length t) (x : κ) :
    (∃ t' i, insert hash t x = pure (t', i) ∧ t'.length = t.length ∧ i < t.length ∧ t'[i]? = some (some x) ∧
      Chained id (homeOf hash t.length) t.length t' ∧
      (∀ (j : Nat) (y : κ), t[j]? = some (some y) → t'[j]? = some (some y)) ∧
      ((x ∈ entries t.length t ∧ entries t.length t' = entries t.length t) ∨
        (x ∉ entries t.length t ∧ (entries t.length t).length < t.length ∧
          (entries t.length t').Perm (x :: entries t.length t)))) ∨
    (insert hash t x = thrown ∧ x ∉ entries t.length t ∧ (entries t.length t).length = t.length) := by
  rcases find_mem hash t h x with ⟨i, e, hi, hends, ho⟩ | ⟨e, h1, h2⟩
  · left
    refine ⟨t.set i (some x), i, ?_, by simp, hi, by rw [List.getElem?_set_self hi], h.write hends, ?_, ?_⟩
    · unfold insert
      rw [e]
      simp only [pure_bind]
      rw [wr_eq hi]
      rfl
    · intro j y hj
      by_cases hji : j = i
      · subst hji
        rw [List.getElem?_set_self hi]
        rcases ho with ⟨ho, _⟩ | ⟨ho, _⟩
        · rw [ho] at hj; exact hj
        · rw [ho] at hj; injection hj with hj; injection hj
      · rw [List.getElem?_set_ne (by omega)]; exact hj
    · rcases ho with ⟨ho, hm⟩ | ⟨ho, hm⟩
      · left
        refine ⟨hm, ?_⟩
        rw [List.getElem?_eq_getElem hi] at ho
        injection ho with ho
        rw [← ho, List.set_getElem_self]
      · exact Or.inr ⟨hm, entries_lt hi ho, entries_add hi ho x⟩
  · right
    refine ⟨?_, h1, h2⟩
    unfold insert
    rw [e]
    rfl

theorem exists_ok (hash : κ → Nat) (t : List (Option κ)) (h : Chained id (homeOf hash t.length) t.length t) (x : κ) :
    exists' hash t x = pure (decide (x ∈ entries t.length t)) := by
  unfold exists'
  rcases find_mem hash t h x with ⟨i, e, hi, hends, ho⟩ | ⟨e, h1, h2⟩
  · rw [e]
    simp only [pure_bind]
    rcases ho with ⟨ho, hm⟩ | ⟨ho, hm⟩
    · rw [rd_some ho, decide_eq_true hm]; rfl
    · rw [rd_some ho, decide_eq_false hm]; rfl
  · rw [e, decide_eq_false h1]
    rfl

theorem step_ok (hash : κ → Nat) (t : List (Option κ)) (h : Chained id (homeOf hash t.length) t.length t) (s : List κ)
    (hs : (entries t.length t).Perm s) (o : Op κ) :
    ∃ t', step hash t o = pure (t', (setStep t.length s o).2) ∧ t'.length = t.length ∧
      Chained id (homeOf hash t.length) t.length t' ∧ (entries t.length t').Perm (setStep t.length s o).1 ∧
      ∀ (j : Nat) (y : κ), t[j]? = some (some y) → t'[j]? = some (some y) := by
  cases o with
  | insert x =>
    rcases insert_ok hash t h x with ⟨t', i, e, hl, hi, hx, hch, hst, hm⟩ | ⟨e, hm, hf⟩
    · rcases hm with ⟨hm, he⟩ | ⟨hm, hlt, he⟩
      · have hx' : x ∈ s := hs.mem_iff.1 hm
        refine ⟨t', ?_, hl, hch, ?_, hst⟩
        · simp only [step, setStep]
          rw [e, if_pos hx']
          rfl
        · simp only [setStep]
          rw [if_pos hx', he]
          exact hs
      · have hx' : x ∉ s := fun hc => hm (hs.mem_iff.2 hc)
        have hlen := hs.length_eq
        refine ⟨t', ?_, hl, hch, ?_, hst⟩
        · simp only [step, setStep]
          rw [e, if_neg hx', if_pos (by omega)]
          rfl
        · simp only [setStep]
          rw [if_neg hx', if_pos (by omega)]
          exact he.trans (hs.cons x)
    · have hx' : x ∉ s := fun hc => hm (hs.mem_iff.2 hc)
      have hlen := hs.length_eq
      refine ⟨t, ?_, rfl, h, ?_, fun _ _ hj => hj⟩
      · simp only [step, setStep]
        rw [e, if_neg hx', if_neg (by omega)]
        rfl
      · simp only [setStep]
        rw [if_neg hx', if_neg (by omega)]
        exact hs
  | «exists» x =>
    refine ⟨t, ?_, rfl, h, hs, fun _ _ hj => hj⟩
    simp only [step, setStep]
    rw [exists_ok hash t h x]
    simp only [pure_bind, hs.mem_iff]
  | count x =>
    refine ⟨t, ?_, rfl, h, hs, fun _ _ hj => hj⟩
    simp only [step, setStep]
    unfold count
    rw [exists_ok hash t h x]
    simp only [pure_bind, hs.mem_iff, decide_eq_true_eq]

theorem run_ok (hash : κ → Nat) (os : List (Op κ)) : ∀ (t : List (Option κ)) (s : List κ),
    Chained id (homeOf hash t.length) t.length t → (entries t.length t).Perm s →
    ∃ t', run hash t os = pure (t', (setRun t.length s os).2) ∧ t'.length = t.length ∧
      Chained id (homeOf hash t.length) t.length t' ∧ (entries t.length t').Perm (setRun t.length s os).1 ∧
      ∀ (j : Nat) (y : κ), t[j]? = some (some y) → t'[j]? = some (some y) := by
  induction os with
  | nil => intro t s h hs; exact ⟨t, rfl, rfl, h, hs, fun _ _ hj => hj⟩
  | cons o os ih =>
    intro t s h hs
    obtain ⟨t1, e1, hl1, hc1, hp1, hst1⟩ := step_ok hash t h s hs o
    rw [← hl1] at hc1 hp1
    obtain ⟨t2, e2, hl2, hc2, hp2, hst2⟩ := ih t1 _ hc1 hp1
    rw [hl1] at e2 hl2 hc2 hp2
    refine ⟨t2, ?_, hl2, hc2, ?_, fun j y hj => hst2 j y (hst1 j y hj)⟩
    · simp only [run, setRun]
      rw [e1]
      simp only [pure_bind]
      rw [e2]
      rfl
    · simp only [setRun]
      exact hp2

/-- C50: any history of calls on a new set of positive capacity, for any hash function, has the results of the same history on a
finite set of at most that many keys: a key is there if it was inserted, a key is refused (by an exception) exactly if it is new
and the set is full.
Missing: capacity zero, see `C50_zero_violated`. -/
theorem C50_history_partial (hash : κ → Nat) (cap : Nat) (hc : 0 < cap) (os : List (Op κ)) :
    ∃ t, run hash (make κ cap) os = pure (t, (setRun cap [] os).2) ∧ t.length = cap ∧
      (t.filterMap id).Perm (setRun cap [] os).1 := by
  obtain ⟨h1, h2⟩ := chained_empty (ε := κ) id hash cap cap hc (Nat.le_refl _)
  have hl : (make κ cap).length = cap := by simp [make]
  obtain ⟨t, e, hlt, _, hp, _⟩ := run_ok hash os (make κ cap) [] (by rw [hl]; exact h1)
    (by rw [hl]; unfold make; rw [h2])
  rw [hl] at e hlt hp
  refine ⟨t, e, hlt, ?_⟩
  unfold entries at hp
  rwa [List.take_of_length_le (by omega)] at hp

/-- Colliding keys, and a third one that does not fit. -/
example : ∃ t, run (fun _ => 7) (make Nat 2) [.insert 5, .insert 6, .exists 6, .insert 8, .exists 8, .insert 5, .count 5] =
    pure (t, [.inserted, .inserted, .is true, .refused, .is false, .inserted, .number 1]) := by
  refine ⟨[some 5, some 6], ?_⟩
  decide +kernel

/-- C50: the place that `insert` returns identifies the key for good: inserting the key again later returns the same place, and
no other key is given it. -/
theorem C50_places (hash : κ → Nat) (cap : Nat) (hc : 0 < cap) (os os' : List (Op κ)) (x y : κ) (t t1 t2 t3 : List (Option κ))
    (rs rs' : List Res) (i j : Nat) (h0 : run hash (make κ cap) os = pure (t, rs)) (h1 : insert hash t x = pure (t1, i))
    (h2 : run hash t1 os' = pure (t2, rs')) (h3 : insert hash t2 y = pure (t3, j)) :
    i < cap ∧ (i = j ↔ x = y) := by
  obtain ⟨he, hz⟩ := chained_empty (ε := κ) id hash cap cap hc (Nat.le_refl _)
  have hl : (make κ cap).length = cap := by simp [make]
  obtain ⟨t', e, hlt, hch, _, _⟩ := run_ok hash os (make κ cap) [] (by rw [hl]; exact he)
    (by rw [hl]; unfold make; rw [hz])
  rw [h0] at e
  have e := pure_inj.1 e
  injection e with e _
  subst e
  rw [hl] at hlt hch
  rw [← hlt] at hch
  rcases insert_ok hash t hch x with ⟨t1', i', e1, hl1, hi1, hx1, hch1, hst1, _⟩ | ⟨e1, _⟩
  · rw [h1] at e1
    have e1 := pure_inj.1 e1
    injection e1 with ea eb
    subst ea eb
    rw [← hl1] at hch1
    obtain ⟨t2', e2, hl2, hch2, _, hst2⟩ := run_ok hash os' t1 _ hch1 (List.Perm.refl _)
    rw [h2] at e2
    have e2 := pure_inj.1 e2
    injection e2 with ea _
    subst ea
    rw [← hl2] at hch2
    rcases insert_ok hash t2 hch2 y with ⟨t3', j', e3, hl3, hj3, hy3, hch3, hst3, _⟩ | ⟨e3, _⟩
    · rw [h3] at e3
      have e3 := pure_inj.1 e3
      injection e3 with ea eb
      subst ea eb
      have hxi : t3[i]? = some (some x) := hst3 i x (hst2 i x hx1)
      refine ⟨by omega, ?_, ?_⟩
      · rintro rfl
        rw [hy3] at hxi
        injection hxi with hxi; injection hxi with hxi
        exact hxi.symm
      · rintro rfl
        exact hch3.unique (i := i) (i' := j) (by omega) (by omega) hxi hy3 rfl
    · rw [h3] at e3
      exact absurd e3.symm (thrown_ne_pure _)
  · rw [h1] at e1
    exact absurd e1.symm (thrown_ne_pure _)

/-- Two colliding keys keep their places. -/
example : insert (fun _ => 6) (make Nat 3) 4 = pure ([none, none, some 4], 2) ∧
    run (fun _ => 6) [none, none, some 4] [.insert 9] = pure ([some 9, none, some 4], [.inserted]) ∧
    insert (fun _ => 6) [some 9, none, some 4] 4 = pure ([some 9, none, some 4], 2) := by decide +kernel

/-- C50 does not hold for a set of capacity zero: inserting a key does not throw, it divides by zero. -/
theorem C50_zero_violated (hash : κ → Nat) (x : κ) : insert hash (make κ 0) x = ub ∧ exists' hash (make κ 0) x = ub := by
  constructor <;> rfl

end Verif.Containers.HashSet
