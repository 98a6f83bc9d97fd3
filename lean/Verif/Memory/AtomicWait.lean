import Verif.Base

/-
include/daw/daw_atomic_wait.h.  What the other threads and the clock do is given by two sequences: `load k` is the value of the `k`-th load
of the atomic object, `now k` the `k`-th reading of the clock in nanoseconds since its epoch.  Sleeping and yielding change neither.
A predicate has no side effects.  A time that does not fit into 63 bits is undefined, as the representation of `std::chrono::nanoseconds` is a
signed integer of 64 bits; converting the units of `rel_time` is left out.
-/

namespace Verif.Memory
open Cxx

variable {α : Type}

/-- `daw::wait_status`, daw_atomic_wait.h 20. -/
inductive Status where
  | found
  | timeout
deriving DecidableEq

/-- The first loop of `atomic_wait_for`, daw_atomic_wait.h 100-103, and of `atomic_wait_if_for`, 219-223: the index of the last load. -/
def tries (pred : α → Bool) (load : Nat → α) : Nat → Nat → Nat
  | 0, i => i
  | k + 1, i => if pred (load i) then i else tries pred load k (i + 1)

/-- `poll_with_backoff`, daw_atomic_wait.h 40-64, with the function polled, 104-112 and 224-233; the policy, 24-38, never asks to stop.  `i` is the
index of the last load, `j` of the next reading of the clock; both are returned. -/
def poll (pred : α → Bool) (load : Nat → α) (now : Nat → Int) (final start max : Int) (count i j : Nat) : Cxx (Nat × Nat) :=
  if pred (load (i + 1)) then pure (i + 1, j)
  else if final ≤ now j then pure (i + 1, j + 1)
  else if count < 64 then poll pred load now final start max (count + 1) (i + 1) (j + 1)
  else if max ≤ now (j + 1) - start then pure (i + 1, j + 2)
  else poll pred load now final start max count (i + 1) (j + 2)
partial_fixpoint

/-- `atomic_wait_if_for`, daw_atomic_wait.h 208-240: the status, the index of the last load and the number of clock readings. -/
def waitIfFor (pred : α → Bool) (load : Nat → α) (now : Nat → Int) (rel : Int) : Cxx (Status × Nat × Nat) := do
  let final := now 0 + rel
  if final < -2 ^ 63 ∨ 2 ^ 63 ≤ final then ub
  else
    let i := tries pred load 16 0
    let (i, j) ← poll pred load now final (now 1) rel 0 i 2
    pure (if pred (load i) then .found else .timeout, i, j)

/-- `atomic_wait_for`, daw_atomic_wait.h 91-119. -/
def waitFor [DecidableEq α] (old : α) (load : Nat → α) (now : Nat → Int) (rel : Int) : Cxx (Status × Nat × Nat) :=
  waitIfFor (fun x => x ≠ old) load now rel

/-- `atomic_wait_value_equal_for`, daw_atomic_wait.h 322-333. -/
def waitEqualFor [DecidableEq α] (desired : α) (load : Nat → α) (now : Nat → Int) (rel : Int) : Cxx (Status × Nat × Nat) :=
  waitIfFor (fun x => x = desired) load now rel

/-- `atomic_wait_if`, daw_atomic_wait.h 170-181, and `atomic_wait_value_equal`, 288-298: the index of the last load. -/
def waitIf (pred : α → Bool) (load : Nat → α) (i : Nat) : Cxx Nat := if pred (load i) then pure i else waitIf pred load (i + 1)
partial_fixpoint

theorem tries_ok (pred : α → Bool) (load : Nat → α) (k : Nat) : ∀ i, tries pred load k i ≤ i + k ∧
    ∀ n, i ≤ n → n < tries pred load k i → pred (load n) = false := by
  induction k with
  | zero => intro i; exact ⟨by simp [tries], fun n h1 h2 => by simp [tries] at h2; omega⟩
  | succ k ih =>
    intro i
    rw [tries]
    split
    · exact ⟨by omega, fun n h1 h2 => by omega⟩
    · rename_i h
      obtain ⟨h1, h2⟩ := ih (i + 1)
      refine ⟨by omega, fun n hn1 hn2 => ?_⟩
      by_cases hn : n = i
      · subst hn
        simpa using h
      · exact h2 n (by omega) hn2

/-- Polling ends once the clock is past the end for good; what it reports. -/
theorem poll_ok (pred : α → Bool) (load : Nat → α) (now : Nat → Int) (final start max : Int) (J : Nat) (hJ : ∀ j, J ≤ j → final ≤ now j)
    (m : Nat) : ∀ count i j, J - j = m → ∃ i' j', poll pred load now final start max count i j = pure (i', j') ∧ i < i' ∧ j ≤ j' ∧
      (∀ n, i < n → n < i' → pred (load n) = false) ∧
      (pred (load i') = false → ∃ t, j ≤ t ∧ t < j' ∧ (final ≤ now t ∨ start + max ≤ now t)) := by
  induction m using Nat.strongRecOn with
  | _ m ih =>
    intro count i j hm
    rw [poll]
    by_cases hp : pred (load (i + 1)) = true
    · rw [if_pos hp]
      exact ⟨i + 1, j, rfl, by omega, by omega, fun n h1 h2 => by omega, fun h => by simp [hp] at h⟩
    · rw [if_neg hp]
      by_cases hf : final ≤ now j
      · rw [if_pos hf]
        exact ⟨i + 1, j + 1, rfl, by omega, by omega, fun n h1 h2 => by omega, fun _ => ⟨j, by omega, by omega, Or.inl hf⟩⟩
      · rw [if_neg hf]
        have hjJ : j < J := by
          have := hJ j
          omega
        by_cases hc : count < 64
        · rw [if_pos hc]
          obtain ⟨i', j', e, h1, h2, h3, h4⟩ := ih (J - (j + 1)) (by omega) (count + 1) (i + 1) (j + 1) rfl
          refine ⟨i', j', e, by omega, by omega, fun n n1 n2 => ?_, fun h => ?_⟩
          · by_cases hn : n = i + 1
            · subst hn
              simpa using hp
            · exact h3 n (by omega) n2
          · obtain ⟨t, t1, t2, t3⟩ := h4 h
            exact ⟨t, by omega, t2, t3⟩
        · rw [if_neg hc]
          by_cases hmx : max ≤ now (j + 1) - start
          · rw [if_pos hmx]
            exact ⟨i + 1, j + 2, rfl, by omega, by omega, fun n h1 h2 => by omega, fun _ => ⟨j + 1, by omega, by omega, Or.inr (by omega)⟩⟩
          · rw [if_neg hmx]
            obtain ⟨i', j', e, h1, h2, h3, h4⟩ := ih (J - (j + 2)) (by omega) count (i + 1) (j + 2) rfl
            refine ⟨i', j', e, by omega, by omega, fun n n1 n2 => ?_, fun h => ?_⟩
            · by_cases hn : n = i + 1
              · subst hn
                simpa using hp
              · exact h3 n (by omega) n2
            · obtain ⟨t, t1, t2, t3⟩ := h4 h
              exact ⟨t, by omega, t2, t3⟩

/-- If the clock gets past the end for good and the end can be represented, the wait ends.  It reports `found` exactly if the last value
loaded satisfies the predicate, so a value read in the call did; it reports a timeout only after the clock was read to be past the end, the clock
being monotone. -/
theorem C58_wait_partial (pred : α → Bool) (load : Nat → α) (now : Nat → Int) (rel : Int) (h1 : -2 ^ 63 ≤ now 0 + rel) (h2 : now 0 + rel < 2 ^ 63)
    (hmono : ∀ i j, i ≤ j → now i ≤ now j) (hend : ∃ J, now 0 + rel ≤ now J) :
    ∃ s i j, waitIfFor pred load now rel = pure (s, i, j) ∧ (s = .found ↔ pred (load i) = true) ∧
      (s = .timeout → ∃ t, t < j ∧ now 0 + rel ≤ now t) := by
  obtain ⟨J, hJ⟩ := hend
  obtain ⟨i', j', e, _, _, _, h4⟩ := poll_ok pred load now (now 0 + rel) (now 1) rel J (fun j hj => by have := hmono J j hj; omega) _ 0
    (tries pred load 16 0) 2 rfl
  refine ⟨if pred (load i') then .found else .timeout, i', j', ?_, ?_, ?_⟩
  · unfold waitIfFor
    simp only []
    rw [if_neg (by omega), e]
    rfl
  · split <;> simp_all
  · intro hs
    have hp : pred (load i') = false := by
      by_cases h : pred (load i') = true
      · rw [if_pos h] at hs
        cases hs
      · simpa using h
    obtain ⟨t, _, ht, h⟩ := h4 hp
    refine ⟨t, ht, ?_⟩
    have := hmono 0 1 (by omega)
    omega

/-- The same for waiting for a change and for a value. -/
theorem C58_value_partial [DecidableEq α] (v : α) (load : Nat → α) (now : Nat → Int) (rel : Int) (h1 : -2 ^ 63 ≤ now 0 + rel)
    (h2 : now 0 + rel < 2 ^ 63) (hmono : ∀ i j, i ≤ j → now i ≤ now j) (hend : ∃ J, now 0 + rel ≤ now J) :
    (∃ s i j, waitFor v load now rel = pure (s, i, j) ∧ (s = .found ↔ load i ≠ v) ∧ (s = .timeout → ∃ t, t < j ∧ now 0 + rel ≤ now t)) ∧
      ∃ s i j, waitEqualFor v load now rel = pure (s, i, j) ∧ (s = .found ↔ load i = v) ∧ (s = .timeout → ∃ t, t < j ∧ now 0 + rel ≤ now t) := by
  constructor
  · obtain ⟨s, i, j, e, a, b⟩ := C58_wait_partial (fun x => x ≠ v) load now rel h1 h2 hmono hend
    exact ⟨s, i, j, e, by simpa using a, b⟩
  · obtain ⟨s, i, j, e, a, b⟩ := C58_wait_partial (fun x => x = v) load now rel h1 h2 hmono hend
    exact ⟨s, i, j, e, by simpa using a, b⟩

example : ∃ now : Nat → Int, -2 ^ 63 ≤ now 0 + 1000 ∧ now 0 + 1000 < 2 ^ 63 ∧ (∀ i j, i ≤ j → now i ≤ now j) ∧ ∃ J, now 0 + 1000 ≤ now J :=
  ⟨fun k => 5000 + 30 * k, by decide, by decide, fun i j h => by show 5000 + 30 * (i : Int) ≤ 5000 + 30 * (j : Int); omega, 40, by decide⟩

/-- Waiting for the longest time there is is undefined unless the clock is at its epoch or before. -/
theorem C58_longest_violated (pred : α → Bool) (load : Nat → α) (now : Nat → Int) (h : 0 < now 0) :
    waitIfFor pred load now (2 ^ 63 - 1) = ub := by
  unfold waitIfFor
  simp only []
  rw [if_pos (by omega)]

example := C58_longest_violated (fun b : Bool => b) (fun _ => false) (fun n => (n : Int) + 1) (by decide)

/-- `atomic_wait_if` returns only after loading a value that satisfies the predicate, at the first such load. -/
theorem C58_wait_if (pred : α → Bool) (load : Nat → α) (n : Nat) :
    waitIf pred load 0 = pure n ↔ pred (load n) = true ∧ ∀ k, k < n → pred (load k) = false := by
  have fwd : ∀ m i, (pred (load (i + m)) = true ∧ ∀ k, k < m → pred (load (i + k)) = false) → waitIf pred load i = pure (i + m) := by
    intro m
    induction m with
    | zero =>
      intro i h
      rw [waitIf, if_pos (by simpa using h.1)]
      rfl
    | succ m ih =>
      intro i h
      have h0 := h.2 0 (by omega)
      rw [waitIf, if_neg (by simpa using h0), ih (i + 1) ⟨by rw [show i + 1 + m = i + (m + 1) by omega]; exact h.1, fun k hk => by
        rw [show i + 1 + k = i + (k + 1) by omega]; exact h.2 (k + 1) (by omega)⟩]
      congr 1
      omega
  constructor
  · intro h
    by_cases hex : ∃ k, pred (load k) = true
    · -- the first one
      have hfirst : ∃ k, pred (load k) = true ∧ ∀ m, m < k → pred (load m) = false := by
        obtain ⟨k, hk⟩ := hex
        induction k using Nat.strongRecOn with
        | _ k ih =>
          by_cases hall : ∀ m, m < k → pred (load m) = false
          · exact ⟨k, hk, hall⟩
          · have : ∃ m, m < k ∧ pred (load m) = true := by
              apply Classical.byContradiction
              intro hc
              exact hall (fun m hm => by
                cases hpm : pred (load m) with
                | false => rfl
                | true => exact absurd ⟨m, hm, hpm⟩ hc)
            obtain ⟨m, hm, hpm⟩ := this
            exact ih m hm hpm
      obtain ⟨k, hk1, hk2⟩ := hfirst
      have := fwd k 0 ⟨by simpa using hk1, fun m hm => by simpa using hk2 m hm⟩
      rw [h] at this
      have := pure_inj.1 this
      rw [Nat.zero_add] at this
      subst this
      exact ⟨hk1, hk2⟩
    · -- it never returns
      exfalso
      have hno : ∀ k, pred (load k) = false := fun k => by
        cases hpk : pred (load k) with
        | false => rfl
        | true => exact absurd ⟨k, hpk⟩ hex
      have : ∀ i r, waitIf pred load i = pure r → False := by
        refine waitIf.fixpoint_induct pred load (fun f => ∀ i r, f i = pure r → False) ?_ ?_
        · exact admissible1 (fun _ x => ∀ r, x = pure r → False) (fun _ r h => by cases h)
        · intro f ih i r h
          dsimp only at h
          rw [if_neg (by simp [hno i])] at h
          exact ih _ _ h
      exact this 0 n h
  · rintro ⟨h1, h2⟩
    have := fwd n 0 ⟨by simpa using h1, fun k hk => by simpa using h2 k hk⟩
    simpa using this

/-! ### Values that are read and forgotten -/

/-- A value that satisfies the predicate can be loaded and forgotten: the atomic object has it for a moment when the first loop looks, and
the wait reports a timeout. -/
theorem C95_forgotten_violated :
    ∃ (load : Nat → Bool) (now : Nat → Int) (rel : Int), (∀ i j, i ≤ j → now i ≤ now j) ∧ (∃ J, now 0 + rel ≤ now J) ∧ load 0 = true ∧
      ∃ i j, waitIfFor (fun x => x) load now rel = pure (.timeout, i, j) := by
  refine ⟨fun k => k == 0, fun k => k, 2, fun i j h => by show (i : Int) ≤ j; omega, ⟨2, by decide⟩, rfl, 1, 3, ?_⟩
  unfold waitIfFor
  simp only []
  rw [if_neg (by decide), poll, if_neg (by decide), if_pos (by decide)]
  rfl

/-- That happens at most once, to one of the first seventeen loads: every other value loaded, except the last, did not satisfy the
predicate.  Missing is that one value. -/
theorem C95_prompt_partial (pred : α → Bool) (load : Nat → α) (now : Nat → Int) (rel : Int) (h1 : -2 ^ 63 ≤ now 0 + rel) (h2 : now 0 + rel < 2 ^ 63)
    (hend : ∃ J, ∀ j, J ≤ j → now 0 + rel ≤ now j) :
    ∃ s i j, waitIfFor pred load now rel = pure (s, i, j) ∧ ∃ n, n ≤ 16 ∧ n < i ∧ ∀ k, k < i → k ≠ n → pred (load k) = false := by
  obtain ⟨J, hJ⟩ := hend
  obtain ⟨i', j', e, hi, _, h3, _⟩ := poll_ok pred load now (now 0 + rel) (now 1) rel J hJ _ 0 (tries pred load 16 0) 2 rfl
  obtain ⟨t1, t2⟩ := tries_ok pred load 16 0
  refine ⟨if pred (load i') then .found else .timeout, i', j', ?_, tries pred load 16 0, by omega, hi, ?_⟩
  · unfold waitIfFor
    simp only []
    rw [if_neg (by omega), e]
    rfl
  · intro k hk hkn
    by_cases hlt : k < tries pred load 16 0
    · exact t2 k (by omega) hlt
    · exact h3 k (by omega) hk

example := C95_prompt_partial (fun b : Bool => b) (fun _ => false) (fun n => (n : Int)) 5 (by decide) (by decide) ⟨5, fun j hj => by simp; omega⟩

end Verif.Memory
