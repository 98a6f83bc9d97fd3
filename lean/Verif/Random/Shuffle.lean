import Verif.Sort.Perm
import Verif.Containers.Lists

/-
include/daw/daw_random.h: `randint`, `shuffle`, `random_fill`, `make_random_data` and `RandomInteger`.

What the random engine delivers is a parameter of the model.  Of `std::uniform_int_distribution` only the contract is used that its
values lie in the closed interval it was given.
-/

namespace Verif.Random
open Cxx Verif.Sort

variable {α : Type}

/-- The loop of `shuffle`, daw_random.h 63-65, from `i` down to one; `r i` is the value that `randint( 0, i )` returns. -/
def shuffleLoop (r : Nat → Nat) : Nat → List α → Cxx (List α)
  | 0, xs => pure xs
  | i + 1, xs => do
    let xs ← swapAt xs (i + 1) (r (i + 1))
    shuffleLoop r i xs

/-- `shuffle`, daw_random.h 57-66. -/
def shuffle (r : Nat → Nat) (xs : List α) : Cxx (List α) := shuffleLoop r (xs.length - 1) xs

theorem shuffleLoop_perm (r : Nat → Nat) (hr : ∀ i, r i ≤ i) : ∀ (i : Nat) (xs : List α), i < xs.length ∨ i = 0 →
    ∃ ys, shuffleLoop r i xs = pure ys ∧ ys.Perm xs ∧ ∀ k, i < k → ys[k]? = xs[k]? := by
  intro i
  induction i with
  | zero => intro xs _; exact ⟨xs, rfl, .refl _, fun _ _ => rfl⟩
  | succ i ih =>
    intro xs hi
    have hi : i + 1 < xs.length := by omega
    have hr1 := hr (i + 1)
    obtain ⟨ys, e, hl, hp, hk⟩ := swapAt_spec (List.getElem?_eq_getElem hi)
      (List.getElem?_eq_getElem (show r (i + 1) < xs.length by omega))
    obtain ⟨zs, e2, hp2, hk2⟩ := ih ys (by omega)
    refine ⟨zs, by rw [shuffleLoop, e, pure_bind, e2], hp2.trans hp, fun k h => ?_⟩
    rw [hk2 k (by omega), hk k, if_neg (by omega), if_neg (by omega)]

/-- C118: whatever the engine delivers, `shuffle` stays inside the range and returns a permutation of it. -/
theorem C118_permutes (r : Nat → Nat) (hr : ∀ i, r i ≤ i) (xs : List α) : ∃ ys, shuffle r xs = pure ys ∧ ys.Perm xs := by
  obtain ⟨ys, e, hp, _⟩ := shuffleLoop_perm r hr (xs.length - 1) xs (by omega)
  exact ⟨ys, e, hp⟩

example := C118_permutes (fun i => i / 2) (fun i => Nat.div_le_self i 2) ['a', 'b', 'c']

theorem nodup_inj {xs : List α} (h : xs.Nodup) {i j : Nat} {a : α} (hi : xs[i]? = some a) (hj : xs[j]? = some a) : i = j := by
  obtain ⟨h1, h2⟩ := List.getElem?_eq_some_iff.1 hi
  obtain ⟨h3, h4⟩ := List.getElem?_eq_some_iff.1 hj
  exact (List.getElem_inj h).1 (h2.trans h4.symm)

theorem shuffleLoop_unique (i : Nat) : ∀ (xs ys : List α), xs.Nodup → i < xs.length ∨ i = 0 → ys.Perm xs →
    (∀ k, i < k → ys[k]? = xs[k]?) →
    ∃ r : Nat → Nat, (∀ j, r j ≤ j) ∧ shuffleLoop r i xs = pure ys ∧
      ∀ r' : Nat → Nat, (∀ j, r' j ≤ j) → shuffleLoop r' i xs = pure ys → ∀ j, j ≤ i → r' j = r j := by
  induction i with
  | zero =>
    intro xs ys hn hi hp hk
    refine ⟨fun _ => 0, fun _ => Nat.zero_le _, ?_, ?_⟩
    · rw [shuffleLoop, pure_inj]
      have hl := hp.length_eq
      match xs, ys, hl with
      | [], [], _ => rfl
      | [x], [y], _ =>
        have := List.singleton_perm_singleton.1 hp
        rw [this]
      | x :: x' :: xs, y :: y' :: ys, _ =>
        have ht : x' :: xs = y' :: ys := by
          apply List.ext_getElem?
          intro k
          have := hk (k + 1) (by omega)
          rw [List.getElem?_cons_succ, List.getElem?_cons_succ] at this
          exact this.symm
        rw [← ht] at hp
        rw [← ht]
        congr 1
        have hm : y ∈ x :: x' :: xs := hp.mem_iff.1 List.mem_cons_self
        rcases List.mem_cons.1 hm with e | e
        · exact e.symm
        · exfalso
          have hny : (y :: x' :: xs).Nodup := hp.nodup_iff.2 hn
          exact (List.nodup_cons.1 hny).1 e
    · intro r' hr' _ j hj
      have := hr' j
      show r' j = 0
      omega
  | succ i ih =>
    intro xs ys hn hi hp hk
    have hi : i + 1 < xs.length := by omega
    have hl := hp.length_eq
    have hny : ys.Nodup := hp.nodup_iff.2 hn
    have hyi : ys[i + 1]? = some ys[i + 1] := List.getElem?_eq_getElem (by omega)
    obtain ⟨q, hq⟩ := List.getElem?_of_mem (hp.mem_iff.1 (List.mem_of_getElem? hyi))
    have hqi : q ≤ i + 1 := by
      rcases Nat.lt_or_ge (i + 1) q with g | g
      · have := hk q g
        rw [hq] at this
        have := nodup_inj hny hyi this
        omega
      · exact g
    obtain ⟨zs, e, hl2, hp2, hk2⟩ := swapAt_spec (List.getElem?_eq_getElem hi) hq
    have hz : ∀ k, i < k → ys[k]? = zs[k]? := by
      intro k h
      rw [hk2 k]
      by_cases h1 : k = i + 1
      · subst h1
        by_cases h2 : i + 1 = q
        · rw [if_pos h2, hyi, ← hq, ← h2, List.getElem?_eq_getElem hi]
        · rw [if_neg h2, if_pos rfl, hyi]
      · rw [if_neg (by omega), if_neg h1, hk k (by omega)]
    obtain ⟨r, hr, er, hu⟩ := ih zs ys (hp2.nodup_iff.2 hn) (by omega) (hp.trans hp2.symm) hz
    refine ⟨fun j => if j = i + 1 then q else r j, ?_, ?_, ?_⟩
    · intro j
      by_cases hj : j = i + 1
      · simp only [hj, if_pos]; exact hqi
      · simp only [if_neg hj]; exact hr j
    · rw [shuffleLoop]
      simp only [if_pos]
      rw [e, pure_bind, ← er]
      have : ∀ (m : Nat) (ws : List α), m ≤ i → shuffleLoop (fun j => if j = i + 1 then q else r j) m ws = shuffleLoop r m ws := by
        intro m
        induction m with
        | zero => intro ws _; rfl
        | succ m ihm =>
          intro ws hm
          rw [shuffleLoop, shuffleLoop]
          simp only [if_neg (show ¬ m + 1 = i + 1 by omega)]
          congr 1
          funext ws'
          exact ihm ws' (by omega)
      exact this i zs (Nat.le_refl _)
    · intro r' hr' h' j hj
      have h1 := hr' (i + 1)
      obtain ⟨ws, e', hl', hp', hk'⟩ := swapAt_spec (List.getElem?_eq_getElem hi)
        (List.getElem?_eq_getElem (show r' (i + 1) < xs.length by omega))
      rw [shuffleLoop, e', pure_bind] at h'
      obtain ⟨vs, e3, hp3, hk3⟩ := shuffleLoop_perm r' hr' i ws (by omega)
      rw [e3, pure_inj] at h'
      subst h'
      have hq' : r' (i + 1) = q := by
        have h4 := hk3 (i + 1) (by omega)
        rw [hk' (i + 1), hyi] at h4
        by_cases h5 : i + 1 = r' (i + 1)
        · rw [if_pos h5] at h4
          have h6 : xs[i + 1]? = some vs[i + 1] := by rw [List.getElem?_eq_getElem hi]; exact h4.symm
          have := nodup_inj hn h6 hq
          omega
        · rw [if_neg h5, if_pos rfl] at h4
          have h6 : xs[r' (i + 1)]? = some vs[i + 1] := by
            rw [List.getElem?_eq_getElem (show r' (i + 1) < xs.length by omega)]; exact h4.symm
          exact nodup_inj hn h6 hq
      by_cases hj1 : j = i + 1
      · subst hj1
        simp only [if_pos]
        exact hq'
      · simp only [if_neg hj1]
        refine hu r' hr' ?_ j (by omega)
        rw [hq', e, pure_inj] at e'
        rw [e', e3]

/-- C118: every permutation of distinct elements is the result of exactly one choice of the random numbers; so if all choices are
equally likely, all permutations are. -/
theorem C118_one_choice (xs ys : List α) (hn : xs.Nodup) (hp : ys.Perm xs) :
    ∃ r : Nat → Nat, (∀ i, r i ≤ i) ∧ shuffle r xs = pure ys ∧
      ∀ r' : Nat → Nat, (∀ i, r' i ≤ i) → shuffle r' xs = pure ys → ∀ i, i < xs.length → r' i = r i := by
  obtain ⟨r, h1, h2, h3⟩ := shuffleLoop_unique (xs.length - 1) xs ys hn (by omega) hp (by
    intro k hk
    have := hp.length_eq
    rw [List.getElem?_eq_none (by omega), List.getElem?_eq_none (by omega)])
  exact ⟨r, h1, h2, fun r' hr' e i hi => h3 r' hr' e i (by omega)⟩

example : shuffle (fun i => i / 2) [10, 20, 30, 40] = pure [30, 10, 40, 20] := by decide +kernel

/-- `randint( a, b )`, daw_random.h 35-45: `v` is what the distribution returns for `[a, b]`. -/
def randint (a b v : Int) : Cxx Int := if a ≤ b then pure v else thrown

/-- The loop of `random_fill`, daw_random.h 75-78: `n` elements are left to write at `i`; `r i` is the value of the distribution.
The conversion to the element type is left out. -/
def fillLoop (a b : Int) (r : Nat → Int) : Nat → Nat → List Int → Cxx (List Int)
  | 0, _, xs => pure xs
  | n + 1, i, xs => do
    let v ← randint a b (r i)
    let xs ← wr xs i v
    fillLoop a b r n (i + 1) xs

/-- `random_fill`, daw_random.h 68-79, of the positions from `first` to `last`. -/
def randomFill (a b : Int) (r : Nat → Int) (first last : Nat) (xs : List Int) : Cxx (List Int) :=
  if a ≤ b then fillLoop a b r (last - first) first xs else thrown

/-- `make_random_data`, daw_random.h 90-106. -/
def makeRandomData (a b : Int) (r : Nat → Int) (count : Nat) : Cxx (List Int) :=
  if a ≤ b then randomFill a b r 0 count (List.replicate count 0) else abort

theorem fillLoop_spec (a b : Int) (hab : a ≤ b) (r : Nat → Int) : ∀ (n i : Nat) (xs : List Int), i + n ≤ xs.length →
    ∃ ys, fillLoop a b r n i xs = pure ys ∧ ys.length = xs.length ∧
      ∀ k, ys[k]? = if i ≤ k ∧ k < i + n then some (r k) else xs[k]? := by
  intro n
  induction n with
  | zero => intro i xs _; exact ⟨xs, rfl, rfl, fun k => by rw [if_neg (by omega)]⟩
  | succ n ih =>
    intro i xs h
    obtain ⟨ys, e, hl, hk⟩ := ih (i + 1) (xs.set i (r i)) (by rw [List.length_set]; omega)
    refine ⟨ys, ?_, by rw [hl, List.length_set], fun k => ?_⟩
    · rw [fillLoop, randint, if_pos hab, pure_bind, wr_eq (by omega), pure_bind, e]
    · rw [hk k]
      by_cases h1 : k = i
      · subst h1
        rw [if_neg (by omega), if_pos (by omega), List.getElem?_set_self (by omega)]
      · rw [List.getElem?_set_ne (Ne.symm h1)]
        by_cases h2 : i + 1 ≤ k ∧ k < i + 1 + n
        · rw [if_pos h2, if_pos (by omega)]
        · rw [if_neg h2, if_neg (by omega)]

/-- C119: `random_fill` writes every element of its range and nothing else, and every element written lies between the bounds; with
the bounds exchanged it throws. -/
theorem C119_fill (a b : Int) (r : Nat → Int) (hr : ∀ i, a ≤ b → a ≤ r i ∧ r i ≤ b) (first last : Nat) (xs : List Int)
    (h1 : first ≤ last) (h2 : last ≤ xs.length) :
    (a ≤ b → ∃ ys, randomFill a b r first last xs = pure ys ∧ ys.length = xs.length ∧
      (∀ k v, first ≤ k → k < last → ys[k]? = some v → a ≤ v ∧ v ≤ b) ∧ ∀ k, k < first ∨ last ≤ k → ys[k]? = xs[k]?) ∧
    (b < a → randomFill a b r first last xs = thrown) := by
  constructor
  · intro hab
    obtain ⟨ys, e, hl, hk⟩ := fillLoop_spec a b hab r (last - first) first xs (by omega)
    refine ⟨ys, by rw [randomFill, if_pos hab, e], hl, ?_, ?_⟩
    · intro k v g1 g2 hv
      rw [hk k, if_pos (by omega)] at hv
      injection hv with hv
      rw [← hv]
      exact hr k hab
    · intro k g
      rw [hk k, if_neg (by omega)]
  · intro hab
    rw [randomFill, if_neg (by omega)]

/-- C119: `make_random_data` returns as many values as asked for, all between the bounds; with the bounds exchanged it stops the
program. -/
theorem C119_make (a b : Int) (r : Nat → Int) (hr : ∀ i, a ≤ b → a ≤ r i ∧ r i ≤ b) (count : Nat) :
    (a ≤ b → ∃ ys, makeRandomData a b r count = pure ys ∧ ys.length = count ∧ ∀ v ∈ ys, a ≤ v ∧ v ≤ b) ∧
    (b < a → makeRandomData a b r count = abort) := by
  constructor
  · intro hab
    obtain ⟨ys, e, hl, hv, _⟩ := (C119_fill a b r hr 0 count (List.replicate count 0) (Nat.zero_le _) (by simp)).1 hab
    rw [List.length_replicate] at hl
    refine ⟨ys, by rw [makeRandomData, if_pos hab, e], hl, fun v hm => ?_⟩
    obtain ⟨k, hk⟩ := List.getElem?_of_mem hm
    exact hv k v (Nat.zero_le _) (by have := (List.getElem?_eq_some_iff.1 hk).1; omega) hk
  · intro hab
    rw [makeRandomData, if_neg (by omega)]

example : makeRandomData 3 5 (fun i => 3 + i % 3) 4 = pure [3, 4, 5, 3] := by decide +kernel

/-- `RandomInteger::operator( )( max, min )`, daw_random.h 191-199. -/
def randomInteger (max min v : Int) : Cxx Int := if min < max then pure v else thrown

/-- C119, as far as it holds: `RandomInteger` returns a value between its bounds.  Missing: equal bounds, see
`C119_single_violated`. -/
theorem C119_integer_partial (max min v : Int) (h : min < max) (hv : min ≤ v ∧ v ≤ max) :
    ∃ w, randomInteger max min v = pure w ∧ min ≤ w ∧ w ≤ max := ⟨v, by rw [randomInteger, if_pos h], hv⟩

example : randomInteger 6 1 4 = pure 4 := by decide +kernel

/-- C119 does not hold for `RandomInteger` with equal inclusive bounds: it throws although there is exactly one value, where `randint`
returns it. -/
theorem C119_single_violated (a : Int) : randomInteger a a a = thrown ∧ randint a a a = pure a := by
  constructor
  · rw [randomInteger, if_neg (Int.lt_irrefl a)]
  · rw [randint, if_pos (Int.le_refl a)]

end Verif.Random
