import Verif.Containers.OldHashTable

/-
The iterators of `daw::hash_table` and the copies of its cells, include/daw/deprecated/daw_hash_table.h.
-/

namespace Verif.Containers
namespace OldHash
open Cxx

variable {V : Type}

/-- `hash_table_item_iterator`, daw_hash_table.h 112-120, over the cells of a table: the position; the begin is 0 and the end their number. `++`, 186-192: to the next cell and from there to the first
good one; from the end on it reads behind the cells. -/
def next (xs : List (Item V)) (p : Nat) : Cxx Nat :=
  if p < xs.length then pure (p + 1 + (xs.drop (p + 1)).findIdx Item.good) else ub

/-- Whether the cell at a position is good, daw_hash_table.h 61-63. -/
def goodAt (xs : List (Item V)) (i : Nat) : Bool := (xs[i]?.map Item.good).getD false

/-- The loop of `--`, daw_hash_table.h 210-212. -/
def downTo (xs : List (Item V)) : Nat → Nat
  | 0 => 0
  | k + 1 => if goodAt xs (k + 1) then k + 1 else downTo xs k

/-- `--`, daw_hash_table.h 208-214; before the first cell there is none. -/
def prev (xs : List (Item V)) (p : Nat) : Cxx Nat :=
  if p = 0 ∨ xs.length < p then ub else pure (downTo xs (p - 1))

/-- `at_end`, daw_hash_table.h 194-196. -/
def atEnd (xs : List (Item V)) (p : Nat) : Bool := p != xs.length

/-- `valid`, daw_hash_table.h 198-200. -/
def valid (xs : List (Item V)) (p : Nat) : Cxx Bool :=
  if atEnd xs p then pure true else do
    let c ← rd xs p
    pure (c.hash != 0)

/-- `begin`, daw_hash_table.h 347-351: `++` from the first cell. -/
def first (xs : List (Item V)) : Cxx Nat := next xs 0

/-- A loop over a table, from `begin` to `end`, daw_hash_table.h 347-351, 365-367: the positions that are visited. -/
def walk (xs : List (Item V)) (p : Nat) : Cxx (List Nat) :=
  if p = xs.length then pure [] else do
    let q ← next xs p
    let r ← walk xs q
    pure (p :: r)
partial_fixpoint

/-- The copy constructor of a cell, daw_hash_table.h 75-79. -/
def Item.copied (i : Item V) : Item V := ⟨if i.hash = 1 then 0 else i.hash, i.value⟩

/-- The copy assignment of a cell, daw_hash_table.h 85-94: the first assignment to `hash` is overwritten by the second one. -/
def Item.assigned (_lhs rhs : Item V) : Item V :=
  let _hash := if rhs.hash = 1 then 0 else rhs.hash
  ⟨rhs.hash, rhs.value⟩

/-- The copy of the cells of a table, daw_heap_array.h 75-81 (deprecated): new cells, which the others are assigned to. -/
def copyCells (d : V) (xs : List (Item V)) : List (Item V) := xs.map fun x => (Item.new d).assigned x

/-- The positions of the good cells from one on. (Specification, no line of the source.) -/
def goodFrom (xs : List (Item V)) (p : Nat) : List Nat := (List.range' p (xs.length - p)).filter (goodAt xs)

theorem goodFrom_skip (xs : List (Item V)) (p : Nat) (h : p ≤ xs.length) : goodFrom xs p = goodFrom xs (p + (xs.drop p).findIdx Item.good) := by
  induction hk : xs.length - p generalizing p with
  | zero =>
    have : (xs.drop p).findIdx Item.good = 0 := by
      rw [List.drop_eq_nil_of_le (by omega)]; rfl
    rw [this, Nat.add_zero]
  | succ k ih =>
    have hp : p < xs.length := by omega
    rw [List.drop_eq_getElem_cons hp, List.findIdx_cons]
    by_cases hg : xs[p].good = true
    · rw [hg]; rfl
    · have hg' : xs[p].good = false := by simpa using hg
      rw [hg', cond_false, show p + ((xs.drop (p + 1)).findIdx Item.good + 1) = p + 1 + (xs.drop (p + 1)).findIdx Item.good by omega, ← ih (p + 1) (by omega) (by omega)]
      unfold goodFrom
      rw [show xs.length - p = (xs.length - (p + 1)) + 1 by omega, List.range'_succ, List.filter_cons_of_neg]
      simp [goodAt, hp, hg']

theorem next_spec (xs : List (Item V)) (p : Nat) (h : p < xs.length) :
    ∃ q, next xs p = pure q ∧ p < q ∧ q ≤ xs.length ∧ (q < xs.length → goodAt xs q = true) ∧ ∀ i, p < i → i < q → goodAt xs i = false := by
  refine ⟨_, by unfold next; rw [if_pos h], by omega, ?_, ?_, ?_⟩
  · have := List.findIdx_le_length (xs := xs.drop (p + 1)) (p := Item.good)
    rw [List.length_drop] at this
    omega
  · intro hq
    have hlt : (xs.drop (p + 1)).findIdx Item.good < (xs.drop (p + 1)).length := by rw [List.length_drop]; omega
    have := List.findIdx_getElem (w := hlt)
    rw [List.getElem_drop] at this
    unfold goodAt
    rw [List.getElem?_eq_getElem hq]
    exact this
  · intro i h1 h2
    have hlt : i - (p + 1) < (xs.drop (p + 1)).findIdx Item.good := by omega
    have := List.not_of_lt_findIdx hlt
    rw [List.getElem_drop] at this
    simp only [show p + 1 + (i - (p + 1)) = i by omega] at this
    unfold goodAt
    have hi : i < xs.length := by
      have := List.findIdx_le_length (xs := xs.drop (p + 1)) (p := Item.good)
      rw [List.length_drop] at this
      omega
    rw [List.getElem?_eq_getElem hi]
    simpa using this

theorem walk_spec (xs : List (Item V)) (p : Nat) (h : p ≤ xs.length) (hg : p < xs.length → goodAt xs p = true) : walk xs p = pure (goodFrom xs p) := by
  induction hk : xs.length - p using Nat.strongRecOn generalizing p with
  | ind k ih =>
    rw [walk.eq_1]
    by_cases hp : p = xs.length
    · rw [if_pos hp, hp]
      unfold goodFrom
      rw [Nat.sub_self]; rfl
    · have hlt : p < xs.length := by omega
      rw [if_neg hp]
      obtain ⟨q, e, h1, h2, h3, -⟩ := next_spec xs p hlt
      rw [e, pure_bind, ih (xs.length - q) (by omega) q h2 h3 rfl, pure_bind]
      have e' : q = p + 1 + (xs.drop (p + 1)).findIdx Item.good := by
        unfold next at e; rw [if_pos hlt] at e; exact ((pure_inj).1 e).symm
      have hs := goodFrom_skip xs (p + 1) (by omega)
      rw [← e'] at hs
      rw [← hs]
      congr 1
      unfold goodFrom
      rw [show xs.length - p = (xs.length - (p + 1)) + 1 by omega, List.range'_succ, List.filter_cons_of_pos (hg hlt)]

/-- A loop from `begin` to `end` visits the good cells from the second one on, each once and in order, and reads no cell behind the last one. -/
theorem C341_walk_partial (xs : List (Item V)) (h : 0 < xs.length) :
    ∃ b, first xs = pure b ∧ walk xs b = pure (((List.range xs.length).drop 1).filter (goodAt xs)) := by
  obtain ⟨q, e, h1, h2, h3, -⟩ := next_spec xs 0 h
  refine ⟨q, e, ?_⟩
  rw [walk_spec xs q h2 h3]
  have e' : q = 0 + 1 + (xs.drop (0 + 1)).findIdx Item.good := by
    unfold next at e; rw [if_pos h] at e; exact ((pure_inj).1 e).symm
  have hs := goodFrom_skip xs 1 (by omega)
  rw [show (1 : Nat) = 0 + 1 from rfl, ← e'] at hs
  rw [← hs]
  unfold goodFrom
  rw [List.range_eq_range', List.drop_range']

example : first [⟨7, 'a'⟩, ⟨0, 'b'⟩, ⟨5, 'c'⟩, ⟨1, 'd'⟩, ⟨9, 'e'⟩] = pure 2 ∧ walk [⟨7, 'a'⟩, ⟨0, 'b'⟩, ⟨5, 'c'⟩, ⟨1, 'd'⟩, ⟨9, 'e'⟩] 2 = pure [2, 4] := by
  obtain ⟨b, h1, h2⟩ := C341_walk_partial [⟨7, 'a'⟩, ⟨0, 'b'⟩, ⟨5, 'c'⟩, ⟨1, 'd'⟩, ⟨9, 'e'⟩] (by decide)
  have hb : b = 2 := ((pure_inj).1 (h1.symm.trans (by decide +kernel : _ = pure 2)))
  subst hb
  exact ⟨h1, h2⟩

theorem downTo_spec (xs : List (Item V)) (p : Nat) (hg : goodAt xs p = true) : ∀ k, p ≤ k → (∀ i, p < i → i ≤ k → goodAt xs i = false) → downTo xs k = p
  | 0, h, _ => by unfold downTo; omega
  | k + 1, h, hb => by
    unfold downTo
    by_cases hk : p = k + 1
    · rw [hk] at hg; rw [if_pos hg, hk]
    · rw [hb (k + 1) (by omega) (Nat.le_refl _)]
      exact downTo_spec xs p hg k (by omega) fun i h1 h2 => hb i h1 (by omega)

/-- From a good cell `++` goes to the next good one, or to the end, and `--` back. -/
theorem C341_back (xs : List (Item V)) (p : Nat) (h : p < xs.length) (hg : goodAt xs p = true) :
    ∃ q, next xs p = pure q ∧ prev xs q = pure p ∧ p < q ∧ ∀ i, p < i → i < q → goodAt xs i = false := by
  obtain ⟨q, e, h1, h2, h3, h4⟩ := next_spec xs p h
  refine ⟨q, e, ?_, h1, h4⟩
  unfold prev
  rw [if_neg (by omega), downTo_spec xs p hg (q - 1) (by omega) fun i a b => h4 i a (by omega)]

example : next [⟨7, 'a'⟩, ⟨0, 'b'⟩, ⟨5, 'c'⟩] 0 = pure 2 ∧ prev [⟨7, 'a'⟩, ⟨0, 'b'⟩, ⟨5, 'c'⟩] 2 = pure 0 := ⟨by decide +kernel, by decide +kernel⟩

/-- A good first cell is never visited; `begin` of a table without cells, which `clear` leaves, is undefined; `at_end` is true everywhere but at the end, and `valid` reads the cell behind the last one exactly
there; `--` of the end stops at the first cell even if it is not good. -/
theorem C341_violated (xs : List (Item V)) :
    (∀ c : Item V, c.good = true → ∃ b l, first (c :: xs) = pure b ∧ walk (c :: xs) b = pure l ∧ goodAt (c :: xs) 0 = true ∧ 0 ∉ l) ∧
    first ([] : List (Item V)) = ub ∧
    (∀ p, p < xs.length → atEnd xs p = true ∧ valid xs p = pure true) ∧ atEnd xs xs.length = false ∧ valid xs xs.length = ub ∧
    (0 < xs.length → AllEmpty xs → prev xs xs.length = pure 0 ∧ goodAt xs 0 = false) := by
  have hend : atEnd xs xs.length = false := by simp [atEnd]
  refine ⟨fun c hc => ?_, by unfold first next; rw [if_neg (by simp)], fun p hp => ?_, hend, ?_, fun h0 he => ?_⟩
  · obtain ⟨b, h1, h2⟩ := C341_walk_partial (c :: xs) (by simp)
    refine ⟨b, _, h1, h2, by simp [goodAt, hc], ?_⟩
    intro hm
    have := (List.mem_filter.1 hm).1
    rw [List.range_eq_range', List.drop_range', List.mem_range'_1] at this
    omega
  · have : atEnd xs p = true := by simp [atEnd]; omega
    exact ⟨this, by unfold valid; rw [if_pos this]⟩
  · unfold valid
    rw [hend, if_neg (by simp), rd_oob (by omega)]
    rfl
  · have hall : ∀ i, goodAt xs i = false := by
      intro i
      unfold goodAt
      by_cases hi : i < xs.length
      · rw [List.getElem?_eq_getElem hi]
        have := he xs[i] (List.getElem_mem hi)
        simp [Item.good, this]
      · rw [List.getElem?_eq_none (by omega)]; rfl
    have hd : ∀ k, downTo xs k = 0 := by
      intro k
      induction k with
      | zero => rfl
      | succ k ih => unfold downTo; rw [hall]; exact ih
    exact ⟨by unfold prev; rw [if_neg (by omega), hd], hall 0⟩

/-- A copied table has the same cells, so that every search ends at the same place.
Missing: copies of single cells, see `C342_item_violated`. -/
theorem C342_copy_partial (d : V) (xs : List (Item V)) (hash : Nat) (b : Bool) : copyCells d xs = xs ∧ findItem hash (copyCells d xs) b = findItem hash xs b := by
  have h : copyCells d xs = xs := by
    unfold copyCells
    rw [show (fun x : Item V => (Item.new d).assigned x) = id from rfl, List.map_id]
  exact ⟨h, by rw [h]⟩

example : copyCells 0 [⟨1, 5⟩, ⟨7, 6⟩] = [⟨1, 5⟩, ⟨7, 6⟩] := (C342_copy_partial 0 [⟨1, 5⟩, ⟨7, 6⟩] 7 true).1

/-- The copy constructor of a cell forgets that it was removed, unlike its copy assignment: in a table of cells made with it, a hash that was stored behind a removed cell is not found any more. -/
theorem C342_item_violated : ∃ (xs : List (Item Nat)) (h : Nat), 2 ≤ h ∧ xs.map Item.copied ≠ xs ∧
    (∃ i c, findItem h xs true = pure (some i) ∧ xs[i]? = some c ∧ c.hash = h) ∧
    ∃ i c, findItem h (xs.map Item.copied) true = pure (some i) ∧ (xs.map Item.copied)[i]? = some c ∧ c.hash = 0 := by
  refine ⟨[⟨1, 0⟩, ⟨1, 0⟩, ⟨5, 6⟩], 5, by decide, by decide, ⟨2, ⟨5, 6⟩, by decide +kernel, rfl, rfl⟩, ?_⟩
  exact ⟨slot 5 3, ⟨0, 0⟩, by decide +kernel, by decide +kernel, rfl⟩

end OldHash
end Verif.Containers
