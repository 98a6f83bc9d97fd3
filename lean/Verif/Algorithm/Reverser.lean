import Verif.Base
import Mathlib.Data.List.Induction

/-
`reverse( container )`, include/daw/daw_algorithm.h 408-463, for use as `for( auto &item : reverse( container ) )`.  The container is the
list of its elements; a `std::reverse_iterator` is the position it was made of and refers to the element before it.  A container with
`rbegin` and `rend` gives these; they are the same by the rules for containers.  C arrays have no member `iterator` and do not compile.
-/

namespace Verif.Algorithm.Reverser
open Cxx

variable {α σ : Type}

/-- `begin` of both kinds of `Reverser`, daw_algorithm.h 419-421 and 435-437. -/
def first (c : List α) : Nat := c.length

/-- `end` of both kinds of `Reverser`, daw_algorithm.h 423-425 and 439-441. -/
def last (_ : List α) : Nat := 0

/-- `*it` read, of a `std::reverse_iterator`. (Rule of C++ or its library, no line of the source.) -/
def get (c : List α) (it : Nat) : Cxx α := if it = 0 then ub else rd c (it - 1)

/-- `*it = x`. (Rule of C++ or its library, no line of the source.) -/
def put (c : List α) (it : Nat) (x : α) : Cxx (List α) := if it = 0 then ub else wr c (it - 1) x

/-- `++it`. (Rule of C++ or its library, no line of the source.) -/
def inc (it : Nat) : Cxx Nat := if it = 0 then ub else pure (it - 1)

/-- The loop of the range-based `for`, as in the comment of daw_algorithm.h 408: `body` gets what is known so far and the element, and
gives the same afterwards. -/
def loop (body : σ → α → Cxx (σ × α)) (stop : Nat) (c : List α) (it : Nat) (s : σ) : Cxx (List α × σ) :=
  if it = stop then pure (c, s)
  else do
    let x ← get c it
    let (s, y) ← body s x
    let c ← put c it y
    let it ← inc it
    loop body stop c it s
partial_fixpoint

/-- `for( auto &item : reverse( c ) ) { body }`, daw_algorithm.h 408, 444-454 and 457-463. -/
def forEach (body : σ → α → Cxx (σ × α)) (c : List α) (s : σ) : Cxx (List α × σ) := loop body (last c) c (first c) s

theorem loop_eq (g : List α → α → α) (a : List α) : ∀ (b : List α) (s : List α),
    ∃ ys, loop (fun s x => pure (s ++ [x], g s x)) 0 (a ++ b) a.length s = pure (ys ++ b, s ++ a.reverse) ∧ ys.length = a.length ∧
      ∀ (i : Nat) (x : α), a[i]? = some x → ys[i]? = some (g (s ++ (a.drop (i + 1)).reverse) x) := by
  induction a using List.reverseRecOn with
  | nil =>
    intro b s
    refine ⟨[], ?_, rfl, fun i x h => by simp at h⟩
    rw [loop]
    simp
  | append_singleton a z ih =>
    intro b s
    obtain ⟨ys, e, hl, hy⟩ := ih (g s z :: b) (s ++ [z])
    refine ⟨ys ++ [g s z], ?_, by simp [hl], fun i x hx => ?_⟩
    · rw [loop, if_neg (by simp)]
      have hg : get (a ++ [z] ++ b) (a ++ [z]).length = pure z := by
        unfold get
        rw [if_neg (by simp), rd_some (a := z) (by simp)]
      have hp : put (a ++ [z] ++ b) (a ++ [z]).length (g s z) = pure (a ++ g s z :: b) := by
        unfold put
        rw [if_neg (by simp), wr_eq (by simp)]
        simp
      have hi : inc (a ++ [z]).length = pure a.length := by
        unfold inc
        rw [if_neg (by simp)]
        simp
      rw [hg]
      simp only [pure_bind]
      rw [hp]
      simp only [pure_bind]
      rw [hi]
      simp only [pure_bind]
      rw [e]
      simp
    · by_cases hi : i < a.length
      · rw [List.getElem?_append_left hi] at hx
        rw [List.getElem?_append_left (by omega), hy i x hx, List.drop_append_of_le_length (by omega)]
        simp
      · have : i = a.length := by
          have := (List.getElem?_eq_some_iff.1 hx).1
          simp at this
          omega
        subst this
        simp at hx
        subst hx
        rw [← hl]
        simp [hl]

/-- **C374.**  A loop over `reverse( container )` gets every element once, from the last to the first, and what it assigns to an element is
in the container afterwards, whatever is assigned and although it may depend on all elements met before. -/
theorem C374_reverse (g : List α → α → α) (c : List α) :
    ∃ ys, forEach (fun seen x => pure (seen ++ [x], g seen x)) c [] = pure (ys, c.reverse) ∧ ys.length = c.length ∧
      ∀ (i : Nat) (x : α), c[i]? = some x → ys[i]? = some (g (c.drop (i + 1)).reverse x) := by
  obtain ⟨ys, e, hl, hy⟩ := loop_eq g c [] []
  refine ⟨ys, ?_, hl, fun i x hx => by simpa using hy i x hx⟩
  unfold forEach last first
  simpa using e

example := C374_reverse (fun seen x => x + seen.sum) [1, 2, 3]

/-- C374: an exception of the body leaves the loop at the first element from the back that makes it throw, and the elements before it are not
reached, even if the body is undefined for them.  (What the container holds then is not in the outcome of the model.) -/
theorem C374_throw (f : α → α) (a b : List α) (z : α) (body : α → Cxx α) (hz : body z = thrown) (hb : ∀ x ∈ b, body x = pure (f x)) (s : σ) :
    forEach (fun s x => do let y ← body x; pure (s, y)) (a ++ z :: b) s = thrown := by
  have run : ∀ (b d : List α), (∀ x ∈ b, body x = pure (f x)) → ∀ p : List α,
      loop (fun s x => do let y ← body x; pure (s, y)) 0 (p ++ z :: (b ++ d)) (p.length + 1 + b.length) s = thrown := by
    intro b
    induction b using List.reverseRecOn with
    | nil =>
      intro d _ p
      rw [loop, if_neg (by simp)]
      have hg : get (p ++ z :: ([] ++ d)) (p.length + 1 + ([] : List α).length) = pure z := by
        unfold get
        rw [if_neg (by simp), rd_some (a := z)]
        simp
      rw [hg]
      simp only [pure_bind, hz]
      rfl
    | append_singleton b y ih =>
      intro d hb p
      rw [loop, if_neg (by simp)]
      have hg : get (p ++ z :: (b ++ [y] ++ d)) (p.length + 1 + (b ++ [y]).length) = pure y := by
        unfold get
        rw [if_neg (by simp), rd_some (a := y)]
        have : p.length + 1 + (b ++ [y]).length - 1 = (p ++ z :: b).length := by simp; omega
        rw [this, show p ++ z :: (b ++ [y] ++ d) = (p ++ z :: b) ++ y :: d by simp]
        simp
      have hp : put (p ++ z :: (b ++ [y] ++ d)) (p.length + 1 + (b ++ [y]).length) (f y) = pure (p ++ z :: (b ++ f y :: d)) := by
        unfold put
        have : p.length + 1 + (b ++ [y]).length - 1 = (p ++ z :: b).length := by simp; omega
        rw [if_neg (by simp), this, show p ++ z :: (b ++ [y] ++ d) = (p ++ z :: b) ++ y :: d by simp, wr_eq (by simp)]
        simp
      have hi : inc (p.length + 1 + (b ++ [y]).length) = pure (p.length + 1 + b.length) := by
        unfold inc
        rw [if_neg (by simp)]
        simp [← Nat.add_assoc]
      rw [hg]
      simp only [pure_bind, hb y (by simp)]
      rw [hp]
      simp only [pure_bind]
      rw [hi]
      simp only [pure_bind]
      exact ih (f y :: d) (fun x hx => hb x (by simp [hx])) p
  have := run b [] hb a
  unfold forEach last first
  simpa [Nat.add_assoc, Nat.add_comm 1] using this

example := C374_throw (σ := Unit) (· + 1) [0, 2] [4, 5] 3 (fun x => if x = 3 then thrown else if x = 0 then ub else pure (x + 1)) rfl
  (by intro x h; simp at h; rcases h with rfl | rfl <;> rfl) ()

end Verif.Algorithm.Reverser
