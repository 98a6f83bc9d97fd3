import Verif.Base
import Verif.Containers.Lists
import Verif.Algorithm.Model
import Verif.Algorithm.Split

/-
The loops of include/daw/daw_container_algorithm.h: `copy`, `copy_n`, `copy_if` and `for_each_with_pos`.
-/

namespace Verif.Algorithm.Container
open Cxx Verif.Algorithm

variable {α : Type}

/-- The loops of `copy`, daw_container_algorithm.h 426-433, and `copy_n`, 441-447, for source and destination in one memory: `n` elements from `src` on. -/
def copyLoop : Nat → List α → Nat → Nat → Cxx (List α)
  | 0, m, _, _ => pure m
  | n + 1, m, src, dst => do
    let x ← rd m src
    let m ← wr m dst x
    copyLoop n m (src + 1) (dst + 1)

/-- `copy`, daw_container_algorithm.h 422-434, for the source `[src, src + size)`. -/
def copy (m : List α) (src size dst : Nat) : Cxx (List α) := copyLoop size m src dst

/-- `copy_n`, daw_container_algorithm.h 436-448. -/
def copyN (m : List α) (src size count dst : Nat) : Cxx (List α) := copyLoop (min count size) m src dst

/-- The loop of `copy_if`, daw_container_algorithm.h 466-473: the memory and the destination in the end. -/
def copyIfLoop (p : α → Bool) : Nat → List α → Nat → Nat → Cxx (List α × Nat)
  | 0, m, _, dst => pure (m, dst)
  | n + 1, m, src, dst => do
    let x ← rd m src
    if p x then do
      let y ← rd m src
      let m ← wr m dst y
      copyIfLoop p n m (src + 1) (dst + 1)
    else copyIfLoop p n m (src + 1) dst

/-- `copy_if`, daw_container_algorithm.h 450-474. -/
def copyIf (p : α → Bool) (m : List α) (src size dst : Nat) : Cxx (List α × Nat) := copyIfLoop p size m src dst

/-- The loop of `for_each_with_pos`, daw_container_algorithm.h 517-520: `func` may change the element, `k` calls are left; the calls are listed. -/
def forEachLoop (f : α → Nat → α) : Nat → List α → Nat → Nat → Cxx (List α × List (α × Nat))
  | 0, m, _, _ => pure (m, [])
  | k + 1, m, it, row => do
    let x ← rd m it
    let m ← wr m it (f x row)
    let r ← forEachLoop f k m (it + 1) (row + 1)
    pure (r.1, (x, row) :: r.2)

/-- `for_each_with_pos` of an interval, daw_container_algorithm.h 503-521, for random access iterators. -/
def forEachWithPos (f : α → Nat → α) (m : List α) (first last : Nat) : Cxx (List α × List (α × Nat)) := do
  let it ← beginAt m.length first
  forEachLoop f (last - first) m it.toNat first

/-- `for_each_with_pos` of all, daw_container_algorithm.h 523-534. -/
def forEachWithPosAll (f : α → Nat → α) (m : List α) : Cxx (List α × List (α × Nat)) := forEachWithPos f m 0 m.length

/-! ## copy -/

/-- The memory after a copy: what the destination has. (Specification, no line of the source.) -/
def placed (m : List α) (dst : Nat) (xs : List α) : List α := m.take dst ++ xs ++ m.drop (dst + xs.length)

theorem placed_getElem? (m : List α) (dst : Nat) (xs : List α) (h : dst + xs.length ≤ m.length) (i : Nat) :
    (placed m dst xs)[i]? = if dst ≤ i ∧ i < dst + xs.length then xs[i - dst]? else m[i]? := by
  unfold placed
  by_cases h1 : i < dst
  · rw [if_neg (by omega), List.append_assoc, List.getElem?_append_left (by simp; omega), List.getElem?_take, if_pos h1]
  · by_cases h2 : i < dst + xs.length
    · rw [if_pos (by omega), List.getElem?_append_left (by simp; omega), List.getElem?_append_right (by simp; omega)]
      simp only [List.length_take]
      rw [Nat.min_eq_left (by omega)]
    · rw [if_neg (by omega), List.getElem?_append_right (by simp; omega), List.getElem?_drop]
      congr 1
      simp only [List.length_append, List.length_take]
      omega

/-- What the loop leaves at each place: in the destination the element of the source, that it has when the loop comes to it. -/
theorem copyLoop_eq (n : Nat) (m : List α) (src dst : Nat) (hs : src + n ≤ m.length) (hd : dst + n ≤ m.length)
    (ho : dst ≤ src ∨ src + n ≤ dst) : copyLoop n m src dst = pure (placed m dst ((m.drop src).take n)) := by
  induction n generalizing m src dst with
  | zero => simp [copyLoop, placed]
  | succ n ih =>
    have hsrc : src < m.length := by omega
    rw [copyLoop, rd_eq hsrc]
    show (do let m ← wr m dst m[src]; copyLoop n m (src + 1) (dst + 1)) = _
    rw [wr_eq (by omega)]
    show copyLoop n (m.set dst m[src]) (src + 1) (dst + 1) = _
    rw [ih _ _ _ (by simp; omega) (by simp; omega) (by omega), pure_inj]
    apply List.ext_getElem?
    intro i
    have hl : ((m.drop src).take (n + 1)).length = n + 1 := by simp; omega
    have hl2 : (((m.set dst m[src]).drop (src + 1)).take n).length = n := by simp; omega
    rw [placed_getElem? _ _ _ (by rw [hl2]; simp; omega), placed_getElem? _ _ _ (by rw [hl]; omega), hl, hl2]
    by_cases h1 : dst + 1 ≤ i ∧ i < dst + 1 + n
    · rw [if_pos h1, if_pos (by omega), List.getElem?_take, List.getElem?_take, if_pos (by omega), if_pos (by omega), List.getElem?_drop,
        List.getElem?_drop, List.getElem?_set_ne (by omega)]
      congr 1
      omega
    · rw [if_neg h1]
      by_cases h2 : i = dst
      · subst h2
        rw [if_pos (by omega), List.getElem?_set_self (by omega), List.getElem?_take, if_pos (by omega), List.getElem?_drop]
        simp [hsrc]
      · rw [if_neg (by omega), List.getElem?_set_ne (by omega)]

/-- `copy` and `copy_n` put the elements of the source in their order into the destination, and change nothing else, if the destination does not begin
inside the source. Missing: a destination that does, see `C272_copy_violated`. -/
theorem C272_copy_partial (m : List α) (src size dst : Nat) (hs : src + size ≤ m.length) (ho : dst ≤ src ∨ src + size ≤ dst) :
    (dst + size ≤ m.length →
      copy m src size dst = pure (m.take dst ++ (m.drop src).take size ++ m.drop (dst + size))) ∧
    ∀ count, dst + min count size ≤ m.length →
      copyN m src size count dst = pure (m.take dst ++ (m.drop src).take (min count size) ++ m.drop (dst + min count size)) := by
  have key : ∀ n, n ≤ size → dst + n ≤ m.length →
      copyLoop n m src dst = pure (m.take dst ++ (m.drop src).take n ++ m.drop (dst + n)) := by
    intro n hn hd
    rw [copyLoop_eq n m src dst (by omega) hd (by omega)]
    unfold placed
    rw [show ((m.drop src).take n).length = n by simp; omega]
  exact ⟨fun hd => key size (Nat.le_refl _) hd, fun count hd => key _ (by omega) hd⟩

example : copyN [1, 2, 3, 4, 5, 6] 3 3 2 1 = pure [1, 4, 5, 4, 5, 6] := by decide +kernel

/-- If the destination begins inside the source, the first elements are repeated instead. -/
theorem C272_copy_violated (n : Nat) (m : List α) (src k : Nat) (hk : 0 < k) (hd : src + k + n ≤ m.length) :
    ∃ r, copy m src n (src + k) = pure r ∧ r.length = m.length ∧ ∀ i, i < n → r[src + k + i]? = m[src + i % k]? := by
  -- the loop from step j on
  have key : ∀ (n j : Nat) (m' : List α), m'.length = m.length → src + k + j + n ≤ m.length →
      (∀ i, i < k + j → m'[src + i]? = m[src + i % k]?) →
      ∃ r, copyLoop n m' (src + j) (src + k + j) = pure r ∧ r.length = m.length ∧
        ∀ i, i < k + j + n → r[src + i]? = m[src + i % k]? := by
    intro n
    induction n with
    | zero => intro j m' hl _ h; exact ⟨m', rfl, hl, h⟩
    | succ n ih =>
      intro j m' hl hb h
      rw [copyLoop, rd_eq (by omega)]
      show ∃ r, (do let m ← wr m' (src + k + j) m'[src + j]; copyLoop n m (src + j + 1) (src + k + j + 1)) = pure r ∧ _
      rw [wr_eq (by omega)]
      show ∃ r, copyLoop n (m'.set (src + k + j) m'[src + j]) (src + j + 1) (src + k + j + 1) = pure r ∧ _
      obtain ⟨r, h1, h2, h3⟩ := ih (j + 1) (m'.set (src + k + j) (m'[src + j]'(by omega))) (by simp [hl]) (by omega) (by
        intro i hi
        by_cases he : i = k + j
        · subst he
          rw [show src + (k + j) = src + k + j by omega, List.getElem?_set_self (by omega), Nat.add_mod_left, ← h j (by omega)]
          exact (List.getElem?_eq_getElem (by omega)).symm
        · rw [List.getElem?_set_ne (by omega)]
          exact h i (by omega))
      exact ⟨r, h1, h2, fun i hi => h3 i (by omega)⟩
  obtain ⟨r, h1, h2, h3⟩ := key n 0 m rfl (by omega) (by
    intro i hi
    rw [Nat.mod_eq_of_lt (by omega)])
  refine ⟨r, h1, h2, fun i hi => ?_⟩
  rw [Nat.add_assoc, h3 (k + i) (by omega), Nat.add_mod_left]

example : copy [1, 2, 3, 4, 0] 0 4 1 = pure [1, 1, 1, 1, 1] := by decide +kernel

/-! ## copy_if -/

theorem copyIfLoop_eq (p : α → Bool) (n : Nat) (m : List α) (src dst : Nat) (hs : src + n ≤ m.length)
    (hd : dst + (((m.drop src).take n).filter p).length ≤ m.length) (ho : dst ≤ src ∨ src + n ≤ dst) :
    copyIfLoop p n m src dst = pure (placed m dst (((m.drop src).take n).filter p), dst + (((m.drop src).take n).filter p).length) := by
  induction n generalizing m src dst with
  | zero => simp [copyIfLoop, placed]
  | succ n ih =>
    have hsrc : src < m.length := by omega
    have hcons : (m.drop src).take (n + 1) = m[src] :: (m.drop (src + 1)).take n := by
      rw [List.drop_eq_getElem_cons hsrc, List.take_succ_cons]
    rw [copyIfLoop, rd_eq hsrc]
    show (if p m[src] then do
      let y ← pure m[src]
      let m ← wr m dst y
      copyIfLoop p n m (src + 1) (dst + 1)
      else copyIfLoop p n m (src + 1) dst) = _
    rw [hcons] at hd ⊢
    by_cases hp : p m[src]
    · rw [if_pos hp]
      rw [List.filter_cons_of_pos hp] at hd ⊢
      simp only [List.length_cons] at hd ⊢
      show (do let m ← wr m dst m[src]; copyIfLoop p n m (src + 1) (dst + 1)) = _
      rw [wr_eq (by omega)]
      show copyIfLoop p n (m.set dst m[src]) (src + 1) (dst + 1) = _
      have hsame : ((m.set dst m[src]).drop (src + 1)).take n = (m.drop (src + 1)).take n := by
        rcases ho with h | h
        · rw [List.drop_set_of_lt (by omega)]
        · apply List.ext_getElem?
          intro i
          rw [List.getElem?_take, List.getElem?_take]
          split
          · rw [List.getElem?_drop, List.getElem?_drop, List.getElem?_set_ne (by omega)]
          · rfl
      rw [ih _ _ _ (by simp; omega) (by rw [hsame]; simp; omega) (by omega), hsame, pure_inj, Prod.mk.injEq]
      refine ⟨?_, by omega⟩
      generalize hF : ((m.drop (src + 1)).take n).filter p = F at hd ⊢
      apply List.ext_getElem?
      intro i
      rw [placed_getElem? _ _ _ (by simp; omega), placed_getElem? _ _ _ (by simp; omega), List.length_cons]
      by_cases h1 : dst + 1 ≤ i ∧ i < dst + 1 + F.length
      · rw [if_pos h1, if_pos (by omega), show i - dst = (i - (dst + 1)) + 1 by omega, List.getElem?_cons_succ]
      · rw [if_neg h1]
        by_cases h2 : i = dst
        · subst h2
          rw [if_pos (by omega), List.getElem?_set_self (by omega)]
          simp
        · rw [if_neg (by omega), List.getElem?_set_ne (by omega)]
    · rw [if_neg hp]
      rw [List.filter_cons_of_neg hp] at hd ⊢
      exact ih _ _ _ (by omega) hd (by omega)

/-- `copy_if` puts the elements for which the predicate holds in their order into the destination, gives the place after them, and changes nothing
else; the destination may be before, at the begin of, or after the source, and has to have space for these elements only.
Missing: a destination that begins inside the source, see `C273_copy_if_violated`. -/
theorem C273_copy_if_partial (p : α → Bool) (m : List α) (src size dst : Nat) (hs : src + size ≤ m.length)
    (hd : dst + (((m.drop src).take size).filter p).length ≤ m.length) (ho : dst ≤ src ∨ src + size ≤ dst) :
    copyIf p m src size dst =
      pure (m.take dst ++ ((m.drop src).take size).filter p ++ m.drop (dst + (((m.drop src).take size).filter p).length),
        dst + (((m.drop src).take size).filter p).length) := copyIfLoop_eq p size m src dst hs hd ho

example : copyIf (fun x : Nat => x % 2 == 0) [1, 2, 3, 4] 0 4 0 = pure ([2, 4, 3, 4], 2) := by decide +kernel

/-- If the destination begins inside the source, an element that was copied can be copied again. -/
theorem C273_copy_if_violated :
    copyIf (fun x : Nat => x % 2 == 0) [2, 1, 3, 0, 0] 0 3 1 = pure ([2, 2, 2, 2, 0], 4) := by decide +kernel

/-! ## for_each_with_pos -/

theorem forEachLoop_eq (f : α → Nat → α) (k : Nat) (m : List α) (it : Nat) (h : it + k ≤ m.length) :
    forEachLoop f k m it it = pure (placed m it (((m.drop it).take k).mapIdx fun i x => f x (it + i)),
      ((m.drop it).take k).mapIdx fun i x => (x, it + i)) := by
  induction k generalizing m it with
  | zero => simp [forEachLoop, placed]
  | succ k ih =>
    have hit : it < m.length := by omega
    have hcons : (m.drop it).take (k + 1) = m[it] :: (m.drop (it + 1)).take k := by
      rw [List.drop_eq_getElem_cons hit, List.take_succ_cons]
    rw [forEachLoop, rd_eq hit]
    show (do
      let m' ← wr m it (f m[it] it)
      let r ← forEachLoop f k m' (it + 1) (it + 1)
      pure (r.1, (m[it], it) :: r.2)) = _
    rw [wr_eq hit]
    show (do
      let r ← forEachLoop f k (m.set it (f m[it] it)) (it + 1) (it + 1)
      pure (r.1, (m[it], it) :: r.2)) = _
    rw [ih _ _ (by simp; omega), List.drop_set_of_lt (by omega), hcons, List.mapIdx_cons, List.mapIdx_cons]
    show (pure (_, _) : Cxx (List α × List (α × Nat))) = pure (_, _)
    rw [pure_inj, Prod.mk.injEq]
    have e1 : ∀ i, it + 1 + i = it + (i + 1) := by omega
    simp only [e1, Nat.add_zero]
    refine ⟨?_, trivial⟩
    generalize hG : ((m.drop (it + 1)).take k).mapIdx (fun i x => f x (it + (i + 1))) = G
    have hGl : G.length = k := by rw [← hG]; simp; omega
    apply List.ext_getElem?
    intro i
    rw [placed_getElem? _ _ _ (by simp; omega), placed_getElem? _ _ _ (by simp; omega), List.length_cons]
    by_cases h1 : it + 1 ≤ i ∧ i < it + 1 + G.length
    · rw [if_pos h1, if_pos (by omega), show i - it = (i - (it + 1)) + 1 by omega, List.getElem?_cons_succ]
    · rw [if_neg h1]
      by_cases h2 : i = it
      · subst h2
        rw [if_pos (by omega), List.getElem?_set_self (by omega)]
        simp
      · rw [if_neg (by omega), List.getElem?_set_ne (by omega)]

theorem forEachLoop_ub (f : α → Nat → α) (k : Nat) (m : List α) (it row : Nat) (hk : m.length < it + k) (hit : it ≤ m.length) :
    forEachLoop f k m it row = ub := by
  induction k generalizing m it row with
  | zero => omega
  | succ k ih =>
    rw [forEachLoop]
    by_cases h : it < m.length
    · rw [rd_eq h]
      show (do
        let m' ← wr m it (f m[it] row)
        let r ← forEachLoop f k m' (it + 1) (row + 1)
        pure (r.1, (m[it], row) :: r.2)) = _
      rw [wr_eq h]
      show (do
        let r ← forEachLoop f k (m.set it (f m[it] row)) (it + 1) (row + 1)
        pure (r.1, (m[it], row) :: r.2)) = _
      rw [ih _ _ _ (by simp; omega) (by simp; omega)]
      rfl
    · rw [rd_oob (by omega)]
      rfl

/-- `for_each_with_pos` calls the function once for each element of the interval, in order, with its position, and changes no others; an interval that goes
beyond the container is undefined, although the iterator to its begin is kept inside. -/
theorem C274_for_each_with_pos_partial (f : α → Nat → α) (m : List α) (first last : Nat) (hf : (first : Int) ≤ ptrdiffMax) :
    (first ≤ last → last ≤ m.length → forEachWithPos f m first last =
      pure (m.take first ++ (((m.drop first).take (last - first)).mapIdx fun i x => f x (first + i)) ++ m.drop last,
        ((m.drop first).take (last - first)).mapIdx fun i x => (x, first + i))) ∧
    (last ≤ first → forEachWithPos f m first last = pure (m, [])) ∧
    (first < last → m.length < last → forEachWithPos f m first last = ub) := by
  have hb : forEachWithPos f m first last = forEachLoop f (last - first) m (min first m.length) first := by
    unfold forEachWithPos
    rw [C31_begin_at_partial _ _ hf]
    rfl
  rw [hb]
  refine ⟨fun h1 h2 => ?_, fun h => ?_, fun h1 h2 => ?_⟩
  · rw [Nat.min_eq_left (by omega), forEachLoop_eq _ _ _ _ (by omega)]
    unfold placed
    rw [show (((m.drop first).take (last - first)).mapIdx fun i x => f x (first + i)).length = last - first by simp; omega,
      show first + (last - first) = last by omega]
  · rw [show last - first = 0 by omega]
    rfl
  · exact forEachLoop_ub f _ m _ _ (by omega) (by omega)

/-- All elements. -/
theorem C274_for_each_with_pos_all (f : α → Nat → α) (m : List α) :
    forEachWithPosAll f m = pure (m.mapIdx fun i x => f x i, m.mapIdx fun i x => (x, i)) := by
  unfold forEachWithPosAll
  rw [(C274_for_each_with_pos_partial f m 0 m.length (by unfold ptrdiffMax; omega)).1 (Nat.zero_le _) (Nat.le_refl _)]
  simp

example : forEachWithPos (fun x i => x * 10 + i) [1, 2, 3, 4] 1 3 = pure ([1, 21, 32, 4], [(2, 1), (3, 2)]) := by decide +kernel

/-- An empty interval can be undefined too: the position `2^63` is negated as a signed number. -/
theorem C274_for_each_with_pos_violated (f : α → Nat → α) (m : List α) : forEachWithPos f m (2 ^ 63) 0 = ub := by
  unfold forEachWithPos
  rw [C31_begin_at_ub]
  rfl

end Verif.Algorithm.Container
