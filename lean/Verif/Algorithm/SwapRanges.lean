import Verif.Containers.Lists

/-
include/daw/daw_swap.h.
-/

namespace Verif.Algorithm
open Cxx
variable {α : Type}

/-- `iter_swap`, daw_swap.h 67-75: `lhs` and `rhs` point to elements of `mem`. A moved-from value is not looked at, so that moving is copying. -/
def iterSwap (mem : List α) (lhs rhs : Nat) : Cxx (List α) := do
  let tmp ← rd mem lhs
  let v ← rd mem rhs
  let mem ← wr mem lhs v
  wr mem rhs tmp

/-- `cswap` of values that are trivially copyable, daw_swap.h 49-51, as places of `mem`. `daw::exchange( rhs, tmp )` returns the old
value. -/
def cswapTrivial (mem : List α) (lhs rhs : Nat) : Cxx (List α) := do
  let tmp ← rd mem lhs
  let old ← rd mem rhs
  let mem ← wr mem rhs tmp
  wr mem lhs old

/-- `swap_ranges`, daw_swap.h 77-88, from `first1` to `last1` and from `first2`: the elements of the two ranges, `range1` and `range2`, are dereferenced once
more by `iter_swap( *first1, *first2 )`, so that they have to be pointers, here into `mem`. For other elements it does not compile. -/
def swapRanges (mem : List α) (range1 range2 : List Nat) (first1 first2 last1 : Nat) : Cxx (List α × Nat) :=
  if first1 < last1 then do
    let p ← rd range1 first1
    let q ← rd range2 first2
    let mem ← iterSwap mem p q
    swapRanges mem range1 range2 (first1 + 1) (first2 + 1) last1
  else pure (mem, first2)
termination_by last1 - first1

theorem iterSwap_eq {mem : List α} {i j : Nat} (hi : i < mem.length) (hj : j < mem.length) :
    iterSwap mem i j = pure ((mem.set i mem[j]).set j mem[i]) := by
  unfold iterSwap
  rw [rd_eq hi, pure_bind, rd_eq hj, pure_bind, wr_eq hi, pure_bind, wr_eq (by simpa using hj)]

/-- Both swaps exchange the values of two places and leave the rest alone, also if the places are the same. -/
theorem C163_swap (mem : List α) (i j : Nat) (hi : i < mem.length) (hj : j < mem.length) :
    ∃ mem', iterSwap mem i j = pure mem' ∧ cswapTrivial mem i j = pure mem' ∧ mem'.length = mem.length ∧
      mem'[i]? = mem[j]? ∧ mem'[j]? = mem[i]? ∧ ∀ k, k ≠ i → k ≠ j → mem'[k]? = mem[k]? := by
  refine ⟨_, iterSwap_eq hi hj, ?_, by simp, ?_, ?_, ?_⟩
  · unfold cswapTrivial
    rw [rd_eq hi, pure_bind, rd_eq hj, pure_bind, wr_eq hj, pure_bind, wr_eq (by simpa using hi)]
    by_cases e : i = j
    · subst e; simp
    · rw [List.set_comm _ _ (Ne.symm e)]
  · by_cases e : i = j
    · subst e; simp [hi]
    · rw [List.getElem?_set_ne (Ne.symm e), List.getElem?_set_self hi, List.getElem?_eq_getElem hj]
  · rw [List.getElem?_set_self (by simpa using hj), List.getElem?_eq_getElem hi]
  · intro k h1 h2
    rw [List.getElem?_set_ne (Ne.symm h2), List.getElem?_set_ne (Ne.symm h1)]

example : iterSwap [1, 2, 3] 0 2 = pure [3, 2, 1] := by decide +kernel

theorem swapRanges_spec (range1 range2 : List Nat) (last1 : Nat) (h1 : last1 = range1.length) (hl : range1.length ≤ range2.length)
    (hd : ∀ k l, k < range1.length → l < range1.length → range1[k]? = range2[l]? → False)
    (hd1 : ∀ k l, k < range1.length → l < range1.length → range1[k]? = range1[l]? → k = l)
    (hd2 : ∀ k l, k < range1.length → l < range1.length → range2[k]? = range2[l]? → k = l) :
    ∀ (n first : Nat) (mem : List α), first + n = last1 → (∀ p ∈ range1, p < mem.length) → (∀ p ∈ range2, p < mem.length) →
      ∃ mem', swapRanges mem range1 range2 first first last1 = pure (mem', last1) ∧ mem'.length = mem.length ∧
        (∀ k p q, first ≤ k → range1[k]? = some p → range2[k]? = some q → mem'[p]? = mem[q]? ∧ mem'[q]? = mem[p]?) ∧
        ∀ x, (∀ k, first ≤ k → k < last1 → range1[k]? ≠ some x ∧ range2[k]? ≠ some x) → mem'[x]? = mem[x]? := by
  intro n
  induction n with
  | zero =>
    intro first mem hf _ _
    refine ⟨mem, ?_, rfl, ?_, fun _ _ => rfl⟩
    · unfold swapRanges
      rw [if_neg (by omega), show first = last1 by omega]
    · intro k p q hk hp
      rw [List.getElem?_eq_none (by omega)] at hp
      cases hp
  | succ n ih =>
    intro first mem hf hm1 hm2
    have hf1 : first < range1.length := by omega
    have hf2 : first < range2.length := by omega
    have hp := hm1 _ (List.getElem_mem hf1)
    have hq := hm2 _ (List.getElem_mem hf2)
    obtain ⟨mem1, e1, _, hlen1, hi, hj, hrest⟩ := C163_swap mem range1[first] range2[first] hp hq
    obtain ⟨mem', e, hlen, hpairs, hothers⟩ := ih (first + 1) mem1 (by omega) (by rwa [hlen1]) (by rwa [hlen1])
    have g1 : range1[first]? = some range1[first] := List.getElem?_eq_getElem hf1
    have g2 : range2[first]? = some range2[first] := List.getElem?_eq_getElem hf2
    have lt1 : ∀ {k p}, range1[k]? = some p → k < range1.length := by
      intro k p h
      rcases Nat.lt_or_ge k range1.length with g | g
      · exact g
      · rw [List.getElem?_eq_none g] at h; cases h
    refine ⟨mem', ?_, hlen.trans hlen1, ?_, ?_⟩
    · rw [swapRanges, if_pos (by omega), rd_eq hf1, pure_bind, rd_eq hf2, pure_bind, e1, pure_bind]
      exact e
    · intro k p q hk hkp hkq
      by_cases ek : k = first
      · subst ek
        rw [g1] at hkp; rw [g2] at hkq
        injection hkp with hkp; injection hkq with hkq
        subst hkp; subst hkq
        constructor
        · rw [hothers, hi]
          intro l hl1 hl2
          constructor
          · intro h
            have := hd1 l k (by omega) hf1 (h.trans g1.symm); omega
          · intro h
            exact hd k l hf1 (by omega) (g1.trans h.symm)
        · rw [hothers, hj]
          intro l hl1 hl2
          constructor
          · intro h
            exact hd l k (by omega) hf1 (h.trans g2.symm)
          · intro h
            have := hd2 l k (by omega) hf1 (h.trans g2.symm); omega
      · have hkl := lt1 hkp
        obtain ⟨ha, hb⟩ := hpairs k p q (by omega) hkp hkq
        rw [ha, hb]
        have np : p ≠ range1[first] := fun h => ek (hd1 k first hkl hf1 (by rw [hkp, g1, h]))
        have np2 : p ≠ range2[first] := fun h => hd k first hkl hf1 (by rw [hkp, g2, h])
        have nq : q ≠ range1[first] := fun h => hd first k hf1 hkl (by rw [g1, hkq, h])
        have nq2 : q ≠ range2[first] := fun h => ek (hd2 k first hkl hf1 (by rw [hkq, g2, h]))
        exact ⟨hrest q nq nq2, hrest p np np2⟩
    · intro x hx
      rw [hothers x (fun k hk hk2 => hx k (by omega) hk2)]
      have := hx first (Nat.le_refl _) (by omega)
      exact hrest x (fun h => this.1 (by rw [g1, h])) (fun h => this.2 (by rw [g2, h]))

theorem nodup_inj {l : List Nat} (h : l.Nodup) {i j : Nat} (hi : i < l.length) (hj : j < l.length) (e : l[i] = l[j]) : i = j := by
  rcases Nat.lt_trichotomy i j with h' | h' | h'
  · exact absurd e (List.pairwise_iff_getElem.mp h i j hi hj h')
  · exact h'
  · exact absurd e.symm (List.pairwise_iff_getElem.mp h j i hj hi h')

/-- `swap_ranges` of two ranges of pointers, all of them different and valid, exchanges what corresponding pointers point to, changes nothing else
and returns the end of the second range. -/
theorem C164_swap_ranges_partial (mem : List α) (range1 range2 : List Nat) (hl : range1.length ≤ range2.length)
    (hnd : (range1 ++ range2).Nodup) (hv : ∀ p ∈ range1 ++ range2, p < mem.length) :
    ∃ mem', swapRanges mem range1 range2 0 0 range1.length = pure (mem', range1.length) ∧ mem'.length = mem.length ∧
      (∀ k p q : Nat, range1[k]? = some p → range2[k]? = some q → mem'[p]? = mem[q]? ∧ mem'[q]? = mem[p]?) ∧
      ∀ x : Nat, x ∉ range1 → x ∉ range2.take range1.length → mem'[x]? = mem[x]? := by
  obtain ⟨n1, n2, n3⟩ := List.nodup_append.mp hnd
  obtain ⟨mem', e, hlen, hpairs, hothers⟩ := swapRanges_spec range1 range2 range1.length rfl hl
    (by
      intro k l hk hl' h
      rw [List.getElem?_eq_getElem hk, List.getElem?_eq_getElem (by omega : l < range2.length)] at h
      injection h with h
      exact n3 _ (List.getElem_mem hk) _ (List.getElem_mem (by omega : l < range2.length)) h)
    (by
      intro k l hk hl' h
      rw [List.getElem?_eq_getElem hk, List.getElem?_eq_getElem hl'] at h
      injection h with h
      exact nodup_inj n1 hk hl' h)
    (by
      intro k l hk hl' h
      rw [List.getElem?_eq_getElem (by omega : k < range2.length), List.getElem?_eq_getElem (by omega : l < range2.length)] at h
      injection h with h
      exact nodup_inj n2 _ _ h)
    range1.length 0 mem (by omega) (fun p hp => hv p (List.mem_append_left _ hp)) (fun p hp => hv p (List.mem_append_right _ hp))
  refine ⟨mem', e, hlen, fun k p q => hpairs k p q (Nat.zero_le _), ?_⟩
  intro x h1 h2
  refine hothers x (fun k _ hk => ⟨fun h => h1 (List.mem_iff_getElem?.mpr ⟨k, h⟩), fun h => h2 ?_⟩)
  exact List.mem_iff_getElem?.mpr ⟨k, by rw [List.getElem?_take_of_lt hk]; exact h⟩

example : ([0, 1] ++ [3, 2]).Nodup ∧ ∀ p ∈ [0, 1] ++ [3, 2], p < [10, 11, 12, 13].length := by decide

example : swapRanges [10, 11, 12, 13] [0, 1] [3, 2] 0 0 2 = pure ([13, 12, 11, 10], 2) := by decide +kernel

/-- It should exchange the elements of the ranges, the pointers, and leave alone what they point to. Two pointers of the first range to the same object
show that this is not the same up to names: the object gets the value of the last partner. -/
theorem C164_swap_ranges_violated : ∃ (mem mem' : List Nat) (range1 range2 : List Nat) (r : Nat), range1.length = range2.length ∧
    swapRanges mem range1 range2 0 0 range1.length = pure (mem', r) ∧
    -- what would be read through the exchanged ranges
    range2.map (mem[·]?) ≠ range1.map (mem'[·]?) ∧ mem' ≠ mem :=
  ⟨[10, 11, 12], [12, 10, 11], [0, 0], [1, 2], 2, rfl, by decide +kernel, by decide, by decide⟩

end Verif.Algorithm
