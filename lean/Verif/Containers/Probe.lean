import Verif.Containers.Lists

/-
Linear probing, as `daw::hash_set_t`, `daw::bounded_hash_map` and `daw::static_hash_t` do it.
-/

namespace Verif.Containers.Probe
open Cxx

/-- One of the two loops of `find_index`, daw_hash_set.h 39-46 and 47-54, daw_bounded_hash_map.h 335-339 and 340-344,
static_hash_table.h 73-80 and 81-88: the first place in `[n, last)` whose content ends the search. -/
def scan {α : Type} (stop : α → Bool) (t : List α) (n last : Nat) : Cxx (Option Nat) :=
  if n < last then do
    let x ← rd t n
    if stop x then pure (some n) else scan stop t (n + 1) last
  else pure none
  termination_by last - n

/-- `scale_hash`, daw_hash_set.h 27-33, daw_bounded_hash_map.h 324-329, static_hash_table.h 48-54. -/
def scaleHash (hash cap : Nat) : Cxx Nat :=
  if cap = 0 then ub else pure ((hash * 18446744073709551557 + 18446744073709551533) % 2 ^ 64 % cap)

/-- `find_index`, daw_hash_set.h 35-56, daw_bounded_hash_map.h 331-346, `find_impl`, static_hash_table.h 71-90 (which returns the
capacity instead of nothing). -/
def findIndex {α : Type} (stop : α → Bool) (t : List α) (cap hash : Nat) : Cxx (Option Nat) := do
  let s ← scaleHash hash cap
  match ← scan stop t s cap with
  | some n => pure (some n)
  | none => scan stop t 0 s

section
variable {α : Type}

theorem scan_spec (stop : α → Bool) (t : List α) (n last : Nat) (hl : last ≤ t.length) :
    (∃ i x, scan stop t n last = pure (some i) ∧ n ≤ i ∧ i < last ∧ t[i]? = some x ∧ stop x = true ∧
      ∀ j, n ≤ j → j < i → ∃ y, t[j]? = some y ∧ stop y = false) ∨
    (scan stop t n last = pure none ∧ ∀ j, n ≤ j → j < last → ∃ y, t[j]? = some y ∧ stop y = false) := by
  induction hk : last - n generalizing n with
  | zero => right; rw [scan, if_neg (by omega)]; exact ⟨rfl, fun j h1 h2 => by omega⟩
  | succ k ih =>
    have hn : n < t.length := by omega
    rw [scan, if_pos (by omega), rd_eq hn]
    simp only [pure_bind]
    cases hs : stop t[n] with
    | true =>
      left
      exact ⟨n, t[n], rfl, Nat.le_refl _, by omega, List.getElem?_eq_getElem hn, hs, fun j h1 h2 => by omega⟩
    | false =>
      simp only [Bool.false_eq_true, if_false]
      rcases ih (n + 1) (by omega) with ⟨i, x, e, h1, h2, h3, h4, h5⟩ | ⟨e, h⟩
      · left
        refine ⟨i, x, e, by omega, h2, h3, h4, fun j hj1 hj2 => ?_⟩
        by_cases hjn : j = n
        · subst hjn; exact ⟨_, List.getElem?_eq_getElem hn, hs⟩
        · exact h5 j (by omega) hj2
      · right
        refine ⟨e, fun j hj1 hj2 => ?_⟩
        by_cases hjn : j = n
        · subst hjn; exact ⟨_, List.getElem?_eq_getElem hn, hs⟩
        · exact h j (by omega) hj2

theorem scaleHash_lt (hash : Nat) {cap : Nat} (h : 0 < cap) : ∃ s, scaleHash hash cap = pure s ∧ s < cap := by
  refine ⟨(hash * 18446744073709551557 + 18446744073709551533) % 2 ^ 64 % cap, ?_, Nat.mod_lt _ h⟩
  unfold scaleHash; rw [if_neg (by omega)]

/-- The search looks at the places from the scaled hash on, around the end of the table, until one ends it. -/
theorem findIndex_spec (stop : α → Bool) (t : List α) (cap hash : Nat) (hl : cap ≤ t.length) (s : Nat)
    (hs : scaleHash hash cap = pure s) (hsc : s < cap) :
    (∃ k x, k < cap ∧ findIndex stop t cap hash = pure (some ((s + k) % cap)) ∧ t[(s + k) % cap]? = some x ∧ stop x = true ∧
      ∀ j, j < k → ∃ y, t[(s + j) % cap]? = some y ∧ stop y = false) ∨
    (findIndex stop t cap hash = pure none ∧ ∀ j, j < cap → ∃ y, t[j]? = some y ∧ stop y = false) := by
  unfold findIndex
  rw [hs]
  simp only [pure_bind]
  rcases scan_spec stop t s cap hl with ⟨i, x, e, h1, h2, h3, h4, h5⟩ | ⟨e, h⟩
  · left
    refine ⟨i - s, x, by omega, ?_, ?_, h4, ?_⟩
    · rw [e, show s + (i - s) = i by omega, Nat.mod_eq_of_lt h2]
      rfl
    · rw [show s + (i - s) = i by omega, Nat.mod_eq_of_lt h2]
      exact h3
    · intro j hj
      rw [Nat.mod_eq_of_lt (by omega)]
      exact h5 _ (by omega) (by omega)
  · rcases scan_spec stop t 0 s (by omega) with ⟨i, x, e', h1, h2, h3, h4, h5⟩ | ⟨e', h'⟩
    · left
      have hi : (s + (cap - s + i)) % cap = i := by
        rw [show s + (cap - s + i) = i + cap by omega, Nat.add_mod_right, Nat.mod_eq_of_lt (by omega)]
      refine ⟨cap - s + i, x, by omega, ?_, ?_, h4, ?_⟩
      · rw [e, hi]
        exact e'
      · rw [hi]; exact h3
      · intro j hj
        by_cases hjs : s + j < cap
        · rw [Nat.mod_eq_of_lt hjs]
          exact h _ (by omega) hjs
        · rw [show s + j = (s + j - cap) + cap by omega, Nat.add_mod_right, Nat.mod_eq_of_lt (by omega)]
          exact h5 _ (by omega) (by omega)
    · right
      refine ⟨by rw [e]; exact e', fun j hj => ?_⟩
      by_cases hjs : j < s
      · exact h' j (by omega) hjs
      · exact h j (by omega) hj

end

/-! ### Chains -/

section
variable {ε κ : Type} (key : ε → κ) (home : κ → Nat)

/-- The entries of the table. (Specification, no line of the source.) -/
def entries (cap : Nat) (t : List (Option ε)) : List ε := (t.take cap).filterMap id

/-- Every entry can be reached from the place of its key over places that are taken by entries of other keys.
(Specification, no line of the source.) -/
structure Chained (cap : Nat) (t : List (Option ε)) : Prop where
  pos : 0 < cap
  len : cap ≤ t.length
  hlt : ∀ x, home x < cap
  chain : ∀ i e, i < cap → t[i]? = some (some e) → ∃ k, k < cap ∧ i = (home (key e) + k) % cap ∧
    ∀ j, j < k → ∃ e', t[(home (key e) + j) % cap]? = some (some e') ∧ key e' ≠ key e

/-- The place where the search for `x` ends. (Specification, no line of the source.) -/
def EndsAt (cap : Nat) (t : List (Option ε)) (x : κ) (i : Nat) : Prop :=
  ∃ k, k < cap ∧ i = (home x + k) % cap ∧ (t[i]? = some none ∨ ∃ e, t[i]? = some (some e) ∧ key e = x) ∧
    ∀ j, j < k → ∃ e', t[(home x + j) % cap]? = some (some e') ∧ key e' ≠ x

variable {key home}

theorem mem_entries {cap : Nat} {t : List (Option ε)} {e : ε} : e ∈ entries cap t ↔ ∃ i, i < cap ∧ t[i]? = some (some e) := by
  unfold entries
  rw [List.mem_filterMap]
  constructor
  · rintro ⟨o, ho, rfl⟩
    obtain ⟨i, hi, h⟩ := List.mem_iff_getElem.1 ho
    rw [List.length_take] at hi
    refine ⟨i, by omega, ?_⟩
    rw [List.getElem_take] at h
    rw [List.getElem?_eq_getElem (by omega), h]
  · rintro ⟨i, hi, h⟩
    refine ⟨some e, ?_, rfl⟩
    rw [List.mem_iff_getElem?]
    exact ⟨i, by rw [List.getElem?_take_of_lt hi]; exact h⟩

/-- A key is in one place only. -/
theorem Chained.unique {cap : Nat} {t : List (Option ε)} (h : Chained key home cap t) {i i' : Nat} {e e' : ε} (hi : i < cap)
    (hi' : i' < cap) (he : t[i]? = some (some e)) (he' : t[i']? = some (some e')) (hk : key e = key e') : i = i' := by
  obtain ⟨k, _, rfl, hj⟩ := h.chain i e hi he
  obtain ⟨k', _, rfl, hj'⟩ := h.chain i' e' hi' he'
  rw [← hk] at hj' he'
  rcases Nat.lt_trichotomy k k' with hlt | heq | hgt
  · obtain ⟨e2, h2, h3⟩ := hj' k hlt
    rw [he] at h2
    injection h2 with h2; injection h2 with h2
    exact absurd (by rw [← h2]) h3
  · rw [heq, hk]
  · obtain ⟨e2, h2, h3⟩ := hj k' hgt
    rw [he'] at h2
    injection h2 with h2; injection h2 with h2
    exact absurd (by rw [← h2, hk]) h3

theorem Chained.nodup {cap : Nat} {t : List (Option ε)} (h : Chained key home cap t) : ((entries cap t).map key).Nodup := by
  unfold entries
  rw [List.Nodup, List.pairwise_map, List.pairwise_filterMap, List.pairwise_iff_getElem]
  intro i j hi hj hij b hb b' hb' hc
  rw [List.length_take] at hi hj
  rw [List.getElem_take] at hb hb'
  have := h.unique (i := i) (i' := j) (e := b) (e' := b') (by omega) (by omega)
    (by rw [List.getElem?_eq_getElem (by omega)]; exact congrArg some hb)
    (by rw [List.getElem?_eq_getElem (by omega)]; exact congrArg some hb') hc
  omega

/-- A search that ends on a free place tells that the key is not there. -/
theorem Chained.absent {cap : Nat} {t : List (Option ε)} (h : Chained key home cap t) {x : κ} {i : Nat} (hi : EndsAt key home cap t x i)
    (hn : t[i]? = some none) : ∀ e ∈ entries cap t, key e ≠ x := by
  intro e he hx
  obtain ⟨i', hi', he'⟩ := mem_entries.1 he
  obtain ⟨k', _, e1, hj'⟩ := h.chain i' e hi' he'
  obtain ⟨k, _, e2, _, hj⟩ := hi
  rw [hx] at e1 hj'
  rcases Nat.lt_trichotomy k k' with hlt | heq | hgt
  · obtain ⟨_, h2, _⟩ := hj' k hlt
    rw [← e2, hn] at h2
    injection h2 with h2; injection h2
  · subst heq
    rw [e1, ← e2, hn] at he'
    injection he' with h2; injection h2
  · obtain ⟨e3, h2, h3⟩ := hj k' hgt
    rw [← e1, he'] at h2
    injection h2 with h2; injection h2 with h2
    exact h3 (by rw [← h2, hx])

theorem EndsAt.lt {cap : Nat} {t : List (Option ε)} {x : κ} {i : Nat} (h : EndsAt key home cap t x i) : i < cap := by
  obtain ⟨k, hk, rfl, _⟩ := h
  exact Nat.mod_lt _ (by omega)

/-- Writing an entry where the search for its key ended. -/
theorem Chained.write {cap : Nat} {t : List (Option ε)} (h : Chained key home cap t) {e : ε} {i : Nat}
    (hi : EndsAt key home cap t (key e) i) : Chained key home cap (t.set i (some e)) := by
  have hic := hi.lt
  have hlen := h.len
  obtain ⟨k0, hk0, hi0, hfree, hbefore⟩ := hi
  refine ⟨h.pos, by rw [List.length_set]; exact hlen, h.hlt, ?_⟩
  intro i' e' hi' he'
  by_cases hii : i' = i
  · subst hii
    rw [List.getElem?_set_self (by omega)] at he'
    injection he' with he'; injection he' with he'
    subst he'
    refine ⟨k0, hk0, hi0, fun j hj => ?_⟩
    obtain ⟨e2, h2, h3⟩ := hbefore j hj
    refine ⟨e2, ?_, h3⟩
    rw [List.getElem?_set_ne]
    · exact h2
    · intro hc
      rcases hfree with hf | ⟨e3, hf, hf'⟩
      · rw [hc, h2] at hf; injection hf with hf; injection hf
      · rw [hc, h2] at hf; injection hf with hf; injection hf with hf
        exact h3 (by rw [hf]; exact hf')
  · rw [List.getElem?_set_ne (by omega)] at he'
    obtain ⟨k, hk, hik, hj⟩ := h.chain i' e' hi' he'
    refine ⟨k, hk, hik, fun j hjk => ?_⟩
    obtain ⟨e2, h2, h3⟩ := hj j hjk
    by_cases hji : (home (key e') + j) % cap = i
    · rcases hfree with hf | ⟨e3, hf, hf'⟩
      · rw [hji, hf] at h2; injection h2 with h2; injection h2
      · rw [hji, hf] at h2; injection h2 with h2; injection h2 with h2
        refine ⟨e, by rw [hji, List.getElem?_set_self (by omega)], ?_⟩
        rw [← hf', h2]
        exact h3
    · exact ⟨e2, by rw [List.getElem?_set_ne (by omega)]; exact h2, h3⟩

/-- Freeing a place keeps the chains if the next place is free. -/
theorem Chained.free {cap : Nat} {t : List (Option ε)} (h : Chained key home cap t) {i : Nat} (hi : i < cap)
    (hn : t[(i + 1) % cap]? = some none) : Chained key home cap (t.set i none) := by
  have hlen := h.len
  refine ⟨h.pos, by rw [List.length_set]; exact hlen, h.hlt, ?_⟩
  intro i' e' hi' he'
  by_cases hii : i' = i
  · subst hii
    rw [List.getElem?_set_self (by omega)] at he'
    injection he' with he'; injection he'
  · rw [List.getElem?_set_ne (by omega)] at he'
    obtain ⟨k, hk, hik, hj⟩ := h.chain i' e' hi' he'
    refine ⟨k, hk, hik, fun j hjk => ?_⟩
    obtain ⟨e2, h2, h3⟩ := hj j hjk
    refine ⟨e2, ?_, h3⟩
    rw [List.getElem?_set_ne]
    · exact h2
    · intro hc
      have hnext : (home (key e') + (j + 1)) % cap = (i + 1) % cap := by
        rw [hc, Nat.mod_add_mod]
        rfl
      by_cases hjk' : j + 1 < k
      · obtain ⟨e3, h4, _⟩ := hj (j + 1) hjk'
        rw [hnext, hn] at h4
        injection h4 with h4; injection h4
      · have : k = j + 1 := by omega
        rw [this, hnext] at hik
        rw [hik, hn] at he'
        injection he' with h4; injection h4

theorem entries_split {cap i : Nat} {t : List (Option ε)} {o : Option ε} (hi : i < cap) (ho : t[i]? = some o) :
    ∃ a b, entries cap t = a ++ o.toList ++ b ∧ ∀ o', entries cap (t.set i o') = a ++ o'.toList ++ b := by
  have hlt : i < t.length := by
    rcases Nat.lt_or_ge i t.length with h | h
    · exact h
    · rw [List.getElem?_eq_none h] at ho; injection ho
  have key : ∀ o', entries cap (t.set i o') = (t.take i).filterMap id ++ o'.toList ++ ((t.take cap).drop (i + 1)).filterMap id := by
    intro o'
    unfold entries
    rw [List.take_set, List.set_eq_take_append_cons_drop, if_pos (by rw [List.length_take]; omega), List.filterMap_append,
      List.filterMap_cons, List.take_take, Nat.min_eq_left (Nat.le_of_lt hi), List.append_assoc]
    cases o' <;> rfl
  refine ⟨_, _, ?_, key⟩
  have e := key o
  rwa [show t.set i o = t from ?_] at e
  rw [List.getElem?_eq_getElem hlt] at ho
  injection ho with ho
  rw [← ho, List.set_getElem_self]

/-- The key of a new entry is added to the others. -/
theorem entries_add {cap i : Nat} {t : List (Option ε)} (hi : i < cap) (ho : t[i]? = some none) (e : ε) :
    (entries cap (t.set i (some e))).Perm (e :: entries cap t) := by
  obtain ⟨a, b, h1, h2⟩ := entries_split hi ho
  rw [h1, h2]
  simp only [Option.toList, List.append_nil, List.append_assoc, List.singleton_append]
  exact List.perm_middle

/-- An entry is exchanged for another. -/
theorem entries_replace {cap i : Nat} {t : List (Option ε)} (hi : i < cap) {e0 : ε} (ho : t[i]? = some (some e0)) :
    ∃ l, (entries cap t).Perm (e0 :: l) ∧ (∀ e, (entries cap (t.set i (some e))).Perm (e :: l)) ∧
      (entries cap (t.set i none)).Perm l := by
  obtain ⟨a, b, h1, h2⟩ := entries_split hi ho
  refine ⟨a ++ b, ?_, fun e => ?_, ?_⟩
  · rw [h1]
    simp only [Option.toList, List.append_assoc, List.singleton_append]
    exact List.perm_middle
  · rw [h2]
    simp only [Option.toList, List.append_assoc, List.singleton_append]
    exact List.perm_middle
  · rw [h2]
    simp

/-- If no place is free, there are as many entries as places. -/
theorem entries_full {cap : Nat} {t : List (Option ε)} (hl : cap ≤ t.length) (h : ∀ j, j < cap → ∃ e, t[j]? = some (some e)) :
    (entries cap t).length = cap := by
  induction cap with
  | zero => rfl
  | succ n ih =>
    obtain ⟨e, he⟩ := h n (by omega)
    have := ih (by omega) (fun j hj => h j (by omega))
    unfold entries at *
    rw [List.take_add_one, he, List.filterMap_append, List.length_append, this]
    rfl

/-- If a place is free, there are fewer. -/
theorem entries_lt {cap i : Nat} {t : List (Option ε)} (hi : i < cap) (ho : t[i]? = some none) :
    (entries cap t).length < cap := by
  have hlt : i < t.length := by
    rcases Nat.lt_or_ge i t.length with h | h
    · exact h
    · rw [List.getElem?_eq_none h] at ho; injection ho
  have e : (t.take cap) = t.take i ++ none :: (t.take cap).drop (i + 1) := by
    have h1 := List.take_append_drop i (t.take cap)
    rw [List.take_take, Nat.min_eq_left (Nat.le_of_lt hi), List.drop_eq_getElem_cons (by rw [List.length_take]; omega),
      List.getElem_take] at h1
    rw [List.getElem?_eq_getElem hlt] at ho
    injection ho with ho
    rw [ho] at h1
    exact h1.symm
  have h2 := List.length_filterMap_le id (t.take i)
  have h3 := List.length_filterMap_le id ((t.take cap).drop (i + 1))
  unfold entries
  rw [e, List.filterMap_append, List.length_append, List.filterMap_cons]
  rw [List.length_drop, List.length_take] at h3
  rw [List.length_take] at h2
  show _ + (List.filterMap id _).length < _
  omega

/-- The condition that ends the search for `x`, daw_hash_set.h 40-45, daw_bounded_hash_map.h 336. -/
def stopAt [DecidableEq κ] (key : ε → κ) (x : κ) : Option ε → Bool
  | none => true
  | some e => key e == x

/-- The place a key is first looked for: `scale_hash` of its hash, daw_hash_set.h 27-33, daw_bounded_hash_map.h 324-329. -/
def homeOf (hash : κ → Nat) (cap : Nat) (x : κ) : Nat := (hash x * 18446744073709551557 + 18446744073709551533) % 2 ^ 64 % cap

theorem homeOf_lt (hash : κ → Nat) {cap : Nat} (hc : 0 < cap) (x : κ) : homeOf hash cap x < cap := Nat.mod_lt _ hc

theorem homeOf_congr {hash : κ → Nat} {x y : κ} (cap : Nat) (h : hash x = hash y) : homeOf hash cap y = homeOf hash cap x := by
  simp only [homeOf, h]

theorem find_ends [DecidableEq κ] (key : ε → κ) (hash : κ → Nat) (cap : Nat) (t : List (Option ε)) (hc : 0 < cap)
    (hl : cap ≤ t.length) (x : κ) :
    (∃ i, findIndex (stopAt key x) t cap (hash x) = pure (some i) ∧ EndsAt key (homeOf hash cap) cap t x i) ∨
    (findIndex (stopAt key x) t cap (hash x) = pure none ∧ ∀ j, j < cap → ∃ e, t[j]? = some (some e) ∧ key e ≠ x) := by
  have key' : ∀ o : Option ε, stopAt key x o = false → ∃ e, o = some e ∧ key e ≠ x := by
    intro o ho
    cases o with
    | none => simp [stopAt] at ho
    | some e => exact ⟨e, rfl, by simpa [stopAt] using ho⟩
  rcases findIndex_spec (stopAt key x) t cap (hash x) hl (homeOf hash cap x)
    (by unfold scaleHash; rw [if_neg (by omega)]; rfl) (Nat.mod_lt _ hc) with ⟨k, o, hk, e, ho, hs, hj⟩ | ⟨e, hj⟩
  · left
    refine ⟨_, e, k, hk, rfl, ?_, fun j hjk => ?_⟩
    · cases o with
      | none => exact Or.inl ho
      | some e' => exact Or.inr ⟨e', ho, by simpa [stopAt] using hs⟩
    · obtain ⟨y, hy, hys⟩ := hj j hjk
      obtain ⟨e', rfl, he'⟩ := key' y hys
      exact ⟨e', hy, he'⟩
  · right
    refine ⟨e, fun j hjk => ?_⟩
    obtain ⟨y, hy, hys⟩ := hj j hjk
    obtain ⟨e', rfl, he'⟩ := key' y hys
    exact ⟨e', hy, he'⟩

/-- The table of free places is chained. -/
theorem chained_empty (key : ε → κ) (hash : κ → Nat) (cap n : Nat) (hc : 0 < cap) (hn : cap ≤ n) :
    Chained key (homeOf hash cap) cap (List.replicate n none) ∧ entries cap (List.replicate n (none : Option ε)) = [] := by
  refine ⟨⟨hc, by simpa using hn, fun x => Nat.mod_lt _ hc, ?_⟩, ?_⟩
  · intro i e hi he
    rw [List.getElem?_replicate, if_pos (by omega)] at he
    injection he with he; injection he
  · unfold entries
    rw [List.take_replicate, List.filterMap_replicate_of_none rfl]

end

end Verif.Containers.Probe
