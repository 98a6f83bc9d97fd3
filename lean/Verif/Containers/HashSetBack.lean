import Verif.Containers.BoundedHashSet

/-
Going back in a `bounded_hash_set_t`, include/daw/deprecated/daw_bounded_hash_set.h.
-/

namespace Verif.Containers.BoundedHashSet
open Cxx

variable {κ : Type}

/-- The loop of the iterators' `operator--`, daw_bounded_hash_set.h 93-95 and 184-186: the constant iterator tests `>`, the other `>=`,
so that it goes to the place before the first and reads there. -/
def skipBack (strict : Bool) (t : Table κ) : Nat → Cxx Nat
  | 0 => do
    let o ← rd t 0
    if o.isNone ∧ strict = false then ub else pure 0
  | i + 1 => do
    let o ← rd t (i + 1)
    if o.isNone then skipBack strict t i else pure (i + 1)

/-- `operator--`, daw_bounded_hash_set.h 91-97 and 182-188. -/
def dec (strict : Bool) (t : Table κ) : Nat → Cxx Nat
  | 0 => ub
  | i + 1 => skipBack strict t i

/-- `operator++`, daw_bounded_hash_set.h 77-83 and 168-174. -/
def inc (cap slack : Nat) (t : Table κ) (i : Nat) : Cxx Nat := skip cap slack t (i + 1)

/-- A loop backwards, `for( it = end; it != begin; ) { --it; … }`: the items met from the position `i` on, `b` being the position of
`begin( )`. (daw_bounded_hash_set.h 91-97, 182-188 and 406-449.) -/
def walkBack (strict : Bool) (t : Table κ) (b i : Nat) : Cxx (List (Option κ)) := do
  if i = b then pure []
  else do
    let j ← dec strict t i
    let o ← rd t j
    let os ← walkBack strict t b j
    pure (o :: os)
partial_fixpoint

theorem skipBack_eq (strict : Bool) (t : Table κ) : ∀ (n : Nat), n < t.length → (∃ (k : Nat) (x : κ), k ≤ n ∧ t[k]? = some (some x)) →
    ∃ (j : Nat) (x : κ), skipBack strict t n = pure j ∧ j ≤ n ∧ t[j]? = some (some x) ∧ ∀ k : Nat, j < k → k ≤ n → t[k]? = some none := by
  intro n
  induction n with
  | zero =>
    intro hn ⟨k, x, hk, hx⟩
    have : k = 0 := by omega
    subst this
    refine ⟨0, x, ?_, Nat.le_refl _, hx, fun k h1 h2 => by omega⟩
    simp [skipBack, rd_some hx]
  | succ n ih =>
    intro hn ⟨k, x, hk, hx⟩
    cases ho : t[n + 1] with
    | some y =>
      have hy : t[n + 1]? = some (some y) := by rw [List.getElem?_eq_getElem hn, ho]
      refine ⟨n + 1, y, ?_, Nat.le_refl _, hy, fun k h1 h2 => by omega⟩
      simp [skipBack, rd_some hy]
    | none =>
      have hy : t[n + 1]? = some none := by rw [List.getElem?_eq_getElem hn, ho]
      have hkn : k ≠ n + 1 := by
        intro h
        subst h
        rw [hy] at hx
        injection hx with hx
        injection hx
      obtain ⟨j, z, h1, h2, h3, h4⟩ := ih (by omega) ⟨k, x, by omega, hx⟩
      refine ⟨j, z, ?_, by omega, h3, fun k hk1 hk2 => ?_⟩
      · simp [skipBack, rd_some hy, h1]
      · by_cases hkk : k = n + 1
        · subst hkk; exact hy
        · exact h4 k hk1 (by omega)

theorem filter_none {t : Table κ} {a b : Nat} (h : ∀ k : Nat, a ≤ k → k < b → t[k]? = some none) (hab : a ≤ b) :
    (t.take b).filter (·.isSome) = (t.take a).filter (·.isSome) := by
  induction hd : b - a generalizing b with
  | zero => rw [show b = a by omega]
  | succ n ih =>
    obtain ⟨b, rfl⟩ : ∃ c, b = c + 1 := ⟨b - 1, by omega⟩
    have hb := h b (by omega) (by omega)
    rw [List.take_add_one, hb, List.filter_append, ih (fun k h1 h2 => h k h1 (by omega)) (by omega) (by omega)]
    simp

theorem walkBack_eq (strict : Bool) (t : Table κ) (b : Nat) (hb : ∀ k : Nat, k < b → t[k]? = some none)
    (he : b < t.length → ∃ x, t[b]? = some (some x)) : ∀ (n i : Nat), i ≤ n → b ≤ i → i ≤ t.length →
      walkBack strict t b i = pure ((t.take i).filter (·.isSome)).reverse := by
  intro n
  induction n with
  | zero =>
    intro i hn h1 h2
    have : i = 0 := by omega
    subst this
    rw [walkBack, if_pos (by omega)]
    simp
  | succ n ih =>
    intro i hn h1 h2
    by_cases hib : i = b
    · subst hib
      rw [walkBack, if_pos rfl, filter_none (a := 0) (fun k _ hk => hb k hk) (Nat.zero_le _)]
      simp
    · obtain ⟨x, hx⟩ := he (by omega)
      obtain ⟨i, rfl⟩ : ∃ c, i = c + 1 := ⟨i - 1, by omega⟩
      obtain ⟨j, y, hj, hji, hy, hn'⟩ := skipBack_eq strict t i (by omega) ⟨b, x, by omega, hx⟩
      have hbj : b ≤ j := by
        apply Nat.le_of_not_lt
        intro hlt
        have := hb j hlt
        rw [hy] at this
        injection this with this
        injection this
      rw [walkBack, if_neg hib]
      simp only [dec, hj, pure_bind, rd_some hy]
      rw [ih j (by omega) hbj (by omega), pure_bind, filter_none (a := j + 1) (b := i + 1) (fun k h1 h2 => hn' k (by omega) (by omega)) (by omega),
        List.take_add_one, hy]
      simp

/-- C350: a loop backwards from `end( )` to `begin( )` meets every entry of the set once, in the opposite order of the table, with
both kinds of iterator, and nothing else is read. -/
theorem C350_backwards (strict : Bool) (t : Table κ) :
    ∃ b, firstFrom t.length t 0 = pure b ∧ walkBack strict t b t.length = pure (t.filter (·.isSome)).reverse := by
  obtain ⟨b, hb, -, h2, h3, h4⟩ := firstFrom_eq (t := t) rfl 0 (Nat.zero_le _)
  refine ⟨b, hb, ?_⟩
  rw [walkBack_eq strict t b (fun k hk => h4 k (Nat.zero_le _) hk) h3 _ t.length (Nat.le_refl _) h2 (Nat.le_refl _), List.take_length]

example : (([none, some 3, none, some 5, none] : Table Nat).filter (·.isSome)).reverse = [some 5, some 3] := by decide

/-- C350: `--` undoes `++` wherever there is a next entry. -/
theorem C350_inverse (cap slack : Nat) (strict : Bool) (t : Table κ) (hl : t.length = cap) (i j : Nat) (x y : κ) (hij : i < j)
    (hx : t[i]? = some (some x)) (hy : t[j]? = some (some y)) (hn : ∀ k : Nat, i < k → k < j → t[k]? = some none) :
    inc cap slack t i = pure j ∧ dec strict t j = pure i := by
  have hj : j < t.length := (List.getElem?_eq_some_iff.1 hy).1
  refine ⟨skip_to (by omega) ⟨y, hy⟩ _ (i + 1) rfl (by omega) (fun k h1 h2 => hn k (by omega) h2), ?_⟩
  obtain ⟨j, rfl⟩ : ∃ c, j = c + 1 := ⟨j - 1, by omega⟩
  obtain ⟨k, z, hk, hkj, hz, h⟩ := skipBack_eq strict t j (by omega) ⟨i, x, by omega, hx⟩
  have : k = i := by
    rcases Nat.lt_trichotomy k i with h1 | h1 | h1
    · have := h i h1 (by omega)
      rw [hx] at this
      injection this with this
      injection this
    · exact h1
    · have := hn k h1 (by omega)
      rw [hz] at this
      injection this with this
      injection this
  subst this
  exact hk

example : ([some 3, none, some 5] : Table Nat)[0]? = some (some 3) ∧ ([some 3, none, some 5] : Table Nat)[2]? = some (some 5) := by decide

/-- C350, where the two kinds differ: from the first entry, if it is not at the first place, the constant iterator goes back to the
first place, which has no entry, and the other reads before the table. -/
theorem C350_before_first_finding (t : Table κ) (j : Nat) (hj : 0 < j) (hl : j ≤ t.length) (hn : ∀ k : Nat, k < j → t[k]? = some none) :
    dec true t j = pure 0 ∧ dec false t j = ub := by
  obtain ⟨j, rfl⟩ : ∃ c, j = c + 1 := ⟨j - 1, by omega⟩
  have key : ∀ n, n ≤ j → skipBack true t n = pure 0 ∧ skipBack false t n = ub := by
    intro n
    induction n with
    | zero =>
      intro _
      simp [skipBack, rd_some (hn 0 (by omega))]
    | succ n ih =>
      intro hnj
      simp [skipBack, rd_some (hn (n + 1) (by omega)), ih (by omega)]
  exact key j (Nat.le_refl _)

example : ∀ k : Nat, k < 2 → ([none, none, some 5] : Table Nat)[k]? = some none := by decide

end Verif.Containers.BoundedHashSet
