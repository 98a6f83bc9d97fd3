import Verif.Containers.Lists
import Mathlib.Data.Nat.Bitwise

/-
`daw::mph_impl::static_bitset`, include/daw/daw_min_perfect_hash.h 30-88.  The bins are natural numbers below `2 ^ sz`.
-/

namespace Verif.Containers.MphBits
open Cxx

/-- `sizes`, daw_min_perfect_hash.h 33-36. -/
def sizes (bits : Nat) : List (Nat × Nat) := [(8, bits % 8), (16, bits % 16), (32, bits % 32), (64, bits % 64)]

/-- One call of the lambda, daw_min_perfect_hash.h 39-45; `b` is `sizes[min_pos]` and `s` is `sizes[n]`.  Simplified: the
entry instead of its position. -/
def better (b s : Nat × Nat) : Nat × Nat :=
  if s.2 < b.2 then s else if s.2 = b.2 ∧ s.1 > b.1 then s else b

/-- `determine_opt_sz`, daw_min_perfect_hash.h 30-58, and `m_bits_per_bin`, 67: the number of bits of the type. -/
def optSz (bits : Nat) : Nat := ((sizes bits).tail.foldl better (8, bits % 8)).1

/-- `m_bins` and `m_values`, daw_min_perfect_hash.h 68-73: the bitset without a bit. -/
def fresh (bits : Nat) : List Nat := List.replicate (bits / optSz bits) 0

/-- `1U << item`, daw_min_perfect_hash.h 78 and 85: `unsigned` has 32 bits. -/
def oneShl (item : Nat) : Cxx Nat := if item < 32 then pure (2 ^ item) else ub

/-- `set_bit`, daw_min_perfect_hash.h 75-80. -/
def setBit (bits : Nat) (vs : List Nat) (idx : Nat) : Cxx (List Nat) := do
  let bin := idx / optSz bits
  let item := idx - bin * optSz bits
  let mask ← oneShl item
  let v ← rd vs bin
  wr vs bin ((v ||| mask) % 2 ^ optSz bits)

/-- `operator[]`, daw_min_perfect_hash.h 82-87: `~` is that of the 32 bits of `unsigned`. -/
def get (bits : Nat) (vs : List Nat) (idx : Nat) : Cxx Bool := do
  let bin := idx / optSz bits
  let item := idx - bin * optSz bits
  let one ← oneShl item
  let v ← rd vs bin
  pure ((v &&& (2 ^ 32 - 1 - one)) != 0)

/-- Bits set one after the other, daw_min_perfect_hash.h 75-80.  (Uses of `set_bit`.) -/
def setAll (bits : Nat) (vs : List Nat) : List Nat → Cxx (List Nat)
  | [] => pure vs
  | i :: is => do
    let vs ← setBit bits vs i
    setAll bits vs is

theorem optSz_cases (bits : Nat) :
    (optSz bits = 8 ∨ optSz bits = 16 ∨ optSz bits = 32 ∨ optSz bits = 64) ∧
    (8 ∣ bits → optSz bits ∣ bits) ∧ (optSz bits = 64 ↔ bits % 64 = bits % 8) := by
  unfold optSz sizes
  simp only [List.tail_cons, List.foldl_cons, List.foldl_nil, better]
  split_ifs <;> simp_all <;> omega

theorem optSz_pos (bits : Nat) : 0 < optSz bits := by
  rcases (optSz_cases bits).1 with h | h | h | h <;> omega

theorem item_lt (bits idx : Nat) : idx - idx / optSz bits * optSz bits < optSz bits := by
  have := Nat.mod_lt idx (optSz_pos bits)
  have h2 := Nat.div_add_mod idx (optSz bits)
  rw [Nat.mul_comm] at h2
  omega

theorem item_eq (bits idx : Nat) : idx - idx / optSz bits * optSz bits = idx % optSz bits := by
  have h2 := Nat.div_add_mod idx (optSz bits)
  rw [Nat.mul_comm] at h2
  omega

/-- C278: `set_bit` is defined for every bit of the set exactly if the number of bits is a multiple of 8 and not one of 64.
Otherwise bits at the end have no bin, or the shift is too wide. -/
theorem C278_set_bit_violated {bits : Nat} (h0 : 0 < bits) :
    (∀ idx, idx < bits → ∃ vs, setBit bits (fresh bits) idx = pure vs) ↔ 8 ∣ bits ∧ ¬ 64 ∣ bits := by
  obtain ⟨hc, hd, h64⟩ := optSz_cases bits
  constructor
  · intro h
    constructor
    · rcases Nat.decEq (bits % 8) 0 with h8 | h8
      · exfalso
        have hlt : bits / optSz bits * optSz bits < bits := by
          rcases hc with e | e | e | e <;> rw [e] <;> omega
        obtain ⟨vs, hvs⟩ := h _ hlt
        simp only [setBit, Nat.mul_div_cancel _ (optSz_pos bits), Nat.sub_self, oneShl] at hvs
        rw [if_pos (by omega), pure_bind, rd_oob (by simp [fresh]), Cxx.ub_bind] at hvs
        exact Cxx.ub_ne_pure _ hvs
      · exact Nat.dvd_of_mod_eq_zero h8
    · intro h64'
      obtain ⟨k, rfl⟩ := h64'
      have e : optSz (64 * k) = 64 := h64.2 (by omega)
      obtain ⟨vs, hvs⟩ := h 32 (by omega)
      simp only [setBit, e, oneShl] at hvs
      rw [if_neg (by omega), Cxx.ub_bind] at hvs
      exact Cxx.ub_ne_pure _ hvs
  · rintro ⟨h8, hn⟩ idx hi
    have hsz : optSz bits ≤ 32 := by
      rcases hc with e | e | e | e
      · omega
      · omega
      · omega
      · have := h64.1 e; omega
    have hb : idx / optSz bits < (fresh bits).length := by
      simp only [fresh, List.length_replicate]
      exact Nat.div_lt_div_of_lt_of_dvd (hd h8) hi
    refine ⟨(fresh bits).set (idx / optSz bits)
      (((fresh bits)[idx / optSz bits] ||| 2 ^ (idx % optSz bits)) % 2 ^ optSz bits), ?_⟩
    simp only [setBit, item_eq, oneShl]
    rw [if_pos (by have := Nat.mod_lt idx (optSz_pos bits); omega), pure_bind, rd_eq hb, pure_bind, wr_eq hb]

example : 8 ∣ 40 ∧ ¬ 64 ∣ 40 ∧ optSz 40 = 8 ∧ optSz 48 = 16 ∧ optSz 96 = 32 ∧ optSz 128 = 64 ∧ optSz 7 = 64 := by decide

/-- The bits of the bins are those set.  (Specification, no line of the source.) -/
def Holds (bits : Nat) (vs : List Nat) (is : List Nat) : Prop :=
  vs.length = bits / optSz bits ∧
  ∀ (k : Nat) (v : Nat), vs[k]? = some v → v < 2 ^ optSz bits ∧
    ∀ b, b < optSz bits → (v.testBit b = true ↔ k * optSz bits + b ∈ is)

theorem fresh_holds (bits : Nat) : Holds bits (fresh bits) [] := by
  refine ⟨by simp [fresh], ?_⟩
  intro k v hv
  obtain ⟨_, rfl⟩ := List.getElem?_eq_some_iff.1 hv
  simp [fresh, Nat.pow_pos]

theorem setBit_holds {bits : Nat} (h8 : 8 ∣ bits) (hn : ¬ 64 ∣ bits) {vs is : List Nat} (hh : Holds bits vs is)
    {idx : Nat} (hi : idx < bits) : ∃ vs', setBit bits vs idx = pure vs' ∧ Holds bits vs' (is ++ [idx]) := by
  obtain ⟨hc, hd, h64⟩ := optSz_cases bits
  have hp := optSz_pos bits
  have hml := Nat.mod_lt idx hp
  have hsz : optSz bits ≤ 32 := by
    rcases hc with e | e | e | e
    · omega
    · omega
    · omega
    · have := h64.1 e; omega
  have hb : idx / optSz bits < vs.length := by
    rw [hh.1]
    exact Nat.div_lt_div_of_lt_of_dvd (hd h8) hi
  refine ⟨vs.set (idx / optSz bits) ((vs[idx / optSz bits] ||| 2 ^ (idx % optSz bits)) % 2 ^ optSz bits), ?_, ?_⟩
  · simp only [setBit, item_eq, oneShl]
    rw [if_pos (by omega), pure_bind, rd_eq hb, pure_bind, wr_eq hb]
  · refine ⟨by rw [List.length_set]; exact hh.1, ?_⟩
    intro k v hv
    have hdm := Nat.div_add_mod idx (optSz bits)
    rw [Nat.mul_comm] at hdm
    by_cases hk : idx / optSz bits = k
    · subst hk
      rw [List.getElem?_set_self hb] at hv
      obtain rfl := Option.some.inj hv
      refine ⟨Nat.mod_lt _ (Nat.pow_pos (by omega)), ?_⟩
      intro b hbb
      obtain ⟨_, hbits⟩ := hh.2 _ _ (List.getElem?_eq_getElem hb)
      rw [Nat.testBit_mod_two_pow, Nat.testBit_or, Nat.testBit_two_pow]
      simp only [hbb, decide_true, Bool.true_and, Bool.or_eq_true, hbits b hbb, decide_eq_true_eq,
        List.mem_append, List.mem_singleton]
      constructor
      · rintro (h | h)
        · exact .inl h
        · right; omega
      · rintro (h | h)
        · exact .inl h
        · right; omega
    · rw [List.getElem?_set_ne hk] at hv
      obtain ⟨h1, h2⟩ := hh.2 k v hv
      refine ⟨h1, fun b hbb => ?_⟩
      rw [h2 b hbb, List.mem_append, List.mem_singleton]
      constructor
      · exact .inl
      · rintro (h | h)
        · exact h
        · exfalso
          apply hk
          rw [← h, Nat.mul_comm, Nat.mul_add_div hp, Nat.div_eq_of_lt hbb, Nat.add_zero]

theorem setAll_holds {bits : Nat} (h8 : 8 ∣ bits) (hn : ¬ 64 ∣ bits) (is : List Nat) : ∀ {vs js : List Nat},
    Holds bits vs js → (∀ i ∈ is, i < bits) → ∃ vs', setAll bits vs is = pure vs' ∧ Holds bits vs' (js ++ is) := by
  induction is with
  | nil => intro vs js hh _; exact ⟨vs, rfl, by simpa using hh⟩
  | cons i is ih =>
    intro vs js hh hi
    obtain ⟨vs1, e1, h1⟩ := setBit_holds h8 hn hh (hi i (by simp))
    obtain ⟨vs2, e2, h2⟩ := ih h1 (fun j hj => hi j (by simp [hj]))
    refine ⟨vs2, ?_, by simpa using h2⟩
    rw [setAll, e1, pure_bind, e2]

theorem testBit_not32 {one : Nat} (h : one < 32) (b : Nat) :
    (2 ^ 32 - 1 - 2 ^ one).testBit b = (decide (b < 32) && decide (b ≠ one)) := by
  have hl : 2 ^ one < 2 ^ 32 := Nat.pow_lt_pow_right (by omega) h
  rw [show 2 ^ 32 - 1 - 2 ^ one = 2 ^ 32 - (2 ^ one + 1) by omega, Nat.testBit_two_pow_sub_succ hl, Nat.testBit_two_pow]
  by_cases hb : b = one
  · subst hb; simp
  · simp [hb, Ne.symm hb]

/-- C278, part: for a number of bits that is a multiple of 8 and not of 64, after any bits were set `operator[]` tells
whether *another* bit of the same bin was set. -/
theorem C278_get_partial {bits : Nat} (h8 : 8 ∣ bits) (hn : ¬ 64 ∣ bits) {is : List Nat} (hi : ∀ i ∈ is, i < bits) :
    ∃ vs, setAll bits (fresh bits) is = pure vs ∧
      (∀ idx, idx < bits →
        get bits vs idx = pure (decide (∃ j ∈ is, j ≠ idx ∧ j / optSz bits = idx / optSz bits))) ∧
      (∀ idx, idx < bits → ∃ v, vs[idx / optSz bits]? = some v ∧ (v.testBit (idx % optSz bits) = true ↔ idx ∈ is)) := by
  obtain ⟨vs, e, hh⟩ := setAll_holds h8 hn is (fresh_holds bits) hi
  rw [List.nil_append] at hh
  obtain ⟨hc, hd, h64⟩ := optSz_cases bits
  have hp := optSz_pos bits
  have hsz : optSz bits ≤ 32 := by
    rcases hc with e | e | e | e
    · omega
    · omega
    · omega
    · have := h64.1 e; omega
  refine ⟨vs, e, ?_, ?_⟩
  · intro idx hidx
    have hml := Nat.mod_lt idx hp
    have hb : idx / optSz bits < vs.length := by
      rw [hh.1]
      exact Nat.div_lt_div_of_lt_of_dvd (hd h8) hidx
    obtain ⟨hlt, hbits⟩ := hh.2 _ _ (List.getElem?_eq_getElem hb)
    simp only [get, item_eq, oneShl]
    rw [if_pos (by omega), pure_bind, rd_eq hb, pure_bind]
    congr 1
    rw [Bool.eq_iff_iff, bne_iff_ne, decide_eq_true_eq]
    constructor
    · intro hne
      obtain ⟨b, hb1⟩ := Nat.exists_testBit_of_ne_zero hne
      rw [Nat.testBit_and, testBit_not32 (by omega)] at hb1
      simp only [Bool.and_eq_true, decide_eq_true_eq] at hb1
      obtain ⟨hv, hb32, hbne⟩ := hb1
      have hbsz : b < optSz bits := by
        rcases Nat.lt_or_ge b (optSz bits) with h | h
        · exact h
        · rw [Nat.testBit_lt_two_pow (Nat.lt_of_lt_of_le hlt (Nat.pow_le_pow_right (by omega) h))] at hv
          simp at hv
      refine ⟨_, (hbits b hbsz).1 hv, ?_, ?_⟩
      · intro hEq
        apply hbne
        rw [← hEq, Nat.mul_comm, Nat.mul_add_mod, Nat.mod_eq_of_lt hbsz]
      · rw [Nat.mul_comm, Nat.mul_add_div hp, Nat.div_eq_of_lt hbsz, Nat.add_zero]
    · rintro ⟨j, hj, hne, hbin⟩ hz
      have hdj := Nat.div_add_mod j (optSz bits)
      have hdi := Nat.div_add_mod idx (optSz bits)
      have hjl := Nat.mod_lt j hp
      have ht := congrArg (fun n => n.testBit (j % optSz bits)) hz
      simp only [Nat.testBit_and, Nat.zero_testBit, testBit_not32 (show idx % optSz bits < 32 by omega)] at ht
      have h1 := (hbits (j % optSz bits) hjl).2 (by rw [← hbin, Nat.mul_comm, hdj]; exact hj)
      rw [h1] at ht
      have : j % optSz bits ≠ idx % optSz bits := by
        intro h
        apply hne
        rw [← hdj, ← hdi, h, hbin]
      simp [this] at ht
      omega
  · intro idx hidx
    have hb : idx / optSz bits < vs.length := by
      rw [hh.1]
      exact Nat.div_lt_div_of_lt_of_dvd (hd h8) hidx
    refine ⟨_, List.getElem?_eq_getElem hb, ?_⟩
    rw [(hh.2 _ _ (List.getElem?_eq_getElem hb)).2 _ (Nat.mod_lt _ hp), Nat.mul_comm, Nat.div_add_mod]

/-- C278: the bit just set, alone, reads as false, and its neighbours of the same bin read as true, in every set in which
bits can be set at all. -/
theorem C278_get_violated {bits : Nat} (h8 : 8 ∣ bits) (hn : ¬ 64 ∣ bits) {i j : Nat} (hi : i < bits) (hj : j < bits)
    (hij : j ≠ i) (hbin : j / optSz bits = i / optSz bits) :
    ∃ vs, setBit bits (fresh bits) i = pure vs ∧ get bits vs i = pure false ∧ get bits vs j = pure true := by
  obtain ⟨vs, e, hg, _⟩ := C278_get_partial h8 hn (is := [i]) (by simpa using hi)
  refine ⟨vs, ?_, ?_, ?_⟩
  · obtain ⟨v1, e1, _⟩ := setBit_holds h8 hn (fresh_holds bits) hi
    rw [setAll, e1, pure_bind] at e
    rw [e1]
    exact e
  · rw [hg i hi]
    simp
  · rw [hg j hj]
    congr 1
    simp [Ne.symm hij, hbin]

example : get 40 [0, 4, 0, 0, 0] 10 = pure false ∧ get 40 [0, 4, 0, 0, 0] 11 = pure true ∧
    setBit 40 (fresh 40) 10 = pure [0, 4, 0, 0, 0] := by decide +kernel

end Verif.Containers.MphBits
