import Verif.Containers.Lists

/-
The allocators of the old vector, include/daw/deprecated/daw_vector.h 77-199.
-/

namespace Verif.Vector.PageAlloc
open Verif Verif.Cxx

/-- A number rounded to 53 binary digits, to nearest with ties to even. (Rule of C++ or its library, no line of the source.) -/
def rne (n : Nat) : Nat :=
  let u := 2 ^ (Nat.log2 n + 1 - 53)
  let q := n / u
  let r := n % u
  (if 2 * r < u ∨ (2 * r = u ∧ q % 2 = 0) then q else q + 1) * u

/-- `round_to_page_size( sz )`, deprecated/daw_vector.h 78-92, for pages of 4096 bytes: the quotient is a `double`, here counted in
parts of 4096; half is added to it, and `std::round` rounds halves away from zero; the product is one of `size_t`. -/
def page (sz : Nat) : Nat := ((rne (rne sz + 2048) + 2048) / 4096) * 4096 % 2 ^ 64

/-- The memory of the process: the address and the length of each mapping, and what the system can still give.
(Rule of C++ or its library, no line of the source.) -/
structure Mem where
  maps : List (Nat × Nat)
  free : Nat
  deriving DecidableEq

/-- `MAP_FAILED`. (Rule of C++ or its library, no line of the source.) -/
def failed : Nat := 2 ^ 64 - 1

/-- `mmap` of so many bytes, at the address `place` that the system chooses. (Rule of C++ or its library, no line of the source.) -/
def mmap (m : Mem) (place len : Nat) : Nat × Mem :=
  if len = 0 ∨ m.free < len then (failed, m) else (place, ⟨(place, len) :: m.maps, m.free - len⟩)

/-- `munmap` of the first `len` bytes of the mapping at `ptr`. (Rule of C++ or its library, no line of the source.) -/
def munmap (m : Mem) (ptr len : Nat) : Mem :=
  match m.maps.find? (fun r => r.1 == ptr) with
  | none => m
  | some r =>
    let rest := m.maps.erase r
    if r.2 ≤ len then ⟨rest, m.free + r.2⟩ else ⟨(ptr + len, r.2 - len) :: rest, m.free + len⟩

/-- `mremap` with the flag `MREMAP_FIXED` and without `MREMAP_MAYMOVE`, which it requires: it fails.
(Rule of C++ or its library, no line of the source.) -/
def mremapFixed (m : Mem) (_old _oldLen _newLen : Nat) : Nat × Mem := (failed, m)

/-- Reading or writing of a byte. (Rule of C++ or its library, no line of the source.) -/
def access (m : Mem) (p : Nat) : Cxx Unit :=
  if m.maps.any (fun r => r.1 ≤ p && p < r.1 + r.2) then pure () else ub

/-- `MMapAlloc::allocate_raw`, deprecated/daw_vector.h 103-111: it looks for a null pointer. -/
def allocateRaw (m : Mem) (place len : Nat) : Cxx (Nat × Mem) :=
  let r := mmap m place len
  if r.1 = 0 then thrown else pure r

/-- `MMapAlloc::allocate`, deprecated/daw_vector.h 116-119, for a type of `w` bytes. -/
def allocate (m : Mem) (place w count : Nat) : Cxx (Nat × Mem) := allocateRaw m place (page (w * count % 2 ^ 64))

/-- `MMapAlloc::reallocate`, deprecated/daw_vector.h 126-145, where `MREMAP_FIXED` is defined. -/
def reallocate (m : Mem) (place w old oldCount newCount : Nat) : Cxx (Nat × Mem) :=
  let newLen := page (newCount * w % 2 ^ 64)
  let oldLen := page (oldCount * w % 2 ^ 64)
  if old = 0 then allocateRaw m place newLen
  else
    let r := mremapFixed m old oldLen newLen
    if r.1 = 0 then thrown else pure r

/-- `MMapAlloc::deallocate`, deprecated/daw_vector.h 147-149: the number of objects is taken for one of bytes. -/
def deallocate (m : Mem) (ptr count : Nat) : Mem := munmap m ptr (page count)

/-- `malloc`: the length of the block; null if there is not so much. (Rule of C++ or its library, no line of the source.) -/
def malloc (free len : Nat) : Option Nat := if len ≤ free then some len else none

/-- `MallocAlloc::allocate`, deprecated/daw_vector.h 160-167 and 172-174: the length of the block. -/
def mallocAllocate (free w count : Nat) : Cxx Nat :=
  match malloc free (page (w * count % 2 ^ 64)) with
  | some len => pure len
  | none => thrown

theorem rne_small {n : Nat} (h : n < 2 ^ 53) : rne n = n := by
  unfold rne
  have : Nat.log2 n + 1 - 53 = 0 := by
    rcases Nat.eq_zero_or_pos n with rfl | hp
    · decide
    · have := (Nat.log2_lt (by omega)).2 h
      omega
  rw [this]
  simp only [Nat.pow_zero, Nat.div_one, Nat.mod_one, Nat.mul_zero, Nat.mul_one]
  simp

/-- C359, pages, as far as it holds: up to 2^53 bytes the number is rounded up to a multiple of the page with room for at least one
byte more.  Missing: greater numbers, see `C359_wrap_violated`. -/
theorem C359_page_partial (n : Nat) (h : n + 2048 < 2 ^ 53) : page n % 4096 = 0 ∧ n < page n ∧ page n ≤ n + 4096 := by
  unfold page
  rw [rne_small (show n < 2 ^ 53 by omega), rne_small h]
  generalize hq : (n + 2048 + 2048) / 4096 = q
  have h1 : q * 4096 ≤ n + 4096 := by omega
  have h2 : n < q * 4096 := by omega
  rw [Nat.mod_eq_of_lt (show q * 4096 < 2 ^ 64 by omega)]
  exact ⟨Nat.mul_mod_left _ _, h2, h1⟩

theorem mmap_ok (m : Mem) (place len : Nat) (h0 : 0 < len) (hf : len ≤ m.free) :
    mmap m place len = (place, ⟨(place, len) :: m.maps, m.free - len⟩) := by
  unfold mmap
  rw [if_neg (by omega)]

/-- C359, allocation, as far as it holds: where there is memory for all the pages, each byte of the objects can be used. -/
theorem C359_allocate_partial (m : Mem) (place w count : Nat) (h : w * count + 2048 < 2 ^ 53) (hp : place ≠ 0)
    (hf : w * count + 4096 ≤ m.free) :
    ∃ m', allocate m place w count = pure (place, m') ∧ ∀ i, i < w * count → access m' (place + i) = pure () := by
  obtain ⟨-, h2, h3⟩ := C359_page_partial _ h
  refine ⟨⟨(place, page (w * count)) :: m.maps, m.free - page (w * count)⟩, ?_, ?_⟩
  · unfold allocate allocateRaw
    rw [Nat.mod_eq_of_lt (show w * count < 2 ^ 64 by omega), mmap_ok _ _ _ (by omega) (by omega)]
    simp only [hp, if_false]
  · intro i hi
    unfold access
    rw [if_pos]
    simp only [List.any_cons, Bool.or_eq_true, Bool.and_eq_true, decide_eq_true_eq]
    left
    omega

example : (8 * 1000 + 2048 < 2 ^ 53) ∧ 8 * 1000 + 4096 ≤ (⟨[], 65536⟩ : Mem).free := by decide

/-- C359 does not hold where there is not enough memory: nothing is reported, and no byte of the objects can be used. -/
theorem C359_failure_violated (m : Mem) (place w count : Nat) (h : m.free < page (w * count % 2 ^ 64))
    (hm : ∀ r ∈ m.maps, r.1 + r.2 < 2 ^ 64) :
    allocate m place w count = pure (failed, m) ∧ ∀ i, access m (failed + i) = ub := by
  constructor
  · have : mmap m place (page (w * count % 2 ^ 64)) = (failed, m) := by
      unfold mmap
      rw [if_pos (Or.inr h)]
    unfold allocate allocateRaw
    rw [this]
    rfl
  · intro i
    unfold access
    rw [if_neg]
    rw [List.any_eq_true]
    rintro ⟨r, hr, hc⟩
    rw [Bool.and_eq_true] at hc
    have h1 := of_decide_eq_true hc.2
    have := hm r hr
    unfold failed at h1
    omega

example : (⟨[], 4096⟩ : Mem).free < page (8 * 1000 % 2 ^ 64) := by decide +kernel

/-- C359 does not hold for `reallocate` of a block that is there: it never gives memory, whatever the sizes and however much there is,
and reports nothing. -/
theorem C359_reallocate_violated (m : Mem) (place w old oldCount newCount : Nat) (h : old ≠ 0) :
    reallocate m place w old oldCount newCount = pure (failed, m) := by
  unfold reallocate
  rw [if_neg h]
  rfl

example := fun m => C359_reallocate_violated m 7 8 4096 10 20 (by decide)

/-- C359, deallocation, as far as it holds: for objects of one byte the memory is as before. -/
theorem C359_deallocate_partial (m : Mem) (place count : Nat) (h : count + 2048 < 2 ^ 53) (hp : place ≠ 0) (hf : count + 4096 ≤ m.free) :
    ∃ m', allocate m place 1 count = pure (place, m') ∧ deallocate m' place count = m := by
  obtain ⟨-, h2, h3⟩ := C359_page_partial _ h
  refine ⟨⟨(place, page count) :: m.maps, m.free - page count⟩, ?_, ?_⟩
  · unfold allocate allocateRaw
    rw [Nat.one_mul, Nat.mod_eq_of_lt (show count < 2 ^ 64 by omega), mmap_ok _ _ _ (by omega) (by omega)]
    simp only [hp, if_false]
  · unfold deallocate munmap
    simp only [List.find?_cons_of_pos, beq_self_eq_true, List.erase_cons_head, Nat.le_refl, if_true]
    obtain ⟨maps, free⟩ := m
    simp only at hf ⊢
    rw [Nat.sub_add_cancel (by omega)]

example : deallocate ⟨[(65536, page 5000)], 1000⟩ 65536 5000 = ⟨[], 9192⟩ := by decide +kernel

/-- C359 does not hold for greater objects: all but the pages for as many bytes as there were objects are lost for ever. -/
theorem C359_deallocate_violated (m : Mem) (place w count : Nat) (h : w * count + 2048 < 2 ^ 53) (hp : place ≠ 0)
    (hf : w * count + 4096 ≤ m.free) (hw : count + 4096 ≤ w * count) :
    ∃ m', allocate m place w count = pure (place, m') ∧ (deallocate m' place count).free + (page (w * count) - page count) = m.free ∧
      page count < page (w * count) ∧ access (deallocate m' place count) (place + page count) = pure () := by
  obtain ⟨a1, a2, a3⟩ := C359_page_partial _ h
  obtain ⟨b1, b2, b3⟩ := C359_page_partial count (by omega)
  have hlt : page count < page (w * count) := by omega
  refine ⟨⟨(place, page (w * count)) :: m.maps, m.free - page (w * count)⟩, ?_, ?_, hlt, ?_⟩
  · unfold allocate allocateRaw
    rw [Nat.mod_eq_of_lt (show w * count < 2 ^ 64 by omega), mmap_ok _ _ _ (by omega) (by omega)]
    simp only [hp, if_false]
  · unfold deallocate munmap
    simp only [List.find?_cons_of_pos, beq_self_eq_true, List.erase_cons_head]
    rw [if_neg (by omega)]
    simp only
    omega
  · unfold deallocate munmap
    simp only [List.find?_cons_of_pos, beq_self_eq_true, List.erase_cons_head]
    rw [if_neg (by omega)]
    unfold access
    rw [if_pos]
    simp only [List.any_cons, Bool.or_eq_true, Bool.and_eq_true, decide_eq_true_eq]
    left
    omega

example : 1000 + 4096 ≤ 8 * 1000 := by decide

theorem rne_ge {n : Nat} (h : n < 2 ^ 65) (k : Nat) (hk : k * 4096 ≤ n) : k * 4096 ≤ rne n := by
  unfold rne
  rcases Nat.eq_zero_or_pos n with rfl | hp
  · omega
  have hl : Nat.log2 n < 65 := (Nat.log2_lt (by omega)).2 h
  obtain ⟨j, hj⟩ : ∃ j, 2 ^ (Nat.log2 n + 1 - 53) * j = 4096 := by
    refine ⟨2 ^ (12 - (Nat.log2 n + 1 - 53)), ?_⟩
    rw [← Nat.pow_add, show Nat.log2 n + 1 - 53 + (12 - (Nat.log2 n + 1 - 53)) = 12 by omega]
  generalize 2 ^ (Nat.log2 n + 1 - 53) = u at *
  have hu : 0 < u := by
    rcases Nat.eq_zero_or_pos u with rfl | h
    · simp at hj
    · exact h
  have hq : k * j ≤ n / u := by
    rw [Nat.le_div_iff_mul_le hu, Nat.mul_assoc, Nat.mul_comm j u, hj]
    exact hk
  have e : k * 4096 = k * j * u := by rw [← hj, Nat.mul_assoc, Nat.mul_comm u j]
  rw [e]
  apply Nat.mul_le_mul_right
  split <;> omega

theorem rne_le {n : Nat} (h : n < 2 ^ 65) (k : Nat) (hk : n ≤ k * 4096) : rne n ≤ k * 4096 := by
  unfold rne
  rcases Nat.eq_zero_or_pos n with rfl | hp
  · rw [show Nat.log2 0 + 1 - 53 = 0 by decide]
    simp
  have hl : Nat.log2 n < 65 := (Nat.log2_lt (by omega)).2 h
  obtain ⟨j, hj⟩ : ∃ j, 2 ^ (Nat.log2 n + 1 - 53) * j = 4096 := by
    refine ⟨2 ^ (12 - (Nat.log2 n + 1 - 53)), ?_⟩
    rw [← Nat.pow_add, show Nat.log2 n + 1 - 53 + (12 - (Nat.log2 n + 1 - 53)) = 12 by omega]
  generalize 2 ^ (Nat.log2 n + 1 - 53) = u at *
  have hu : 0 < u := by
    rcases Nat.eq_zero_or_pos u with rfl | h
    · simp at hj
    · exact h
  have e : k * 4096 = k * j * u := by rw [← hj, Nat.mul_assoc, Nat.mul_comm u j]
  rw [e]
  rw [e] at hk
  apply Nat.mul_le_mul_right
  have hd : u * (n / u) + n % u = n := Nat.div_add_mod n u
  have hm : n % u < u := Nat.mod_lt _ hu
  have hle : n / u ≤ k * j := by
    apply Nat.div_le_of_le_mul
    rw [Nat.mul_comm]
    exact hk
  by_cases heq : n / u = k * j
  · have h0 : n % u = 0 := by
      rw [heq, Nat.mul_comm] at hd
      omega
    rw [if_pos (Or.inl (by omega))]
    omega
  · split <;> omega

/-- C359 does not hold for the greatest numbers: the size asked for is none, and `malloc` gives a block without room for anything. -/
theorem C359_wrap_violated (free n : Nat) (h : 2 ^ 64 - 4096 ≤ n) (h1 : n < 2 ^ 64) :
    page n = 0 ∧ mallocAllocate free 1 n = pure 0 := by
  have hp : page n = 0 := by
    have a : (2 ^ 52 - 1) * 4096 ≤ rne n := rne_ge (by omega) _ (by omega)
    have b : rne n ≤ 2 ^ 52 * 4096 := rne_le (by omega) _ (by omega)
    have c : rne n = (2 ^ 52 - 1) * 4096 ∨ (2 ^ 52 - 1) * 4096 < rne n := by omega
    unfold page
    rcases c with c | c
    · rw [c]
      decide +kernel
    · have hlow : (2 ^ 52 - 1) * 4096 + 2048 ≤ rne (rne n + 2048) := by
        have hge : 2 ^ 64 - 4096 + 2048 ≤ rne n := by
          have hl : Nat.log2 n = 63 := by
            have h1' := (Nat.log2_lt (n := n) (k := 64) (by omega)).2 h1
            have h2' := (Nat.le_log2 (n := n) (k := 63) (by omega)).2 (by omega)
            omega
          unfold rne at c ⊢
          rw [hl] at c ⊢
          simp only [show 2 ^ (63 + 1 - 53) = 2048 by decide] at c ⊢
          generalize (if 2 * (n % 2048) < 2048 ∨ (2 * (n % 2048) = 2048 ∧ n / 2048 % 2 = 0) then n / 2048 else n / 2048 + 1) = q at *
          omega
        have := rne_ge (n := rne n + 2048) (by omega) (2 ^ 52) (by omega)
        omega
      have hhigh : rne (rne n + 2048) ≤ 2 ^ 52 * 4096 := by
        have hcase : rne n + 2048 ≤ 2 ^ 52 * 4096 ∨ rne n = 2 ^ 52 * 4096 ∨ (rne n + 2048 > 2 ^ 52 * 4096 ∧ rne n < 2 ^ 52 * 4096) := by omega
        rcases hcase with hcase | hcase | hcase
        · exact rne_le (by omega) _ hcase
        · rw [hcase]
          decide +kernel
        · exfalso
          have hl : Nat.log2 n = 63 := by
            have h1' := (Nat.log2_lt (n := n) (k := 64) (by omega)).2 h1
            have h2' := (Nat.le_log2 (n := n) (k := 63) (by omega)).2 (by omega)
            omega
          unfold rne at hcase
          rw [hl] at hcase
          simp only [show 2 ^ (63 + 1 - 53) = 2048 by decide] at hcase
          generalize (if 2 * (n % 2048) < 2048 ∨ (2 * (n % 2048) = 2048 ∧ n / 2048 % 2 = 0) then n / 2048 else n / 2048 + 1) = q at *
          omega
      omega
  refine ⟨hp, ?_⟩
  unfold mallocAllocate
  rw [Nat.one_mul, Nat.mod_eq_of_lt h1, hp]
  simp [malloc]

example : 2 ^ 64 - 4096 ≤ 2 ^ 64 - 8 ∧ page (2 ^ 64 - 8) = 0 := by decide +kernel

/-- C359, `MallocAlloc`, as far as it holds: up to 2^53 bytes a block has room for the objects, and if there is none it is reported. -/
theorem C359_malloc_partial (free w count : Nat) (h : w * count + 2048 < 2 ^ 53) :
    (∃ len, mallocAllocate free w count = pure len ∧ w * count < len ∧ len ≤ free) ∨ (mallocAllocate free w count = thrown ∧ free < w * count + 4096) := by
  obtain ⟨-, h2, h3⟩ := C359_page_partial _ h
  unfold mallocAllocate malloc
  rw [Nat.mod_eq_of_lt (show w * count < 2 ^ 64 by omega)]
  by_cases hf : page (w * count) ≤ free
  · rw [if_pos hf]
    exact Or.inl ⟨_, rfl, h2, hf⟩
  · rw [if_neg hf]
    exact Or.inr ⟨rfl, by omega⟩

example : mallocAllocate 10000 8 1000 = pure 8192 ∧ mallocAllocate 100 8 1000 = thrown := by decide +kernel

end Verif.Vector.PageAlloc
