import Verif.Bits.IntCmp
import Verif.Containers.Lists

/-
Seeds of random numbers in include/daw/daw_random.h: `generate_seed`, which is there with USE_CXSEED, and the seed of `RandomInteger`.
-/

namespace Verif.Random.Seeds
open Verif Verif.Cxx Verif.Bits

/-- `static_cast<size_t>( *first )`, daw_random.h 117, of a `char`, which has a sign. -/
def toSize (c : Int) : Nat := (c % 2 ^ 64).toNat

/-- A round of the loop, daw_random.h 117. -/
def round (result : Nat) (c : Int) : Nat := ((result <<< 5) % 2 ^ 64 + result + toSize c) % 2 ^ 64

/-- The loop, daw_random.h 116-119, over the characters before the terminator. -/
def loop : List Int → Nat → Nat
  | [], result => result
  | c :: cs, result => loop cs (round result c)

/-- `generate_seed( first, seed )`, daw_random.h 112-121. -/
def generateSeed (cs : List Int) (seed : Nat) : Nat := loop cs (if seed = 0 then 5381 else seed)

/-- `generate_seed( )`, daw_random.h 123-129, of the texts of the file, the date and the time and the line. -/
def generateSeed0 (file date time : List Int) (line : Nat) : Nat :=
  let result := generateSeed file 0
  let result := generateSeed date result
  let result := generateSeed time result
  ((result <<< 5) % 2 ^ 64 + result + line) % 2 ^ 64

/-- The value of the characters as digits to the base 33. (Specification, no line of the source.) -/
def poly : List Int → Int
  | [] => 0
  | c :: cs => c * 33 ^ cs.length + poly cs

theorem toSize_mod (c : Int) : (toSize c : Int) = c % 2 ^ 64 := by
  unfold toSize; omega

theorem round_mod (r : Nat) (c : Int) : ((round r c : Nat) : Int) = (33 * r + c) % 2 ^ 64 := by
  have h := toSize_mod c
  unfold round
  rw [Nat.shiftLeft_eq]
  omega

theorem round_lt (r : Nat) (c : Int) : round r c < 2 ^ 64 := Nat.mod_lt _ (by omega)

theorem loop_mod (cs : List Int) : ∀ r : Nat, r < 2 ^ 64 → ((loop cs r : Nat) : Int) = (33 ^ cs.length * (r : Int) + poly cs) % 2 ^ 64 := by
  induction cs with
  | nil => intro r h; simp only [loop, poly, List.length_nil]; omega
  | cons c cs ih =>
    intro r _
    rw [loop, ih _ (round_lt r c), round_mod, poly, List.length_cons]
    have : (33 : Int) ^ (cs.length + 1) * r + (c * 33 ^ cs.length + poly cs) = 33 ^ cs.length * (33 * r + c) + poly cs := by grind
    rw [this, Int.add_emod, Int.mul_emod, Int.emod_emod, ← Int.mul_emod, ← Int.add_emod]

/-- **C336.**  `generate_seed` is the hash of Bernstein: the seed, or 5381 instead of 0, times 33 to the power of the number of characters, plus the characters as digits to the base 33, all
modulo 2^64; characters that are negative count as negative. -/
theorem C336_formula (cs : List Int) (seed : Nat) (h : seed < 2 ^ 64) :
    ((generateSeed cs seed : Nat) : Int) = (33 ^ cs.length * (if seed = 0 then 5381 else (seed : Int)) + poly cs) % 2 ^ 64 := by
  unfold generateSeed
  by_cases hs : seed = 0
  · rw [if_pos hs, if_pos hs]; exact loop_mod cs 5381 (by omega)
  · rw [if_neg hs, if_neg hs]; exact loop_mod cs seed h

example : generateSeed [97, 98] 0 = 5863208 := by decide

theorem loop_append (cs ds : List Int) : ∀ r, loop (cs ++ ds) r = loop ds (loop cs r) := by
  induction cs with
  | nil => intro r; rfl
  | cons c cs ih => intro r; exact ih _

/-- **C336.**  The seed of two texts one after the other is that of the second one with the seed of the first, unless that is 0; so what `generate_seed( )` does is the hash of the three texts
together, unless the hash is 0 in between.  Missing: that case, see the finding. -/
theorem C336_append_partial (cs ds : List Int) (seed : Nat) (h : generateSeed cs seed ≠ 0) : generateSeed (cs ++ ds) seed = generateSeed ds (generateSeed cs seed) := by
  rw [generateSeed, loop_append, generateSeed, if_neg h]; rfl

theorem C336_three_partial (file date time : List Int) (line : Nat) (h1 : generateSeed file 0 ≠ 0) (h2 : generateSeed (file ++ date) 0 ≠ 0) :
    generateSeed0 file date time line = (33 * generateSeed (file ++ date ++ time) 0 + line) % 2 ^ 64 := by
  rw [C336_append_partial _ _ _ h2, C336_append_partial _ _ _ h1]
  unfold generateSeed0
  simp only [Nat.shiftLeft_eq]
  omega

example := C336_three_partial [97, 46, 104] [78, 111, 118] [49, 50] 7 (by decide) (by decide)

/-- **C336** (finding).  If the hash of the first text is 0, the second one is hashed as if it were alone. -/
theorem C336_zero_violated : ∃ (cs : List Int) (seed : Nat), (∀ c ∈ cs, 0 < c ∧ c < 128) ∧ 0 < seed ∧ seed < 2 ^ 64 ∧
    ∀ ds : List Int, generateSeed ds (generateSeed cs seed) = generateSeed ds 0 ∧ (ds = [97] → generateSeed (cs ++ ds) seed ≠ generateSeed ds (generateSeed cs seed)) := by
  refine ⟨[33], 2 ^ 64 - 1, by decide, by decide, by decide, fun ds => ?_⟩
  have h : generateSeed [33] (2 ^ 64 - 1) = 0 := by decide
  rw [h]
  exact ⟨rfl, by rintro rfl; decide⟩

/-- **C336.**  One character makes a difference: with the same seed, two texts of the same length that differ in one character only have different hashes. -/
theorem C336_one (pre post : List Int) (a b : Int) (ha : -128 ≤ a ∧ a < 128) (hb : -128 ≤ b ∧ b < 128) (hab : a ≠ b) (seed : Nat) (h : seed < 2 ^ 64) :
    generateSeed (pre ++ a :: post) seed ≠ generateSeed (pre ++ b :: post) seed := by
  have inj1 : ∀ (r s : Nat) (c : Int), r < 2 ^ 64 → s < 2 ^ 64 → round r c = round s c → r = s := by
    intro r s c hr hs he
    have h1 := round_mod r c
    have h2 := round_mod s c
    rw [he, h2] at h1
    have h3 : ((33 * (s : Int) + c) - (33 * r + c)) % 2 ^ 64 = 0 := Int.emod_eq_emod_iff_emod_sub_eq_zero.1 h1
    have h4 : (2 ^ 64 : Int) ∣ 33 * ((s : Int) - r) := by
      have := Int.dvd_of_emod_eq_zero h3
      rwa [show (33 * (s : Int) + c) - (33 * r + c) = 33 * ((s : Int) - r) by omega] at this
    have h5 : (2 ^ 64 : Int) ∣ (s : Int) - r := by
      have h6 : (2 ^ 64 : Nat) ∣ 33 * ((s : Int) - r).natAbs := by
        have := Int.natAbs_dvd_natAbs.2 h4
        rwa [Int.natAbs_mul] at this
      exact Int.natAbs_dvd_natAbs.1 (Nat.Coprime.dvd_of_dvd_mul_left (by decide) h6)
    clear h1 h2 h3 h4 he
    omega
  have inj : ∀ (cs : List Int) (r s : Nat), r < 2 ^ 64 → s < 2 ^ 64 → loop cs r = loop cs s → r = s := by
    intro cs
    induction cs with
    | nil => intro r s _ _ he; exact he
    | cons c cs ih => intro r s hr hs he; exact inj1 r s c hr hs (ih _ _ (round_lt r c) (round_lt s c) he)
  intro he
  unfold generateSeed at he
  rw [loop_append, loop_append, loop, loop] at he
  have := inj post _ _ (round_lt _ _) (round_lt _ _) he
  have h1 := round_mod (loop pre (if seed = 0 then 5381 else seed)) a
  have h2 := round_mod (loop pre (if seed = 0 then 5381 else seed)) b
  rw [this, h2] at h1
  omega

example := C336_one [1] [2] 97 98 (by omega) (by omega) (by omega) 0 (by omega)

/-- **C336** (finding).  Two do not: a character one higher and the next one 33 lower, as in "Ab" and "BA", give the same seed in every text and with every seed, so builds of files of such
names at the same time have the same random numbers. -/
theorem C336_collision_finding (pre post : List Int) (a b : Int) (seed : Nat) : generateSeed (pre ++ a :: b :: post) seed = generateSeed (pre ++ (a + 1) :: (b - 33) :: post) seed := by
  unfold generateSeed
  rw [loop_append, loop_append]
  simp only [loop]
  congr 1
  generalize loop pre _ = r
  have h1 := round_mod r a
  have h2 := round_mod r (a + 1)
  have h3 := round_mod (round r a) b
  have h4 := round_mod (round r (a + 1)) (b - 33)
  omega

example : generateSeed [65, 98] 0 = generateSeed [66, 65] 0 := C336_collision_finding [] [] 65 98 0

/-! ## the seed of `RandomInteger` -/

/-- `std::minstd_rand0`, the `std::default_random_engine` of libstdc++, made of a seed: the seed modulo 2^31 - 1, or 1 if that is 0. (Rule of C++ or its library, no line of the source.) -/
def engine (seed : Nat) : Nat := if seed % (2 ^ 31 - 1) = 0 then 1 else seed % (2 ^ 31 - 1)

/-- `RandomInteger<Integer>( seed )`, daw_random.h 189-192: the seed is converted to `Integer`, not to the type of the engine, and by the constructor of the engine to an unsigned number of 64
bits. -/
def randomInteger (t : IntTy) (seed : Int) : Nat := engine ((⟨64, false, by omega⟩ : IntTy).conv (t.conv seed)).toNat

/-- `RandomFloat( seed )`, daw_random.h 227-228: the seed is of the type of the engine. -/
def randomFloat (seed : Nat) : Nat := engine seed

/-- **C337.**  Seeds of `RandomInteger` that are positive, in the range of its type and below the modulus of the engine make different generators.  Missing: seeds that are not in the range of
the type. -/
theorem C337_seeds_partial (t : IntTy) (s u : Int) (hs : t.Has s) (hu : t.Has u) (hs0 : 0 < s) (hu0 : 0 < u) (hs1 : s < 2 ^ 31 - 1) (hu1 : u < 2 ^ 31 - 1)
    (h : randomInteger t s = randomInteger t u) : s = u := by
  have hw : ∀ v : Int, 0 < v → v < 2 ^ 31 - 1 → (⟨64, false, by omega⟩ : IntTy).conv v = v := fun v h0 h1 => by
    apply IntTy.conv_of_has
    simp only [IntTy.Has, IntTy.lowest, IntTy.max, if_false, Bool.false_eq_true]
    omega
  unfold randomInteger at h
  rw [IntTy.conv_of_has hs, IntTy.conv_of_has hu, hw s hs0 hs1, hw u hu0 hu1] at h
  unfold engine at h
  rw [Nat.mod_eq_of_lt (by omega), Nat.mod_eq_of_lt (by omega), if_neg (by omega), if_neg (by omega)] at h
  omega

example := C337_seeds_partial ⟨32, true, by omega⟩ 5 5 (by decide) (by decide) (by decide) (by decide) (by decide) (by decide) rfl

/-- C337: seeds of `RandomFloat` that are positive and below the modulus of the engine make different generators. -/
theorem C337_float (s u : Nat) (hs0 : 0 < s) (hu0 : 0 < u) (hs1 : s < 2 ^ 31 - 1) (hu1 : u < 2 ^ 31 - 1) (h : randomFloat s = randomFloat u) :
    s = u := by
  unfold randomFloat engine at h
  rw [Nat.mod_eq_of_lt hs1, Nat.mod_eq_of_lt hu1, if_neg (by omega), if_neg (by omega)] at h
  exact h

example := C337_float 7 7 (by decide) (by decide) (by decide) (by decide) rfl

/-- **C337** (finding).  The seed is cut to the type of the numbers wanted: seeds with the same lowest bits make the same generator, though the engine has a state of 31 bits; `RandomFloat` does
not cut them. -/
theorem C337_cut_violated (t : IntTy) (s k : Int) : randomInteger t (s + k * 2 ^ t.bits) = randomInteger t s ∧ randomFloat (2 ^ 16 + 5) ≠ randomFloat 5 := by
  refine ⟨?_, by decide⟩
  unfold randomInteger
  have : t.conv (s + k * 2 ^ t.bits) = t.conv s := by
    unfold IntTy.conv
    have : (s + k * 2 ^ t.bits).bmod (2 ^ t.bits) = s.bmod (2 ^ t.bits) := by
      have := Int.add_mul_bmod_self_right s k (2 ^ t.bits)
      simpa using this
    simp [this]
  rw [this]

example : randomInteger ⟨16, true, by omega⟩ (5 + 1 * 2 ^ 16) = randomInteger ⟨16, true, by omega⟩ 5 := (C337_cut_violated ⟨16, true, by omega⟩ 5 1).1

end Verif.Random.Seeds
