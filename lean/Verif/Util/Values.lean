import Verif.Bits.IntCmp
import Verif.Containers.Lists

/-
Bytes, casts, ranges of iterators and tests of values in include/daw/daw_utility.h.
-/

namespace Verif.Util.Values
open Verif Verif.Cxx Verif.Bits

/-! ## numbers of bytes -/

/-- `( *ptr ) << s` as a number of `n` bytes, daw_utility.h 729, 736, 746-752 and 760-774; the bytes are below 256 and the shifts are such that nothing is lost. -/
def shifted (n byte s : Nat) : Nat := (byte <<< s) % 2 ^ (8 * n)

/-- `value_from_chars<To>( ptr, integral_constant<size_t, n> )` for `n` = 1, 2, 4 and 8, daw_utility.h 725-777, the bytes being read from `ptr` on. -/
def valueFromChars (n : Nat) (mem : List Nat) (ptr : Nat) : Cxx Nat :=
  match n with
  | 1 => rd mem ptr
  | 2 => do
    let a ← rd mem ptr
    let b ← rd mem (ptr + 1)
    pure (shifted 2 a 8 ||| b)
  | 4 => do
    let a ← rd mem ptr
    let b ← rd mem (ptr + 1)
    let c ← rd mem (ptr + 2)
    let d ← rd mem (ptr + 3)
    pure (shifted 4 a 24 ||| shifted 4 b 16 ||| shifted 4 c 8 ||| d)
  | 8 => do
    let a ← rd mem ptr
    let b ← rd mem (ptr + 1)
    let c ← rd mem (ptr + 2)
    let d ← rd mem (ptr + 3)
    let e ← rd mem (ptr + 4)
    let f ← rd mem (ptr + 5)
    let g ← rd mem (ptr + 6)
    let h ← rd mem (ptr + 7)
    pure (shifted 8 a 56 ||| shifted 8 b 48 ||| shifted 8 c 40 ||| shifted 8 d 32 ||| shifted 8 e 24 ||| shifted 8 f 16 ||| shifted 8 g 8 ||| h)
  | _ => abort

/-- The number with the digits given, the first one being the most significant, to the base 256. (Specification, no line of the source.) -/
def big : List Nat → Nat
  | [] => 0
  | b :: bs => b * 256 ^ bs.length + big bs

/-- The bytes of a number in memory on a machine that has the least significant one first. (Rule of C++ or its library, no line of the source.) -/
def little (n v : Nat) : List Nat := (List.range n).map fun i => v / 256 ^ i % 256

theorem big_lt (bs : List Nat) (h : ∀ b ∈ bs, b < 256) : big bs < 256 ^ bs.length := by
  induction bs with
  | nil => simp [big]
  | cons b bs ih =>
    have h1 := ih fun x hx => h x (by simp [hx])
    have h2 := h b (by simp)
    simp only [big, List.length_cons, Nat.pow_succ]
    have : b * 256 ^ bs.length + 256 ^ bs.length ≤ 256 * 256 ^ bs.length := by
      rw [← Nat.succ_mul]; exact Nat.mul_le_mul_right _ h2
    omega

theorem shl_or (hi lo s : Nat) (h : lo < 2 ^ s) : hi <<< s ||| lo = hi * 2 ^ s + lo := by
  rw [← Nat.shiftLeft_add_eq_or_of_lt h, Nat.shiftLeft_eq]

theorem shifted_eq (n byte s : Nat) (h : byte < 256) (hs : s + 8 ≤ 8 * n) : shifted n byte s = byte <<< s := by
  unfold shifted
  apply Nat.mod_eq_of_lt
  rw [Nat.shiftLeft_eq]
  have h1 : 2 ^ (s + 8) ≤ 2 ^ (8 * n) := Nat.pow_le_pow_right (by omega) hs
  have h2 : byte * 2 ^ s < 256 * 2 ^ s := Nat.mul_lt_mul_of_pos_right h (Nat.two_pow_pos s)
  have h3 : 2 ^ (s + 8) = 256 * 2 ^ s := by rw [Nat.pow_add, Nat.mul_comm]
  omega

/-- **C332.**  `value_from_chars` of 1, 2, 4 or 8 bytes that are there gives the number with these bytes as its digits to the base 256, the first being the most significant; nothing else is
read.
Missing: the order in memory and `to_array_of`, see `C332_order_violated` and `C332_to_array_violated`. -/
theorem C332_value_partial (n : Nat) (hn : n = 1 ∨ n = 2 ∨ n = 4 ∨ n = 8) (mem : List Nat) (ptr : Nat) (hb : ∀ b ∈ mem, b < 256) (hl : ptr + n ≤ mem.length) :
    valueFromChars n mem ptr = pure (big ((mem.drop ptr).take n)) ∧ big ((mem.drop ptr).take n) < 256 ^ n := by
  have hlen : ((mem.drop ptr).take n).length = n := by simp; omega
  have hlt : ∀ b ∈ (mem.drop ptr).take n, b < 256 := fun b h => hb b (List.mem_of_mem_drop (List.mem_of_mem_take h))
  refine ⟨?_, by have := big_lt _ hlt; rwa [hlen] at this⟩
  have hget : ∀ i, i < n → mem[ptr + i]? = ((mem.drop ptr).take n)[i]? := fun i hi => by
    rw [List.getElem?_take, if_pos hi, List.getElem?_drop]
  generalize hbs : (mem.drop ptr).take n = bs at hlen hlt hget
  rcases hn with rfl | rfl | rfl | rfl
  · match bs, hlen with
    | [a], _ =>
      simp only [valueFromChars]
      rw [rd_some (a := a) (by simpa using hget 0 (by omega))]
      simp [big]
  · match bs, hlen with
    | [a, b], _ =>
      simp only [valueFromChars]
      have ha := hlt a (by simp)
      have hb := hlt b (by simp)
      rw [rd_some (a := a) (by simpa using hget 0 (by omega)), pure_bind, rd_some (a := b) (by simpa using hget 1 (by omega)), pure_bind, shifted_eq 2 a 8 ha (by omega), shl_or _ _ _ hb]
      simp [big]
  · match bs, hlen with
    | [a, b, c, d], _ =>
      simp only [valueFromChars]
      have ha := hlt a (by simp)
      have hb := hlt b (by simp)
      have hc := hlt c (by simp)
      have hd := hlt d (by simp)
      rw [rd_some (a := a) (by simpa using hget 0 (by omega)), pure_bind, rd_some (a := b) (by simpa using hget 1 (by omega)), pure_bind, rd_some (a := c) (by simpa using hget 2 (by omega)), pure_bind,
        rd_some (a := d) (by simpa using hget 3 (by omega)), pure_bind, shifted_eq 4 a 24 ha (by omega), shifted_eq 4 b 16 hb (by omega), shifted_eq 4 c 8 hc (by omega)]
      rw [Nat.or_assoc, Nat.or_assoc, shl_or c d 8 hd, shl_or b _ 16 (by omega), shl_or a _ 24 (by omega)]
      simp [big]
  · match bs, hlen with
    | [a, b, c, d, e, f, g, h], _ =>
      simp only [valueFromChars]
      have ha := hlt a (by simp)
      have hb := hlt b (by simp)
      have hc := hlt c (by simp)
      have hd := hlt d (by simp)
      have he := hlt e (by simp)
      have hf := hlt f (by simp)
      have hg := hlt g (by simp)
      have hh := hlt h (by simp)
      rw [rd_some (a := a) (by simpa using hget 0 (by omega)), pure_bind, rd_some (a := b) (by simpa using hget 1 (by omega)), pure_bind, rd_some (a := c) (by simpa using hget 2 (by omega)), pure_bind,
        rd_some (a := d) (by simpa using hget 3 (by omega)), pure_bind, rd_some (a := e) (by simpa using hget 4 (by omega)), pure_bind, rd_some (a := f) (by simpa using hget 5 (by omega)), pure_bind,
        rd_some (a := g) (by simpa using hget 6 (by omega)), pure_bind, rd_some (a := h) (by simpa using hget 7 (by omega)), pure_bind, shifted_eq 8 a 56 ha (by omega), shifted_eq 8 b 48 hb (by omega),
        shifted_eq 8 c 40 hc (by omega), shifted_eq 8 d 32 hd (by omega), shifted_eq 8 e 24 he (by omega), shifted_eq 8 f 16 hf (by omega), shifted_eq 8 g 8 hg (by omega)]
      simp only [Nat.or_assoc]
      rw [shl_or g h 8 hh, shl_or f _ 16 (by omega), shl_or e _ 24 (by omega), shl_or d _ 32 (by omega), shl_or c _ 40 (by omega), shl_or b _ 48 (by omega), shl_or a _ 56 (by omega)]
      simp [big]

example : valueFromChars 4 [1, 2, 3, 4, 5] 1 = pure 0x02030405 := by decide +kernel

/-- `as_char_array`, daw_utility.h 779-786, of an unsigned number of `n` bytes on such a machine. -/
def asCharArray (n v : Nat) : List Nat := little n v

/-- **C332.**  `as_char_array` of a number keeps it: the bytes are below 256 and, read from the last to the first, are its digits to the base 256. -/
theorem C332_bytes (n v : Nat) (h : v < 256 ^ n) : (asCharArray n v).length = n ∧ (∀ b ∈ asCharArray n v, b < 256) ∧ big (asCharArray n v).reverse = v := by
  refine ⟨by simp [asCharArray, little], fun b hb => ?_, ?_⟩
  · obtain ⟨i, _, rfl⟩ := List.mem_map.1 hb
    exact Nat.mod_lt _ (by omega)
  · have snoc : ∀ (bs : List Nat) (m : Nat), bs.length = m → ∀ b, big (b :: bs) = b * 256 ^ m + big bs := fun bs m hm b => by simp [big, hm]
    have key : ∀ m, big (little m v).reverse = v % 256 ^ m := by
      intro m
      induction m with
      | zero => simp [little, big, Nat.mod_one]
      | succ m ih =>
        have : (little (m + 1) v).reverse = (v / 256 ^ m % 256) :: (little m v).reverse := by simp [little, List.range_succ]
        rw [this, snoc _ m (by simp [little]), ih, Nat.pow_succ, Nat.mod_mul, Nat.mul_comm, Nat.add_comm]
    rw [asCharArray, key, Nat.mod_eq_of_lt h]

example : asCharArray 4 0x01020304 = [4, 3, 2, 1] := by decide +kernel

/-- **C332** (finding).  On a machine that has the least significant byte first the two do not fit: `value_from_chars` of the bytes of a number is the number with its bytes in reverse, so it
is the number only if they are the same backwards. -/
theorem C332_order_violated (n : Nat) (hn : n = 2 ∨ n = 4 ∨ n = 8) (v : Nat) (h : v < 256 ^ n) :
    valueFromChars n (asCharArray n v) 0 = pure (big (asCharArray n v)) ∧ (n = 2 → v = 1 → big (asCharArray n v) = 256) := by
  obtain ⟨h1, h2, _⟩ := C332_bytes n v h
  refine ⟨?_, by rintro rfl rfl; decide⟩
  have := (C332_value_partial n (by omega) (asCharArray n v) 0 h2 (by omega)).1
  rw [this, List.drop_zero, List.take_of_length_le (by omega)]

example := C332_order_violated 2 (by omega) 1 (by decide)

/-- The types given to `to_array_of`. (Specification, no line of the source.) -/
inductive Kind
  | integer
  | decayed (k : Kind)
  deriving DecidableEq

/-- `std::is_integral_v`: false for the class `std::decay<To>`, whatever `To` is. (Rule of C++ or its library, no line of the source.) -/
def Kind.isIntegral : Kind → Bool
  | .integer => true
  | .decayed _ => false

/-- `to_array_of<To>` compiles, daw_utility.h 788-805: the assertion is on `std::decay<To>`, 791, the class, not on the type it names; and the template parameter of `value_from_chars`, 725-728,
cannot be deduced in the call, 801-802. -/
def toArrayOfCompiles (to' : Kind) (deduced : Option Kind) : Bool := (Kind.decayed to').isIntegral && deduced.isSome

/-- **C332** (finding).  `to_array_of` compiles for no type, whatever could be deduced. -/
theorem C332_to_array_violated (k : Kind) (d : Option Kind) : k.isIntegral = true → toArrayOfCompiles k d = false := by
  intro _; rfl

example := C332_to_array_violated .integer none rfl

/-! ## `cast` -/

/-- The argument of `cast`: its type and whether it is an lvalue, so that `U` is deduced to be a reference. (Specification, no line of the source.) -/
structure Arg where
  type : IntTy
  lvalue : Bool

/-- `std::is_arithmetic_v<U>`: false for references. (Rule of C++ or its library, no line of the source.) -/
def Arg.isArithmetic (a : Arg) : Bool := !a.lvalue

/-- `cast<T>( v )` compiles, daw_utility.h 918-928. -/
def castCompiles (t : IntTy) (allow : Bool) (a : Arg) : Bool :=
  if !allow && a.isArithmetic then t.signed == a.type.signed && decide (a.type.bits ≤ t.bits) else true

/-- `cast<T>( v )`, daw_utility.h 929, for integers. -/
def cast (t : IntTy) (v : Int) : Int := t.conv v

theorem has_wider {t u : IntTy} (hs : t.signed = u.signed) (hb : u.bits ≤ t.bits) {v : Int} (h : u.Has v) : t.Has v := by
  have hp : (2 : Int) ^ u.bits ≤ 2 ^ t.bits := by exact_mod_cast Nat.pow_le_pow_right (n := 2) (by omega) hb
  have hq : (2 : Int) ^ (u.bits - 1) ≤ 2 ^ (t.bits - 1) := by exact_mod_cast Nat.pow_le_pow_right (n := 2) (by omega) (by omega : u.bits - 1 ≤ t.bits - 1)
  unfold IntTy.Has IntTy.lowest IntTy.max at *
  rw [hs]
  cases hsu : u.signed <;> simp only [hsu, if_true, if_false, Bool.false_eq_true] at h ⊢ <;> omega

/-- **C333.**  A `cast` of a value that is not a variable compiles only to an integer type of the same sign that is not smaller, and keeps the value.  Missing: variables, for which it is false. -/
theorem C333_cast_partial (t : IntTy) (a : Arg) (hl : a.lvalue = false) (hc : castCompiles t false a = true) (v : Int) (hv : a.type.Has v) : cast t v = v := by
  simp [castCompiles, Arg.isArithmetic, hl] at hc
  exact IntTy.conv_of_has (has_wider hc.1 hc.2 hv)

/-- **C333** (finding).  "Only matching signs and upcasting supported": for a variable the type is deduced to be a reference, which is not arithmetic, so that nothing is asserted: the cast
compiles to every type and can change the value and its sign. -/
theorem C333_lvalue_violated (t u : IntTy) : castCompiles t false ⟨u, true⟩ = true ∧
    ∃ v, (⟨32, true, by omega⟩ : IntTy).Has v ∧ cast ⟨8, false, by omega⟩ v ≠ v := by
  refine ⟨rfl, -1, by decide, by decide⟩

example : cast ⟨64, true, by omega⟩ (-5) = -5 := C333_cast_partial _ ⟨⟨32, true, by omega⟩, false⟩ rfl (by decide) _ (by decide)

/-! ## `make_range` -/

/-- The range `make_range` returns, daw_utility.h 585-586: two positions in a sequence of `len` elements. -/
structure Rng where
  first : Nat
  last : Nat
  deriving DecidableEq

/-- What can be done with it. (Specification, no line of the source.) -/
inductive RngOp
  | removePrefix (count : Nat)
  | removeSuffix (count : Nat)

/-- `std::advance`. (Rule of C++ or its library, no line of the source.) -/
def advance (len p : Nat) (n : Int) : Cxx Nat := if 0 ≤ (p : Int) + n ∧ (p : Int) + n ≤ len then pure ((p : Int) + n).toNat else ub

/-- `static_cast<difference_type>( count )` of a `size_t`. (Rule of C++ or its library, no line of the source.) -/
def toDiff (count : Nat) : Int := if count < 2 ^ 63 then count else (count : Int) - 2 ^ 64

/-- `remove_prefix` and `remove_suffix`, daw_utility.h 604-618. -/
def Rng.step (len : Nat) (r : Rng) : RngOp → Cxx Rng
  | .removePrefix c => do
    let p ← advance len r.first (toDiff c)
    pure { r with first := p }
  | .removeSuffix c => do
    let p ← advance len r.last (-toDiff c)
    pure { r with last := p }

/-- A sequence of these. (Specification, no line of the source.) -/
def Rng.run (len : Nat) (r : Rng) : List RngOp → Cxx Rng
  | [] => pure r
  | op :: ops => do
    let r ← r.step len op
    r.run len ops

/-- What `begin( )` to `end( )` are, daw_utility.h 588-602, if they are in order. -/
def Rng.elems {α : Type} (xs : List α) (r : Rng) : List α := (xs.drop r.first).take (r.last - r.first)

/-- The number of elements removed at the front. (Specification, no line of the source.) -/
def front : List RngOp → Nat
  | [] => 0
  | .removePrefix c :: ops => c + front ops
  | .removeSuffix _ :: ops => front ops

/-- The number of elements removed at the back. (Specification, no line of the source.) -/
def back : List RngOp → Nat
  | [] => 0
  | .removePrefix _ :: ops => back ops
  | .removeSuffix c :: ops => c + back ops

theorem run_eq (len : Nat) (hl : len < 2 ^ 63) (ops : List RngOp) : ∀ r : Rng, r.first + front ops + back ops ≤ r.last → r.last ≤ len →
    r.run len ops = pure ⟨r.first + front ops, r.last - back ops⟩ := by
  induction ops with
  | nil => intro r _ _; rfl
  | cons op ops ih =>
    intro r h1 h2
    cases op with
    | removePrefix c =>
      simp only [front, back] at h1 ⊢
      have hc : toDiff c = c := by unfold toDiff; rw [if_pos (by omega)]
      have ha : advance len r.first (toDiff c) = pure (r.first + c) := by unfold advance; rw [hc, if_pos (by omega)]; congr 1
      simp only [Rng.run, Rng.step, ha, pure_bind]
      rw [ih ⟨r.first + c, r.last⟩ (by show r.first + c + _ + _ ≤ r.last; omega) h2]
      congr 2
      show r.first + c + front ops = _
      omega
    | removeSuffix c =>
      simp only [front, back] at h1 ⊢
      have hc : toDiff c = c := by unfold toDiff; rw [if_pos (by omega)]
      have ha : advance len r.last (-toDiff c) = pure (r.last - c) := by unfold advance; rw [hc, if_pos (by omega)]; congr 1; omega
      simp only [Rng.run, Rng.step, ha, pure_bind]
      rw [ih ⟨r.first, r.last - c⟩ (by show r.first + _ + _ ≤ r.last - c; omega) (by show r.last - c ≤ len; omega)]
      congr 2
      show r.last - c - back ops = _
      omega

/-- **C334.**  Removing elements from the front and the back of a range any number of times, not more than there are in all, leaves the elements in between, whatever the order of the calls.
Missing: removing more than there are, see the finding. -/
theorem C334_remove_partial {α : Type} (xs : List α) (hx : xs.length < 2 ^ 63) (ops : List RngOp) (h : front ops + back ops ≤ xs.length) :
    ∃ r, Rng.run xs.length ⟨0, xs.length⟩ ops = pure r ∧ r.elems xs = (xs.drop (front ops)).take (xs.length - front ops - back ops) := by
  refine ⟨_, run_eq xs.length hx ops ⟨0, xs.length⟩ (by show 0 + _ + _ ≤ xs.length; omega) (Nat.le_refl _), ?_⟩
  simp only [Rng.elems, Nat.zero_add]
  congr 1
  omega

example : ∃ r, Rng.run 5 ⟨0, 5⟩ [.removePrefix 1, .removeSuffix 2, .removePrefix 1] = pure r ∧ r.elems [1, 2, 3, 4, 5] = [3] :=
  C334_remove_partial [1, 2, 3, 4, 5] (by decide) [.removePrefix 1, .removeSuffix 2, .removePrefix 1] (by decide)

/-- **C334** (finding).  Nothing is checked: removing more elements from a range of a part of a sequence than it has makes its end come before its begin, without an error as long as the
sequence goes on, so that a loop over it leaves the range and then the sequence. -/
theorem C334_crossed_violated (len first last c : Nat) (hl : len < 2 ^ 63) (h0 : first ≤ last) (h1 : last - first < c) (h2 : first + c ≤ len) :
    ∃ r, Rng.run len ⟨first, last⟩ [.removePrefix c] = pure r ∧ r.last < r.first := by
  have hc : toDiff c = c := by unfold toDiff; rw [if_pos (by omega)]
  have ha : advance len first (toDiff c) = pure (first + c) := by unfold advance; rw [hc, if_pos (by omega)]; congr 1
  refine ⟨⟨first + c, last⟩, by simp only [Rng.run, Rng.step, ha, pure_bind], ?_⟩
  show last < first + c
  omega

example := C334_crossed_violated 10 2 4 5 (by decide) (by decide) (by decide) (by decide)

/-! ## `value_is` and `or_all` -/

/-- `one_of`, daw_utility.h 856-859: a fold with `or`, which stops at the first that is equal. -/
def oneOf {α : Type} (eq : α → α → Bool) (v : α) : List α → Bool
  | [] => false
  | a :: as => eq v a || oneOf eq v as

/-- `none_of`, daw_utility.h 861-864: a fold with `and` of the operator `!=`. -/
def noneOf {α : Type} (ne : α → α → Bool) (v : α) : List α → Bool
  | [] => true
  | a :: as => ne v a && noneOf ne v as

/-- `or_all`, daw_utility.h 393-406, on values of one unsigned type. -/
def orAll : List Nat → Nat
  | [] => 0
  | [v] => v
  | v :: vs => v ||| orAll vs

/-- **C335.**  `value_is( v ).one_of( as... )` is true exactly if `v` is equal to one of them, and `none_of` is the opposite, if `!=` is the opposite of `==`; for no arguments they are false
and true.
Missing: const variables, see `C335_const_violated`. -/
theorem C335_value_is_partial {α : Type} (eq ne : α → α → Bool) (hne : ∀ a b, ne a b = !eq a b) (v : α) (as : List α) :
    (oneOf eq v as = true ↔ ∃ a ∈ as, eq v a = true) ∧ noneOf ne v as = !oneOf eq v as := by
  induction as with
  | nil => simp [oneOf, noneOf]
  | cons a as ih => simp [oneOf, noneOf, ih.1, ih.2, hne]

example : oneOf (· == ·) 3 [1, 3, 5] = true ∧ noneOf (· != ·) 3 [1, 3, 5] = false := by decide

/-- **C335.**  `or_all` has exactly the bits that one of the values has. -/
theorem C335_or_all (vs : List Nat) (i : Nat) : (orAll vs).testBit i = true ↔ ∃ v ∈ vs, v.testBit i = true := by
  induction vs with
  | nil => simp [orAll]
  | cons v vs ih =>
    cases vs with
    | nil => simp [orAll]
    | cons w vs => simp only [orAll, Nat.testBit_or, Bool.or_eq_true, List.mem_cons, exists_eq_or_imp] at ih ⊢; rw [ih]

example : orAll [1, 4, 4, 8] = 13 := by decide

/-- The parameters of the three constructors of `value_is_utility_details<T>`, daw_utility.h 834-839. (Specification, no line of the source.) -/
inductive Param
  | constRef
  | ref
  | rvalueRef
  deriving DecidableEq

/-- `T const &`, `T &` and `T &&`, daw_utility.h 834, 836 and 838, for a `T` that is `const` or not; the second is the first for a `const` one. -/
def ctorParams (isConst : Bool) : List Param := [.constRef, if isConst then .constRef else .ref, .rvalueRef]

/-- The class can be instantiated: no two constructors have the same parameters. (Rule of C++ or its library, no line of the source.) -/
def instantiates (ps : List Param) : Bool := decide ps.Nodup

/-- **C335** (finding).  `value_is` of a variable that is `const` does not compile: the class has two constructors with the same parameter then. -/
theorem C335_const_violated (isConst : Bool) : instantiates (ctorParams isConst) = !isConst := by
  cases isConst <;> decide

example : instantiates (ctorParams true) = false := C335_const_violated true

end Verif.Util.Values
