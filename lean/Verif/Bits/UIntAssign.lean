import Verif.Bits.UIntOps

/-
The compound assignments of `UInt8`, `UInt16`, `UInt32` and `UInt64`: include/daw/daw_uint_types.h.
-/

namespace Verif.Bits.UAssign
open Verif Verif.Cxx Verif.Bits Verif.Bits.UOps

/-- An overload of a compound assignment: the type of the left operand, a reference, that of the right one, and the width of the unsigned type it computes in; for
16 the type is `int`, which is the same modulo 2^16. (Specification, no line of the source.) -/
structure Assign where
  l : Param
  r : Param
  width : W
  deriving DecidableEq

/-- The overloads of `operator<<=`, daw_uint_types.h 62-95, 687-714, 1095-1115, 2641-2654. -/
def shlTable : List Assign :=
  [⟨.e .b64, .n .b64, .b64⟩, ⟨.e .b64, .e .b64, .b64⟩, ⟨.e .b64, .e .b32, .b64⟩, ⟨.e .b64, .e .b16, .b64⟩, ⟨.e .b64, .e .b8, .b64⟩, ⟨.e .b32, .n .b32, .b32⟩,
   ⟨.e .b32, .e .b32, .b32⟩, ⟨.e .b32, .e .b16, .b32⟩, ⟨.e .b32, .e .b8, .b32⟩, ⟨.e .b16, .n .b16, .b32⟩, ⟨.e .b16, .e .b16, .b32⟩, ⟨.e .b16, .e .b8, .b32⟩,
   ⟨.e .b8, .n .b8, .b32⟩, ⟨.e .b8, .e .b8, .b32⟩]

/-- The overloads of `operator>>=`, daw_uint_types.h 97-130, 716-743, 1117-1137, 2656-2669. -/
def shrTable : List Assign :=
  [⟨.e .b64, .n .b64, .b64⟩, ⟨.e .b64, .e .b64, .b64⟩, ⟨.e .b64, .e .b32, .b64⟩, ⟨.e .b64, .e .b16, .b64⟩, ⟨.e .b64, .e .b8, .b64⟩, ⟨.e .b32, .n .b32, .b32⟩,
   ⟨.e .b32, .e .b32, .b32⟩, ⟨.e .b32, .e .b16, .b32⟩, ⟨.e .b32, .e .b8, .b32⟩, ⟨.e .b16, .n .b16, .b32⟩, ⟨.e .b16, .e .b16, .b32⟩, ⟨.e .b16, .e .b8, .b32⟩,
   ⟨.e .b8, .n .b8, .b32⟩, ⟨.e .b8, .e .b8, .b32⟩]

/-- The overloads of `operator|=`, daw_uint_types.h 232-265, 817-844, 1185-1205, 2711-2724. -/
def orTable : List Assign :=
  [⟨.e .b64, .n .b64, .b64⟩, ⟨.e .b64, .e .b64, .b64⟩, ⟨.e .b64, .e .b32, .b64⟩, ⟨.e .b64, .e .b16, .b64⟩, ⟨.e .b64, .e .b8, .b64⟩, ⟨.e .b32, .n .b32, .b32⟩,
   ⟨.e .b32, .e .b32, .b32⟩, ⟨.e .b32, .e .b16, .b32⟩, ⟨.e .b32, .e .b8, .b32⟩, ⟨.e .b16, .n .b16, .b32⟩, ⟨.e .b16, .e .b16, .b32⟩, ⟨.e .b16, .e .b8, .b32⟩,
   ⟨.e .b8, .n .b8, .b32⟩, ⟨.e .b8, .e .b8, .b32⟩]

/-- The overloads of `operator&=`, daw_uint_types.h 267-300, 846-873, 1207-1227, 2726-2739. -/
def andTable : List Assign :=
  [⟨.e .b64, .n .b64, .b64⟩, ⟨.e .b64, .e .b64, .b64⟩, ⟨.e .b64, .e .b32, .b64⟩, ⟨.e .b64, .e .b16, .b64⟩, ⟨.e .b64, .e .b8, .b64⟩, ⟨.e .b32, .n .b32, .b32⟩,
   ⟨.e .b32, .e .b32, .b32⟩, ⟨.e .b32, .e .b16, .b32⟩, ⟨.e .b32, .e .b8, .b32⟩, ⟨.e .b16, .n .b16, .b32⟩, ⟨.e .b16, .e .b16, .b32⟩, ⟨.e .b16, .e .b8, .b32⟩,
   ⟨.e .b8, .n .b8, .b32⟩, ⟨.e .b8, .e .b8, .b32⟩]

/-- The overloads of `operator^=`, daw_uint_types.h 302-335, 875-902, 1229-1249, 2741-2754. -/
def xorTable : List Assign :=
  [⟨.e .b64, .n .b64, .b64⟩, ⟨.e .b64, .e .b64, .b64⟩, ⟨.e .b64, .e .b32, .b64⟩, ⟨.e .b64, .e .b16, .b64⟩, ⟨.e .b64, .e .b8, .b64⟩, ⟨.e .b32, .n .b32, .b32⟩,
   ⟨.e .b32, .e .b32, .b32⟩, ⟨.e .b32, .e .b16, .b32⟩, ⟨.e .b32, .e .b8, .b32⟩, ⟨.e .b16, .n .b16, .b32⟩, ⟨.e .b16, .e .b16, .b32⟩, ⟨.e .b16, .e .b8, .b32⟩,
   ⟨.e .b8, .n .b8, .b32⟩, ⟨.e .b8, .e .b8, .b32⟩]

/-- The overloads of `operator+=`, daw_uint_types.h 1389-1422, 1777-1816, 2161-2190, 2468-2483. -/
def addTable : List Assign :=
  [⟨.e .b64, .e .b64, .b64⟩, ⟨.e .b64, .e .b32, .b64⟩, ⟨.e .b64, .e .b16, .b64⟩, ⟨.e .b64, .e .b8, .b64⟩, ⟨.e .b64, .n .b64, .b64⟩, ⟨.n .b64, .e .b64, .b64⟩,
   ⟨.e .b32, .e .b32, .b32⟩, ⟨.e .b32, .e .b16, .b32⟩, ⟨.e .b32, .e .b8, .b32⟩, ⟨.e .b32, .n .b32, .b32⟩, ⟨.n .b32, .e .b32, .b32⟩, ⟨.n .b32, .e .b16, .b32⟩,
   ⟨.n .b32, .e .b8, .b32⟩, ⟨.e .b16, .e .b16, .b32⟩, ⟨.e .b16, .e .b8, .b32⟩, ⟨.e .b16, .n .b16, .b32⟩, ⟨.n .b16, .e .b16, .b32⟩, ⟨.n .b16, .e .b8, .b32⟩,
   ⟨.e .b8, .e .b8, .b32⟩, ⟨.e .b8, .n .b8, .b32⟩, ⟨.n .b8, .e .b8, .b32⟩]

/-- The overloads of `operator-=`, daw_uint_types.h 1463-1493, 1874-1913, 2223-2252, 2502-2517. -/
def subTable : List Assign :=
  [⟨.e .b64, .e .b64, .b64⟩, ⟨.e .b64, .e .b32, .b64⟩, ⟨.e .b64, .e .b16, .b64⟩, ⟨.e .b64, .e .b8, .b64⟩, ⟨.e .b64, .n .b64, .b64⟩, ⟨.n .b64, .e .b64, .b64⟩,
   ⟨.e .b32, .e .b32, .b32⟩, ⟨.e .b32, .e .b16, .b32⟩, ⟨.e .b32, .e .b8, .b32⟩, ⟨.e .b32, .n .b32, .b32⟩, ⟨.n .b32, .e .b32, .b32⟩, ⟨.n .b32, .e .b16, .b32⟩,
   ⟨.n .b32, .e .b8, .b32⟩, ⟨.e .b16, .e .b16, .b32⟩, ⟨.e .b16, .e .b8, .b16⟩, ⟨.e .b16, .n .b16, .b16⟩, ⟨.n .b16, .e .b16, .b32⟩, ⟨.n .b16, .e .b8, .b32⟩,
   ⟨.e .b8, .e .b8, .b32⟩, ⟨.e .b8, .n .b8, .b32⟩, ⟨.n .b8, .e .b8, .b32⟩]

/-- The overloads of `operator*=`, daw_uint_types.h 1538-1571, 1963-2002, 2283-2312, 2536-2551. -/
def mulTable : List Assign :=
  [⟨.e .b64, .e .b64, .b64⟩, ⟨.e .b64, .e .b32, .b64⟩, ⟨.e .b64, .e .b16, .b64⟩, ⟨.e .b64, .e .b8, .b64⟩, ⟨.e .b64, .n .b64, .b64⟩, ⟨.n .b64, .e .b64, .b64⟩,
   ⟨.e .b32, .e .b32, .b32⟩, ⟨.e .b32, .e .b16, .b32⟩, ⟨.e .b32, .e .b8, .b32⟩, ⟨.e .b32, .n .b32, .b32⟩, ⟨.n .b32, .e .b32, .b32⟩, ⟨.n .b32, .e .b16, .b32⟩,
   ⟨.n .b32, .e .b8, .b32⟩, ⟨.e .b16, .e .b16, .b32⟩, ⟨.e .b16, .e .b8, .b32⟩, ⟨.e .b16, .n .b16, .b32⟩, ⟨.n .b16, .e .b16, .b32⟩, ⟨.n .b16, .e .b8, .b32⟩,
   ⟨.e .b8, .e .b8, .b32⟩, ⟨.e .b8, .n .b8, .b32⟩, ⟨.n .b8, .e .b8, .b32⟩]

/-- The overloads of `operator/=`, daw_uint_types.h 1622-1673, 2048-2075, 2343-2372, 2569-2584. -/
def divTable : List Assign :=
  [⟨.e .b64, .e .b64, .b64⟩, ⟨.e .b64, .e .b32, .b64⟩, ⟨.e .b64, .e .b16, .b64⟩, ⟨.e .b64, .e .b8, .b64⟩, ⟨.e .b64, .n .b64, .b64⟩, ⟨.n .b64, .e .b64, .b64⟩,
   ⟨.n .b64, .e .b32, .b64⟩, ⟨.n .b64, .e .b16, .b64⟩, ⟨.n .b64, .e .b8, .b64⟩, ⟨.e .b32, .e .b32, .b64⟩, ⟨.e .b32, .e .b16, .b64⟩, ⟨.e .b32, .e .b8, .b64⟩,
   ⟨.e .b32, .n .b32, .b32⟩, ⟨.n .b32, .e .b32, .b32⟩, ⟨.e .b16, .e .b16, .b32⟩, ⟨.e .b16, .e .b8, .b32⟩, ⟨.e .b16, .n .b16, .b16⟩, ⟨.n .b16, .e .b16, .b32⟩,
   ⟨.n .b16, .e .b8, .b32⟩, ⟨.e .b8, .e .b8, .b64⟩, ⟨.e .b8, .n .b64, .b64⟩, ⟨.n .b8, .e .b64, .b64⟩]

/-- The candidates of `l op= r`. (Specification, no line of the source.) -/
def table : Op → List Assign
  | .add => addTable
  | .sub => subTable
  | .mul => mulTable
  | .div => divTable
  | .or => orTable
  | .and => andTable
  | .xor => xorTable
  | .shl => shlTable
  | .shr => shrTable
  | _ => []

/-- The overload that `l op= r` means: a reference takes operands of its own type only, and of the others the one with the best conversion is taken; none if the
call does not compile. (Rule of C++ or its library, no line of the source.) -/
def resolveAssign (op : Op) (l : Param) (r : Arg) : Option Assign :=
  (table op).find? fun o => decide (o.l = l) && (rank r o.r).isSome &&
    (table op).all fun p => decide (p = o) || !decide (p.l = l) || (match rank r o.r, rank r p.r with
      | some a, some b => decide (a < b)
      | some _, none => true
      | none, _ => false)

/-- What a compound assignment leaves in its left operand, daw_uint_types.h 62-130, 232-335 (`UInt64`) and those of the other types and operators at the lines of
the tables: the right operand is converted to its parameter, both to the type of the computation, and the result to that of the left operand. -/
def assign (op : Op) (o : Assign) (x y : Int) : Cxx Nat :=
  let a := toParam o.l x % 2 ^ o.width.bits
  let b := toParam o.r y % 2 ^ o.width.bits
  match op with
  | .div => if b = 0 then ub else pure (a / b % 2 ^ o.l.bits)
  | .shl => do
    let z ← ushl o.width.bits a b
    pure (z % 2 ^ o.l.bits)
  | .shr => do
    let z ← ushr o.width.bits a b
    pure (z % 2 ^ o.l.bits)
  | op => pure ((op.on a b % 2 ^ o.width.bits).toNat % 2 ^ o.l.bits)

/-- The operators with compound assignments. (Specification, no line of the source.) -/
def assigned : List Op := [.add, .sub, .mul, .div, .or, .and, .xor, .shl, .shr]

/-- C362: which compound assignments to an enumeration compile does not depend on the operator: those with every integer, and those with the enumerations that are not wider. -/
theorem C362_compiles (op : Op) (hop : op ∈ assigned) (w : W) (r : Arg) :
    (resolveAssign op (.e w) r).isSome = true ↔ ∀ v, r = .e v → v.bits ≤ w.bits := by
  have h : ∀ op ∈ assigned, ∀ w ∈ widths, ∀ r ∈ args, (resolveAssign op (.e w) r).isSome = (match r with | .e v => decide (v.bits ≤ w.bits) | _ => true) := by
    decide +kernel
  rw [h op hop w (mem_widths w) r (mem_args r)]
  cases r <;> simp

example : (resolveAssign .add (.e .b8) (.e .b16)).isSome = true ↔ ∀ v, Arg.e .b16 = .e v → v.bits ≤ W.b8.bits := C362_compiles .add (by decide) .b8 (.e .b16)

theorem on_mod {op : Op} (hop : op.Arithmetic) (w a b b' : Nat) (h : b % 2 ^ w = b' % 2 ^ w) : op.on a b % 2 ^ w = op.on a b' % 2 ^ w := by
  have hi : (b : Int) % 2 ^ w = (b' : Int) % 2 ^ w := by exact_mod_cast h
  simp only [Op.Arithmetic, List.mem_cons, List.not_mem_nil, or_false] at hop
  rcases hop with rfl | rfl | rfl | rfl | rfl | rfl <;> simp only [Op.on]
  · rw [Int.add_emod, hi, ← Int.add_emod]
  · rw [Int.sub_emod, hi, ← Int.sub_emod]
  · rw [Int.mul_emod, hi, ← Int.mul_emod]
  · have : (a ||| b) % 2 ^ w = (a ||| b') % 2 ^ w := by rw [Nat.or_mod_two_pow, h, ← Nat.or_mod_two_pow]
    exact_mod_cast this
  · have : (a &&& b) % 2 ^ w = (a &&& b') % 2 ^ w := by rw [Nat.and_mod_two_pow, h, ← Nat.and_mod_two_pow]
    exact_mod_cast this
  · have : (a ^^^ b) % 2 ^ w = (a ^^^ b') % 2 ^ w := by rw [Nat.xor_mod_two_pow, h, ← Nat.xor_mod_two_pow]
    exact_mod_cast this

theorem assign_fits : ∀ op ∈ assigned, ∀ w ∈ widths, ∀ r ∈ args, ∀ p ∈ (resolveAssign op (.e w) r).toList,
    p.l = .e w ∧ w.bits ≤ p.width.bits ∧ p.r.bits ≤ p.width.bits ∧ (match r with | .e v => decide (p.r = .e v) | _ => decide (w.bits ≤ p.r.bits)) = true ∧
    ((op = .shl ∨ op = .shr) → p.width.bits = max w.bits 32 ∧ 8 ≤ p.r.bits) := by
  decide +kernel

theorem int_pow_dvd {a b : Nat} (h : a ≤ b) : (2 : Int) ^ a ∣ 2 ^ b := ⟨2 ^ (b - a), by rw [← Int.pow_add, Nat.add_sub_cancel' h]⟩

theorem mod_pow_le {a b : Nat} (h : a ≤ b) (n : Nat) : n % 2 ^ b % 2 ^ a = n % 2 ^ a := Nat.mod_mod_of_dvd _ (Nat.pow_dvd_pow 2 h)

theorem toParam_lt (p : Param) (y : Int) : toParam p y < 2 ^ p.bits := by
  unfold toParam
  have h : (0 : Int) < 2 ^ p.bits := Int.pow_pos (by decide)
  have h1 := Int.emod_lt_of_pos y h
  have h2 := Int.emod_nonneg y (Int.ne_of_gt h)
  have h3 : ((2 ^ p.bits : Nat) : Int) = 2 ^ p.bits := by push_cast; rfl
  omega

theorem toParam_cast (p : Param) (y : Int) : (toParam p y : Int) = y % 2 ^ p.bits := by
  unfold toParam
  have h : (0 : Int) < 2 ^ p.bits := Int.pow_pos (by decide)
  exact Int.toNat_of_nonneg (Int.emod_nonneg y (Int.ne_of_gt h))

/-- What an arithmetic or bitwise compound assignment leaves, by the parameter of the right operand. -/
theorem assign_eq {op : Op} (hop : op.Arithmetic) {w : W} {p : Assign} (hl : p.l = .e w) (hw : w.bits ≤ p.width.bits) (hr : p.r.bits ≤ p.width.bits) (x : Nat)
    (hx : x < 2 ^ w.bits) (y : Int) : assign op p x y = pure ((op.on x (toParam p.r y) % 2 ^ w.bits).toNat) := by
  have e1 : toParam p.l (x : Int) = x := toParam_eq (b := w.bits) (by rw [hl]; exact Nat.le_refl _) hx
  have e2 : x % 2 ^ p.width.bits = x := Nat.mod_eq_of_lt (Nat.lt_of_lt_of_le hx (Nat.pow_le_pow_right (by decide) hw))
  have e3 : toParam p.r y % 2 ^ p.width.bits = toParam p.r y := Nat.mod_eq_of_lt (Nat.lt_of_lt_of_le (toParam_lt _ _) (Nat.pow_le_pow_right (by decide) hr))
  have e4 : p.l.bits = w.bits := by rw [hl]; rfl
  have key : ∀ z : Int, (z % 2 ^ p.width.bits).toNat % 2 ^ w.bits = (z % 2 ^ w.bits).toNat := by
    intro z
    have h : (0 : Int) < 2 ^ p.width.bits := Int.pow_pos (by decide)
    have h' : (0 : Int) < 2 ^ w.bits := Int.pow_pos (by decide)
    apply Int.ofNat.inj
    show (((z % 2 ^ p.width.bits).toNat % 2 ^ w.bits : Nat) : Int) = ((z % 2 ^ w.bits).toNat : Int)
    rw [Int.natCast_emod, Int.toNat_of_nonneg (Int.emod_nonneg z (Int.ne_of_gt h)), Int.toNat_of_nonneg (Int.emod_nonneg z (Int.ne_of_gt h'))]
    push_cast
    exact Int.emod_emod_of_dvd z (int_pow_dvd hw)
  have hop' := hop
  simp only [Op.Arithmetic, List.mem_cons, List.not_mem_nil, or_false] at hop'
  rcases hop' with rfl | rfl | rfl | rfl | rfl | rfl <;> simp only [assign, e1, e2, e3, e4, key]

/-- C362: `+=`, `-=`, `*=`, `|=`, `&=` and `^=` with any number leave the exact result modulo 2^w, if they compile. -/
theorem C362_value (op : Op) (hop : op.Arithmetic) (w : W) (r : Arg) (p : Assign) (hp : resolveAssign op (.e w) r = some p) (x y : Nat) (hx : x < 2 ^ w.bits)
    (hy : ∀ v, r = .e v → y < 2 ^ v.bits) : assign op p x y = pure ((op.on x y % 2 ^ w.bits).toNat) := by
  have ho : op ∈ assigned := by
    simp only [Op.Arithmetic, List.mem_cons, List.not_mem_nil, or_false] at hop
    rcases hop with rfl | rfl | rfl | rfl | rfl | rfl <;> decide
  obtain ⟨h1, h2, h3, h4, -⟩ := assign_fits op ho w (mem_widths w) r (mem_args r) p (by rw [hp]; simp)
  rw [assign_eq hop h1 h2 h3 x hx y]
  have big : w.bits ≤ p.r.bits → toParam p.r (y : Int) % 2 ^ w.bits = y % 2 ^ w.bits := by
    intro hb
    have : toParam p.r (y : Int) = y % 2 ^ p.r.bits := by
      unfold toParam
      rw [show ((y : Int) % 2 ^ p.r.bits) = ((y % 2 ^ p.r.bits : Nat) : Int) by push_cast; rfl, Int.toNat_natCast]
    rw [this, mod_pow_le hb]
  cases r with
  | e v =>
    have hv : p.r = .e v := by simpa using h4
    rw [toParam_eq (b := v.bits) (by rw [hv]; exact Nat.le_refl _) (hy v rfl)]
  | n v => rw [on_mod hop w.bits x _ y (big (by simpa using h4))]
  | other => rw [on_mod hop w.bits x _ y (big (by simpa using h4))]

example : assign .mul ⟨.e .b8, .n .b8, .b32⟩ (200 : Nat) (300 : Nat) = pure (200 * 300 % 256) := by decide +kernel

theorem both_fit : ∀ op ∈ assigned, ∀ w ∈ widths, ∀ r ∈ args, ∀ o ∈ (resolve op (.e w) r).toList, ∀ p ∈ (resolveAssign op (.e w) r).toList,
    o.l = .e w ∧ w.bits ≤ o.res.bits ∧ (decide (o.r = p.r) || decide (w.bits ≤ o.r.bits ∧ w.bits ≤ p.r.bits)) = true := by
  decide +kernel

/-- C362: with any integer, negative ones too, `a op= b` leaves what `a op b` gives, cut to the type of `a`, if both compile. -/
theorem C362_same (op : Op) (hop : op.Arithmetic) (w : W) (r : Arg) (o : Overload) (ho : resolve op (.e w) r = some o) (p : Assign)
    (hp : resolveAssign op (.e w) r = some p) (x : Nat) (hx : x < 2 ^ w.bits) (y : Int) :
    assign op p x y = pure ((value op o x y % 2 ^ w.bits).toNat) := by
  have hm : op ∈ assigned := by
    simp only [Op.Arithmetic, List.mem_cons, List.not_mem_nil, or_false] at hop
    rcases hop with rfl | rfl | rfl | rfl | rfl | rfl <;> decide
  obtain ⟨h1, h2, h3, -, -⟩ := assign_fits op hm w (mem_widths w) r (mem_args r) p (by rw [hp]; simp)
  obtain ⟨k1, k2, k3⟩ := both_fit op hm w (mem_widths w) r (mem_args r) o (by rw [ho]; simp) p (by rw [hp]; simp)
  rw [assign_eq hop h1 h2 h3 x hx y]
  unfold value
  rw [Int.emod_emod_of_dvd _ (int_pow_dvd k2), toParam_eq (p := o.l) (b := w.bits) (by rw [k1]; exact Nat.le_refl _) hx]
  congr 2
  simp only [Bool.or_eq_true, decide_eq_true_eq] at k3
  rcases k3 with k3 | ⟨k3, k4⟩
  · rw [k3]
  · apply on_mod hop
    have e : ∀ q : Param, w.bits ≤ q.bits → ((toParam q y % 2 ^ w.bits : Nat) : Int) = y % 2 ^ w.bits := by
      intro q hq
      rw [Int.natCast_emod, toParam_cast]
      push_cast
      exact Int.emod_emod_of_dvd y (int_pow_dvd hq)
    exact Int.ofNat.inj ((e p.r k4).trans (e o.r k3).symm)

example : ([Op.add, .sub, .mul].any fun op => args.any fun r => (resolve op (.e .b8) r).any fun o => (resolveAssign op (.e .b8) r).any fun p => decide (o.r ≠ p.r)) = true := by
  decide +kernel

/-- C362, division, as far as it holds: by a number that the parameter can hold it is exact, and by 0 undefined.  Missing: other numbers, see `C362_div_violated`. -/
theorem C362_div_partial (w : W) (r : Arg) (p : Assign) (hp : resolveAssign .div (.e w) r = some p) (x y : Nat) (hx : x < 2 ^ w.bits) (hy : y < 2 ^ p.r.bits) :
    assign .div p x y = if y = 0 then ub else pure (x / y) := by
  obtain ⟨h1, h2, h3, -, -⟩ := assign_fits .div (by decide) w (mem_widths w) r (mem_args r) p (by rw [hp]; simp)
  have e1 : toParam p.l (x : Int) = x := toParam_eq (b := w.bits) (by rw [h1]; exact Nat.le_refl _) hx
  have e2 : x % 2 ^ p.width.bits = x := Nat.mod_eq_of_lt (Nat.lt_of_lt_of_le hx (Nat.pow_le_pow_right (by decide) h2))
  have e3 : toParam p.r (y : Int) = y := toParam_eq (Nat.le_refl _) hy
  have e5 : y % 2 ^ p.width.bits = y := Nat.mod_eq_of_lt (Nat.lt_of_lt_of_le hy (Nat.pow_le_pow_right (by decide) h3))
  have e4 : p.l.bits = w.bits := by rw [h1]; rfl
  simp only [assign, e1, e2, e3, e4, e5]
  rw [Nat.mod_eq_of_lt (Nat.lt_of_le_of_lt (Nat.div_le_self x y) hx)]

example : assign .div ⟨.e .b8, .n .b64, .b64⟩ (200 : Nat) (256 : Nat) = pure 0 := by decide +kernel

/-- C362, division of a `UInt8` by any integer of up to 64 bits: exact, as its parameter is a `std::uint64_t`. -/
theorem C362_div_narrow : ∃ p, resolveAssign .div (.e .b8) .other = some p ∧ ∀ x y : Nat, x < 2 ^ 8 → y < 2 ^ 64 → y ≠ 0 → assign .div p x y = pure (x / y) := by
  have h : resolveAssign .div (.e .b8) .other = some ⟨.e .b8, .n .b64, .b64⟩ := by decide +kernel
  refine ⟨_, h, fun x y hx hy h0 => ?_⟩
  rw [C362_div_partial .b8 .other _ h x y hx hy, if_neg h0]

example : (200 : Nat) < 2 ^ 8 ∧ (256 : Nat) < 2 ^ 64 ∧ (256 : Nat) ≠ 0 := by decide

/-- C362 does not hold for division by 2^w, which is 0 after the conversion, and undefined, but for `UInt8`, whose parameter is a `std::uint64_t`. -/
theorem C362_div_violated (w : W) (hw : w ≠ .b8) : ∃ p, resolveAssign .div (.e w) .other = some p ∧ ∀ x k : Nat, assign .div p x (2 ^ w.bits * k : Nat) = ub := by
  have h : ∀ w ∈ widths, w ≠ .b8 → ((resolveAssign .div (.e w) .other).any fun p => decide (p.r = .n w)) = true := by decide +kernel
  have h1 := h w (mem_widths w) hw
  cases hr : resolveAssign .div (.e w) .other with
  | none => rw [hr] at h1; simp at h1
  | some p =>
    rw [hr] at h1
    have h2 : p.r = .n w := by simpa using h1
    refine ⟨p, rfl, fun x k => ?_⟩
    have e : toParam p.r ((2 ^ w.bits * k : Nat) : Int) = 0 := by
      rw [h2]
      unfold toParam
      show (((2 ^ w.bits * k : Nat) : Int) % 2 ^ w.bits).toNat = 0
      push_cast
      rw [Int.mul_emod_right]
      rfl
    simp only [assign, e, Nat.zero_mod, if_true]

/-- C362, shifts, as far as it holds: exact modulo 2^w for all counts less than 32 (64 for `UInt64`).  Missing: greater counts, see `C362_shift_violated`. -/
theorem C362_shift_partial (w : W) (r : Arg) (x n : Nat) (hx : x < 2 ^ w.bits) (hn : n < max w.bits 32) :
    (∀ p, resolveAssign .shl (.e w) r = some p → assign .shl p x n = pure (x * 2 ^ n % 2 ^ w.bits)) ∧
    (∀ p, resolveAssign .shr (.e w) r = some p → assign .shr p x n = pure (x / 2 ^ n)) := by
  have hw8 : 8 ≤ w.bits ∧ w.bits ≤ 64 := by cases w <;> decide
  have all : ∀ op, (op = .shl ∨ op = .shr) → ∀ p, resolveAssign op (.e w) r = some p → toParam p.l (x : Int) % 2 ^ p.width.bits = x ∧ toParam p.r (n : Int) % 2 ^ p.width.bits = n ∧
      p.l.bits = w.bits ∧ p.width.bits = max w.bits 32 := by
    intro op hop p hp
    obtain ⟨h1, h2, h3, -, h5⟩ := assign_fits op (by rcases hop with rfl | rfl <;> decide) w (mem_widths w) r (mem_args r) p (by rw [hp]; simp)
    obtain ⟨h5, h6⟩ := h5 hop
    refine ⟨?_, ?_, by rw [h1]; rfl, h5⟩
    · rw [toParam_eq (b := w.bits) (by rw [h1]; exact Nat.le_refl _) hx]
      exact Nat.mod_eq_of_lt (Nat.lt_of_lt_of_le hx (Nat.pow_le_pow_right (by decide) h2))
    · have h8 : n < 2 ^ 8 := by omega
      rw [toParam_eq (b := 8) h6 h8]
      exact Nat.mod_eq_of_lt (Nat.lt_of_lt_of_le h8 (Nat.pow_le_pow_right (by decide) (by omega)))
  constructor
  · intro p hp
    obtain ⟨e1, e2, e3, e4⟩ := all .shl (Or.inl rfl) p hp
    simp only [assign, e1, e2, e3]
    unfold ushl
    rw [e4, if_pos hn, pure_bind, Nat.shiftLeft_eq, mod_pow_le (Nat.le_max_left _ _)]
  · intro p hp
    obtain ⟨e1, e2, e3, e4⟩ := all .shr (Or.inr rfl) p hp
    simp only [assign, e1, e2, e3]
    unfold ushr
    rw [e4, if_pos hn, pure_bind, Nat.shiftRight_eq_div_pow, Nat.mod_eq_of_lt (Nat.lt_of_le_of_lt (Nat.div_le_self _ _) hx)]

example : assign .shl ⟨.e .b16, .e .b8, .b32⟩ (65535 : Nat) (20 : Nat) = pure 0 := by decide +kernel

/-- C362 does not hold for shifts by 2^w: the count is 0 after the conversion, and the value stays; by 32 places `UInt8`, `UInt16` and `UInt32` are undefined. -/
theorem C362_shift_violated : (∃ p, resolveAssign .shl (.e .b8) .other = some p ∧ ∀ x < 256, assign .shl p (x : Nat) 256 = pure x) ∧
    ∀ w, w ≠ .b64 → ∃ p, resolveAssign .shl (.e w) .other = some p ∧ ∀ x : Nat, assign .shl p x 32 = ub := by
  refine ⟨⟨⟨.e .b8, .n .b8, .b32⟩, by decide +kernel, by decide +kernel⟩, fun w hw => ?_⟩
  have h : ∀ w ∈ widths, w ≠ .b64 → ((resolveAssign .shl (.e w) .other).any fun p => decide (toParam p.r 32 % 2 ^ p.width.bits = 32 ∧ p.width.bits = 32)) = true := by decide +kernel
  have h1 := h w (mem_widths w) hw
  cases hr : resolveAssign .shl (.e w) .other with
  | none => rw [hr] at h1; simp at h1
  | some p =>
    rw [hr] at h1
    simp only [Option.any_some, decide_eq_true_eq] at h1
    refine ⟨p, rfl, fun x => ?_⟩
    simp only [assign, h1.1]
    unfold ushl
    rw [h1.2, if_neg (by decide)]
    rfl

/-- C362 does not hold for an integer on the left: a `std::uint8_t` can be divided by a `UInt64` but not by a `UInt8`, a `std::uint64_t` by a `UInt32`, which cannot be added to it,
and a `UInt16` can be added to a `std::uint32_t` that it cannot divide; there is no bitwise one. -/
theorem C362_left_violated :
    (∀ c ∈ [(Op.div, W.b8, W.b64), (.div, .b64, .b32), (.add, .b32, .b16), (.add, .b8, .b8)], (resolveAssign c.1 (.n c.2.1) (.e c.2.2)).isSome = true) ∧
    (∀ c ∈ [(Op.div, W.b8, W.b8), (.add, .b64, .b32), (.div, .b32, .b16)], resolveAssign c.1 (.n c.2.1) (.e c.2.2) = none) ∧
    ∀ op ∈ [Op.or, .and, .xor, .shl, .shr], ∀ v ∈ widths, ∀ w ∈ widths, resolveAssign op (.n v) (.e w) = none := by
  decide +kernel

end Verif.Bits.UAssign
