import Verif.Base

/-
Visiting a value as one of another type, include/daw/daw_visit_as.h, with daw_bit_cast.h.
-/

namespace Verif.VisitAs
open Verif Verif.Cxx

variable {O V R : Type}

/-- A trivially copyable type: the bytes of its values, and the value that bytes stand for, if they do (daw_bit_cast.h 32-44). -/
structure Codec (T : Type) where
  enc : T → List Nat
  dec : List Nat → Option T
  back : ∀ t, dec (enc t) = some t

/-- All bytes of the type matter: there is no padding, and values are told from their bytes.  (Specification, no line of the source.) -/
def Codec.Exact {T : Type} (c : Codec T) : Prop := ∀ bs t, c.dec bs = some t → c.enc t = bs

/-- `bit_cast`, daw_bit_cast.h 31-48: the value with the same bytes; bytes that stand for no value of the type are undefined. -/
def bitCast {A B : Type} (a : Codec A) (b : Codec B) (x : A) : Cxx B :=
  match b.dec (a.enc x) with
  | some y => pure y
  | none => ub

/-- `visit_as( value, visitor )`, daw_visit_as.h 46-57: the value left and what the visitor returned, `none` if it threw.  The visitor is given `tmp` and can reach the value itself as well. -/
def visitAs (o : Codec O) (v : Codec V) (f : V → O → V × O × Option R) (value : O) : Cxx (O × Option R) := do
  let tmp ← bitCast o v value
  let (tmp, value, r) := f tmp value
  match r with
  | none => pure (value, none)
  | some r => do
    let value ← bitCast v o tmp
    pure (value, some r)

/-- `visit_as( value, visitor )` for constants, daw_visit_as.h 76-80. -/
def visitConst (o : Codec O) (v : Codec V) (f : V → Option R) (value : O) : Cxx (Option R) := do
  let tmp ← bitCast o v value
  pure (f tmp)

/-- A visitor that has to do with its argument only.  (Specification, no line of the source.) -/
def plain (g : V → V × R) : V → O → V × O × Option R := fun t x => ((g t).1, x, some (g t).2)

theorem bitCast_eq {A B : Type} {a : Codec A} {b : Codec B} {x : A} {y : B} (h : b.dec (a.enc x) = some y) : bitCast a b x = pure y := by
  unfold bitCast
  rw [h]

theorem bitCast_inv {A B : Type} {a : Codec A} {b : Codec B} {x : A} {y : B} (h : bitCast a b x = pure y) : b.dec (a.enc x) = some y := by
  unfold bitCast at h
  split at h
  next z hz => rw [hz, Cxx.pure_inj.1 h]
  next => cases h

/-- **C369.**  After a visitor that returns, the value has the bytes the visitor left in what it was given, whatever it did to the value itself, and the result is that of the visitor. -/
theorem C369_bytes (o : Codec O) (v : Codec V) (ho : o.Exact) (f : V → O → V × O × Option R) (x y : O) (r : R) (h : visitAs o v f x = pure (y, some r)) :
    ∃ t, v.dec (o.enc x) = some t ∧ (f t x).2.2 = some r ∧ o.enc y = v.enc (f t x).1 := by
  unfold visitAs at h
  obtain ⟨t, h1, h2⟩ := Cxx.bind_eq_pure.1 h
  refine ⟨t, bitCast_inv h1, ?_⟩
  rcases hf : f t x with ⟨t', x', _ | r'⟩
  · rw [hf] at h2
    have := Cxx.pure_inj.1 h2
    cases this
  · rw [hf] at h2
    obtain ⟨y', h3, h4⟩ := Cxx.bind_eq_pure.1 h2
    have e := Cxx.pure_inj.1 h4
    cases e
    exact ⟨rfl, ho _ _ (bitCast_inv h3)⟩

/-- **C369.**  If the visitor throws, what it did to its argument is lost: a value it does not reach otherwise stays as it was. -/
theorem C369_throws (o : Codec O) (v : Codec V) (f : V → O → V × O × Option R) (x : O) (t : V) (ht : v.dec (o.enc x) = some t)
    (h : (f t x).2.2 = none) : visitAs o v f x = pure ((f t x).2.1, none) := by
  unfold visitAs
  rw [bitCast_eq ht, pure_bind]
  rcases hf : f t x with ⟨t', x', r'⟩
  rw [hf] at h
  have h : r' = none := h
  subst h
  rfl

/-- **C369.**  For types without padding a visitor that changes nothing leaves the value as it was. -/
theorem C369_same_partial (o : Codec O) (v : Codec V) (hv : v.Exact) (g : V → R) (x : O) (t : V) (ht : v.dec (o.enc x) = some t) :
    visitAs o v (plain fun t => (t, g t)) x = pure (x, some (g t)) ∧ visitConst o v (fun t => some (g t)) x = pure (some (g t)) := by
  constructor
  · unfold visitAs
    rw [bitCast_eq ht, pure_bind]
    show (bitCast v o t >>= fun value => pure (value, some (g t))) = _
    rw [bitCast_eq (y := x) (by rw [hv _ _ ht]; exact o.back x), pure_bind]
  · unfold visitConst
    rw [bitCast_eq ht, pure_bind]

/-- **C369.**  Two visits as the same type, one after the other, are one visit with both visitors. -/
theorem C369_compose {R' : Type} (o : Codec O) (v : Codec V) (ho : o.Exact) (g : V → V × R) (g' : V → V × R') (x y : O) (r : R)
    (h : visitAs o v (plain g) x = pure (y, some r)) :
    visitAs o v (plain g') y = visitAs o v (plain fun t => g' (g t).1) x := by
  obtain ⟨t, ht, _, hy⟩ := C369_bytes o v ho (plain g) x y r h
  have hy : o.enc y = v.enc (g t).1 := hy
  unfold visitAs
  rw [bitCast_eq ht, pure_bind, bitCast_eq (y := (g t).1) (by rw [hy]; exact v.back _), pure_bind]
  rfl

/-! ## numbers and their bytes -/

/-- The bytes of an unsigned number, the lowest first. (Rule of C++ or its library, no line of the source.) -/
def bytesOf : Nat → Nat → List Nat
  | 0, _ => []
  | k + 1, n => n % 256 :: bytesOf k (n / 256)

/-- The number with the bytes given. (Rule of C++ or its library, no line of the source.) -/
def numOf : List Nat → Nat
  | [] => 0
  | b :: bs => b + 256 * numOf bs

theorem bytesOf_length (k : Nat) : ∀ n, (bytesOf k n).length = k := by
  induction k with
  | zero => intro n; rfl
  | succ k ih => intro n; exact congrArg (· + 1) (ih _)

theorem bytesOf_lt (k : Nat) : ∀ n, ∀ b ∈ bytesOf k n, b < 256 := by
  induction k with
  | zero => intro n b h; cases h
  | succ k ih =>
    intro n b h
    rcases List.mem_cons.1 h with rfl | h
    · exact Nat.mod_lt _ (by decide)
    · exact ih _ b h

theorem numOf_bytesOf (k : Nat) : ∀ n, n < 256 ^ k → numOf (bytesOf k n) = n := by
  induction k with
  | zero =>
    intro n h
    rw [Nat.pow_zero] at h
    show 0 = n
    omega
  | succ k ih =>
    intro n h
    show n % 256 + 256 * numOf (bytesOf k (n / 256)) = n
    rw [ih _ (by rw [Nat.pow_succ] at h; omega)]
    omega

theorem bytesOf_numOf (bs : List Nat) (h : ∀ b ∈ bs, b < 256) : bytesOf bs.length (numOf bs) = bs ∧ numOf bs < 256 ^ bs.length := by
  induction bs with
  | nil => exact ⟨rfl, by decide⟩
  | cons b bs ih =>
    obtain ⟨h1, h2⟩ := ih fun x hx => h x (List.mem_cons_of_mem _ hx)
    have hb := h b List.mem_cons_self
    constructor
    · show (b + 256 * numOf bs) % 256 :: bytesOf bs.length ((b + 256 * numOf bs) / 256) = _
      rw [show (b + 256 * numOf bs) % 256 = b by omega, show (b + 256 * numOf bs) / 256 = numOf bs by omega, h1]
    · show b + 256 * numOf bs < 256 ^ (bs.length + 1)
      rw [Nat.pow_succ]
      omega

/-- The unsigned type of `k` bytes on machines that store the lowest byte first. (Rule of C++ or its library, no line of the source.) -/
def unsignedT (k : Nat) : Codec (Fin (256 ^ k)) where
  enc n := bytesOf k n.val
  dec bs := if h : numOf bs < 256 ^ k then (if bs.length = k ∧ ∀ b ∈ bs, b < 256 then some ⟨numOf bs, h⟩ else none) else none
  back n := by
    have h := numOf_bytesOf k n.val n.isLt
    simp only [h, n.isLt, dite_true]
    rw [if_pos ⟨bytesOf_length k _, bytesOf_lt k _⟩]

/-- The array of `k` bytes. (Rule of C++ or its library, no line of the source.) -/
def arrayT (k : Nat) : Codec { bs : List Nat // bs.length = k ∧ ∀ b ∈ bs, b < 256 } where
  enc bs := bs.val
  dec bs := if h : bs.length = k ∧ ∀ b ∈ bs, b < 256 then some ⟨bs, h⟩ else none
  back bs := dif_pos bs.property

theorem unsigned_exact (k : Nat) : (unsignedT k).Exact := by
  intro bs t h
  simp only [unsignedT] at h ⊢
  split at h
  next hn =>
    split at h
    next hb =>
      cases h
      have := (bytesOf_numOf bs hb.2).1
      rw [hb.1] at this
      exact this
    next => cases h
  next => cases h

theorem array_exact (k : Nat) : (arrayT k).Exact := by
  intro bs t h
  simp only [arrayT] at h ⊢
  split at h
  next => cases h; rfl
  next => cases h

theorem unsigned_dec (k : Nat) (bs : List Nat) (h : numOf bs < 256 ^ k) (hb : bs.length = k ∧ ∀ b ∈ bs, b < 256) : (unsignedT k).dec bs = some ⟨numOf bs, h⟩ := by
  simp only [unsignedT]
  rw [dif_pos h, if_pos hb]

theorem unsigned_dec_none (k : Nat) (bs : List Nat) (hb : ¬ (bs.length = k ∧ ∀ b ∈ bs, b < 256)) : (unsignedT k).dec bs = none := by
  simp only [unsignedT]
  split <;> rfl

theorem bytesOf_get (k : Nat) : ∀ n j, j < k → (bytesOf k n)[j]? = some (n / 256 ^ j % 256) := by
  induction k with
  | zero => intro n j h; omega
  | succ k ih =>
    intro n j h
    cases j with
    | zero => simp [bytesOf]
    | succ j =>
      show (bytesOf k (n / 256))[j]? = _
      rw [ih _ _ (by omega), Nat.div_div_eq_div_mul, Nat.pow_succ, Nat.mul_comm]

/-- **C369.**  Visiting an unsigned number as the array of its bytes is always defined; setting byte `i` there sets the bits from `8 i` to `8 i + 7` of the number and no others. -/
theorem C369_set_byte (k : Nat) (n : Fin (256 ^ k)) (i x : Nat) (hi : i < k) (hx : x < 256) :
    ∃ m : Fin (256 ^ k), visitAs (unsignedT k) (arrayT k)
      (plain fun t => (⟨t.val.set i x, by rw [List.length_set]; exact t.property.1, fun b hb => by
        rcases List.mem_or_eq_of_mem_set hb with h | h
        · exact t.property.2 b h
        · rw [h]; exact hx⟩, ())) n = pure (m, some ()) ∧
      ∀ j, j < k → m.val / 256 ^ j % 256 = if j = i then x else n.val / 256 ^ j % 256 := by
  have hb : (bytesOf k n.val).length = k ∧ ∀ b ∈ bytesOf k n.val, b < 256 := ⟨bytesOf_length _ _, bytesOf_lt _ _⟩
  have hs : ((bytesOf k n.val).set i x).length = k ∧ ∀ b ∈ (bytesOf k n.val).set i x, b < 256 := ⟨by rw [List.length_set]; exact hb.1, fun b h => by
    rcases List.mem_or_eq_of_mem_set h with h | h
    · exact hb.2 b h
    · rw [h]; exact hx⟩
  obtain ⟨h1, h2⟩ := bytesOf_numOf _ hs.2
  rw [hs.1] at h1 h2
  refine ⟨⟨numOf ((bytesOf k n.val).set i x), h2⟩, ?_, fun j hj => ?_⟩
  · unfold visitAs
    rw [bitCast_eq (y := ⟨bytesOf k n.val, hb⟩) (dif_pos hb), pure_bind]
    show (bitCast (arrayT k) (unsignedT k) ⟨(bytesOf k n.val).set i x, hs⟩ >>= fun value => pure (value, some ())) = _
    rw [bitCast_eq (y := ⟨numOf ((bytesOf k n.val).set i x), h2⟩) (unsigned_dec k _ h2 hs), pure_bind]
  · have h3 := bytesOf_get k (numOf ((bytesOf k n.val).set i x)) j hj
    rw [h1, List.getElem?_set] at h3
    by_cases hji : j = i
    · subst hji
      rw [if_pos rfl, if_pos (by rw [hb.1]; exact hj)] at h3
      rw [if_pos rfl]
      exact (Option.some.inj h3).symm
    · rw [if_neg (fun h => hji h.symm), bytesOf_get k _ j hj] at h3
      rw [if_neg hji]
      exact (Option.some.inj h3).symm

example := C369_set_byte 4 ⟨0x01020304, by decide⟩ 2 0xFF (by decide) (by decide)
example := C369_same_partial (unsignedT 4) (arrayT 4) (array_exact 4) (fun t => t.val) ⟨5, by decide⟩ ⟨[5, 0, 0, 0], by decide⟩ rfl
example := C369_compose (R' := Unit) (unsignedT 1) (unsignedT 1) (unsigned_exact 1) (fun t => (t + 1, ())) (fun t => (t + 2, ())) ⟨5, by decide⟩ ⟨6, by decide⟩ () rfl
example := C369_throws (R := Unit) (unsignedT 1) (unsignedT 1) (fun t x => (t + 1, x, none)) ⟨5, by decide⟩ ⟨5, by decide⟩ rfl rfl

/-! ## types with padding -/

/-- A structure of one byte that is aligned to two: the second byte has no meaning, and stands for nothing that can be read when it is stored (256). (Rule of C++ or its library, no line of the source.) -/
def paddedT : Codec (Fin 256) where
  enc n := [n.val, 256]
  dec bs := match bs with
    | [a, _] => if h : a < 256 then some ⟨a, h⟩ else none
    | _ => none
  back n := dif_pos n.isLt

/-- **C369** (finding).  For a type with padding even a visitor that changes nothing is undefined for every number: the bytes that are padding have no value when they are put back. -/
theorem C369_padding_violated (n : Fin (256 ^ 2)) : visitAs (unsignedT 2) paddedT (plain fun t => (t, ())) n = ub := by
  unfold visitAs
  have hd : paddedT.dec ((unsignedT 2).enc n) = some ⟨n.val % 256, Nat.mod_lt _ (by decide)⟩ := dif_pos (Nat.mod_lt _ (by decide))
  rw [bitCast_eq hd, pure_bind]
  show (bitCast paddedT (unsignedT 2) ⟨n.val % 256, _⟩ >>= fun value => pure (value, some ())) = _
  have hn : (unsignedT 2).dec (paddedT.enc ⟨n.val % 256, Nat.mod_lt _ (by decide)⟩) = none :=
    unsigned_dec_none 2 _ fun h => absurd (h.2 256 (List.mem_cons_of_mem _ List.mem_cons_self)) (by decide)
  unfold bitCast
  rw [hn]
  rfl

end Verif.VisitAs
