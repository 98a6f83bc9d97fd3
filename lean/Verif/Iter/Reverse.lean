import Verif.Iter.Base

/-
`reverse_iterator`, include/daw/iterator/daw_reverse_iterator.h, and the two counting iterators,
include/daw/iterator/daw_counting_iterators.h.
-/

namespace Verif.Iter
open Cxx

/-! ### Programs over random access iterators -/

/-- The operations of a random access iterator into a block of elements, as functions of the state of the iterator.
(Specification, no line of the source.) -/
structure Impl (α : Type) where
  incr : Int → Cxx Int
  decr : Int → Cxx Int
  plus : Int → Int → Cxx Int
  minus : Int → Int → Cxx Int
  deref : Int → Cxx α
  index : Int → Int → Cxx α
  diff : Int → Int → Int
  eq : Int → Int → Bool
  ne : Int → Int → Bool
  lt : Int → Int → Bool
  le : Int → Int → Bool
  gt : Int → Int → Bool
  ge : Int → Int → Bool

/-- An iterator into the block, without an adaptor. (Rule of C++ or its library, no line of the source.) -/
def plain {α : Type} (xs : List α) : Impl α where
  incr p := goto xs.length (p + 1)
  decr p := goto xs.length (p - 1)
  plus p n := goto xs.length (p + n)
  minus p n := goto xs.length (p - n)
  deref p := readAt xs p
  index p n := do let q ← goto xs.length (p + n); readAt xs q
  diff p q := p - q
  eq p q := decide (p = q)
  ne p q := decide (p ≠ q)
  lt p q := decide (p < q)
  le p q := decide (p ≤ q)
  gt p q := decide (p > q)
  ge p q := decide (p ≥ q)

/-- `reverse_iterator`, daw_reverse_iterator.h; the state is `m_base` (line 29), an iterator into the block.
`operator++` 76-79, `operator--` 87-90, `operator+` 98-100 and `+=` 106-109, `operator-` 102-104 and `-=` 111-114,
`operator*` 48-51, `operator[]` 68-70, the difference 135-141, and the comparisons `==` 143-147, `!=` 149-153, `<` 155-159,
`<=` 161-165, `>` 167-171, `>=` 173-177. -/
def reversed {α : Type} (xs : List α) : Impl α where
  incr b := goto xs.length (b - 1)
  decr b := goto xs.length (b + 1)
  plus b n := goto xs.length (b - n)
  minus b n := goto xs.length (b + n)
  deref b := do let tmp ← goto xs.length (b - 1); readAt xs tmp
  index b n := do
    let c ← goto xs.length (b - n)
    let tmp ← goto xs.length (c - 1)
    readAt xs tmp
  diff b c := c - b
  eq b c := decide (b = c)
  ne b c := decide (b ≠ c)
  lt b c := decide (c < b)
  le b c := decide (c ≤ b)
  gt b c := decide (c > b)
  ge b c := decide (c ≥ b)

/-- One step of a program that holds any number of iterators. (Specification, no line of the source.) -/
inductive Op where
  | copy (i : Nat)
  | assign (i j : Nat)
  | incr (i : Nat)
  | decr (i : Nat)
  | plus (i : Nat) (n : Int)
  | minus (i : Nat) (n : Int)
  | deref (i : Nat)
  | index (i : Nat) (n : Int)
  | diff (i j : Nat)
  | cmp (i j : Nat)

/-- What a program gets to see. (Specification, no line of the source.) -/
inductive Obs (α : Type) where
  | elem (a : α)
  | num (n : Int)
  | bools (eq ne lt le gt ge : Bool)

/-- One step. Steps that name an iterator the program does not have are skipped. (Specification, no line of the source.) -/
def step {α : Type} (im : Impl α) (s : List Int) : Op → Cxx (List Int × List (Obs α))
  | .copy i => match s[i]? with
    | some p => pure (s ++ [p], [])
    | none => pure (s, [])
  | .assign i j => match s[j]? with
    | some p => pure (s.set i p, [])
    | none => pure (s, [])
  | .incr i => match s[i]? with
    | some p => do let q ← im.incr p; pure (s.set i q, [])
    | none => pure (s, [])
  | .decr i => match s[i]? with
    | some p => do let q ← im.decr p; pure (s.set i q, [])
    | none => pure (s, [])
  | .plus i n => match s[i]? with
    | some p => do let q ← im.plus p n; pure (s.set i q, [])
    | none => pure (s, [])
  | .minus i n => match s[i]? with
    | some p => do let q ← im.minus p n; pure (s.set i q, [])
    | none => pure (s, [])
  | .deref i => match s[i]? with
    | some p => do let a ← im.deref p; pure (s, [.elem a])
    | none => pure (s, [])
  | .index i n => match s[i]? with
    | some p => do let a ← im.index p n; pure (s, [.elem a])
    | none => pure (s, [])
  | .diff i j => match s[i]?, s[j]? with
    | some p, some q => pure (s, [.num (im.diff p q)])
    | _, _ => pure (s, [])
  | .cmp i j => match s[i]?, s[j]? with
    | some p, some q => pure (s, [.bools (im.eq p q) (im.ne p q) (im.lt p q) (im.le p q) (im.gt p q) (im.ge p q)])
    | _, _ => pure (s, [])

/-- A whole program: the observations in order. (Specification, no line of the source.) -/
def run {α : Type} (im : Impl α) (s : List Int) : List Op → Cxx (List (Obs α))
  | [] => pure []
  | o :: os => do
    let (s, l) ← step im s o
    let r ← run im s os
    pure (l ++ r)

/-! ### C127: the adaptor shows the block in reverse order -/

theorem readAt_reverse {α : Type} (xs : List α) (p : Int) (h : 0 ≤ p) (h2 : p < xs.length) :
    readAt xs p = readAt xs.reverse (xs.length - 1 - p) := by
  unfold readAt
  rw [if_pos h, if_pos (by omega)]
  have e : ((xs.length : Int) - 1 - p).toNat = xs.length - 1 - p.toNat := by omega
  rw [e]
  unfold rd
  rw [List.getElem?_reverse (by omega)]
  rw [show xs.length - 1 - (xs.length - 1 - p.toNat) = p.toNat by omega]

/-- A move of the adaptor and the same move of an iterator into the reversed block. -/
theorem goto_flip (len : Nat) (p : Int) : goto len (len - p) = (do let q ← goto len p; pure ((len : Int) - q)) := by
  unfold goto
  by_cases h : 0 ≤ p ∧ p ≤ len
  · rw [if_pos (by omega), if_pos h]; rfl
  · rw [if_neg (by omega), if_neg h]; rfl

theorem deref_flip {α : Type} (xs : List α) (p : Int) (h : 0 ≤ p) (h2 : p ≤ xs.length) :
    (reversed xs).deref (xs.length - p) = (plain xs.reverse).deref p := by
  simp only [reversed, plain]
  by_cases hp : p < xs.length
  · rw [goto_ok (by omega) (by omega), pure_bind, readAt_reverse xs _ (by omega) (by omega)]
    congr 1
    omega
  · rw [goto_lt (by omega), readAt_end (by rw [List.length_reverse]; omega)]
    rfl

theorem index_flip {α : Type} (xs : List α) (p n : Int) :
    (reversed xs).index (xs.length - p) n = (plain xs.reverse).index p n := by
  simp only [reversed, plain, List.length_reverse]
  rw [show (xs.length : Int) - p - n = xs.length - (p + n) by omega, goto_flip, bind_assoc]
  by_cases h : 0 ≤ p + n ∧ p + n ≤ xs.length
  · rw [goto_ok h.1 h.2, pure_bind, pure_bind, pure_bind]
    exact deref_flip xs (p + n) h.1 h.2
  · unfold goto
    rw [if_neg h]
    rfl

/-- All indices lie in the block. (Specification, no line of the source.) -/
def InBlock (len : Nat) (s : List Int) : Prop := ∀ p ∈ s, 0 ≤ p ∧ p ≤ len

theorem InBlock.get {len : Nat} {s : List Int} (h : InBlock len s) {i : Nat} {p : Int} (hp : s[i]? = some p) :
    0 ≤ p ∧ p ≤ len := h p (List.mem_of_getElem? hp)

theorem InBlock.set {len : Nat} {s : List Int} (h : InBlock len s) {i : Nat} {p : Int} (hp : 0 ≤ p ∧ p ≤ len) :
    InBlock len (s.set i p) := by
  intro q hq
  rcases List.mem_or_eq_of_mem_set hq with hq | rfl
  · exact h q hq
  · exact hp

theorem InBlock.snoc {len : Nat} {s : List Int} (h : InBlock len s) {p : Int} (hp : 0 ≤ p ∧ p ≤ len) :
    InBlock len (s ++ [p]) := by
  intro q hq
  rcases List.mem_append.1 hq with hq | hq
  · exact h q hq
  · rw [List.mem_singleton] at hq; rw [hq]; exact hp

/-- Moves: the same outcome on both sides. -/
theorem move_flip {α : Type} (len : Nat) (s : List Int) (i : Nat) (p : Int) :
    (do let q ← goto len (len - p); pure ((s.map fun r => (len : Int) - r).set i q, ([] : List (Obs α)))) =
    (do let (s', l) ← (do let q ← goto len p; pure (s.set i q, ([] : List (Obs α))) : Cxx (List Int × List (Obs α)))
        pure (s'.map fun r => (len : Int) - r, l)) := by
  rw [goto_flip, bind_assoc, bind_assoc]
  congr 1
  funext q
  simp only [pure_bind, List.map_set]

theorem step_flip {α : Type} (xs : List α) (s : List Int) (hs : InBlock xs.length s) (o : Op) :
    step (reversed xs) (s.map fun r => (xs.length : Int) - r) o =
      (do let (s', l) ← step (plain xs.reverse) s o; pure (s'.map fun r => (xs.length : Int) - r, l)) := by
  cases o with
  | copy i =>
    simp only [step, List.getElem?_map]
    cases s[i]? <;> simp
  | assign i j =>
    simp only [step, List.getElem?_map]
    cases s[j]? with
    | none => simp
    | some p => simp [List.map_set]
  | incr i =>
    simp only [step, List.getElem?_map]
    cases s[i]? with
    | none => simp
    | some p =>
      simp only [Option.map_some, reversed, plain, List.length_reverse]
      rw [show (xs.length : Int) - p - 1 = xs.length - (p + 1) by omega]
      exact move_flip xs.length s i (p + 1)
  | decr i =>
    simp only [step, List.getElem?_map]
    cases s[i]? with
    | none => simp
    | some p =>
      simp only [Option.map_some, reversed, plain, List.length_reverse]
      rw [show (xs.length : Int) - p + 1 = xs.length - (p - 1) by omega]
      exact move_flip xs.length s i (p - 1)
  | plus i n =>
    simp only [step, List.getElem?_map]
    cases s[i]? with
    | none => simp
    | some p =>
      simp only [Option.map_some, reversed, plain, List.length_reverse]
      rw [show (xs.length : Int) - p - n = xs.length - (p + n) by omega]
      exact move_flip xs.length s i (p + n)
  | minus i n =>
    simp only [step, List.getElem?_map]
    cases s[i]? with
    | none => simp
    | some p =>
      simp only [Option.map_some, reversed, plain, List.length_reverse]
      rw [show (xs.length : Int) - p + n = xs.length - (p - n) by omega]
      exact move_flip xs.length s i (p - n)
  | deref i =>
    simp only [step, List.getElem?_map]
    cases hp : s[i]? with
    | none => simp
    | some p =>
      simp only [Option.map_some]
      rw [deref_flip xs p (hs.get hp).1 (hs.get hp).2, bind_assoc]
      simp
  | index i n =>
    simp only [step, List.getElem?_map]
    cases hp : s[i]? with
    | none => simp
    | some p =>
      simp only [Option.map_some]
      rw [index_flip xs p n, bind_assoc]
      simp
  | diff i j =>
    simp only [step, List.getElem?_map]
    cases s[i]? with
    | none => simp
    | some p =>
      cases s[j]? with
      | none => simp
      | some q =>
        simp only [Option.map_some, pure_bind, reversed, plain]
        rw [show (xs.length : Int) - q - (xs.length - p) = p - q by omega]
  | cmp i j =>
    simp only [step, List.getElem?_map]
    cases s[i]? with
    | none => simp
    | some p =>
      cases s[j]? with
      | none => simp
      | some q =>
        simp only [Option.map_some, pure_bind, reversed, plain]
        have e1 : (xs.length : Int) - p = xs.length - q ↔ p = q := by omega
        have e2 : (xs.length : Int) - q < xs.length - p ↔ p < q := by omega
        have e3 : (xs.length : Int) - q ≤ xs.length - p ↔ p ≤ q := by omega
        have e4 : (xs.length : Int) - q > xs.length - p ↔ p > q := by omega
        have e5 : (xs.length : Int) - q ≥ xs.length - p ↔ p ≥ q := by omega
        simp only [e1, e2, e3, e4, e5, Ne]

theorem step_inBlock {α : Type} (xs : List α) (s : List Int) (hs : InBlock xs.length s) (o : Op) (s' : List Int)
    (l : List (Obs α)) (h : step (plain xs) s o = pure (s', l)) : InBlock xs.length s' := by
  have mv : ∀ (i : Nat) (q : Int), (do let q ← goto xs.length q; pure (s.set i q, ([] : List (Obs α))) : Cxx _) = pure (s', l) →
      InBlock xs.length s' := by
    intro i q hq
    obtain ⟨r, hr, hp⟩ := bind_eq_pure.1 hq
    obtain ⟨e, h1, h2⟩ := goto_eq hr
    rw [pure_inj] at hp
    injection hp with hp _
    rw [← hp, e]
    exact hs.set ⟨h1, h2⟩
  have same : (pure (s, []) : Cxx (List Int × List (Obs α))) = pure (s', l) → InBlock xs.length s' := by
    intro hq; rw [pure_inj] at hq; injection hq with hq _; rw [← hq]; exact hs
  cases o with
  | copy i =>
    simp only [step] at h
    split at h
    · rename_i p hp
      rw [pure_inj] at h; injection h with h _
      rw [← h]; exact hs.snoc (hs.get hp)
    · exact same h
  | assign i j =>
    simp only [step] at h
    split at h
    · rename_i p hp
      rw [pure_inj] at h; injection h with h _
      rw [← h]; exact hs.set (hs.get hp)
    · exact same h
  | incr i =>
    simp only [step] at h
    split at h
    · exact mv _ _ h
    · exact same h
  | decr i =>
    simp only [step] at h
    split at h
    · exact mv _ _ h
    · exact same h
  | plus i n =>
    simp only [step] at h
    split at h
    · exact mv _ _ h
    · exact same h
  | minus i n =>
    simp only [step] at h
    split at h
    · exact mv _ _ h
    · exact same h
  | deref i =>
    simp only [step] at h
    split at h
    · obtain ⟨a, -, h⟩ := bind_eq_pure.1 h
      rw [pure_inj] at h; injection h with h _; rw [← h]; exact hs
    · exact same h
  | index i n =>
    simp only [step] at h
    split at h
    · obtain ⟨a, -, h⟩ := bind_eq_pure.1 h
      rw [pure_inj] at h; injection h with h _; rw [← h]; exact hs
    · exact same h
  | diff i j =>
    simp only [step] at h
    split at h
    · rw [pure_inj] at h; injection h with h _; rw [← h]; exact hs
    · exact same h
  | cmp i j =>
    simp only [step] at h
    split at h
    · rw [pure_inj] at h; injection h with h _; rw [← h]; exact hs
    · exact same h

theorem bind_congr_pure {α β : Type} (x : Cxx α) (f g : α → Cxx β) (h : ∀ a, x = pure a → f a = g a) : (x >>= f) = (x >>= g) := by
  cases hx : (x : Option (Except Err α)) with
  | none => subst hx; rfl
  | some e =>
    cases e with
    | error e => subst hx; rfl
    | ok a => subst hx; exact h a rfl

/-- C127: every program that copies, assigns, moves, reads, subtracts and compares reverse iterators into a block sees exactly
what it would see with plain iterators into the reversed block, undefined behaviour included: the adaptor with base `b` is the
iterator at `len - b`. -/
theorem C127_refines {α : Type} (xs : List α) (os : List Op) (s : List Int) (hs : InBlock xs.length s) :
    run (reversed xs) (s.map fun r => (xs.length : Int) - r) os = run (plain xs.reverse) s os := by
  induction os generalizing s with
  | nil => rfl
  | cons o os ih =>
    simp only [run]
    rw [step_flip xs s hs o, bind_assoc]
    apply bind_congr_pure
    intro ⟨s', l⟩ h
    rw [pure_bind]
    dsimp only
    rw [ih s' (by
      have := step_inBlock xs.reverse s (by rwa [List.length_reverse]) o s' l h
      rwa [List.length_reverse] at this)]

example : InBlock 3 [0, 3] ∧ run (reversed [1, 2, 3]) ([0, 3].map fun r => (3 : Int) - r)
    [.deref 0, .incr 0, .deref 0, .index 0 1, .diff 1 0, .cmp 0 1] =
      pure [.elem 3, .elem 2, .elem 1, .num 2, .bools false true true true false false] := by
  refine ⟨by intro p hp; simp at hp; omega, rfl⟩

/-- C127: the loop from `rbegin` to `rend` sees the elements in reverse order. -/
theorem C127_walk {α : Type} (xs : List α) :
    run (reversed xs) [(xs.length : Int)] ((List.range xs.length).flatMap fun _ => [.deref 0, .incr 0]) =
      pure (xs.reverse.map .elem) := by
  have h := C127_refines xs ((List.range xs.length).flatMap fun _ => [.deref 0, .incr 0]) [0] (by
    intro p hp; rw [List.mem_singleton] at hp; omega)
  simp only [List.map_cons, List.map_nil, Int.sub_zero] at h
  rw [h]
  have key : ∀ (ys : List α) (n p : Nat), p + n = ys.length →
      run (plain ys) [(p : Int)] ((List.replicate n ()).flatMap fun _ => [.deref 0, .incr 0]) = pure ((ys.drop p).map .elem) := by
    intro ys n
    induction n with
    | zero =>
      intro p hp
      rw [List.drop_eq_nil_of_le (by omega)]
      rfl
    | succ n ih =>
      intro p hp
      rw [List.replicate_succ, List.flatMap_cons]
      simp only [List.cons_append, List.nil_append, run, step, List.getElem?_cons_zero, plain]
      rw [readAt_some (List.getElem?_eq_getElem (show p < ys.length by omega)), pure_bind, pure_bind]
      simp only [List.getElem?_cons_zero]
      rw [goto_ok (p := (p : Int) + 1) (by omega) (by omega), pure_bind, pure_bind]
      have := ih (p + 1) (by omega)
      rw [List.set_cons_zero]
      dsimp only
      rw [show ((p : Int) + 1) = ((p + 1 : Nat) : Int) by push_cast; rfl]
      rw [show (fun _ : Unit => [Op.deref 0, Op.incr 0]) = fun _ => [.deref 0, .incr 0] from rfl] at this
      simp only [plain] at this
      rw [this, pure_bind, pure_bind, List.drop_eq_getElem_cons (show p < ys.length by omega)]
      rfl
  have := key xs.reverse xs.length 0 (by simp)
  rw [List.drop_zero] at this
  rw [← this]
  congr 1
  generalize xs.length = n
  induction n with
  | zero => rfl
  | succ n ih => rw [List.range_succ, List.flatMap_append, ih, List.replicate_succ', List.flatMap_append]; rfl

/-! ### C128: counting iterators -/

/-- `forward_counting_iterator` and `bidirectional_counting_iterator`: `m_iter` and `m_distance`, daw_counting_iterators.h
28-29 and 118-119.  `origin` is not a member; it is kept to say what the distance counts from. -/
structure Counting where
  iter : Int
  distance : Int
  origin : Int
  deriving DecidableEq, Repr

/-- The constructors, daw_counting_iterators.h 32-36 and 123-129. -/
def Counting.make (p : Int) : Counting := ⟨p, 0, p⟩

/-- `operator++`, daw_counting_iterators.h 54-58 and 147-151. -/
def Counting.incr (len : Nat) (c : Counting) : Cxx Counting := do
  let p ← goto len (c.iter + 1)
  pure { c with iter := p, distance := c.distance + 1 }

/-- `operator--`, daw_counting_iterators.h 160-164. -/
def Counting.decr (len : Nat) (c : Counting) : Cxx Counting := do
  let p ← goto len (c.iter - 1)
  pure { c with iter := p, distance := c.distance - 1 }

/-- Steps of a program over any number of counting iterators; the two postfix operators, daw_counting_iterators.h 60-65,
153-158 and 166-171, assign the old value to another iterator. -/
inductive COp where
  | make (p : Nat)
  | copy (i : Nat)
  | assign (i j : Nat)
  | incr (i : Nat)
  | decr (i : Nat)
  | postIncr (i j : Nat)
  | postDecr (i j : Nat)

/-- One step. Steps that name an iterator the program does not have are skipped; postfix operators, lines 60-65 and 166-171,
store the old value in iterator `j`. -/
def cstep (len : Nat) (s : List Counting) : COp → Cxx (List Counting)
  | .make p => do let q ← goto len p; pure (s ++ [.make q])
  | .copy i => match s[i]? with
    | some c => pure (s ++ [c])
    | none => pure s
  | .assign i j => match s[j]? with
    | some c => pure (s.set i c)
    | none => pure s
  | .incr i => match s[i]? with
    | some c => do let d ← c.incr len; pure (s.set i d)
    | none => pure s
  | .decr i => match s[i]? with
    | some c => do let d ← c.decr len; pure (s.set i d)
    | none => pure s
  | .postIncr i j => match s[i]? with
    | some c => do let d ← c.incr len; pure ((s.set i d).set j c)
    | none => pure s
  | .postDecr i j => match s[i]? with
    | some c => do let d ← c.decr len; pure ((s.set i d).set j c)
    | none => pure s

/-- A whole program. (Specification, no line of the source.) -/
def crun (len : Nat) (s : List Counting) : List COp → Cxx (List Counting)
  | [] => pure s
  | o :: os => do let s ← cstep len s o; crun len s os

/-- The distance is how far the iterator is from where its history began. (Specification, no line of the source.) -/
def Counting.Right (len : Nat) (c : Counting) : Prop :=
  c.distance = c.iter - c.origin ∧ 0 ≤ c.iter ∧ c.iter ≤ len

theorem Counting.incr_right {len : Nat} {c d : Counting} (h : c.Right len) (hd : c.incr len = pure d) :
    d.Right len ∧ d.origin = c.origin := by
  unfold Counting.incr at hd
  obtain ⟨q, hq, hd⟩ := bind_eq_pure.1 hd
  obtain ⟨rfl, h1, h2⟩ := goto_eq hq
  rw [pure_inj] at hd
  rw [← hd]
  exact ⟨⟨by have := h.1; dsimp only; omega, h1, h2⟩, rfl⟩

theorem Counting.decr_right {len : Nat} {c d : Counting} (h : c.Right len) (hd : c.decr len = pure d) :
    d.Right len ∧ d.origin = c.origin := by
  unfold Counting.decr at hd
  obtain ⟨q, hq, hd⟩ := bind_eq_pure.1 hd
  obtain ⟨rfl, h1, h2⟩ := goto_eq hq
  rw [pure_inj] at hd
  rw [← hd]
  exact ⟨⟨by have := h.1; dsimp only; omega, h1, h2⟩, rfl⟩

theorem right_set {len : Nat} {s : List Counting} (h : ∀ c ∈ s, c.Right len) {i : Nat} {d : Counting} (hd : d.Right len) :
    ∀ c ∈ s.set i d, c.Right len := by
  intro c hc
  rcases List.mem_or_eq_of_mem_set hc with hc | rfl
  · exact h c hc
  · exact hd

theorem right_snoc {len : Nat} {s : List Counting} (h : ∀ c ∈ s, c.Right len) {d : Counting} (hd : d.Right len) :
    ∀ c ∈ s ++ [d], c.Right len := by
  intro c hc
  rcases List.mem_append.1 hc with hc | hc
  · exact h c hc
  · rw [List.mem_singleton] at hc; rw [hc]; exact hd

theorem cstep_right {len : Nat} {s t : List Counting} (h : ∀ c ∈ s, c.Right len) (o : COp) (ht : cstep len s o = pure t) :
    ∀ c ∈ t, c.Right len := by
  have get : ∀ {i : Nat} {c : Counting}, s[i]? = some c → c.Right len := fun hc => h _ (List.mem_of_getElem? hc)
  have same : (pure s : Cxx (List Counting)) = pure t → ∀ c ∈ t, c.Right len := by
    intro hq; rw [pure_inj] at hq; rw [← hq]; exact h
  cases o with
  | make p =>
    simp only [cstep] at ht
    obtain ⟨q, hq, ht⟩ := bind_eq_pure.1 ht
    obtain ⟨rfl, h1, h2⟩ := goto_eq hq
    rw [pure_inj] at ht
    rw [← ht]
    exact right_snoc h ⟨by simp only [Counting.make]; omega, h1, h2⟩
  | copy i =>
    simp only [cstep] at ht
    split at ht
    · rename_i c hc
      rw [pure_inj] at ht
      rw [← ht]
      exact right_snoc h (get hc)
    · exact same ht
  | assign i j =>
    simp only [cstep] at ht
    split at ht
    · rename_i c hc
      rw [pure_inj] at ht
      rw [← ht]
      exact right_set h (get hc)
    · exact same ht
  | incr i =>
    simp only [cstep] at ht
    split at ht
    · rename_i c hc
      obtain ⟨d, hd, ht⟩ := bind_eq_pure.1 ht
      rw [pure_inj] at ht
      rw [← ht]
      exact right_set h (Counting.incr_right (get hc) hd).1
    · exact same ht
  | decr i =>
    simp only [cstep] at ht
    split at ht
    · rename_i c hc
      obtain ⟨d, hd, ht⟩ := bind_eq_pure.1 ht
      rw [pure_inj] at ht
      rw [← ht]
      exact right_set h (Counting.decr_right (get hc) hd).1
    · exact same ht
  | postIncr i j =>
    simp only [cstep] at ht
    split at ht
    · rename_i c hc
      obtain ⟨d, hd, ht⟩ := bind_eq_pure.1 ht
      rw [pure_inj] at ht
      rw [← ht]
      exact right_set (right_set h (Counting.incr_right (get hc) hd).1) (get hc)
    · exact same ht
  | postDecr i j =>
    simp only [cstep] at ht
    split at ht
    · rename_i c hc
      obtain ⟨d, hd, ht⟩ := bind_eq_pure.1 ht
      rw [pure_inj] at ht
      rw [← ht]
      exact right_set (right_set h (Counting.decr_right (get hc) hd).1) (get hc)
    · exact same ht

/-- C128: after any program of constructions, copies, assignments and moves, the `distance( )` of every counting iterator is
how far it is from the place where the iterator it descends from was constructed, whatever other iterators did. -/
theorem C128_distance (len : Nat) (os : List COp) (t : List Counting) (h : crun len [] os = pure t) :
    ∀ c ∈ t, c.distance = c.iter - c.origin := by
  have key : ∀ (os : List COp) (s t : List Counting), (∀ c ∈ s, c.Right len) → crun len s os = pure t → ∀ c ∈ t, c.Right len := by
    intro os
    induction os with
    | nil => intro s t hs h; simp only [crun] at h; rw [pure_inj] at h; rw [← h]; exact hs
    | cons o os ih =>
      intro s t hs h
      simp only [crun] at h
      obtain ⟨u, hu, h⟩ := bind_eq_pure.1 h
      exact ih u t (cstep_right hs o hu) h
  intro c hc
  exact (key os [] t (by simp) h c hc).1

example := C128_distance 5 [.make 1, .incr 0, .incr 0, .copy 0, .decr 0, .postIncr 1 0] [⟨3, 2, 1⟩, ⟨4, 3, 1⟩] (by decide +kernel)

/-- C128: the origin really is the place of construction: it never changes, and moving forward `n` times from there gives `n`. -/
theorem C128_count (len n : Nat) (p : Nat) (h : p + n ≤ len) :
    crun len [.make p] (List.replicate n (.incr 0)) = pure [⟨p + n, n, p⟩] := by
  have key : ∀ (n q d : Nat), q + n ≤ len →
      crun len [⟨q, d, p⟩] (List.replicate n (.incr 0)) = pure [⟨q + n, d + n, p⟩] := by
    intro n
    induction n with
    | zero => intro q d hq; simp [crun]
    | succ n ih =>
      intro q d hq
      rw [List.replicate_succ]
      simp only [crun, cstep, List.getElem?_cons_zero, Counting.incr]
      rw [goto_ok (by omega) (by omega), pure_bind, pure_bind, pure_bind]
      have := ih (q + 1) (d + 1) (by omega)
      rw [List.set_cons_zero]
      push_cast at this ⊢
      rw [this]
      congr 3 <;> omega
  have := key n p 0 h
  simpa [Counting.make] using this

example : crun 5 [] [.make 1, .incr 0, .incr 0, .copy 0, .decr 0, .postIncr 1 0] = pure [⟨3, 2, 1⟩, ⟨4, 3, 1⟩] := by
  decide +kernel

end Verif.Iter
