import Verif.Containers.Lists

/-
`daw::bounded_vector_t<T, N>`, include/daw/daw_bounded_vector.h, for `N` positive.
-/

namespace Verif.Containers
open Cxx

/-- The members, daw_bounded_vector.h 44-46; the array is the list of its `N` elements. -/
structure BVec (α : Type) where
  /-- `m_index` -/
  index : Nat
  /-- `m_first` -/
  first : Nat
  /-- `m_stack` -/
  stack : List α
  deriving DecidableEq

namespace BVec
variable {α : Type}

/-- The default constructor, daw_bounded_vector.h 49; `d` is the value of the elements initialised with `{ }`. -/
def empty (d : α) (N : Nat) : BVec α := ⟨0, 0, List.replicate N d⟩

/-- Copying `n` elements from `*ptr` on to the array from `pos` on, the loops of daw_bounded_vector.h 54, 59 and 233-236. -/
def copyLoop : Nat → List α → List α → Nat → Cxx (List α)
  | 0, _, s, _ => pure s
  | _ + 1, [], _, _ => ub
  | n + 1, x :: src, s, pos => do
    let s ← wr s pos x
    copyLoop n src s (pos + 1)

/-- The constructor from a pointer and a count, daw_bounded_vector.h 51-55. -/
def ofPtr (d : α) (N : Nat) (src : List α) (count : Nat) : Cxx (BVec α) := do
  let s ← copyLoop (min count N) src (List.replicate N d) 0
  pure ⟨min count N, 0, s⟩

/-- The constructor from two iterators, daw_bounded_vector.h 57-62. -/
def ofRange (d : α) (N : Nat) (src : List α) : Cxx (BVec α) := do
  let s ← copyLoop src.length src (List.replicate N d) 0
  pure ⟨src.length, 0, s⟩

/-- `size`, daw_bounded_vector.h 72-74. -/
def size (v : BVec α) : Nat := subSize v.index v.first

/-- `empty`, daw_bounded_vector.h 64-66. -/
def isEmpty (v : BVec α) : Bool := v.index == v.first

/-- `full`, daw_bounded_vector.h 68-70. -/
def full (N : Nat) (v : BVec α) : Bool := subSize v.index v.first == N

/-- `has_room`, daw_bounded_vector.h 80-82. -/
def hasRoom (N : Nat) (v : BVec α) (count : Nat) : Bool := decide (N ≤ addSize count v.size)

/-- `available`, daw_bounded_vector.h 84-86. -/
def available (N : Nat) (v : BVec α) : Nat := subSize N v.size

/-- `clear`, daw_bounded_vector.h 88-91. -/
def clear (v : BVec α) : BVec α := ⟨0, 0, v.stack⟩

/-- `front`, daw_bounded_vector.h 93-99. -/
def front (v : BVec α) : Cxx α := rd v.stack v.first

/-- `back`, daw_bounded_vector.h 101-107. -/
def back (v : BVec α) : Cxx α := rd v.stack (subSize v.index 1)

/-- `operator[]`, daw_bounded_vector.h 109-116. -/
def get (v : BVec α) (pos : Nat) : Cxx α := rd v.stack (addSize v.first pos)

/-- `at`, daw_bounded_vector.h 118-128: the failing check ends the program, as no exception type is given (daw_exception.h
271-281). -/
def at' (v : BVec α) (pos : Nat) : Cxx α := if pos < v.size then rd v.stack (addSize pos v.first) else abort

/-- The loop of `do_move_to_front`, daw_bounded_vector.h 188-190. -/
def moveLoop (first : Nat) : Nat → Nat → List α → Cxx (List α)
  | 0, _, s => pure s
  | k + 1, n, s => do
    let x ← rd s n
    let s ← wr s (n - first) x
    moveLoop first k (n + 1) s

/-- `do_move_to_front`, daw_bounded_vector.h 187-193. -/
def moveToFront (v : BVec α) : Cxx (BVec α) := do
  let s ← moveLoop v.first (v.index - v.first) v.first v.stack
  pure ⟨subSize v.index v.first, 0, s⟩

/-- `can_move_front`, daw_bounded_vector.h 195-197. -/
def canMoveFront (N : Nat) (v : BVec α) (howMany : Nat) : Bool := decide (0 < v.first) && decide (subSize N howMany ≤ v.index)

/-- The first statement of the functions that add elements, daw_bounded_vector.h 201-203. -/
def prepare (N : Nat) (v : BVec α) (howMany : Nat) : Cxx (BVec α) := if canMoveFront N v howMany then moveToFront v else pure v

/-- `push_back( value )`, daw_bounded_vector.h 200-214, and `emplace_back` with one argument, daw_bounded_vector.h 259-266. -/
def pushBack (N : Nat) (v : BVec α) (x : α) : Cxx (BVec α) := do
  let v ← prepare N v 1
  let s ← wr v.stack v.index x
  pure ⟨addSize v.index 1, v.first, s⟩

/-- `push_back( )`, daw_bounded_vector.h 220-225. -/
def pushPlace (N : Nat) (v : BVec α) : Cxx (Nat × BVec α) := do
  let v ← prepare N v 1
  pure (v.index, ⟨addSize v.index 1, v.first, v.stack⟩)

/-- `push_back( ptr, sz )`, daw_bounded_vector.h 227-237 and 246-257. -/
def pushRange (N : Nat) (v : BVec α) (src : List α) (sz : Nat) : Cxx (BVec α) := do
  let v ← prepare N v sz
  let s ← copyLoop (addSize v.index sz - v.index) src v.stack v.index
  pure ⟨addSize v.index sz, v.first, s⟩

/-- The loop of `assign`, daw_bounded_vector.h 241-243. -/
def pushMany (N : Nat) (x : α) : Nat → BVec α → Cxx (BVec α)
  | 0, v => pure v
  | n + 1, v => do
    let v ← pushBack N v x
    pushMany N x n v

/-- `assign`, daw_bounded_vector.h 239-244. -/
def assign (N : Nat) (v : BVec α) (count : Nat) (x : α) : Cxx (BVec α) := pushMany N x count v.clear

/-- `pop_back`, daw_bounded_vector.h 268-270. -/
def popBack (v : BVec α) : Cxx (α × BVec α) := do
  let x ← rd v.stack (subSize v.index 1)
  pure (x, ⟨subSize v.index 1, v.first, v.stack⟩)

/-- `pop_front( count )`, daw_bounded_vector.h 272-277. -/
def popFrontN (v : BVec α) (count : Nat) : Cxx (BVec α) :=
  if v.index ≤ subSize v.index count then pure ⟨addSize v.index count, v.first, v.stack⟩ else thrown

/-- `pop_front( )`, daw_bounded_vector.h 280-284. -/
def popFront (v : BVec α) : Cxx (α × BVec α) := do
  let x ← v.front
  let v ← popFrontN v 1
  pure (x, v)

/-- The loop of `resize`, daw_bounded_vector.h 295-297, and that of `zero`, daw_bounded_vector.h 338-342. -/
def fillLoop (x : α) : Nat → Nat → List α → Cxx (List α)
  | 0, _, s => pure s
  | k + 1, n, s => do
    let s ← wr s n x
    fillLoop x k (n + 1) s

/-- `resize`, daw_bounded_vector.h 286-300. -/
def resize (d : α) (N : Nat) (v : BVec α) (count : Nat) : Cxx (BVec α) :=
  if N < count then thrown
  else if v.size < count then do
    let v ← prepare N v count
    let s ← fillLoop d (count - v.size) v.size v.stack
    pure ⟨count, v.first, s⟩
  else pure ⟨count, v.first, v.stack⟩

/-- The loops of `erase`, daw_bounded_vector.h 305-309 and 320-324, for the number of elements up to the end. -/
def eraseLoop : Nat → Nat → Nat → List α → Cxx (List α)
  | 0, _, _, s => pure s
  | k + 1, i, j, s => do
    let s ← swapAt s i j
    eraseLoop k (i + 1) (j + 1) s

/-- `erase( pos )`, daw_bounded_vector.h 302-315, with the position returned.  Positions are counted from `begin( )`. -/
def erase (d : α) (N : Nat) (v : BVec α) (pos : Nat) : Cxx (Nat × BVec α) :=
  if v.index < v.first + pos + 1 then ub
  else do
    let s ← eraseLoop (v.index - (v.first + pos + 1)) (v.first + pos) (v.first + pos + 1) v.stack
    let v ← resize d N ⟨v.index, v.first, s⟩ (subSize v.size 1)
    if v.first + pos = v.index then pure (pos, v) else pure (pos + 1, v)

/-- `erase( first, last )`, daw_bounded_vector.h 317-336, for `a` not beyond `b`, with the position returned.  The check of
lines 327-329 ends the program unless `NODEBUGTHROW` is defined (daw_exception.h 293-302), which is not assumed here. -/
def eraseRange (d : α) (N : Nat) (v : BVec α) (a b : Nat) : Cxx (Nat × BVec α) :=
  if v.index < v.first + b then ub
  else do
    let s ← eraseLoop (v.index - (v.first + b)) (v.first + a) (v.first + b) v.stack
    if b - a < v.size then do
      let v ← resize d N ⟨v.index, v.first, s⟩ (subSize v.size (b - a))
      if v.first + b = v.index then pure (b, v) else pure (b + 1, v)
    else abort

/-- The loop of `swap`, daw_bounded_vector.h 347-349. -/
def swapLoop (f g : Nat) : Nat → Nat → List α → List α → Cxx (List α × List α)
  | 0, _, s, t => pure (s, t)
  | k + 1, n, s, t => do
    let x ← rd s (f + n)
    let y ← rd t (g + n)
    let s ← wr s (f + n) y
    let t ← wr t (g + n) x
    swapLoop f g k (n + 1) s t

/-- `swap`, daw_bounded_vector.h 344-350. -/
def swap (v w : BVec α) : Cxx (BVec α × BVec α) := do
  let (s, t) ← swapLoop w.first v.first (subSize w.index w.first) 0 v.stack w.stack
  pure (⟨w.index, w.first, s⟩, ⟨v.index, v.first, t⟩)

/-! ### The sequence held -/

/-- The elements from `begin( )` to `end( )`. (daw_bounded_vector.h 26-351.) -/
def contents (v : BVec α) : List α := (v.stack.drop v.first).take (v.index - v.first)

/-- What holds for a vector made by the constructors and the calls that are in the range of the property.
(Specification, no line of the source.) -/
structure Inv (N : Nat) (v : BVec α) : Prop where
  first : v.first = 0
  index : v.index ≤ N
  length : v.stack.length = N

theorem contents_eq {N : Nat} {v : BVec α} (h : v.Inv N) : v.contents = v.stack.take v.index := by
  unfold contents
  rw [h.first, List.drop_zero, Nat.sub_zero]

theorem contents_length {N : Nat} {v : BVec α} (h : v.Inv N) : v.contents.length = v.index := by
  rw [contents_eq h, List.length_take, h.length]
  exact Nat.min_eq_left h.index

theorem size_eq {N : Nat} {v : BVec α} (h : v.Inv N) (hN : N < 2 ^ 64) : v.size = v.index := by
  unfold size
  have := h.index
  rw [h.first, subSize_of_le (Nat.zero_le _) (by omega), Nat.sub_zero]

theorem prepare_eq {N : Nat} {v : BVec α} (h : v.Inv N) (k : Nat) : prepare N v k = pure v := by
  unfold prepare canMoveFront
  rw [h.first]
  rfl

theorem copyLoop_eq (n : Nat) : ∀ (src s : List α) (pos : Nat), n ≤ src.length → pos + n ≤ s.length →
    copyLoop n src s pos = pure (s.take pos ++ src.take n ++ s.drop (pos + n)) := by
  induction n with
  | zero =>
    intro src s pos _ _
    rw [copyLoop]
    simp
  | succ n ih =>
    intro src s pos h1 h2
    cases src with
    | nil => simp at h1
    | cons x src =>
      obtain ⟨s', e, hl, ht, hd⟩ := wr_take x (show pos < s.length by omega)
      rw [copyLoop, e]
      simp only [pure_bind]
      rw [ih src s' (pos + 1) (by simpa using h1) (by omega), ht]
      congr 1
      have : s'.drop (pos + 1 + n) = s.drop (pos + 1 + n) := drop_of_drop hd n
      rw [this, show pos + (n + 1) = pos + 1 + n by omega]
      simp

theorem copyLoop_full (n : Nat) : ∀ (src s : List α) (pos : Nat), s.length < pos + n → pos ≤ s.length →
    copyLoop n src s pos = ub := by
  induction n with
  | zero => intro src s pos h1 h2; omega
  | succ n ih =>
    intro src s pos h1 h2
    cases src with
    | nil => rfl
    | cons x src =>
      rw [copyLoop]
      by_cases hp : pos < s.length
      · rw [wr_eq hp]
        simp only [pure_bind]
        exact ih src _ (pos + 1) (by simp; omega) (by simp; omega)
      · rw [wr_oob (by omega)]
        rfl

theorem fillLoop_eq (x : α) (k : Nat) : ∀ (n : Nat) (s : List α), n + k ≤ s.length →
    fillLoop x k n s = pure (s.take n ++ List.replicate k x ++ s.drop (n + k)) := by
  induction k with
  | zero => intro n s _; rw [fillLoop]; simp
  | succ k ih =>
    intro n s h
    obtain ⟨s', e, hl, ht, hd⟩ := wr_take x (show n < s.length by omega)
    rw [fillLoop, e]
    simp only [pure_bind]
    rw [ih (n + 1) s' (by omega), ht]
    congr 1
    have : s'.drop (n + 1 + k) = s.drop (n + 1 + k) := drop_of_drop hd k
    rw [this, show n + (k + 1) = n + 1 + k by omega, List.replicate_succ]
    simp

theorem moveGap (b : List α) : ∀ (a g r : List α), ∃ g' : List α,
    eraseLoop b.length a.length (a.length + g.length) (a ++ g ++ b ++ r) = pure (a ++ b ++ g' ++ r) ∧ g'.length = g.length := by
  induction b with
  | nil => intro a g r; exact ⟨g, by simp [eraseLoop], rfl⟩
  | cons y b ih =>
    intro a g r
    rw [List.length_cons, eraseLoop]
    cases g with
    | nil =>
      rw [List.length_nil, Nat.add_zero, swapAt_self (by simp)]
      simp only [pure_bind]
      obtain ⟨g', e, hg⟩ := ih (a ++ [y]) [] r
      refine ⟨g', ?_, hg⟩
      simpa using e
    | cons x g =>
      have h := swapAt_mid a x g y (b ++ r)
      have e : a ++ x :: g ++ y :: b ++ r = a ++ x :: (g ++ y :: (b ++ r)) := by simp
      rw [e, List.length_cons, h]
      simp only [pure_bind]
      obtain ⟨g', e, hg⟩ := ih (a ++ [y]) (g ++ [x]) r
      refine ⟨g', ?_, by simpa using hg⟩
      have h1 : (a ++ [y]).length = a.length + 1 := by simp
      have h2 : a.length + 1 + (g ++ [x]).length = a.length + (g.length + 1) + 1 := by simp; omega
      rw [h1, h2] at e
      simpa using e

/-- The calls. (Members of `bounded_vector_t`, daw_bounded_vector.h 26-351.) -/
inductive Op (α : Type) where
  | push (x : α)
  | pushRange (xs : List α)
  | assign (count : Nat) (x : α)
  | popBack
  | resize (count : Nat)
  | erase (pos : Nat)
  | eraseRange (a b : Nat)
  | clear

/-- The model of a call, with the element returned. (Members of `bounded_vector_t`, daw_bounded_vector.h 26-351.) -/
def step (d : α) (N : Nat) (v : BVec α) : Op α → Cxx (BVec α × Option α)
  | .push x => do
    let v ← pushBack N v x
    pure (v, none)
  | .pushRange xs => do
    let v ← BVec.pushRange N v xs xs.length
    pure (v, none)
  | .assign n x => do
    let v ← BVec.assign N v n x
    pure (v, none)
  | .popBack => do
    let (x, v) ← BVec.popBack v
    pure (v, some x)
  | .resize n => do
    let v ← BVec.resize d N v n
    pure (v, none)
  | .erase i => do
    let (_, v) ← BVec.erase d N v i
    pure (v, none)
  | .eraseRange a b => do
    let (_, v) ← BVec.eraseRange d N v a b
    pure (v, none)
  | .clear => pure (v.clear, none)

/-- The call on a sequence. (Specification, no line of the source.) -/
def listStep (d : α) (l : List α) : Op α → List α × Option α
  | .push x => (l ++ [x], none)
  | .pushRange xs => (l ++ xs, none)
  | .assign n x => (List.replicate n x, none)
  | .popBack => (l.dropLast, l.getLast?)
  | .resize n => (l.take n ++ List.replicate (n - l.length) d, none)
  | .erase i => (l.take i ++ l.drop (i + 1), none)
  | .eraseRange a b => (l.take a ++ l.drop b, none)
  | .clear => ([], none)

/-- The calls that are allowed on a sequence of at most `N` elements, without erasing all elements at once.
(Specification, no line of the source.) -/
def Fits (N : Nat) (l : List α) : Op α → Prop
  | .push _ => l.length < N
  | .pushRange xs => l.length + xs.length ≤ N
  | .assign n _ => n ≤ N
  | .popBack => l ≠ []
  | .resize n => n ≤ N
  | .erase i => i < l.length
  | .eraseRange a b => a ≤ b ∧ b ≤ l.length ∧ b - a < l.length
  | .clear => True

theorem step_push {d : α} {N : Nat} (hN : N < 2 ^ 64) {v : BVec α} (h : v.Inv N) (x : α) (hv : v.index < N) :
    ∃ v', pushBack N v x = pure v' ∧ v'.Inv N ∧ v'.contents = v.contents ++ [x] := by
  have _ := d
  obtain ⟨s', e, hl, ht, hd⟩ := wr_take x (show v.index < v.stack.length by rw [h.length]; exact hv)
  have hi : Inv N (⟨v.index + 1, v.first, s'⟩ : BVec α) := ⟨h.first, hv, hl.trans h.length⟩
  refine ⟨⟨v.index + 1, v.first, s'⟩, ?_, hi, ?_⟩
  · unfold pushBack
    rw [prepare_eq h]
    simp only [pure_bind]
    rw [e]
    simp only [pure_bind]
    rw [addSize_of_lt (by omega)]
  · rw [contents_eq hi, contents_eq h]
    exact ht

theorem step_pushMany {d : α} {N : Nat} (hN : N < 2 ^ 64) (x : α) (n : Nat) : ∀ {v : BVec α}, v.Inv N → v.index + n ≤ N →
    ∃ v', pushMany N x n v = pure v' ∧ v'.Inv N ∧ v'.contents = v.contents ++ List.replicate n x := by
  induction n with
  | zero => intro v h _; exact ⟨v, rfl, h, by simp⟩
  | succ n ih =>
    intro v h hn
    obtain ⟨v', e, h', hc⟩ := step_push (d := d) hN h x (by omega)
    have hi : v'.index = v.index + 1 := by
      rw [← contents_length h', hc, List.length_append, contents_length h]
      rfl
    obtain ⟨v'', e', h'', hc'⟩ := ih h' (by omega)
    refine ⟨v'', ?_, h'', ?_⟩
    · rw [pushMany, e]
      simp only [pure_bind]
      exact e'
    · rw [hc', hc, List.append_assoc, List.replicate_succ]
      rfl

theorem clear_inv {N : Nat} {v : BVec α} (h : v.Inv N) : v.clear.Inv N := ⟨rfl, Nat.zero_le _, h.length⟩

theorem resize_ok {d : α} {N : Nat} (hN : N < 2 ^ 64) {v : BVec α} (h : v.Inv N) {n : Nat} (hn : n ≤ N) :
    ∃ v', resize d N v n = pure v' ∧ v'.Inv N ∧ v'.contents = v.contents.take n ++ List.replicate (n - v.contents.length) d := by
  have hc := contents_eq h
  have hl := contents_length h
  have hx := h.index
  have hsl := h.length
  unfold resize
  rw [if_neg (by omega), size_eq h hN]
  by_cases hs : v.index < n
  · rw [if_pos hs, prepare_eq h]
    simp only [pure_bind]
    rw [size_eq h hN, fillLoop_eq d _ _ _ (by omega)]
    simp only [pure_bind]
    have hi : Inv N (⟨n, v.first, v.stack.take v.index ++ List.replicate (n - v.index) d ++
        v.stack.drop (v.index + (n - v.index))⟩ : BVec α) := ⟨h.first, hn, by simp; omega⟩
    refine ⟨_, rfl, hi, ?_⟩
    · rw [contents_eq hi, hl, List.take_of_length_le (show v.contents.length ≤ n by omega), hc]
      show List.take n (v.stack.take v.index ++ List.replicate (n - v.index) d ++ v.stack.drop _) = _
      rw [List.take_append_of_le_length (by simp; omega), List.take_of_length_le (by simp; omega)]
  · rw [if_neg hs]
    have hi : Inv N (⟨n, v.first, v.stack⟩ : BVec α) := ⟨h.first, hn, h.length⟩
    refine ⟨_, rfl, hi, ?_⟩
    rw [contents_eq hi, hl, hc, Nat.sub_eq_zero_of_le (by omega), List.replicate_zero, List.append_nil,
      List.take_take, Nat.min_eq_left (by omega)]

/-- The loop of `erase` moves the elements from `b` on to `a`. -/
theorem eraseLoop_ok {N : Nat} {v : BVec α} (h : v.Inv N) {a b : Nat} (hab : a ≤ b) (hb : b ≤ v.index) :
    ∃ s, eraseLoop (v.index - b) a b v.stack = pure s ∧ s.length = N ∧
      s.take (v.index - (b - a)) = v.contents.take a ++ v.contents.drop b := by
  have hx := h.index
  have hsl := h.length
  have hc := contents_eq h
  have hl := contents_length h
  have e : v.stack = v.contents.take a ++ (v.contents.take b).drop a ++ v.contents.drop b ++ v.stack.drop v.index := by
    have h1 : v.contents.take a ++ (v.contents.take b).drop a = v.contents.take b := by
      conv => rhs; rw [← List.take_append_drop a (v.contents.take b)]
      rw [List.take_take, Nat.min_eq_left hab]
    rw [h1, List.take_append_drop, hc, List.take_append_drop]
  obtain ⟨g, eg, hg⟩ := moveGap (v.contents.drop b) (v.contents.take a) ((v.contents.take b).drop a) (v.stack.drop v.index)
  have l1 : (v.contents.drop b).length = v.index - b := by rw [List.length_drop, hl]
  have l2 : (v.contents.take a).length = a := by rw [List.length_take, hl]; omega
  have l3 : ((v.contents.take b).drop a).length = b - a := by simp [hl]; omega
  rw [l1, l2, l3, ← e, show a + (b - a) = b by omega] at eg
  refine ⟨_, eg, ?_, ?_⟩
  · rw [List.length_append, List.length_append, List.length_append, l1, l2, hg, l3, List.length_drop]
    omega
  · rw [List.append_assoc, List.append_assoc, ← List.append_assoc, List.take_append_of_le_length (by simp only [List.length_append, l1, l2]; omega),
      List.take_of_length_le (by simp only [List.length_append, l1, l2]; omega)]

theorem eraseRange_ok {d : α} {N : Nat} (hN : N < 2 ^ 64) {v : BVec α} (h : v.Inv N) {a b : Nat} (hab : a ≤ b) (hb : b ≤ v.index)
    (hall : b - a < v.index) :
    ∃ v', eraseRange d N v a b = pure (if b = v'.index then b else b + 1, v') ∧ v'.Inv N ∧
      v'.contents = v.contents.take a ++ v.contents.drop b ∧ v'.index = v.index - (b - a) := by
  obtain ⟨s, e, hs, ht⟩ := eraseLoop_ok h hab hb
  have hx := h.index
  have hi : Inv N (⟨v.index, v.first, s⟩ : BVec α) := ⟨h.first, h.index, hs⟩
  obtain ⟨v', e', h', hc'⟩ := resize_ok (d := d) hN hi (n := v.index - (b - a)) (by omega)
  rw [contents_length hi, show v.index - (b - a) - v.index = 0 by omega, List.replicate_zero, List.append_nil, contents_eq hi, List.take_take,
    Nat.min_eq_left (show v.index - (b - a) ≤ v.index by omega), show (⟨v.index, v.first, s⟩ : BVec α).stack = s from rfl, ht] at hc'
  have hidx : v'.index = v.index - (b - a) := by
    rw [← contents_length h', hc', List.length_append, List.length_take, List.length_drop, contents_length h]
    omega
  refine ⟨v', ?_, h', hc', hidx⟩
  unfold eraseRange
  rw [h.first, Nat.zero_add, Nat.zero_add, if_neg (by omega), e]
  simp only [pure_bind]
  rw [size_eq h hN, if_pos hall, subSize_of_le (by omega) (by omega), ← h.first, e']
  simp only [pure_bind]
  rw [h'.first, Nat.zero_add]
  split <;> rfl

theorem erase_ok {d : α} {N : Nat} (hN : N < 2 ^ 64) {v : BVec α} (h : v.Inv N) {a : Nat} (ha : a < v.index) :
    ∃ v', erase d N v a = pure (if a = v'.index then a else a + 1, v') ∧ v'.Inv N ∧
      v'.contents = v.contents.take a ++ v.contents.drop (a + 1) ∧ v'.index = v.index - 1 := by
  obtain ⟨s, e, hs, ht⟩ := eraseLoop_ok h (Nat.le_succ a) ha
  have hx := h.index
  have hi : Inv N (⟨v.index, v.first, s⟩ : BVec α) := ⟨h.first, h.index, hs⟩
  obtain ⟨v', e', h', hc'⟩ := resize_ok (d := d) hN hi (n := v.index - 1) (by omega)
  rw [contents_length hi, show v.index - 1 - v.index = 0 by omega, List.replicate_zero, List.append_nil, contents_eq hi, List.take_take,
    Nat.min_eq_left (show v.index - 1 ≤ v.index by omega)] at hc'
  have ht' : List.take (v.index - 1) s = v.contents.take a ++ v.contents.drop (a + 1) := by
    rw [← ht]
    congr 1
    omega
  rw [show (⟨v.index, v.first, s⟩ : BVec α).stack = s from rfl, ht'] at hc'
  have hidx : v'.index = v.index - 1 := by
    rw [← contents_length h', hc', List.length_append, List.length_take, List.length_drop, contents_length h]
    omega
  refine ⟨v', ?_, h', hc', hidx⟩
  unfold erase
  rw [h.first, Nat.zero_add, if_neg (by omega), e]
  simp only [pure_bind]
  rw [size_eq h hN, subSize_of_le (by omega) (by omega), ← h.first, e']
  simp only [pure_bind]
  rw [h'.first, Nat.zero_add]
  split <;> rfl

/-- One call in range. -/
theorem step_ok (d : α) {N : Nat} (hN : N < 2 ^ 64) {v : BVec α} (h : v.Inv N) (o : Op α) (ho : Fits N v.contents o) :
    ∃ v', step d N v o = pure (v', (listStep d v.contents o).2) ∧ v'.Inv N ∧ v'.contents = (listStep d v.contents o).1 := by
  have hl := contents_length h
  have hx := h.index
  have hsl := h.length
  cases o with
  | push x =>
    obtain ⟨v', e, h', hc⟩ := step_push (d := d) hN h x (by rw [← hl]; exact ho)
    exact ⟨v', by simp only [step]; rw [e]; rfl, h', hc⟩
  | pushRange xs =>
    have ho : v.contents.length + xs.length ≤ N := ho
    rw [hl] at ho
    have hi : Inv N (⟨v.index + xs.length, v.first, v.stack.take v.index ++ xs ++ v.stack.drop (v.index + xs.length)⟩ : BVec α) :=
      ⟨h.first, ho, by simp; omega⟩
    refine ⟨_, ?_, hi, ?_⟩
    · simp only [step]
      unfold BVec.pushRange
      rw [prepare_eq h]
      simp only [pure_bind]
      rw [addSize_of_lt (by omega), copyLoop_eq _ _ _ _ (by omega) (by omega), Nat.add_sub_cancel_left, List.take_length]
      rfl
    · rw [contents_eq hi]
      show List.take (v.index + xs.length) (v.stack.take v.index ++ xs ++ v.stack.drop (v.index + xs.length)) = v.contents ++ xs
      rw [List.take_append_of_le_length (by simp; omega), List.take_of_length_le (by simp; omega), contents_eq h]
  | assign n x =>
    have ho : n ≤ N := ho
    obtain ⟨v', e, h', hc⟩ := step_pushMany (d := d) hN x n (clear_inv h) (show 0 + n ≤ N by omega)
    refine ⟨v', by simp only [step]; unfold BVec.assign; rw [e]; rfl, h', ?_⟩
    rw [hc, contents_eq (clear_inv h)]
    simp [clear, listStep]
  | popBack =>
    have hne : v.index ≠ 0 := by
      intro hz
      have : v.contents.length = 0 := by omega
      exact ho (List.length_eq_zero_iff.1 this)
    have hi : Inv N (⟨v.index - 1, v.first, v.stack⟩ : BVec α) := ⟨h.first, by show v.index - 1 ≤ N; omega, h.length⟩
    have hlast : v.contents.getLast? = some (v.stack[v.index - 1]'(by omega)) := by
      rw [List.getLast?_eq_getElem?, hl, contents_eq h, List.getElem?_take_of_lt (by omega), List.getElem?_eq_getElem]
    refine ⟨_, ?_, hi, ?_⟩
    · simp only [step]
      unfold BVec.popBack
      rw [subSize_of_le (by omega) (by omega), rd_eq (by omega)]
      simp only [pure_bind, listStep, hlast]
    · rw [contents_eq hi]
      show List.take (v.index - 1) v.stack = v.contents.dropLast
      rw [List.dropLast_eq_take, hl, contents_eq h, List.take_take, Nat.min_eq_left (by omega)]
  | resize n =>
    obtain ⟨v', e, h', hc⟩ := resize_ok (d := d) hN h (show n ≤ N from ho)
    exact ⟨v', by simp only [step]; rw [e]; rfl, h', hc⟩
  | erase i =>
    obtain ⟨v', e, h', hc, _⟩ := erase_ok (d := d) hN h (a := i) (by rw [← hl]; exact ho)
    exact ⟨v', by simp only [step]; rw [e]; rfl, h', hc⟩
  | eraseRange a b =>
    obtain ⟨h1, h2, h3⟩ := ho
    rw [hl] at h2 h3
    obtain ⟨v', e, h', hc, _⟩ := eraseRange_ok (d := d) hN h h1 h2 h3
    exact ⟨v', by simp only [step]; rw [e]; rfl, h', hc⟩
  | clear =>
    refine ⟨v.clear, rfl, clear_inv h, ?_⟩
    rw [contents_eq (clear_inv h)]
    simp [clear, listStep]

/-- A history of calls with the elements returned. (Members of `bounded_vector_t`, daw_bounded_vector.h 26-351.) -/
def run (d : α) (N : Nat) (v : BVec α) : List (Op α) → Cxx (BVec α × List (Option α))
  | [] => pure (v, [])
  | o :: os => do
    let (v, r) ← step d N v o
    let (v, rs) ← run d N v os
    pure (v, r :: rs)

/-- The history on a sequence. (Specification, no line of the source.) -/
def listRun (d : α) (l : List α) : List (Op α) → List α × List (Option α)
  | [] => (l, [])
  | o :: os => ((listRun d (listStep d l o).1 os).1, (listStep d l o).2 :: (listRun d (listStep d l o).1 os).2)

/-- All calls of the history are allowed. (Specification, no line of the source.) -/
def AllFit (d : α) (N : Nat) (l : List α) : List (Op α) → Prop
  | [] => True
  | o :: os => Fits N l o ∧ AllFit d N (listStep d l o).1 os

/-- C45, histories, as far as it holds: any history of allowed calls on a fresh vector has the contents and results of the same
history on a sequence.  Missing: calls that exceed the capacity, `pop_front`, the positions returned by `erase`, `swap`, and
erasing all elements at once; see the theorems below. -/
theorem C45_history_partial (d : α) (N : Nat) (hN : N < 2 ^ 64) (os : List (Op α)) (h : AllFit d N [] os) :
    ∃ v, run d N (empty d N) os = pure (v, (listRun d [] os).2) ∧ v.contents = (listRun d [] os).1 ∧
      v.size = (listRun d [] os).1.length ∧ v.isEmpty = (listRun d [] os).1.isEmpty ∧
      v.full N = decide ((listRun d [] os).1.length = N) ∧ v.available N = N - (listRun d [] os).1.length := by
  have key : ∀ (os : List (Op α)) (v : BVec α), v.Inv N → AllFit d N v.contents os →
      ∃ v', run d N v os = pure (v', (listRun d v.contents os).2) ∧ v'.Inv N ∧ v'.contents = (listRun d v.contents os).1 := by
    intro os
    induction os with
    | nil => intro v hv _; exact ⟨v, rfl, hv, rfl⟩
    | cons o os ih =>
      intro v hv hf
      obtain ⟨v', e, h', hc⟩ := step_ok d hN hv o hf.1
      obtain ⟨v'', e', h'', hc'⟩ := ih v' h' (by rw [hc]; exact hf.2)
      refine ⟨v'', ?_, h'', ?_⟩
      · simp only [run]
        rw [e]
        simp only [pure_bind]
        rw [e']
        simp only [pure_bind, listRun, hc]
      · rw [hc', hc]
        rfl
  have h0 : (empty d N).Inv N := ⟨rfl, Nat.zero_le _, by simp [empty]⟩
  have hc0 : (empty d N).contents = [] := by
    rw [contents_eq h0]
    rfl
  obtain ⟨v, e, hv, hc⟩ := key os (empty d N) h0 (by rw [hc0]; exact h)
  rw [hc0] at e hc
  have hl := contents_length hv
  have hx := hv.index
  have hs := size_eq hv hN
  refine ⟨v, e, hc, ?_, ?_, ?_, ?_⟩
  · rw [hs, ← hc, hl]
  · unfold isEmpty
    rw [← hc, hv.first, Bool.eq_iff_iff, beq_iff_eq, List.isEmpty_iff, ← hl, List.length_eq_zero_iff]
  · unfold full
    rw [show subSize v.index v.first = v.size from rfl, hs, ← hc, hl]
    rfl
  · unfold available
    rw [hs, ← hc, hl, subSize_of_le hx hN]

/-- A history with pushes, an erasure, and growing. -/
example : AllFit 0 4 [] [Op.pushRange [1, 2, 3], .erase 0, .push 9, .resize 4, .popBack] ∧
    (listRun 0 [] [Op.pushRange [1, 2, 3], .erase 0, .push 9, .resize 4, .popBack]).1 = [2, 3, 9] := by
  refine ⟨⟨?_, ?_, ?_, ?_, ?_, trivial⟩, rfl⟩ <;> simp [Fits, listStep]

/-- C45 does not hold for a full vector: `push_back` writes outside the array. -/
theorem C45_full_violated (N : Nat) (v : BVec α) (h : v.Inv N) (hf : v.index = N) (x : α) : pushBack N v x = ub := by
  unfold pushBack
  rw [prepare_eq h]
  simp only [pure_bind]
  rw [wr_oob (Nat.le_of_eq (by rw [h.length, hf]))]
  rfl

/-- C45: a full vector of two. -/
example : (⟨2, 0, [5, 6]⟩ : BVec Nat).Inv 2 ∧ pushBack 2 (⟨2, 0, [5, 6]⟩ : BVec Nat) 7 = ub := ⟨⟨rfl, by decide, rfl⟩, rfl⟩

/-- C45: `back` is the last element, and `front` the first. -/
theorem C45_ends_partial {N : Nat} (hN : N < 2 ^ 64) {v : BVec α} (h : v.Inv N) (x y : α) (hx : v.contents.head? = some x)
    (hy : v.contents.getLast? = some y) : v.front = pure x ∧ v.back = pure y := by
  have hl := contents_length h
  have hi := h.index
  have hpos : 0 < v.index := by
    rw [← hl, List.length_pos_iff]
    intro e
    rw [e] at hx
    cases hx
  rw [List.head?_eq_getElem?, contents_eq h, List.getElem?_take_of_lt hpos] at hx
  rw [List.getLast?_eq_getElem?, hl, contents_eq h, List.getElem?_take_of_lt (by omega)] at hy
  unfold front back
  rw [h.first, subSize_of_le (by omega) (by omega)]
  exact ⟨rd_some hx, rd_some hy⟩

example : (⟨2, 0, [5, 6, 7]⟩ : BVec Nat).front = pure 5 ∧ (⟨2, 0, [5, 6, 7]⟩ : BVec Nat).back = pure 6 := ⟨rfl, rfl⟩

/-- C45, `push_back( )`, when there is room: the elements stay, one is added, and the reference returned is to the new one,
which still has whatever value the array had there. -/
theorem C45_push_place_partial {N : Nat} (hN : N < 2 ^ 64) {v : BVec α} (h : v.Inv N) (hr : v.index < N) :
    ∃ v' x, pushPlace N v = pure (v.contents.length, v') ∧ v'.Inv N ∧ v'.contents = v.contents ++ [x] := by
  have hlt : v.index < v.stack.length := by rw [h.length]; exact hr
  have h' : (⟨addSize v.index 1, v.first, v.stack⟩ : BVec α).Inv N := by
    refine ⟨h.first, ?_, h.length⟩
    show addSize v.index 1 ≤ N
    unfold addSize
    omega
  refine ⟨_, v.stack[v.index], ?_, h', ?_⟩
  · unfold pushPlace
    rw [prepare_eq h, pure_bind, contents_length h]
  · rw [contents_eq h', contents_eq h]
    show v.stack.take (addSize v.index 1) = _
    rw [show addSize v.index 1 = v.index + 1 by unfold addSize; omega, List.take_succ_eq_append_getElem hlt]

example := C45_push_place_partial (N := 3) (by decide) (v := ⟨2, 0, ['a', 'b', 'z']⟩) ⟨rfl, by decide, rfl⟩ (by decide)

/-- C45 does not hold for `push_back( )` on a full vector: the reference is to a place outside the array, and the size is
larger than the capacity. -/
theorem C45_push_place_violated {N : Nat} (hN : N + 1 < 2 ^ 64) {v : BVec α} (h : v.Inv N) (hf : v.index = N) :
    ∃ v', pushPlace N v = pure (N, v') ∧ v'.size = N + 1 ∧ ∀ x, wr v'.stack N x = ub := by
  refine ⟨⟨addSize v.index 1, v.first, v.stack⟩, ?_, ?_, fun x => wr_oob (Nat.le_of_eq h.length)⟩
  · unfold pushPlace
    rw [prepare_eq h, pure_bind, hf]
  · show subSize (addSize v.index 1) v.first = N + 1
    rw [h.first, hf, show addSize N 1 = N + 1 by unfold addSize; omega, subSize_of_le (Nat.zero_le _) hN, Nat.sub_zero]

example : pushPlace 2 (⟨1, 0, [5, 6]⟩ : BVec Nat) = pure (1, ⟨2, 0, [5, 6]⟩) ∧
    pushPlace 2 (⟨2, 0, [5, 6]⟩ : BVec Nat) = pure (2, ⟨3, 0, [5, 6]⟩) := ⟨rfl, rfl⟩

/-- C45: what `resize` beyond the capacity and `at` beyond the size do: they are reported, nothing is written. -/
theorem C45_reported (d : α) {N : Nat} (hN : N < 2 ^ 64) {v : BVec α} (h : v.Inv N) :
    (∀ n, N < n → resize d N v n = thrown) ∧ (∀ i, v.contents.length ≤ i → v.at' i = abort) ∧
    (∀ i, (hi : i < v.contents.length) → v.at' i = pure v.contents[i] ∧ v.get i = pure v.contents[i]) := by
  have hl := contents_length h
  have hx := h.index
  refine ⟨fun n hn => ?_, fun i hi => ?_, fun i hi => ?_⟩
  · unfold resize
    rw [if_pos hn]
  · unfold at'
    rw [size_eq h hN, if_neg (by omega)]
  · have e : v.stack[i]? = some v.contents[i] := by
      rw [← List.getElem?_eq_getElem, contents_eq h, List.getElem?_take_of_lt (by omega)]
    constructor
    · unfold at'
      rw [size_eq h hN, if_pos (by omega), h.first, addSize_of_lt (by omega), Nat.add_zero, rd_some e]
    · unfold get
      rw [h.first, addSize_of_lt (by omega), Nat.zero_add, rd_some e]

example := C45_reported 'z' (N := 3) (by decide) (v := ⟨2, 0, ['a', 'b', 'z']⟩) ⟨rfl, by decide, rfl⟩

/-- C45 does not hold for `pop_front`: on a vector that has elements it always throws; on an empty one it adds an element. -/
theorem C45_pop_front_violated {N : Nat} (hN : N < 2 ^ 64) (h0 : 0 < N) {v : BVec α} (h : v.Inv N) :
    (v.contents ≠ [] → v.popFront = thrown) ∧ (v.contents = [] → ∃ x v', v.popFront = pure (x, v') ∧ v'.contents.length = 1) := by
  have hl := contents_length h
  have hx := h.index
  have hf : v.front = pure (v.stack[0]'(by rw [h.length]; exact h0)) := by
    unfold front
    rw [h.first, rd_eq]
  constructor
  · intro hne
    have : v.index ≠ 0 := by
      intro hz
      exact hne (List.length_eq_zero_iff.1 (by omega))
    unfold popFront popFrontN
    rw [hf]
    simp only [pure_bind]
    rw [if_neg]
    · rfl
    · rw [subSize_of_le (by omega) (by omega)]
      omega
  · intro he
    have hz : v.index = 0 := by rw [← hl, he]; rfl
    refine ⟨v.stack[0]'(by rw [h.length]; exact h0), ⟨1, v.first, v.stack⟩, ?_, ?_⟩
    · unfold popFront popFrontN
      rw [hf, hz]
      simp only [pure_bind]
      rw [if_pos (Nat.zero_le _)]
      rfl
    · exact contents_length (N := N) ⟨h.first, h0, h.length⟩

example : (⟨2, 0, [5, 6, 0]⟩ : BVec Nat).Inv 3 ∧ popFront (⟨2, 0, [5, 6, 0]⟩ : BVec Nat) = thrown := ⟨⟨rfl, by decide, rfl⟩, rfl⟩

/-- C45 does not hold for the position returned by `erase`: unless the last element was erased it is one past the element that
follows the erased one. -/
theorem C45_erase_position_violated (d : α) {N : Nat} (hN : N < 2 ^ 64) {v : BVec α} (h : v.Inv N) (i : Nat)
    (hi : i < v.contents.length) :
    ∃ v', erase d N v i = pure (if i + 1 = v.contents.length then i else i + 1, v') := by
  have hl := contents_length h
  obtain ⟨v', e, h', hc, hx⟩ := erase_ok (d := d) hN h (a := i) (by omega)
  refine ⟨v', ?_⟩
  rw [e]
  by_cases hlast : i + 1 = v.contents.length
  · rw [if_pos (by omega), if_pos hlast]
  · rw [if_neg (by omega), if_neg hlast]

example : (erase 0 3 ⟨3, 0, [5, 6, 7]⟩ 0 : Cxx (Nat × BVec Nat)) = pure (1, ⟨2, 0, [6, 7, 5]⟩) := rfl

/-- C45 does not hold for erasing all elements, which ends the program. -/
theorem C45_erase_all_violated (d : α) {N : Nat} (hN : N < 2 ^ 64) {v : BVec α} (h : v.Inv N) :
    eraseRange d N v 0 v.contents.length = abort := by
  have hl := contents_length h
  unfold eraseRange
  rw [h.first, hl, Nat.zero_add, Nat.zero_add, if_neg (by omega), Nat.sub_self]
  simp only [eraseLoop, pure_bind]
  rw [size_eq h hN, if_neg (by omega)]

example := C45_erase_all_violated 'z' (N := 3) (by decide) (v := ⟨2, 0, ['a', 'b', 'z']⟩) ⟨rfl, by decide, rfl⟩

/-- C45 does not hold for `has_room`: it tells that there is no room left for more than `count` elements. -/
theorem C45_has_room_violated : hasRoom 4 (⟨0, 0, [1, 2, 3, 4]⟩ : BVec Nat) 1 = false ∧
    hasRoom 4 (⟨4, 0, [1, 2, 3, 4]⟩ : BVec Nat) 1 = true := by decide

/-- C45 does not hold for `swap` with a shorter vector: the elements beyond the shorter one's size are lost. -/
theorem C45_swap_violated : swap (⟨2, 0, [1, 2]⟩ : BVec Nat) ⟨1, 0, [8, 9]⟩ = pure (⟨1, 0, [8, 2]⟩, ⟨2, 0, [1, 9]⟩) := rfl

theorem swapLoop_eq (k : Nat) : ∀ (n : Nat) (s t : List α), n + k ≤ s.length → n + k ≤ t.length →
    swapLoop 0 0 k n s t = pure (s.take n ++ (t.drop n).take k ++ s.drop (n + k), t.take n ++ (s.drop n).take k ++ t.drop (n + k)) := by
  induction k with
  | zero => intro n s t _ _; rw [swapLoop]; simp
  | succ k ih =>
    intro n s t hs ht
    have e1 : (0 + n) = n := Nat.zero_add n
    obtain ⟨s', es, ls, ts, ds⟩ := wr_take (t[n]'(by omega)) (show n < s.length by omega)
    obtain ⟨t', et, lt, tt, dt⟩ := wr_take (s[n]'(by omega)) (show n < t.length by omega)
    rw [swapLoop, e1, rd_eq (show n < s.length by omega), rd_eq (show n < t.length by omega)]
    simp only [pure_bind]
    rw [es]
    simp only [pure_bind]
    rw [et]
    simp only [pure_bind]
    rw [ih (n + 1) s' t' (by omega) (by omega), ts, tt, ds, dt]
    rw [drop_of_drop ds k, drop_of_drop dt k, show n + (k + 1) = n + 1 + k by omega, List.drop_eq_getElem_cons (show n < s.length by omega),
      List.drop_eq_getElem_cons (show n < t.length by omega), List.take_succ_cons, List.take_succ_cons]
    simp

/-- C45, `swap`, as far as it holds: with a vector that is not shorter it exchanges the contents. -/
theorem C45_swap_partial {N : Nat} (hN : N < 2 ^ 64) {v w : BVec α} (hv : v.Inv N) (hw : w.Inv N)
    (h : v.contents.length ≤ w.contents.length) :
    ∃ v' w', swap v w = pure (v', w') ∧ v'.contents = w.contents ∧ w'.contents = v.contents := by
  rw [contents_length hv, contents_length hw] at h
  have hx := hw.index
  have l1 := hv.length
  have l2 := hw.length
  unfold swap
  rw [hv.first, hw.first, subSize_of_le (Nat.zero_le _) (by omega), Nat.sub_zero, swapLoop_eq _ _ _ _ (by omega) (by omega)]
  simp only [pure_bind]
  refine ⟨_, _, rfl, ?_, ?_⟩
  · have hi : Inv N (⟨w.index, 0, List.take 0 v.stack ++ List.take w.index (List.drop 0 w.stack) ++
        List.drop (0 + w.index) v.stack⟩ : BVec α) := ⟨rfl, hx, by simp; omega⟩
    rw [contents_eq hi, contents_eq hw]
    simp only [List.take_zero, List.drop_zero, List.nil_append, Nat.zero_add]
    rw [List.take_append_of_le_length (by simp; omega), List.take_take, Nat.min_self]
  · have hi : Inv N (⟨v.index, 0, List.take 0 w.stack ++ List.take w.index (List.drop 0 v.stack) ++
        List.drop (0 + w.index) w.stack⟩ : BVec α) := ⟨rfl, hv.index, by simp; omega⟩
    rw [contents_eq hi, contents_eq hv]
    simp only [List.take_zero, List.drop_zero, List.nil_append, Nat.zero_add]
    rw [List.take_append_of_le_length (by simp; omega), List.take_take, Nat.min_eq_left h]

example : swap (⟨1, 0, [1, 2]⟩ : BVec Nat) ⟨2, 0, [8, 9]⟩ = pure (⟨2, 0, [8, 9]⟩, ⟨1, 0, [1, 2]⟩) := rfl

/-- C45: the constructor from a pointer and a count takes as many elements as fit, that from two iterators all elements if they
fit. -/
theorem C45_construct (d : α) {N : Nat} (src : List α) :
    (∀ count, count ≤ src.length → ∃ v, ofPtr d N src count = pure v ∧ v.Inv N ∧ v.contents = src.take (min count N)) ∧
    (src.length ≤ N → ∃ v, ofRange d N src = pure v ∧ v.Inv N ∧ v.contents = src) := by
  constructor
  · intro count hc
    unfold ofPtr
    rw [copyLoop_eq _ _ _ _ (by omega) (by simp; omega)]
    simp only [pure_bind]
    have hi : Inv N (⟨min count N, 0, List.take 0 (List.replicate N d) ++ List.take (min count N) src ++
        List.drop (0 + min count N) (List.replicate N d)⟩ : BVec α) := ⟨rfl, Nat.min_le_right _ _, by simp; omega⟩
    refine ⟨_, rfl, hi, ?_⟩
    rw [contents_eq hi]
    simp only [List.take_zero, List.nil_append]
    rw [List.take_append_of_le_length (by simp; omega), List.take_take, Nat.min_self]
  · intro hs
    unfold ofRange
    rw [copyLoop_eq _ _ _ _ (Nat.le_refl _) (by simp; omega)]
    simp only [pure_bind]
    have hi : Inv N (⟨src.length, 0, List.take 0 (List.replicate N d) ++ List.take src.length src ++
        List.drop (0 + src.length) (List.replicate N d)⟩ : BVec α) := ⟨rfl, hs, by simp; omega⟩
    refine ⟨_, rfl, hi, ?_⟩
    rw [contents_eq hi]
    simp

/-- C45 does not hold for the constructor from two iterators with more elements than fit: it writes outside the array. -/
theorem C45_construct_violated (d : α) {N : Nat} (src : List α) (h : N < src.length) : ofRange d N src = ub := by
  unfold ofRange
  rw [copyLoop_full _ _ _ _ (by simp; omega) (Nat.zero_le _)]
  rfl

example : ofRange 0 2 [1, 2, 3] = ub := C45_construct_violated 0 [1, 2, 3] (by decide)

theorem moveLoop_ok (first : Nat) : ∀ (k n : Nat) (s : List α), first ≤ n → n + k ≤ s.length →
    ∃ s', moveLoop first k n s = pure s' ∧ s'.length = s.length ∧
      ∀ j, s'[j]? = if j < n - first then s[j]? else if j < n - first + k then s[j + first]? else s[j]?
  | 0, n, s, _, _ => ⟨s, rfl, rfl, fun j => by
    by_cases hj : j < n - first
    · rw [if_pos hj]
    · rw [if_neg hj, if_neg (by omega)]⟩
  | k + 1, n, s, h1, h2 => by
    obtain ⟨s', e, hl, hs⟩ := moveLoop_ok first k (n + 1) (s.set (n - first) s[n]) (by omega) (by rw [List.length_set]; omega)
    refine ⟨s', ?_, by rw [hl, List.length_set], fun j => ?_⟩
    · rw [moveLoop, rd_eq (by omega), pure_bind, wr_eq (by omega), pure_bind]; exact e
    · rw [hs j]
      by_cases a1 : j < n - first
      · rw [if_pos (by omega), if_pos a1, List.getElem?_set_ne (by omega)]
      · rw [if_neg a1]
        by_cases a2 : j = n - first
        · subst a2
          rw [if_pos (by omega), if_pos (by omega), List.getElem?_set_self (by omega), show n - first + first = n by omega,
            List.getElem?_eq_getElem (by omega)]
        · rw [if_neg (by omega)]
          by_cases a3 : j < n - first + (k + 1)
          · rw [if_pos (by omega), if_pos a3, List.getElem?_set_ne (by omega)]
          · rw [if_neg (by omega), if_neg a3, List.getElem?_set_ne (by omega)]

/-- C45: `do_move_to_front` keeps the elements and moves them to the front of the array, wherever they are. -/
theorem C45_move_to_front (v : BVec α) (h1 : v.first ≤ v.index) (h2 : v.index ≤ v.stack.length) (h3 : v.stack.length < 2 ^ 64) :
    ∃ v', moveToFront v = pure v' ∧ v'.first = 0 ∧ v'.index = v.index - v.first ∧ v'.stack.length = v.stack.length ∧ v'.contents = v.contents := by
  obtain ⟨s, e, hl, hs⟩ := moveLoop_ok v.first (v.index - v.first) v.first v.stack (by omega) (by omega)
  have hi : subSize v.index v.first = v.index - v.first := by unfold subSize; omega
  refine ⟨⟨v.index - v.first, 0, s⟩, ?_, rfl, rfl, hl, ?_⟩
  · unfold moveToFront; rw [e, pure_bind, hi]
  · unfold contents
    apply List.ext_getElem?
    intro j
    simp only [List.drop_zero, Nat.sub_zero, List.getElem?_take, List.getElem?_drop]
    by_cases hj : j < v.index - v.first
    · rw [if_pos hj, if_pos hj, hs j, if_neg (by omega), if_pos (by omega), Nat.add_comm]
    · rw [if_neg hj, if_neg hj]

example : moveToFront (⟨4, 2, [1, 2, 3, 4, 5]⟩ : BVec Nat) = pure ⟨2, 0, [3, 4, 3, 4, 5]⟩ := by decide +kernel

end BVec
end Verif.Containers
