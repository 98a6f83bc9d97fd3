import Verif.Containers.Span
import Verif.Algorithm.Compare

/-
include/daw/daw_iter_view.h and daw_view.h: pairs of iterators that carry the distance between them.

The iterators are positions of a sequence `mem`.
-/

namespace Verif.Views
open Cxx
variable {α : Type}

/-! ## iter_view -/

/-- `iter_view`, daw_iter_view.h 57-59. -/
structure IView where
  first : Nat
  last : Nat
  size : Nat
  deriving DecidableEq

/-- `distance`, daw_iter_view.h 61-84: the difference of random access iterators, converted to `size_t`; of other iterators the number of increments, which never get from
behind `last` to it. -/
def distance (random : Bool) (f l : Nat) : Cxx Nat :=
  if f ≤ l then pure (l - f) else if random then pure (2 ^ 64 - (f - l)) else ub

/-- The constructor from two iterators, daw_iter_view.h 89-91 and 59. -/
def IView.make (random : Bool) (first last : Nat) : Cxx IView := do
  let size ← distance random first last
  pure ⟨first, last, size⟩

/-- `subspan`, daw_iter_view.h 108-113. -/
def IView.subspan (random : Bool) (mem : List α) (v : IView) (offset count : Nat) : Cxx IView := do
  let sz := min count (v.size - min v.size offset)
  let first ← ptrAdd mem v.first offset
  let last ← ptrAdd mem v.first sz
  IView.make random first last

/-- `add_prefix( n )`, daw_iter_view.h 126-129; `add_prefix( )`, 120-123, is `add_prefix( 1 )`. -/
def IView.addPrefix (v : IView) (n : Nat) : Cxx IView := do
  let first ← ptrSub v.first n
  pure ⟨first, v.last, v.size + n⟩

/-- `empty`, daw_iter_view.h 179-181. -/
def IView.empty (v : IView) : Bool := v.size = 0

/-- `front`, daw_iter_view.h 183-191. -/
def IView.front (asserts : Bool) (mem : List α) (v : IView) : Cxx α := do
  check asserts (v.empty = false)
  rd mem v.first

/-- `operator[]`, daw_iter_view.h 193-201. -/
def IView.index (asserts : Bool) (mem : List α) (v : IView) (idx : Nat) : Cxx α := do
  check asserts (idx < v.size)
  rd mem (v.first + idx)

/-- `remove_prefix( count )`, daw_iter_view.h 203-207. -/
def IView.removePrefix (mem : List α) (v : IView) (count : Nat) : Cxx IView := do
  let count := min count v.size
  let first ← ptrAdd mem v.first count
  pure ⟨first, v.last, v.size - count⟩

/-- `remove_prefix( count, dont_clip_to_bounds )`, daw_iter_view.h 209-213. -/
def IView.removePrefixNoClip (asserts : Bool) (mem : List α) (v : IView) (count : Nat) : Cxx IView := do
  check asserts (count < v.size)
  let first ← ptrAdd mem v.first count
  pure ⟨first, v.last, subSize v.size count⟩

/-- `remove_prefix( )`, daw_iter_view.h 215-218. -/
def IView.removeOne (asserts : Bool) (mem : List α) (v : IView) : Cxx IView := do
  check asserts (v.empty = false)
  v.removePrefix mem 1

/-- `pop_front( )`, daw_iter_view.h 220-226. -/
def IView.popFront (asserts : Bool) (mem : List α) (v : IView) : Cxx (α × IView) := do
  check asserts (v.empty = false)
  let first ← ptrAdd mem v.first 1
  let a ← rd mem v.first
  pure (a, ⟨first, v.last, subSize v.size 1⟩)

/-- `find_raw`, daw_iter_view.h 229-248, with `stop a` for `a == needle`, and `find_first_not_of_raw`, 250-269, with `stop a` for `a != needle`: the iterator, whose
distance from `m_first` is the count. -/
def IView.findRaw (mem : List α) (stop : α → Bool) (v : IView) : Cxx (Nat × Nat) := do
  let pos ← Views.findRaw mem stop v.first v.last
  pure (pos, pos - v.first)

/-- `remove_prefix_until( needle )`, daw_iter_view.h 303-308, and `remove_prefix_while( needle )`, 322-327. -/
def IView.removeUntil (mem : List α) (stop : α → Bool) (v : IView) : Cxx IView := do
  let (pos, count) ← v.findRaw mem stop
  pure ⟨pos, v.last, subSize v.size count⟩

/-- `remove_prefix_until( needle, discard )`, daw_iter_view.h 291-301, and `remove_prefix_while( needle, discard )`, 310-320. -/
def IView.removeUntilDiscard (mem : List α) (stop : α → Bool) (v : IView) : Cxx IView := do
  let (pos, count) ← v.findRaw mem stop
  let v : IView := ⟨pos, v.last, subSize v.size count⟩
  if v.empty then pure v
  else do
    let first ← ptrAdd mem v.first 1
    pure ⟨first, v.last, v.size - 1⟩

/-- `pop_front_until( needle )`, daw_iter_view.h 329-334, and `pop_front_while( needle )`, 345-350. -/
def IView.popUntil (random : Bool) (mem : List α) (stop : α → Bool) (v : IView) : Cxx (IView × IView) := do
  let f := v.first
  let v ← v.removeUntil mem stop
  let r ← IView.make random f v.first
  pure (r, v)

/-- `pop_front_until( needle, discard )`, daw_iter_view.h 336-343, and `pop_front_while( needle, discard )`, 352-359. -/
def IView.popUntilDiscard (asserts random : Bool) (mem : List α) (stop : α → Bool) (v : IView) : Cxx (IView × IView) := do
  let f := v.first
  let v ← v.removeUntil mem stop
  let r ← IView.make random f v.first
  let v ← v.removeOne asserts mem
  pure (r, v)

/-- `std::equal` with four iterators. (Rule of C++ or its library, no line of the source.) -/
def stdEqual4 [DecidableEq α] (mem mem' : List α) (f l f' l' : Nat) : Cxx Bool :=
  if f < l ∧ f' < l' then do
    let a ← rd mem f
    let b ← rd mem' f'
    if a = b then stdEqual4 mem mem' (f + 1) l (f' + 1) l' else pure false
  else pure (decide (f = l ∧ f' = l'))
termination_by l - f

/-- `std::lexicographical_compare`. (Rule of C++ or its library, no line of the source.) -/
def stdLexCompare (lt : α → α → Bool) (mem mem' : List α) (f l f' l' : Nat) : Cxx Bool :=
  if f < l ∧ f' < l' then do
    let a ← rd mem f
    let b ← rd mem' f'
    if lt a b then pure true
    else if lt b a then pure false
    else stdLexCompare lt mem mem' (f + 1) l (f' + 1) l'
  else pure (decide (f = l ∧ f' < l'))
termination_by l - f

/-- `operator==`, daw_iter_view.h 374-378. -/
def IView.eq [DecidableEq α] (mem mem' : List α) (x y : IView) : Cxx Bool :=
  if x.size = y.size then stdEqual4 mem mem' x.first x.last y.first y.last else pure false

/-- `operator<`, daw_iter_view.h 385-389. -/
def IView.less (lt : α → α → Bool) (mem mem' : List α) (x y : IView) : Cxx Bool :=
  stdLexCompare lt mem mem' x.first x.last y.first y.last

/-- `operator>=`, daw_iter_view.h 396-399. -/
def IView.greaterEq (lt : α → α → Bool) (mem mem' : List α) (x y : IView) : Cxx Bool := do
  let r ← IView.less lt mem mem' x y
  pure (!r)

/-- What a program does with a view. (Specification, no line of the source.) -/
inductive IOp (α : Type) where
  | addPrefix (n : Nat)
  | removePrefix (n : Nat)
  | removePrefixNoClip (n : Nat)
  | removeOne
  | popFront
  | removeUntil (stop : α → Bool)
  | removeUntilDiscard (stop : α → Bool)
  | popUntil (stop : α → Bool)
  | popUntilDiscard (stop : α → Bool)

/-- The elements of a view. (Specification, no line of the source.) -/
def IView.elems (mem : List α) (v : IView) : List α := (mem.drop v.first).take (v.last - v.first)

/-- One operation and what it returns: nothing, an element or another view. (Specification, no line of the source.) -/
def IView.step (asserts random : Bool) (mem : List α) (v : IView) : IOp α → Cxx (List α × IView)
  | .addPrefix n => do let v ← v.addPrefix n; pure ([], v)
  | .removePrefix n => do let v ← v.removePrefix mem n; pure ([], v)
  | .removePrefixNoClip n => do let v ← v.removePrefixNoClip asserts mem n; pure ([], v)
  | .removeOne => do let v ← v.removeOne asserts mem; pure ([], v)
  | .popFront => do let (a, v) ← v.popFront asserts mem; pure ([a], v)
  | .removeUntil stop => do let v ← v.removeUntil mem stop; pure ([], v)
  | .removeUntilDiscard stop => do let v ← v.removeUntilDiscard mem stop; pure ([], v)
  | .popUntil stop => do let (r, v) ← v.popUntil random mem stop; pure (r.elems mem, v)
  | .popUntilDiscard stop => do let (r, v) ← v.popUntilDiscard asserts random mem stop; pure (r.elems mem, v)

/-- The operation on the three lists; `none` if the program may not ask for it. With `asserts`, it also may not remove everything without clipping, nor discard a needle that
is not there. (Specification, no line of the source.) -/
def Parts.istep (asserts : Bool) (z : Parts α) : IOp α → Option (List α × Parts α)
  | .addPrefix n =>
    if n ≤ z.pre.length then some ([], ⟨z.pre.take (z.pre.length - n), z.pre.drop (z.pre.length - n) ++ z.cur, z.post⟩) else none
  | .removePrefix n => some ([], ⟨z.pre ++ z.cur.take n, z.cur.drop n, z.post⟩)
  | .removePrefixNoClip n =>
    if n ≤ z.cur.length ∧ (asserts = true → n ≠ z.cur.length) then some ([], ⟨z.pre ++ z.cur.take n, z.cur.drop n, z.post⟩) else none
  | .removeOne => if z.cur = [] then none else some ([], ⟨z.pre ++ z.cur.take 1, z.cur.drop 1, z.post⟩)
  | .popFront =>
    match z.cur with
    | [] => none
    | a :: rest => some ([a], ⟨z.pre ++ [a], rest, z.post⟩)
  | .removeUntil stop => some ([], ⟨z.pre ++ z.cur.takeWhile (!stop ·), z.cur.dropWhile (!stop ·), z.post⟩)
  | .removeUntilDiscard stop =>
    some ([], ⟨z.pre ++ z.cur.takeWhile (!stop ·) ++ (z.cur.dropWhile (!stop ·)).take 1, (z.cur.dropWhile (!stop ·)).drop 1, z.post⟩)
  | .popUntil stop =>
    some (z.cur.takeWhile (!stop ·), ⟨z.pre ++ z.cur.takeWhile (!stop ·), z.cur.dropWhile (!stop ·), z.post⟩)
  | .popUntilDiscard stop =>
    if asserts = true ∧ z.cur.any stop = false then none
    else some (z.cur.takeWhile (!stop ·),
      ⟨z.pre ++ z.cur.takeWhile (!stop ·) ++ (z.cur.dropWhile (!stop ·)).take 1, (z.cur.dropWhile (!stop ·)).drop 1, z.post⟩)

/-- The view of `mem` has these parts. (Specification, no line of the source.) -/
structure Parts.IOf (z : Parts α) (mem : List α) (v : IView) : Prop where
  mem_eq : mem = z.pre ++ z.cur ++ z.post
  first_eq : v.first = z.pre.length
  last_eq : v.last = z.pre.length + z.cur.length
  size_eq : v.size = z.cur.length
  small : mem.length < 2 ^ 63

theorem ilen {z : Parts α} {mem : List α} {v : IView} (h : z.IOf mem v) : mem.length = z.pre.length + z.cur.length + z.post.length := by
  rw [h.mem_eq]; simp; omega

theorem iforward {z : Parts α} {mem : List α} {v : IView} (h : z.IOf mem v) {n : Nat} (hn : n ≤ z.cur.length) :
    (⟨z.pre ++ z.cur.take n, z.cur.drop n, z.post⟩ : Parts α).IOf mem ⟨v.first + n, v.last, v.size - n⟩ := by
  refine ⟨?_, ?_, ?_, ?_, h.small⟩
  · rw [h.mem_eq]
    simp only [List.append_assoc]
    rw [← List.append_assoc (z.cur.take n), List.take_append_drop]
  · simp [h.first_eq, Nat.min_eq_left hn]
  · simp [h.last_eq, Nat.min_eq_left hn]; omega
  · simp [h.size_eq]

theorem iremovePrefix {z : Parts α} {mem : List α} {v : IView} (h : z.IOf mem v) (n : Nat) :
    ∃ v', v.removePrefix mem n = pure v' ∧ (⟨z.pre ++ z.cur.take n, z.cur.drop n, z.post⟩ : Parts α).IOf mem v' := by
  have hl := ilen h
  have hsz := h.size_eq
  have hf := h.first_eq
  refine ⟨⟨v.first + min n z.cur.length, v.last, v.size - min n z.cur.length⟩, ?_, ?_⟩
  · unfold IView.removePrefix
    rw [hsz]
    simp only []
    rw [ptrAdd_ok (by omega)]; rfl
  · have := iforward h (n := min n z.cur.length) (by omega)
    rcases Nat.le_total n z.cur.length with g | g
    · rwa [Nat.min_eq_left g] at this ⊢
    · rw [Nat.min_eq_right g] at this ⊢
      rw [List.take_of_length_le g, List.drop_eq_nil_of_le g]
      rwa [List.take_length, List.drop_length] at this

theorem iuntil {z : Parts α} {mem : List α} {v : IView} (h : z.IOf mem v) (stop : α → Bool) :
    v.removeUntil mem stop = pure ⟨v.first + (z.cur.takeWhile (!stop ·)).length, v.last, v.size - (z.cur.takeWhile (!stop ·)).length⟩ ∧
    v.findRaw mem stop = pure (v.first + (z.cur.takeWhile (!stop ·)).length, (z.cur.takeWhile (!stop ·)).length) ∧
    subSize v.size (z.cur.takeWhile (!stop ·)).length = v.size - (z.cur.takeWhile (!stop ·)).length ∧
    (⟨z.pre ++ z.cur.takeWhile (!stop ·), z.cur.dropWhile (!stop ·), z.post⟩ : Parts α).IOf mem
      ⟨v.first + (z.cur.takeWhile (!stop ·)).length, v.last, v.size - (z.cur.takeWhile (!stop ·)).length⟩ := by
  have hl := ilen h
  have hle : (z.cur.takeWhile (!stop ·)).length ≤ z.cur.length := (List.takeWhile_sublist _).length_le
  have hraw : v.findRaw mem stop = pure (v.first + (z.cur.takeWhile (!stop ·)).length, (z.cur.takeWhile (!stop ·)).length) := by
    unfold IView.findRaw
    rw [h.first_eq, h.last_eq, findRaw_spec mem stop z.cur z.pre z.post h.mem_eq, pure_bind, Nat.add_sub_cancel_left]
  have hs : subSize v.size (z.cur.takeWhile (!stop ·)).length = v.size - (z.cur.takeWhile (!stop ·)).length :=
    subSize_of_le (by rw [h.size_eq]; exact hle) (by have := h.small; have := h.size_eq; omega)
  refine ⟨?_, hraw, hs, ?_⟩
  · unfold IView.removeUntil
    rw [hraw, pure_bind]
    simp only []
    rw [hs]
  · have := iforward h hle
    rwa [(drop_takeWhile _ _).1, (drop_takeWhile _ _).2] at this

theorem ipop {z : Parts α} {mem : List α} {v : IView} (h : z.IOf mem v) (random : Bool) (stop : α → Bool) :
    IView.make random v.first (v.first + (z.cur.takeWhile (!stop ·)).length) =
      pure ⟨v.first, v.first + (z.cur.takeWhile (!stop ·)).length, (z.cur.takeWhile (!stop ·)).length⟩ ∧
    (⟨v.first, v.first + (z.cur.takeWhile (!stop ·)).length, (z.cur.takeWhile (!stop ·)).length⟩ : IView).elems mem = z.cur.takeWhile (!stop ·) := by
  have hle : (z.cur.takeWhile (!stop ·)).length ≤ z.cur.length := (List.takeWhile_sublist _).length_le
  constructor
  · unfold IView.make distance
    rw [if_pos (by omega), pure_bind, Nat.add_sub_cancel_left]
  · unfold IView.elems
    simp only []
    rw [Nat.add_sub_cancel_left, h.first_eq, slice_mid h.mem_eq hle, (drop_takeWhile _ _).1]

theorem dropWhile_nil_iff (stop : α → Bool) (l : List α) : l.dropWhile (!stop ·) = [] ↔ l.any stop = false := by
  induction l with
  | nil => simp
  | cons a l ih =>
    by_cases h : stop a = true
    · simp [h]
    · simp only [Bool.not_eq_true] at h
      simp only [List.dropWhile_cons, h, Bool.not_false, if_true, List.any_cons, Bool.false_or]
      exact ih

theorem istep_of {z : Parts α} {mem : List α} {v : IView} (asserts random : Bool) (h : z.IOf mem v) (op : IOp α) {out : List α} {z' : Parts α}
    (hz : z.istep asserts op = some (out, z')) : ∃ v', v.step asserts random mem op = pure (out, v') ∧ z'.IOf mem v' := by
  have hl := ilen h
  have hsz := h.size_eq
  have hf := h.first_eq
  have hla := h.last_eq
  have hsm := h.small
  cases op with
  | addPrefix n =>
    simp only [Parts.istep] at hz
    split at hz
    · rename_i g
      injection hz with hz; injection hz with ho hz; subst ho hz
      refine ⟨⟨v.first - n, v.last, v.size + n⟩, ?_, ?_, ?_, ?_, ?_, hsm⟩
      · simp only [IView.step, IView.addPrefix]
        rw [ptrSub_ok (by omega)]; rfl
      · show mem = z.pre.take _ ++ (z.pre.drop _ ++ z.cur) ++ z.post
        rw [← List.append_assoc, List.take_append_drop]; exact h.mem_eq
      · simp; omega
      · simp; omega
      · simp; omega
    · cases hz
  | removePrefix n =>
    injection hz with hz; injection hz with ho hz; subst ho hz
    obtain ⟨v', e, h'⟩ := iremovePrefix h n
    exact ⟨v', by simp only [IView.step]; rw [e]; rfl, h'⟩
  | removePrefixNoClip n =>
    simp only [Parts.istep] at hz
    split at hz
    · rename_i g
      injection hz with hz; injection hz with ho hz; subst ho hz
      refine ⟨⟨v.first + n, v.last, v.size - n⟩, ?_, iforward h g.1⟩
      simp only [IView.step, IView.removePrefixNoClip]
      have hc : check asserts (n < v.size) = pure () := by
        cases asserts with
        | false => rfl
        | true => exact check_ok _ (by have := g.2 rfl; omega)
      rw [hc, pure_bind, ptrAdd_ok (by omega), pure_bind, subSize_of_le (by omega) (by omega)]; rfl
    · cases hz
  | removeOne =>
    simp only [Parts.istep] at hz
    split at hz
    · cases hz
    · rename_i g
      injection hz with hz; injection hz with ho hz; subst ho hz
      have hpos : 0 < z.cur.length := List.length_pos_iff.mpr g
      obtain ⟨v', e, h'⟩ := iremovePrefix h 1
      refine ⟨v', ?_, h'⟩
      simp only [IView.step, IView.removeOne]
      rw [check_ok _ (by simp [IView.empty]; omega), pure_bind, e]; rfl
  | popFront =>
    obtain ⟨pre, cur, post⟩ := z
    cases cur with
    | nil => cases hz
    | cons a cur =>
      injection hz with hz; injection hz with ho hz; subst ho hz
      simp only [List.length_cons] at hl hla hf hsz
      refine ⟨⟨v.first + 1, v.last, v.size - 1⟩, ?_, ?_⟩
      · simp only [IView.step, IView.popFront]
        rw [check_ok _ (by simp [IView.empty]; omega), pure_bind, ptrAdd_ok (by omega), pure_bind, rd_some (a := a) (by rw [h.mem_eq, hf]; simp), pure_bind,
          subSize_of_le (by omega) (by omega)]
        rfl
      · exact iforward h (n := 1) (by simp)
  | removeUntil stop =>
    injection hz with hz; injection hz with ho hz; subst ho hz
    obtain ⟨e, _, _, h'⟩ := iuntil h stop
    exact ⟨_, by simp only [IView.step]; rw [e]; rfl, h'⟩
  | removeUntilDiscard stop =>
    injection hz with hz; injection hz with ho hz; subst ho hz
    obtain ⟨_, e, hs, h'⟩ := iuntil h stop
    have hsz' := h'.size_eq
    have hl' := ilen h'
    have hf' := h'.first_eq
    simp only [] at hsz' hl' hf'
    simp only [IView.step, IView.removeUntilDiscard]
    rw [e, pure_bind]
    simp only []
    rw [hs]
    by_cases hd : z.cur.dropWhile (!stop ·) = []
    · rw [hd] at h' hsz' ⊢
      rw [if_pos (by simpa [IView.empty] using hsz')]
      refine ⟨_, rfl, ?_⟩
      simpa using h'
    · have hpos : 0 < (z.cur.dropWhile (!stop ·)).length := List.length_pos_iff.mpr hd
      rw [if_neg (by simp only [IView.empty, hsz', decide_eq_true_eq]; omega), ptrAdd_ok (by omega)]
      exact ⟨_, rfl, iforward h' (n := 1) hpos⟩
  | popUntil stop =>
    injection hz with hz; injection hz with ho hz; subst ho hz
    obtain ⟨e, _, _, h'⟩ := iuntil h stop
    obtain ⟨em, ee⟩ := ipop h random stop
    refine ⟨_, ?_, h'⟩
    simp only [IView.step, IView.popUntil]
    rw [e, pure_bind]
    simp only []
    rw [em]
    simp only [pure_bind]
    rw [ee]
  | popUntilDiscard stop =>
    simp only [Parts.istep] at hz
    split at hz
    · cases hz
    · rename_i g
      injection hz with hz; injection hz with ho hz; subst ho hz
      obtain ⟨e, _, _, h'⟩ := iuntil h stop
      obtain ⟨em, ee⟩ := ipop h random stop
      obtain ⟨v', e1, h1⟩ := iremovePrefix h' 1
      refine ⟨v', ?_, h1⟩
      have hsz' := h'.size_eq
      simp only [] at hsz'
      simp only [IView.step, IView.popUntilDiscard]
      rw [e, pure_bind]
      simp only []
      rw [em]
      simp only [pure_bind]
      have hr : IView.removeOne asserts mem
          ⟨v.first + (z.cur.takeWhile (!stop ·)).length, v.last, v.size - (z.cur.takeWhile (!stop ·)).length⟩ = pure v' := by
        unfold IView.removeOne
        have hc : ∀ c : IView, c.size = (z.cur.dropWhile (!stop ·)).length → check asserts (c.empty = false) = pure () := by
          intro c hcs
          cases asserts with
          | false => rfl
          | true =>
            have hne : z.cur.dropWhile (!stop ·) ≠ [] := by
              intro hd
              exact g ⟨rfl, (dropWhile_nil_iff stop _).mp hd⟩
            have hpos := List.length_pos_iff.mpr hne
            exact check_ok _ (by simp only [IView.empty, hcs, decide_eq_false_iff_not]; omega)
        rw [hc _ hsz', pure_bind, e1]
      rw [hr]
      simp only [pure_bind]
      rw [ee]

/-- A program on a view. (Specification, no line of the source.) -/
def IView.run (asserts random : Bool) (mem : List α) : List (IOp α) → IView → Cxx (List (List α) × IView)
  | [], v => pure ([], v)
  | op :: ops, v => do
    let (out, v) ← v.step asserts random mem op
    let (outs, v) ← IView.run asserts random mem ops v
    pure (out :: outs, v)

/-- The program on the three lists. (Specification, no line of the source.) -/
def Parts.irun (asserts : Bool) : List (IOp α) → Parts α → Option (List (List α) × Parts α)
  | [], z => some ([], z)
  | op :: ops, z => do
    let (out, z) ← z.istep asserts op
    let (outs, z) ← Parts.irun asserts ops z
    some (out :: outs, z)

/-- An `iter_view` stays a view of the part that its operations leave, with the right size, through all programs. In a build with assertions the programs may
not remove everything without clipping and not discard a needle that is not there. -/
theorem C179_iter_view_partial (pre cur post : List α) (hs : (pre ++ cur ++ post).length < 2 ^ 63) (asserts random : Bool) (ops : List (IOp α))
    (outs : List (List α)) (z : Parts α) (hz : Parts.irun asserts ops ⟨pre, cur, post⟩ = some (outs, z)) :
    ∃ v0 v, IView.make random pre.length (pre.length + cur.length) = pure v0 ∧ IView.run asserts random (pre ++ cur ++ post) ops v0 = pure (outs, v) ∧
      pre ++ cur ++ post = z.pre ++ z.cur ++ z.post ∧ v.first = z.pre.length ∧ v.last = z.pre.length + z.cur.length ∧
      v.size = z.cur.length ∧ (v.empty = true ↔ z.cur = []) ∧
      ∀ idx, v.index true (pre ++ cur ++ post) idx = (z.cur[idx]?).elim abort pure := by
  have hOf : (⟨pre, cur, post⟩ : Parts α).IOf (pre ++ cur ++ post) ⟨pre.length, pre.length + cur.length, cur.length⟩ := ⟨rfl, rfl, rfl, rfl, hs⟩
  have key : ∀ (ops : List (IOp α)) (z0 : Parts α) (v0 : IView) (outs : List (List α)), z0.IOf (pre ++ cur ++ post) v0 →
      Parts.irun asserts ops z0 = some (outs, z) →
      ∃ v, IView.run asserts random (pre ++ cur ++ post) ops v0 = pure (outs, v) ∧ z.IOf (pre ++ cur ++ post) v := by
    intro ops
    induction ops with
    | nil =>
      intro z0 v0 outs h e
      injection e with e; injection e with e1 e2
      subst e1 e2
      exact ⟨v0, rfl, h⟩
    | cons op ops ih =>
      intro z0 v0 outs h e
      unfold Parts.irun at e
      cases e1 : z0.istep asserts op with
      | none => rw [e1] at e; cases e
      | some p =>
        obtain ⟨out, z1⟩ := p
        rw [e1] at e
        cases e2 : Parts.irun asserts ops z1 with
        | none => simp [e2] at e
        | some q =>
          obtain ⟨outs', z2⟩ := q
          simp only [e2, Option.bind_eq_bind, Option.bind_some, Option.some.injEq, Prod.mk.injEq] at e
          obtain ⟨rfl, rfl⟩ := e
          obtain ⟨v1, r1, h1⟩ := istep_of asserts random h op e1
          obtain ⟨v2, r2, h2⟩ := ih z1 v1 outs' h1 e2
          refine ⟨v2, ?_, h2⟩
          unfold IView.run
          rw [r1]
          simp only [pure_bind]
          rw [r2]
          rfl
  obtain ⟨v, r, h⟩ := key ops _ _ outs hOf hz
  refine ⟨_, v, ?_, r, h.mem_eq, h.first_eq, h.last_eq, h.size_eq, ?_, ?_⟩
  · unfold IView.make distance
    rw [if_pos (by omega), pure_bind, Nat.add_sub_cancel_left]
  · simp [IView.empty, h.size_eq]
  · intro idx
    unfold IView.index check
    rw [h.size_eq]
    by_cases hi : idx < z.cur.length
    · rw [if_neg (by omega), List.getElem?_eq_getElem hi, pure_bind]
      refine rd_some ?_
      rw [h.mem_eq, h.first_eq, List.append_assoc, List.getElem?_append_right (by omega), List.getElem?_append_left (by omega),
        Nat.add_sub_cancel_left, List.getElem?_eq_getElem hi]
    · rw [if_pos ⟨rfl, hi⟩, List.getElem?_eq_none (by omega)]
      rfl

example : Parts.irun true [.removePrefix 1, .popUntilDiscard (· == 0), .popFront, .addPrefix 2] (⟨[9], [1, 2, 3, 0, 4, 5], [6]⟩ : Parts Nat) =
    some ([[], [2, 3], [4], []], ⟨[9, 1, 2, 3], [0, 4, 5], [6]⟩) := by decide +kernel

/-- With assertions, removing all elements without clipping ends the program, and so does `pop_front_until( needle, discard )` if the needle is not there. -/
theorem C179_iter_view_violated (pre cur post : List α) (random : Bool) (stop : α → Bool) (hs : (pre ++ cur ++ post).length < 2 ^ 63) :
    (⟨pre.length, pre.length + cur.length, cur.length⟩ : IView).removePrefixNoClip true (pre ++ cur ++ post) cur.length = abort ∧
    (cur.any stop = false →
      (⟨pre.length, pre.length + cur.length, cur.length⟩ : IView).popUntilDiscard true random (pre ++ cur ++ post) stop = abort) := by
  have hOf : (⟨pre, cur, post⟩ : Parts α).IOf (pre ++ cur ++ post) ⟨pre.length, pre.length + cur.length, cur.length⟩ := ⟨rfl, rfl, rfl, rfl, hs⟩
  constructor
  · unfold IView.removePrefixNoClip check
    rw [if_pos ⟨rfl, by simp⟩]; rfl
  · intro ha
    obtain ⟨e, _, _, h'⟩ := iuntil hOf stop
    obtain ⟨em, _⟩ := ipop hOf random stop
    have hsz' := h'.size_eq
    rw [(dropWhile_nil_iff stop _).mpr ha] at hsz'
    simp only [] at hsz' e em
    unfold IView.popUntilDiscard
    rw [e, pure_bind]
    simp only []
    rw [em, pure_bind]
    unfold IView.removeOne check
    rw [if_pos ⟨rfl, by simpa [IView.empty] using hsz'⟩]; rfl

example := C179_iter_view_violated [1] [2, 3] [4] true (fun x : Nat => decide (x = 9)) (by decide)

theorem stdEqual4_spec [DecidableEq α] (mem mem' : List α) (c c' : List α) :
    ∀ (p q p' q' : List α), mem = p ++ c ++ q → mem' = p' ++ c' ++ q' →
      stdEqual4 mem mem' p.length (p.length + c.length) p'.length (p'.length + c'.length) = pure (decide (c = c')) := by
  induction c generalizing c' with
  | nil =>
    intro p q p' q' h h'
    rw [stdEqual4, if_neg (by simp)]
    cases c' <;> simp
  | cons a c ih =>
    intro p q p' q' h h'
    cases c' with
    | nil => rw [stdEqual4, if_neg (by simp)]; simp
    | cons b c' =>
      rw [stdEqual4, if_pos (by simp), rd_some (a := a) (by rw [h]; simp), pure_bind, rd_some (a := b) (by rw [h']; simp), pure_bind]
      by_cases hab : a = b
      · rw [if_pos hab]
        have := ih c' (p ++ [a]) q (p' ++ [b]) q' (by rw [h]; simp) (by rw [h']; simp)
        simp only [List.length_append, List.length_cons, List.length_nil, Nat.zero_add] at this
        rw [List.length_cons, List.length_cons, show p.length + (c.length + 1) = p.length + 1 + c.length by omega,
          show p'.length + (c'.length + 1) = p'.length + 1 + c'.length by omega, this]
        simp [hab]
      · rw [if_neg hab]; simp [hab]

theorem stdLex_spec (lt : α → α → Bool) (mem mem' : List α) (c c' : List α) :
    ∀ (p q p' q' : List α), mem = p ++ c ++ q → mem' = p' ++ c' ++ q' →
      stdLexCompare lt mem mem' p.length (p.length + c.length) p'.length (p'.length + c'.length) = pure (Algorithm.lexCompare lt c c') := by
  induction c generalizing c' with
  | nil =>
    intro p q p' q' h h'
    rw [stdLexCompare, if_neg (by simp)]
    cases c' <;> simp [Algorithm.lexCompare]
  | cons a c ih =>
    intro p q p' q' h h'
    cases c' with
    | nil => rw [stdLexCompare, if_neg (by simp)]; simp [Algorithm.lexCompare]
    | cons b c' =>
      rw [stdLexCompare, if_pos (by simp), rd_some (a := a) (by rw [h]; simp), pure_bind, rd_some (a := b) (by rw [h']; simp), pure_bind]
      have := ih c' (p ++ [a]) q (p' ++ [b]) q' (by rw [h]; simp) (by rw [h']; simp)
      simp only [List.length_append, List.length_cons, List.length_nil, Nat.zero_add] at this
      rw [List.length_cons, List.length_cons, show p.length + (c.length + 1) = p.length + 1 + c.length by omega,
        show p'.length + (c'.length + 1) = p'.length + 1 + c'.length by omega, this]
      simp only [Algorithm.lexCompare]
      by_cases h1 : lt a b = true
      · simp [h1]
      · by_cases h2 : lt b a = true
        · simp [h1, h2]
        · simp [h1, h2]

/-- `operator==` compares the elements of two views; `operator<` decides their lexicographic order, and `operator>=` is its negation. -/
theorem C180_iter_view_compare [DecidableEq α] (lt : α → α → Bool) {z z' : Parts α} {mem mem' : List α} {v v' : IView} (h : z.IOf mem v)
    (h' : z'.IOf mem' v') :
    IView.eq mem mem' v v' = pure (decide (z.cur = z'.cur)) ∧
    ∃ b, IView.less lt mem mem' v v' = pure b ∧ IView.greaterEq lt mem mem' v v' = pure (!b) ∧ (b = true ↔ Algorithm.LexLess lt z.cur z'.cur) := by
  constructor
  · unfold IView.eq
    rw [h.size_eq, h'.size_eq]
    by_cases hl : z.cur.length = z'.cur.length
    · rw [if_pos hl, h.first_eq, h.last_eq, h'.first_eq, h'.last_eq]
      exact stdEqual4_spec mem mem' _ _ _ _ _ _ h.mem_eq h'.mem_eq
    · rw [if_neg hl]
      have : z.cur ≠ z'.cur := fun e => hl (by rw [e])
      simp [this]
  · have e : IView.less lt mem mem' v v' = pure (Algorithm.lexCompare lt z.cur z'.cur) := by
      unfold IView.less
      rw [h.first_eq, h.last_eq, h'.first_eq, h'.last_eq]
      exact stdLex_spec lt mem mem' _ _ _ _ _ _ h.mem_eq h'.mem_eq
    refine ⟨_, e, ?_, Algorithm.C26_lexicographical_compare lt _ _⟩
    unfold IView.greaterEq
    rw [e]; rfl

example : (⟨[1], [2, 3], []⟩ : Parts Nat).IOf [1, 2, 3] ⟨1, 3, 2⟩ := ⟨rfl, rfl, rfl, rfl, by decide⟩

/-- `subspan( 0, count )` is the view of the first `count` elements. -/
theorem C181_subspan_partial {z : Parts α} {mem : List α} {v : IView} (random : Bool) (h : z.IOf mem v) (count : Nat) :
    ∃ r, v.subspan random mem 0 count = pure r ∧ r.elems mem = z.cur.take count ∧ r.size = (z.cur.take count).length := by
  have hl := ilen h
  have hf := h.first_eq
  have hsz := h.size_eq
  refine ⟨⟨v.first, v.first + min count z.cur.length, min count z.cur.length⟩, ?_, ?_, ?_⟩
  · unfold IView.subspan IView.make distance
    simp only [Nat.min_zero, Nat.sub_zero]
    rw [hsz, ptrAdd_ok (by omega), pure_bind, ptrAdd_ok (by omega), pure_bind, Nat.add_zero, if_pos (by omega), pure_bind, Nat.add_sub_cancel_left]
  · unfold IView.elems
    simp only []
    rw [Nat.add_sub_cancel_left, hf, slice_mid h.mem_eq (by omega)]
    rcases Nat.le_total count z.cur.length with g | g
    · rw [Nat.min_eq_left g]
    · rw [Nat.min_eq_right g, List.take_length, List.take_of_length_le g]
  · simp

example := C181_subspan_partial (z := ⟨[1], [2, 3, 4], [5]⟩) (mem := [1, 2, 3, 4, 5]) (v := ⟨1, 4, 3⟩) true ⟨rfl, rfl, rfl, rfl, by decide⟩ 2

/-- For an offset, the end is counted from the start of the view: the part has `offset` elements too few, and if there are not as many, random access iterators make a
view of nearly 2^64 elements, while the distance of other iterators is undefined. -/
theorem C181_subspan_violated {z : Parts α} {mem : List α} {v : IView} (h : z.IOf mem v) (offset count : Nat) (ho : offset + count ≤ z.cur.length) :
    (offset ≤ count → ∀ random, v.subspan random mem offset count = pure ⟨v.first + offset, v.first + count, count - offset⟩) ∧
    (count < offset → v.subspan true mem offset count = pure ⟨v.first + offset, v.first + count, 2 ^ 64 - (offset - count)⟩ ∧
      v.subspan false mem offset count = ub) := by
  have hl := ilen h
  have hf := h.first_eq
  have hsz := h.size_eq
  have hmin : min count (v.size - min v.size offset) = count := by rw [hsz]; omega
  have hd : v.first + count - (v.first + offset) = count - offset := by omega
  have hd' : v.first + offset - (v.first + count) = offset - count := by omega
  constructor
  · intro g random
    unfold IView.subspan IView.make distance
    simp only [hmin]
    rw [ptrAdd_ok (by omega), pure_bind, ptrAdd_ok (by omega), pure_bind, if_pos (by omega), pure_bind, hd]
  · intro g
    constructor
    · unfold IView.subspan IView.make distance
      simp only [hmin]
      rw [ptrAdd_ok (by omega), pure_bind, ptrAdd_ok (by omega), pure_bind, if_neg (by omega), if_pos trivial, pure_bind, hd']
    · unfold IView.subspan IView.make distance
      simp only [hmin]
      rw [ptrAdd_ok (by omega), pure_bind, ptrAdd_ok (by omega), pure_bind, if_neg (by omega)]
      rfl

example : (⟨0, 6, 6⟩ : IView).subspan true [1, 2, 3, 4, 5, 6] 2 3 = pure ⟨2, 3, 1⟩ := by decide +kernel

/-! ## view -/

/-- `view`, daw_view.h 59-61. -/
structure View where
  first : Nat
  last : Nat
  size : Int
  deriving DecidableEq

/-- The constructor, daw_view.h 64-67, for an end that is not before the start. -/
def View.make (first last : Nat) : View := ⟨first, last, (last : Int) - first⟩

/-- `empty`, daw_view.h 69-71. -/
def View.empty (v : View) : Bool := v.size ≤ 0

/-- `size`, daw_view.h 73-78. -/
def View.usize (v : View) : Nat := if v.empty then 0 else v.size.toNat

/-- `back`, daw_view.h 150-156. -/
def View.back (mem : List α) (v : View) : Cxx α := do
  let p ← ptrSub v.last 1
  rd mem p

/-- `at`, daw_view.h 167-175, with `operator[]`, 158-165. -/
def View.atPos (mem : List α) (v : View) (index : Nat) : Cxx α := if index < v.usize then rd mem (v.first + index) else thrown

/-- `remove_prefix( n )`, daw_view.h 177-180. -/
def View.removePrefix (mem : List α) (v : View) (n : Nat) : Cxx View := do
  let first ← ptrAdd mem v.first n
  pure ⟨first, v.last, v.size - n⟩

/-- `remove_suffix( n )`, daw_view.h 186-189. -/
def View.removeSuffix (v : View) (n : Nat) : Cxx View := do
  let last ← ptrSub v.last n
  pure ⟨v.first, last, v.size - n⟩

/-- `pop_front( n )`, daw_view.h 195-203. -/
def View.popFrontN (mem : List α) (v : View) (n : Nat) : Cxx (View × View) := do
  let n := if n > v.usize then v.usize else n
  let last ← ptrAdd mem v.first n
  let result := View.make v.first last
  let v ← v.removePrefix mem n
  pure (result, v)

/-- `pop_front( )`, daw_view.h 205-209. -/
def View.popFront (mem : List α) (v : View) : Cxx (α × View) := do
  let result ← rd mem v.first
  let v ← v.removePrefix mem 1
  pure (result, v)

/-- `pop_back( n )`, daw_view.h 211-218. -/
def View.popBackN (v : View) (n : Nat) : Cxx (View × View) := do
  let n := if n > v.usize then v.usize else n
  let first ← ptrSub v.last n
  let result := View.make first v.last
  let v ← v.removeSuffix n
  pure (result, v)

/-- `pop_back( )`, daw_view.h 220-224. -/
def View.popBack (mem : List α) (v : View) : Cxx (α × View) := do
  let result ← v.back mem
  let v ← v.removeSuffix 1
  pure (result, v)

/-- `pop( result )`, daw_view.h 226-233. -/
def View.pop (mem : List α) (v : View) : Cxx (Option α × View) :=
  if v.empty then pure (none, v)
  else do
    let result ← rd mem v.first
    let v ← v.removePrefix mem 1
    pure (some result, v)

/-- What a program does with a view. (Specification, no line of the source.) -/
inductive DOp where
  | removePrefix (n : Nat)
  | removeSuffix (n : Nat)
  | popFront
  | popFrontN (n : Nat)
  | popBack
  | popBackN (n : Nat)
  | pop

/-- The elements of a view. (Specification, no line of the source.) -/
def View.elems (mem : List α) (v : View) : List α := (mem.drop v.first).take (v.last - v.first)

/-- One operation and what it returns. (Specification, no line of the source.) -/
def View.step (mem : List α) (v : View) : DOp → Cxx (List α × View)
  | .removePrefix n => do let v ← v.removePrefix mem n; pure ([], v)
  | .removeSuffix n => do let v ← v.removeSuffix n; pure ([], v)
  | .popFront => do let (a, v) ← v.popFront mem; pure ([a], v)
  | .popFrontN n => do let (r, v) ← v.popFrontN mem n; pure (r.elems mem, v)
  | .popBack => do let (a, v) ← v.popBack mem; pure ([a], v)
  | .popBackN n => do let (r, v) ← v.popBackN n; pure (r.elems mem, v)
  | .pop => do let (a, v) ← v.pop mem; pure (a.toList, v)

/-- The operation on a list; `none` if the program may not ask for it. (Specification, no line of the source.) -/
def dlist (l : List α) : DOp → Option (List α × List α)
  | .removePrefix n => if n ≤ l.length then some ([], l.drop n) else none
  | .removeSuffix n => if n ≤ l.length then some ([], l.take (l.length - n)) else none
  | .popFront => match l with
    | [] => none
    | a :: l => some ([a], l)
  | .popFrontN n => some (l.take n, l.drop n)
  | .popBack => match l.getLast? with
    | none => none
    | some a => some ([a], l.dropLast)
  | .popBackN n => some (l.drop (l.length - n), l.take (l.length - n))
  | .pop => some (l.head?.toList, l.tail)

/-- The view is of a part of the sequence and knows its size. (Specification, no line of the source.) -/
structure View.Ok (mem : List α) (v : View) : Prop where
  le : v.first ≤ v.last
  bound : v.last ≤ mem.length
  size_eq : v.size = (v.last : Int) - v.first

theorem dlen {mem : List α} {v : View} (h : v.Ok mem) : (v.elems mem).length = v.last - v.first := by
  have := h.bound
  unfold View.elems
  rw [List.length_take, List.length_drop]; omega

theorem dusize {mem : List α} {v : View} (h : v.Ok mem) : v.usize = v.last - v.first := by
  have := h.le
  unfold View.usize View.empty
  rw [h.size_eq]
  split
  · rename_i g; simp only [decide_eq_true_eq] at g; omega
  · omega

theorem dforward {mem : List α} {v : View} (h : v.Ok mem) {n : Nat} (hn : n ≤ v.last - v.first) :
    v.removePrefix mem n = pure ⟨v.first + n, v.last, v.size - n⟩ ∧ View.Ok mem ⟨v.first + n, v.last, v.size - n⟩ ∧
      View.elems mem ⟨v.first + n, v.last, v.size - n⟩ = (v.elems mem).drop n := by
  have h1 := h.le
  have h2 := h.bound
  refine ⟨?_, ⟨by simp only []; omega, h2, ?_⟩, ?_⟩
  · unfold View.removePrefix
    rw [ptrAdd_ok (by omega)]; rfl
  · show v.size - n = v.last - ((v.first + n : Nat) : Int)
    rw [h.size_eq]; push_cast; omega
  · unfold View.elems
    simp only []
    rw [List.drop_take, List.drop_drop]
    congr 1
    omega

theorem dbackward {mem : List α} {v : View} (h : v.Ok mem) {n : Nat} (hn : n ≤ v.last - v.first) :
    v.removeSuffix n = pure ⟨v.first, v.last - n, v.size - n⟩ ∧ View.Ok mem ⟨v.first, v.last - n, v.size - n⟩ ∧
      View.elems mem ⟨v.first, v.last - n, v.size - n⟩ = (v.elems mem).take ((v.elems mem).length - n) := by
  have h1 := h.le
  have h2 := h.bound
  refine ⟨?_, ⟨by simp only []; omega, by simp only []; omega, ?_⟩, ?_⟩
  · unfold View.removeSuffix
    rw [ptrSub_ok (by omega)]; rfl
  · show v.size - n = ((v.last - n : Nat) : Int) - v.first
    rw [h.size_eq]; omega
  · rw [dlen h]
    unfold View.elems
    simp only []
    rw [List.take_take]
    congr 1
    omega

theorem dread {mem : List α} {v : View} (h : v.Ok mem) {i : Nat} {a : α} (ha : (v.elems mem)[i]? = some a) : rd mem (v.first + i) = pure a := by
  have hi : i < v.last - v.first := by
    rw [← dlen h]
    rcases Nat.lt_or_ge i (v.elems mem).length with g | g
    · exact g
    · rw [List.getElem?_eq_none g] at ha; cases ha
  unfold View.elems at ha
  rw [List.getElem?_take_of_lt hi, List.getElem?_drop] at ha
  exact rd_some ha

theorem dstep {mem : List α} {v : View} (h : v.Ok mem) (op : DOp) {out l' : List α} (hz : dlist (v.elems mem) op = some (out, l')) :
    ∃ v', v.step mem op = pure (out, v') ∧ v'.Ok mem ∧ v'.elems mem = l' := by
  have hl := dlen h
  have hu := dusize h
  have hle := h.le
  have hb := h.bound
  cases op with
  | removePrefix n =>
    simp only [dlist] at hz
    split at hz
    · injection hz with hz; injection hz with ho hz; subst ho hz
      obtain ⟨e, h1, h2⟩ := dforward h (n := n) (by omega)
      exact ⟨_, by simp only [View.step]; rw [e]; rfl, h1, h2⟩
    · cases hz
  | removeSuffix n =>
    simp only [dlist] at hz
    split at hz
    · injection hz with hz; injection hz with ho hz; subst ho hz
      obtain ⟨e, h1, h2⟩ := dbackward h (n := n) (by omega)
      exact ⟨_, by simp only [View.step]; rw [e]; rfl, h1, h2⟩
    · cases hz
  | popFront =>
    cases el : v.elems mem with
    | nil => rw [el] at hz; cases hz
    | cons a l =>
      rw [el] at hz
      injection hz with hz; injection hz with ho hz; subst ho hz
      have hp : 1 ≤ v.last - v.first := by rw [← hl, el]; simp
      obtain ⟨e, h1, h2⟩ := dforward h hp
      refine ⟨_, ?_, h1, by rw [h2, el]; rfl⟩
      have hr := dread h (i := 0) (a := a) (by rw [el]; rfl)
      rw [Nat.add_zero] at hr
      simp only [View.step, View.popFront]
      rw [hr, pure_bind, e]; rfl
  | popFrontN n =>
    injection hz with hz; injection hz with ho hz; subst ho hz
    have hn : (if n > v.usize then v.usize else n) = min n (v.last - v.first) := by rw [hu]; split <;> omega
    obtain ⟨e, h1, h2⟩ := dforward h (n := min n (v.last - v.first)) (by omega)
    refine ⟨_, ?_, h1, ?_⟩
    · simp only [View.step, View.popFrontN, hn]
      rw [ptrAdd_ok (by omega), pure_bind, e]
      simp only [pure_bind]
      congr 2
      unfold View.elems View.make
      simp only []
      rw [List.take_take]
      congr 1
      omega
    · rw [h2]
      rcases Nat.le_total n (v.last - v.first) with g | g
      · rw [Nat.min_eq_left g]
      · rw [Nat.min_eq_right g, List.drop_eq_nil_of_le (by omega), List.drop_eq_nil_of_le (by omega)]
  | popBack =>
    simp only [dlist] at hz
    split at hz
    · cases hz
    · rename_i a ha
      injection hz with hz; injection hz with ho hz; subst ho hz
      rw [List.getLast?_eq_getElem?, hl] at ha
      have hp : 1 ≤ v.last - v.first := by
        rcases Nat.lt_or_ge 0 (v.last - v.first) with g | g
        · exact g
        · rw [List.getElem?_eq_none (by omega)] at ha; cases ha
      obtain ⟨e, h1, h2⟩ := dbackward h hp
      refine ⟨_, ?_, h1, by rw [h2, List.dropLast_eq_take]⟩
      have hr := dread h ha
      rw [show v.first + (v.last - v.first - 1) = v.last - 1 by omega] at hr
      simp only [View.step, View.popBack, View.back]
      rw [ptrSub_ok (by omega), pure_bind, hr, pure_bind, e]; rfl
  | popBackN n =>
    injection hz with hz; injection hz with ho hz; subst ho hz
    have hn : (if n > v.usize then v.usize else n) = min n (v.last - v.first) := by rw [hu]; split <;> omega
    obtain ⟨e, h1, h2⟩ := dbackward h (n := min n (v.last - v.first)) (by omega)
    refine ⟨_, ?_, h1, ?_⟩
    · simp only [View.step, View.popBackN, hn]
      rw [ptrSub_ok (by omega), pure_bind, e]
      simp only [pure_bind]
      rw [hl]
      congr 2
      unfold View.elems View.make
      simp only []
      rw [List.drop_take, List.drop_drop]
      congr 1
      · omega
      · congr 1; omega
    · rw [h2, hl]
      congr 1
      omega
  | pop =>
    injection hz with hz; injection hz with ho hz; subst ho hz
    simp only [View.step, View.pop]
    cases el : v.elems mem with
    | nil =>
      have : v.last - v.first = 0 := by rw [← hl, el]; rfl
      rw [if_pos (by unfold View.empty; rw [h.size_eq]; simp only [decide_eq_true_eq]; omega)]
      exact ⟨v, rfl, h, el⟩
    | cons a l =>
      have hp : 1 ≤ v.last - v.first := by rw [← hl, el]; simp
      obtain ⟨e, h1, h2⟩ := dforward h hp
      rw [if_neg (by unfold View.empty; rw [h.size_eq]; simp only [decide_eq_true_eq]; omega)]
      have hr := dread h (i := 0) (a := a) (by rw [el]; rfl)
      rw [Nat.add_zero] at hr
      rw [hr, pure_bind, e]
      exact ⟨_, rfl, h1, by rw [h2, el]; rfl⟩

/-- A program on a view. (Specification, no line of the source.) -/
def View.run (mem : List α) : List DOp → View → Cxx (List (List α) × View)
  | [], v => pure ([], v)
  | op :: ops, v => do
    let (out, v) ← v.step mem op
    let (outs, v) ← View.run mem ops v
    pure (out :: outs, v)

/-- The program on a list. (Specification, no line of the source.) -/
def dlistRun : List DOp → List α → Option (List (List α) × List α)
  | [], l => some ([], l)
  | op :: ops, l => do
    let (out, l) ← dlist l op
    let (outs, l) ← dlistRun ops l
    some (out :: outs, l)

/-- A `view` of a part of a sequence gives and keeps what a list would, through all programs that remove no more than there is; `pop_front( n )`, `pop_back( n )` and `pop`
may be asked for more. `at` gives the elements and throws where there are none. -/
theorem C182_view (pre cur post : List α) (ops : List DOp) (outs : List (List α)) (l : List α) (hz : dlistRun ops cur = some (outs, l)) :
    ∃ v, View.run (pre ++ cur ++ post) ops (View.make pre.length (pre.length + cur.length)) = pure (outs, v) ∧ v.elems (pre ++ cur ++ post) = l ∧
      v.usize = l.length ∧ (v.empty = true ↔ l = []) ∧ ∀ index, v.atPos (pre ++ cur ++ post) index = (l[index]?).elim thrown pure := by
  have key : ∀ (ops : List DOp) (v0 : View) (outs : List (List α)), v0.Ok (pre ++ cur ++ post) →
      dlistRun ops (v0.elems (pre ++ cur ++ post)) = some (outs, l) →
      ∃ v, View.run (pre ++ cur ++ post) ops v0 = pure (outs, v) ∧ v.Ok (pre ++ cur ++ post) ∧ v.elems (pre ++ cur ++ post) = l := by
    intro ops
    induction ops with
    | nil =>
      intro v0 outs h e
      injection e with e; injection e with e1 e2
      subst e1
      exact ⟨v0, rfl, h, e2⟩
    | cons op ops ih =>
      intro v0 outs h e
      unfold dlistRun at e
      cases e1 : dlist (v0.elems (pre ++ cur ++ post)) op with
      | none => rw [e1] at e; cases e
      | some p =>
        obtain ⟨out, l1⟩ := p
        rw [e1] at e
        cases e2 : dlistRun ops l1 with
        | none => simp [e2] at e
        | some q =>
          obtain ⟨outs', l2⟩ := q
          simp only [e2, Option.bind_eq_bind, Option.bind_some, Option.some.injEq, Prod.mk.injEq] at e
          obtain ⟨rfl, rfl⟩ := e
          obtain ⟨v1, r1, h1, rfl⟩ := dstep h op e1
          obtain ⟨v2, r2, h2, h3⟩ := ih v1 outs' h1 e2
          refine ⟨v2, ?_, h2, h3⟩
          unfold View.run
          rw [r1]
          simp only [pure_bind]
          rw [r2]
          rfl
  have h0 : (View.make pre.length (pre.length + cur.length)).Ok (pre ++ cur ++ post) :=
    ⟨by unfold View.make; simp only []; omega, by unfold View.make; simp, rfl⟩
  have he : (View.make pre.length (pre.length + cur.length)).elems (pre ++ cur ++ post) = cur := by
    unfold View.elems View.make
    simp
  obtain ⟨v, r, h, e⟩ := key ops _ outs h0 (by rw [he]; exact hz)
  have hl := dlen h
  have hu : v.usize = l.length := by rw [dusize h, ← hl, e]
  refine ⟨v, r, e, hu, ?_, ?_⟩
  · have hle := h.le
    rw [e] at hl
    unfold View.empty
    rw [h.size_eq, ← List.length_eq_zero_iff, hl]
    simp only [decide_eq_true_eq]
    omega
  · intro index
    unfold View.atPos
    rw [hu]
    by_cases hi : index < l.length
    · rw [if_pos hi, List.getElem?_eq_getElem hi]
      exact dread h (by rw [e, List.getElem?_eq_getElem hi])
    · rw [if_neg hi, List.getElem?_eq_none (by omega)]
      rfl

example : dlistRun [.popFrontN 2, .popBack, .pop, .popBackN 9, .pop] [1, 2, 3, 4, 5] = some ([[1, 2], [5], [3], [4], []], []) := by decide +kernel

end Verif.Views
