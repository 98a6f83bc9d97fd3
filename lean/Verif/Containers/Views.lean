import Verif.Containers.Lists

/-
include/daw/daw_contiguous_view.h and daw_span.h.
-/

namespace Verif.Views
open Cxx
variable {α : Type}

/-! ## contiguous_view -/

/-- `contiguous_view`, daw_contiguous_view.h 46-47 and 448-449: the pointers are positions of the array `mem` the view is of. The lines cited below are those of the
view of `const` elements, with those of the other one in brackets. -/
structure CView where
  first : Nat
  last : Nat
  deriving DecidableEq

/-- `assert`, if it is compiled in. (Rule of C++ or its library, no line of the source.) -/
def check (asserts : Bool) (c : Prop) [Decidable c] : Cxx Unit := if asserts = true ∧ ¬ c then abort else pure ()

/-- A pointer `p + n` into the array or to its end. (Rule of C++ or its library, no line of the source.) -/
def ptrAdd (mem : List α) (p n : Nat) : Cxx Nat := if p + n ≤ mem.length then pure (p + n) else ub

/-- A pointer `p - n` into the array. (Rule of C++ or its library, no line of the source.) -/
def ptrSub (p n : Nat) : Cxx Nat := if n ≤ p then pure (p - n) else ub

/-- `size`, daw_contiguous_view.h 577-579 (181-183). -/
def CView.size (v : CView) : Nat := if v.first ≤ v.last then v.last - v.first else 2 ^ 64 - (v.first - v.last)

/-- `remove_prefix( count )`, daw_contiguous_view.h 616-619 (240-243). -/
def CView.removePrefix (mem : List α) (v : CView) (count : Nat) : Cxx CView := do
  let first ← ptrAdd mem v.first (min count v.size)
  pure { v with first := first }

/-- `remove_prefix( count, dont_clip_to_bounds )`, daw_contiguous_view.h 621-625 (245-249). -/
def CView.removePrefixNoClip (asserts : Bool) (mem : List α) (v : CView) (count : Nat) : Cxx CView := do
  check asserts (v.size ≥ count)
  let first ← ptrAdd mem v.first count
  pure { v with first := first }

/-- `remove_suffix( count )`, daw_contiguous_view.h 631-634 (255-258). -/
def CView.removeSuffix (v : CView) (count : Nat) : Cxx CView := do
  let last ← ptrSub v.last (min count v.size)
  pure { v with last := last }

/-- `remove_suffix( count, dont_clip_to_bounds )`, daw_contiguous_view.h 636-640 (260-264). -/
def CView.removeSuffixNoClip (asserts : Bool) (v : CView) (count : Nat) : Cxx CView := do
  check asserts (v.size ≥ count)
  let last ← ptrSub v.last count
  pure { v with last := last }

/-- `add_prefix( n )`, daw_contiguous_view.h 499-501 (103-105). -/
def CView.addPrefix (v : CView) (n : Nat) : Cxx CView := do
  let first ← ptrSub v.first n
  pure { v with first := first }

/-- `add_suffix( n )`, daw_contiguous_view.h 509-511 (113-115). -/
def CView.addSuffix (mem : List α) (v : CView) (n : Nat) : Cxx CView := do
  let last ← ptrAdd mem v.last n
  pure { v with last := last }

/-- `pop_front( )`, daw_contiguous_view.h 646-649 (270-273). -/
def CView.popFront (asserts : Bool) (mem : List α) (v : CView) : Cxx (α × CView) := do
  check asserts (v.first ≠ v.last)
  let a ← rd mem v.first
  pure (a, { v with first := v.first + 1 })

/-- `pop_back( )`, daw_contiguous_view.h 651-654 (275-278). -/
def CView.popBack (asserts : Bool) (mem : List α) (v : CView) : Cxx (α × CView) := do
  check asserts (v.first ≠ v.last)
  let last ← ptrSub v.last 1
  let a ← rd mem last
  pure (a, { v with last := last })

/-- The loops of `find_raw`, daw_contiguous_view.h 657-673 (281-297), with `stop a` for `a == needle`, and of `find_first_not_of_raw` 675-691 (299-315), with
`stop a` for `a != needle`. -/
def findRaw (mem : List α) (stop : α → Bool) (pos last : Nat) : Cxx Nat :=
  if pos < last then do
    let a ← rd mem pos
    if stop a then pure pos else findRaw mem stop (pos + 1) last
  else if pos = last then pure pos else ub
termination_by last - pos

/-- `remove_prefix_until( needle )`, daw_contiguous_view.h 720-726 (344-350), and `remove_prefix_while( needle )` 735-740 (359-364). -/
def CView.removeUntil (asserts : Bool) (mem : List α) (stop : α → Bool) (v : CView) : Cxx CView := do
  let pos ← findRaw mem stop v.first v.last
  v.removePrefixNoClip asserts mem (pos - v.first)

/-- The same with `discard`, daw_contiguous_view.h 713-718 (337-342) and 728-733 (352-357). -/
def CView.removeUntilDiscard (mem : List α) (stop : α → Bool) (v : CView) : Cxx CView := do
  let pos ← findRaw mem stop v.first v.last
  v.removePrefix mem ((pos - v.first) + 1)

/-- `pop_front_until( needle )`, daw_contiguous_view.h 742-747 (366-371), and `pop_front_while( needle )` 758-763 (382-387). -/
def CView.popUntil (asserts : Bool) (mem : List α) (stop : α → Bool) (v : CView) : Cxx (CView × CView) := do
  let f := v.first
  let v ← v.removeUntil asserts mem stop
  pure (⟨f, v.first⟩, v)

/-- The same with `discard`, daw_contiguous_view.h 749-756 (373-380) and 765-772 (389-396). -/
def CView.popUntilDiscard (asserts : Bool) (mem : List α) (stop : α → Bool) (v : CView) : Cxx (CView × CView) := do
  let f := v.first
  let v ← v.removeUntil asserts mem stop
  let result : CView := ⟨f, v.first⟩
  let v ← v.removePrefix mem 1
  pure (result, v)

/-- `at`, daw_contiguous_view.h 602-614 (226-238). -/
def CView.atPos (mem : List α) (v : CView) (index : Nat) : Cxx α :=
  if index ≥ v.size then thrown else rd mem (v.first + index)

/-- `operator[]` of a view of `const` elements, daw_contiguous_view.h 585-594. -/
def CView.index (asserts : Bool) (mem : List α) (v : CView) (index : Nat) : Cxx α := do
  check asserts (index < v.size)
  rd mem (v.first + index)

/-- `operator[]` of a view of other elements, daw_contiguous_view.h 189-198. -/
def CView.indexMutable (asserts : Bool) (mem : List α) (v : CView) (index : Nat) : Cxx α := do
  check asserts (v.size ≥ index)
  rd mem (v.first + index)

/-- `subspan`, daw_contiguous_view.h 487-491. That of the other view, 90-95, does not compile. -/
def CView.subspan (mem : List α) (v : CView) (offset count : Nat) : Cxx CView := do
  let sz := min count (v.size - min v.size offset)
  let first ← ptrAdd mem v.first offset
  let last ← ptrAdd mem v.first sz
  pure ⟨first, last⟩

/-- The loop of `std::equal`, with three iterators. (Rule of C++ or its library, no line of the source.) -/
def stdEqual [DecidableEq α] (mem mem' : List α) (first last first' : Nat) : Cxx Bool :=
  if first < last then do
    let a ← rd mem first
    let b ← rd mem' first'
    if a = b then stdEqual mem mem' (first + 1) last (first' + 1) else pure false
  else pure true
termination_by last - first

/-- `operator==`, daw_contiguous_view.h 774-779 (398-403). -/
def CView.eq [DecidableEq α] (mem mem' : List α) (x y : CView) : Cxx Bool :=
  if x.size = y.size then stdEqual mem mem' x.first x.last y.first else pure false

/-- What is before the view, in it, and behind it. (Specification, no line of the source.) -/
structure Parts (α : Type) where
  pre : List α
  cur : List α
  post : List α
  deriving DecidableEq

/-- The view of `mem` has these parts. (Specification, no line of the source.) -/
structure Parts.Of (z : Parts α) (mem : List α) (v : CView) : Prop where
  mem_eq : mem = z.pre ++ z.cur ++ z.post
  first_eq : v.first = z.pre.length
  last_eq : v.last = z.pre.length + z.cur.length

/-- What a program does with a view. (Specification, no line of the source.) -/
inductive VOp (α : Type) where
  | removePrefix (n : Nat)
  | removePrefixNoClip (n : Nat)
  | removeSuffix (n : Nat)
  | removeSuffixNoClip (n : Nat)
  | addPrefix (n : Nat)
  | addSuffix (n : Nat)
  | popFront
  | popBack
  | removeUntil (stop : α → Bool)
  | removeUntilDiscard (stop : α → Bool)
  | popUntil (stop : α → Bool)
  | popUntilDiscard (stop : α → Bool)

/-- What an operation of a program returns: nothing, an element or another view. (Specification, no line of the source.) -/
def CView.step (asserts : Bool) (mem : List α) (v : CView) : VOp α → Cxx (List α × CView)
  | .removePrefix n => do let v ← v.removePrefix mem n; pure ([], v)
  | .removePrefixNoClip n => do let v ← v.removePrefixNoClip asserts mem n; pure ([], v)
  | .removeSuffix n => do let v ← v.removeSuffix n; pure ([], v)
  | .removeSuffixNoClip n => do let v ← v.removeSuffixNoClip asserts n; pure ([], v)
  | .addPrefix n => do let v ← v.addPrefix n; pure ([], v)
  | .addSuffix n => do let v ← v.addSuffix mem n; pure ([], v)
  | .popFront => do let (a, v) ← v.popFront asserts mem; pure ([a], v)
  | .popBack => do let (a, v) ← v.popBack asserts mem; pure ([a], v)
  | .removeUntil stop => do let v ← v.removeUntil asserts mem stop; pure ([], v)
  | .removeUntilDiscard stop => do let v ← v.removeUntilDiscard mem stop; pure ([], v)
  | .popUntil stop => do
    let (r, v) ← v.popUntil asserts mem stop
    pure ((mem.drop r.first).take (r.last - r.first), v)
  | .popUntilDiscard stop => do
    let (r, v) ← v.popUntilDiscard asserts mem stop
    pure ((mem.drop r.first).take (r.last - r.first), v)

/-- The operation on the three lists; `none` if the program may not ask for it. (Specification, no line of the source.) -/
def Parts.step (z : Parts α) : VOp α → Option (List α × Parts α)
  | .removePrefix n => some ([], ⟨z.pre ++ z.cur.take n, z.cur.drop n, z.post⟩)
  | .removePrefixNoClip n => if n ≤ z.cur.length then some ([], ⟨z.pre ++ z.cur.take n, z.cur.drop n, z.post⟩) else none
  | .removeSuffix n => some ([], ⟨z.pre, z.cur.take (z.cur.length - n), z.cur.drop (z.cur.length - n) ++ z.post⟩)
  | .removeSuffixNoClip n =>
    if n ≤ z.cur.length then some ([], ⟨z.pre, z.cur.take (z.cur.length - n), z.cur.drop (z.cur.length - n) ++ z.post⟩) else none
  | .addPrefix n =>
    if n ≤ z.pre.length then some ([], ⟨z.pre.take (z.pre.length - n), z.pre.drop (z.pre.length - n) ++ z.cur, z.post⟩) else none
  | .addSuffix n => if n ≤ z.post.length then some ([], ⟨z.pre, z.cur ++ z.post.take n, z.post.drop n⟩) else none
  | .popFront =>
    match z.cur with
    | [] => none
    | a :: rest => some ([a], ⟨z.pre ++ [a], rest, z.post⟩)
  | .popBack =>
    match z.cur.getLast? with
    | none => none
    | some a => some ([a], ⟨z.pre, z.cur.dropLast, a :: z.post⟩)
  | .removeUntil stop => some ([], ⟨z.pre ++ z.cur.takeWhile (!stop ·), z.cur.dropWhile (!stop ·), z.post⟩)
  | .removeUntilDiscard stop =>
    some ([], ⟨z.pre ++ z.cur.takeWhile (!stop ·) ++ (z.cur.dropWhile (!stop ·)).take 1, (z.cur.dropWhile (!stop ·)).drop 1, z.post⟩)
  | .popUntil stop =>
    some (z.cur.takeWhile (!stop ·), ⟨z.pre ++ z.cur.takeWhile (!stop ·), z.cur.dropWhile (!stop ·), z.post⟩)
  | .popUntilDiscard stop =>
    some (z.cur.takeWhile (!stop ·),
      ⟨z.pre ++ z.cur.takeWhile (!stop ·) ++ (z.cur.dropWhile (!stop ·)).take 1, (z.cur.dropWhile (!stop ·)).drop 1, z.post⟩)

theorem size_of {z : Parts α} {mem : List α} {v : CView} (h : z.Of mem v) : v.size = z.cur.length := by
  obtain ⟨_, h1, h2⟩ := h
  unfold CView.size
  rw [h1, h2, if_pos (by omega)]
  omega

theorem check_ok (asserts : Bool) {c : Prop} [Decidable c] (h : c) : check asserts c = pure () := by
  unfold check
  rw [if_neg (fun h' => h'.2 h)]

theorem ptrAdd_ok {mem : List α} {p n : Nat} (h : p + n ≤ mem.length) : ptrAdd mem p n = pure (p + n) := if_pos h

theorem ptrSub_ok {p n : Nat} (h : n ≤ p) : ptrSub p n = pure (p - n) := if_pos h

theorem len_of {z : Parts α} {mem : List α} {v : CView} (h : z.Of mem v) : mem.length = z.pre.length + z.cur.length + z.post.length := by
  rw [h.mem_eq]; simp; omega

/-- Moving the start forward by `n`. -/
theorem of_forward {z : Parts α} {mem : List α} {v : CView} (h : z.Of mem v) {n : Nat} (hn : n ≤ z.cur.length) :
    (⟨z.pre ++ z.cur.take n, z.cur.drop n, z.post⟩ : Parts α).Of mem ⟨v.first + n, v.last⟩ := by
  refine ⟨?_, ?_, ?_⟩
  · rw [h.mem_eq]
    simp only [List.append_assoc]
    rw [← List.append_assoc (z.cur.take n), List.take_append_drop]
  · simp [h.first_eq, Nat.min_eq_left hn]
  · simp [h.last_eq, Nat.min_eq_left hn]; omega

theorem of_backward {z : Parts α} {mem : List α} {v : CView} (h : z.Of mem v) {n : Nat} (hn : n ≤ z.cur.length) :
    (⟨z.pre, z.cur.take (z.cur.length - n), z.cur.drop (z.cur.length - n) ++ z.post⟩ : Parts α).Of mem ⟨v.first, v.last - n⟩ := by
  refine ⟨?_, h.first_eq, ?_⟩
  · rw [h.mem_eq]
    simp only [List.append_assoc]
    rw [← List.append_assoc (z.cur.take _), List.take_append_drop]
  · simp [h.last_eq]; omega

theorem findRaw_spec (mem : List α) (stop : α → Bool) (cur : List α) :
    ∀ (pre post : List α), mem = pre ++ cur ++ post →
      findRaw mem stop pre.length (pre.length + cur.length) = pure (pre.length + (cur.takeWhile (!stop ·)).length) := by
  induction cur with
  | nil =>
    intro pre post _
    rw [findRaw]
    simp
  | cons a cur ih =>
    intro pre post hm
    rw [findRaw, if_pos (by simp)]
    rw [rd_some (a := a) (by rw [hm]; simp), pure_bind]
    by_cases hs : stop a = true
    · rw [if_pos hs]; simp [hs]
    · rw [if_neg hs]
      have := ih (pre ++ [a]) post (by rw [hm]; simp)
      simp only [List.length_append, List.length_cons, List.length_nil] at this
      rw [List.length_cons, show pre.length + (cur.length + 1) = pre.length + (0 + 1) + cur.length by omega, this]
      simp only [List.takeWhile_cons, hs, Bool.not_false, if_true, List.length_cons]
      congr 1
      omega

theorem until_ok {z : Parts α} {mem : List α} {v : CView} (asserts : Bool) (h : z.Of mem v) (stop : α → Bool) :
    v.removeUntil asserts mem stop = pure ⟨v.first + (z.cur.takeWhile (!stop ·)).length, v.last⟩ := by
  have hl := len_of h
  have hle : (z.cur.takeWhile (!stop ·)).length ≤ z.cur.length := (List.takeWhile_sublist _).length_le
  unfold CView.removeUntil
  rw [h.first_eq, h.last_eq, findRaw_spec mem stop z.cur z.pre z.post h.mem_eq, pure_bind]
  unfold CView.removePrefixNoClip
  rw [check_ok _ (by rw [size_of h]; omega), pure_bind, ptrAdd_ok (by rw [h.first_eq]; omega), pure_bind]
  congr 2
  · rw [h.first_eq]; omega
  · exact h.last_eq

theorem drop_takeWhile (p : α → Bool) (l : List α) : l.take (l.takeWhile p).length = l.takeWhile p ∧ l.drop (l.takeWhile p).length = l.dropWhile p := by
  induction l with
  | nil => simp
  | cons a l ih =>
    by_cases h : p a = true
    · simp [h, ih.1, ih.2]
    · simp [h]

theorem slice_mid {mem pre cur post : List α} (h : mem = pre ++ cur ++ post) {n : Nat} (hn : n ≤ cur.length) :
    (mem.drop pre.length).take n = cur.take n := by
  rw [h, List.append_assoc, List.drop_left, List.take_append_of_le_length hn]

theorem step_of {z : Parts α} {mem : List α} {v : CView} (asserts : Bool) (h : z.Of mem v) (op : VOp α) {out : List α} {z' : Parts α}
    (hz : z.step op = some (out, z')) : ∃ v', v.step asserts mem op = pure (out, v') ∧ z'.Of mem v' := by
  have hl := len_of h
  have hsz := size_of h
  have hf := h.first_eq
  have hla := h.last_eq
  cases op with
  | removePrefix n =>
    injection hz with hz; injection hz with ho hz; subst ho hz
    refine ⟨⟨v.first + min n z.cur.length, v.last⟩, ?_, ?_⟩
    · simp only [CView.step, CView.removePrefix]
      rw [hsz, ptrAdd_ok (by omega)]; rfl
    · have := of_forward h (n := min n z.cur.length) (by omega)
      rcases Nat.le_total n z.cur.length with g | g
      · rwa [Nat.min_eq_left g] at this ⊢
      · rw [Nat.min_eq_right g] at this ⊢
        rw [List.take_of_length_le g, List.drop_eq_nil_of_le g]
        rwa [List.take_length, List.drop_length] at this
  | removePrefixNoClip n =>
    simp only [Parts.step] at hz
    split at hz
    · rename_i g
      injection hz with hz; injection hz with ho hz; subst ho hz
      refine ⟨⟨v.first + n, v.last⟩, ?_, of_forward h g⟩
      simp only [CView.step, CView.removePrefixNoClip]
      rw [check_ok _ (by omega), pure_bind, ptrAdd_ok (by omega)]; rfl
    · cases hz
  | removeSuffix n =>
    injection hz with hz; injection hz with ho hz; subst ho hz
    refine ⟨⟨v.first, v.last - min n z.cur.length⟩, ?_, ?_⟩
    · simp only [CView.step, CView.removeSuffix]
      rw [hsz, ptrSub_ok (by omega)]; rfl
    · have := of_backward h (n := min n z.cur.length) (by omega)
      rwa [show z.cur.length - min n z.cur.length = z.cur.length - n by omega] at this
  | removeSuffixNoClip n =>
    simp only [Parts.step] at hz
    split at hz
    · rename_i g
      injection hz with hz; injection hz with ho hz; subst ho hz
      refine ⟨⟨v.first, v.last - n⟩, ?_, of_backward h g⟩
      simp only [CView.step, CView.removeSuffixNoClip]
      rw [check_ok _ (by omega), pure_bind, ptrSub_ok (by omega)]; rfl
    · cases hz
  | addPrefix n =>
    simp only [Parts.step] at hz
    split at hz
    · rename_i g
      injection hz with hz; injection hz with ho hz; subst ho hz
      refine ⟨⟨v.first - n, v.last⟩, ?_, ?_, ?_, ?_⟩
      · simp only [CView.step, CView.addPrefix]
        rw [ptrSub_ok (by omega)]; rfl
      · show mem = z.pre.take _ ++ (z.pre.drop _ ++ z.cur) ++ z.post
        rw [← List.append_assoc, List.take_append_drop]; exact h.mem_eq
      · simp; omega
      · simp; omega
    · cases hz
  | addSuffix n =>
    simp only [Parts.step] at hz
    split at hz
    · rename_i g
      injection hz with hz; injection hz with ho hz; subst ho hz
      refine ⟨⟨v.first, v.last + n⟩, ?_, ?_, hf, ?_⟩
      · simp only [CView.step, CView.addSuffix]
        rw [ptrAdd_ok (by omega)]; rfl
      · show mem = z.pre ++ (z.cur ++ z.post.take n) ++ z.post.drop n
        rw [h.mem_eq]
        simp only [List.append_assoc, List.take_append_drop]
      · simp; omega
    · cases hz
  | popFront =>
    obtain ⟨pre, cur, post⟩ := z
    cases cur with
    | nil => cases hz
    | cons a cur =>
      injection hz with hz; injection hz with ho hz; subst ho hz
      simp only [List.length_cons] at hl hla hf hsz
      refine ⟨⟨v.first + 1, v.last⟩, ?_, ?_⟩
      · simp only [CView.step, CView.popFront]
        rw [check_ok _ (by omega), pure_bind, rd_some (a := a) (by rw [h.mem_eq, hf]; simp)]; rfl
      · exact of_forward h (n := 1) (by simp)
  | popBack =>
    simp only [Parts.step] at hz
    split at hz
    · cases hz
    · rename_i a ha
      injection hz with hz; injection hz with ho hz; subst ho hz
      have hne : z.cur ≠ [] := by intro e; rw [e] at ha; cases ha
      have hpos : 0 < z.cur.length := List.length_pos_iff.mpr hne
      have hcur : z.cur = z.cur.dropLast ++ [a] := by
        have := List.dropLast_concat_getLast hne
        rw [List.getLast?_eq_some_getLast hne] at ha
        injection ha with ha
        rw [ha] at this; exact this.symm
      refine ⟨⟨v.first, v.last - 1⟩, ?_, ?_, hf, ?_⟩
      · simp only [CView.step, CView.popBack]
        rw [check_ok _ (by omega), pure_bind, ptrSub_ok (by omega), pure_bind, rd_some (a := a) ?_]
        · rfl
        · rw [List.getLast?_eq_getElem?] at ha
          rw [h.mem_eq, hla, List.append_assoc, List.getElem?_append_right (by omega), List.getElem?_append_left (by omega), ← ha]
          congr 1
          omega
      · show mem = z.pre ++ z.cur.dropLast ++ (a :: z.post)
        rw [h.mem_eq]
        conv => lhs; rw [hcur]
        simp
      · simp; omega
  | removeUntil stop =>
    injection hz with hz; injection hz with ho hz; subst ho hz
    refine ⟨⟨v.first + (z.cur.takeWhile (!stop ·)).length, v.last⟩, by simp only [CView.step, until_ok asserts h, pure_bind], ?_⟩
    have := of_forward h (n := (z.cur.takeWhile (!stop ·)).length) (List.takeWhile_sublist _).length_le
    rwa [(drop_takeWhile _ _).1, (drop_takeWhile _ _).2] at this
  | removeUntilDiscard stop =>
    injection hz with hz; injection hz with ho hz; subst ho hz
    have hle : (z.cur.takeWhile (!stop ·)).length ≤ z.cur.length := (List.takeWhile_sublist _).length_le
    have hspl := congrArg List.length (List.takeWhile_append_dropWhile (p := (!stop ·)) (l := z.cur))
    rw [List.length_append] at hspl
    have h1 := of_forward h (n := (z.cur.takeWhile (!stop ·)).length) hle
    rw [(drop_takeWhile _ _).1, (drop_takeWhile _ _).2] at h1
    have h2 := of_forward h1 (n := min 1 (z.cur.dropWhile (!stop ·)).length) (by simp only []; omega)
    have e1 : (z.cur.dropWhile (!stop ·)).take (min 1 (z.cur.dropWhile (!stop ·)).length) = (z.cur.dropWhile (!stop ·)).take 1 := by
      cases z.cur.dropWhile (!stop ·) <;> simp
    have e2 : (z.cur.dropWhile (!stop ·)).drop (min 1 (z.cur.dropWhile (!stop ·)).length) = (z.cur.dropWhile (!stop ·)).drop 1 := by
      cases z.cur.dropWhile (!stop ·) <;> simp
    simp only [] at h2
    rw [e1, e2] at h2
    refine ⟨_, ?_, h2⟩
    simp only [CView.step, CView.removeUntilDiscard]
    rw [hf, hla, findRaw_spec mem stop z.cur z.pre z.post h.mem_eq, pure_bind]
    unfold CView.removePrefix
    rw [hsz, ptrAdd_ok (by omega), pure_bind, pure_bind]
    congr 3
    omega
  | popUntil stop =>
    injection hz with hz; injection hz with ho hz; subst ho hz
    have hle : (z.cur.takeWhile (!stop ·)).length ≤ z.cur.length := (List.takeWhile_sublist _).length_le
    have h1 := of_forward h (n := (z.cur.takeWhile (!stop ·)).length) hle
    rw [(drop_takeWhile _ _).1, (drop_takeWhile _ _).2] at h1
    refine ⟨_, ?_, h1⟩
    simp only [CView.step, CView.popUntil, until_ok asserts h, pure_bind]
    rw [Nat.add_sub_cancel_left, hf, slice_mid h.mem_eq hle, (drop_takeWhile _ _).1]
  | popUntilDiscard stop =>
    injection hz with hz; injection hz with ho hz; subst ho hz
    have hle : (z.cur.takeWhile (!stop ·)).length ≤ z.cur.length := (List.takeWhile_sublist _).length_le
    have hspl := congrArg List.length (List.takeWhile_append_dropWhile (p := (!stop ·)) (l := z.cur))
    rw [List.length_append] at hspl
    have h1 := of_forward h (n := (z.cur.takeWhile (!stop ·)).length) hle
    rw [(drop_takeWhile _ _).1, (drop_takeWhile _ _).2] at h1
    have h2 := of_forward h1 (n := min 1 (z.cur.dropWhile (!stop ·)).length) (by simp only []; omega)
    have e1 : (z.cur.dropWhile (!stop ·)).take (min 1 (z.cur.dropWhile (!stop ·)).length) = (z.cur.dropWhile (!stop ·)).take 1 := by
      cases z.cur.dropWhile (!stop ·) <;> simp
    have e2 : (z.cur.dropWhile (!stop ·)).drop (min 1 (z.cur.dropWhile (!stop ·)).length) = (z.cur.dropWhile (!stop ·)).drop 1 := by
      cases z.cur.dropWhile (!stop ·) <;> simp
    simp only [] at h2
    rw [e1, e2] at h2
    refine ⟨_, ?_, h2⟩
    have hs1 := size_of h1
    simp only [CView.step, CView.popUntilDiscard, until_ok asserts h, pure_bind]
    unfold CView.removePrefix
    rw [hs1, ptrAdd_ok (by simp only []; omega)]
    simp only [pure_bind]
    rw [Nat.add_sub_cancel_left, hf, slice_mid h.mem_eq hle, (drop_takeWhile _ _).1]

/-- A program on a view. (Specification, no line of the source.) -/
def CView.run (asserts : Bool) (mem : List α) : List (VOp α) → CView → Cxx (List (List α) × CView)
  | [], v => pure ([], v)
  | op :: ops, v => do
    let (out, v) ← v.step asserts mem op
    let (outs, v) ← CView.run asserts mem ops v
    pure (out :: outs, v)

/-- The program on the three lists. (Specification, no line of the source.) -/
def Parts.run : List (VOp α) → Parts α → Option (List (List α) × Parts α)
  | [], z => some ([], z)
  | op :: ops, z => do
    let (out, z) ← z.step op
    let (outs, z) ← Parts.run ops z
    some (out :: outs, z)

/-- A view of the part `cur` of an array `pre ++ cur ++ post`: whatever is removed from it, added to it, searched in it and taken from it, it stays a view of
the part that these operations leave, and gives the elements they name. If an operation is asked for what is not there, a build with assertions does not go on. -/
theorem C165_view (pre cur post : List α) :
    (∀ (asserts : Bool) (ops : List (VOp α)) (outs : List (List α)) (z : Parts α), Parts.run ops ⟨pre, cur, post⟩ = some (outs, z) →
      ∃ v, CView.run asserts (pre ++ cur ++ post) ops ⟨pre.length, pre.length + cur.length⟩ = pure (outs, v) ∧
        pre ++ cur ++ post = z.pre ++ z.cur ++ z.post ∧ v.first = z.pre.length ∧ v.last = z.pre.length + z.cur.length ∧
        v.size = z.cur.length ∧ ∀ index, v.atPos (pre ++ cur ++ post) index = (z.cur[index]?).elim thrown pure) ∧
    ∀ (op : VOp α), (⟨pre, cur, post⟩ : Parts α).step op = none →
      ∀ r, (⟨pre.length, pre.length + cur.length⟩ : CView).step true (pre ++ cur ++ post) op ≠ pure r := by
  have hOf : (⟨pre, cur, post⟩ : Parts α).Of (pre ++ cur ++ post) ⟨pre.length, pre.length + cur.length⟩ := ⟨rfl, rfl, rfl⟩
  constructor
  · intro asserts ops outs z hz
    have key : ∀ (ops : List (VOp α)) (z0 : Parts α) (v0 : CView) (outs : List (List α)), z0.Of (pre ++ cur ++ post) v0 →
        Parts.run ops z0 = some (outs, z) →
        ∃ v, CView.run asserts (pre ++ cur ++ post) ops v0 = pure (outs, v) ∧ z.Of (pre ++ cur ++ post) v := by
      intro ops
      induction ops with
      | nil =>
        intro z0 v0 outs h e
        injection e with e; injection e with e1 e2
        subst e1 e2
        exact ⟨v0, rfl, h⟩
      | cons op ops ih =>
        intro z0 v0 outs h e
        unfold Parts.run at e
        cases e1 : z0.step op with
        | none => rw [e1] at e; cases e
        | some p =>
          obtain ⟨out, z1⟩ := p
          rw [e1] at e
          cases e2 : Parts.run ops z1 with
          | none => simp [e2] at e
          | some q =>
            obtain ⟨outs', z2⟩ := q
            simp only [e2, Option.bind_eq_bind, Option.bind_some, Option.some.injEq, Prod.mk.injEq] at e
            obtain ⟨rfl, rfl⟩ := e
            obtain ⟨v1, r1, h1⟩ := step_of asserts h op e1
            obtain ⟨v2, r2, h2⟩ := ih z1 v1 outs' h1 e2
            refine ⟨v2, ?_, h2⟩
            unfold CView.run
            rw [r1]
            simp only [pure_bind]
            rw [r2]
            rfl
    obtain ⟨v, r, h⟩ := key ops _ _ outs hOf hz
    refine ⟨v, r, h.mem_eq, h.first_eq, h.last_eq, size_of h, ?_⟩
    intro index
    unfold CView.atPos
    rw [size_of h]
    by_cases hi : index < z.cur.length
    · rw [if_neg (by omega), List.getElem?_eq_getElem hi]
      refine rd_some ?_
      rw [h.mem_eq, h.first_eq, List.append_assoc, List.getElem?_append_right (by omega), List.getElem?_append_left (by omega),
        Nat.add_sub_cancel_left, List.getElem?_eq_getElem hi]
    · rw [if_pos (by omega), List.getElem?_eq_none (by omega)]
      rfl
  · intro op hz r
    have hsz := size_of hOf
    have hl := len_of hOf
    simp only [] at hsz hl
    have hab : ∀ {c : Prop} [Decidable c], ¬ c → check true c = abort := by
      intro c _ hc; unfold check; rw [if_pos ⟨rfl, hc⟩]
    cases op with
    | removePrefix n => cases hz
    | removePrefixNoClip n =>
      simp only [Parts.step] at hz
      split at hz
      · cases hz
      · simp only [CView.step, CView.removePrefixNoClip]
        rw [hab (by omega)]
        exact fun h => abort_ne_pure _ h
    | removeSuffix n => cases hz
    | removeSuffixNoClip n =>
      simp only [Parts.step] at hz
      split at hz
      · cases hz
      · simp only [CView.step, CView.removeSuffixNoClip]
        rw [hab (by omega)]
        exact fun h => abort_ne_pure _ h
    | addPrefix n =>
      simp only [Parts.step] at hz
      split at hz
      · cases hz
      · simp only [CView.step, CView.addPrefix, ptrSub]
        rw [if_neg (by omega)]
        exact fun h => ub_ne_pure _ h
    | addSuffix n =>
      simp only [Parts.step] at hz
      split at hz
      · cases hz
      · simp only [CView.step, CView.addSuffix, ptrAdd]
        rw [if_neg (by omega)]
        exact fun h => ub_ne_pure _ h
    | popFront =>
      cases cur with
      | cons a cur => cases hz
      | nil =>
        simp only [CView.step, CView.popFront]
        rw [hab (by simp)]
        exact fun h => abort_ne_pure _ h
    | popBack =>
      cases cur with
      | cons a cur =>
        simp only [Parts.step, List.getLast?_cons] at hz
        cases hz
      | nil =>
        simp only [CView.step, CView.popBack]
        rw [hab (by simp)]
        exact fun h => abort_ne_pure _ h
    | removeUntil stop => cases hz
    | removeUntilDiscard stop => cases hz
    | popUntil stop => cases hz
    | popUntilDiscard stop => cases hz

example : Parts.run [.removePrefix 1, .popUntilDiscard (· == 0), .popBack, .addSuffix 2] (⟨[9], [1, 2, 3, 0, 4, 5], [6]⟩ : Parts Nat) =
    some ([[], [2, 3], [5], []], ⟨[9, 1, 2, 3, 0], [4, 5, 6], []⟩) := by decide +kernel

/-- `operator==` compares the elements of two views. -/
theorem C166_view_eq [DecidableEq α] {z z' : Parts α} {mem mem' : List α} {v v' : CView} (h : z.Of mem v) (h' : z'.Of mem' v') :
    CView.eq mem mem' v v' = pure (decide (z.cur = z'.cur)) := by
  unfold CView.eq
  rw [size_of h, size_of h']
  by_cases hl : z.cur.length = z'.cur.length
  · rw [if_pos hl, h.first_eq, h.last_eq, h'.first_eq]
    have key : ∀ (cur cur' pre pre' post post' : List α), mem = pre ++ cur ++ post → mem' = pre' ++ cur' ++ post' → cur.length = cur'.length →
        stdEqual mem mem' pre.length (pre.length + cur.length) pre'.length = pure (decide (cur = cur')) := by
      intro cur
      induction cur with
      | nil =>
        intro cur' pre pre' post post' _ _ hl
        have : cur' = [] := List.length_eq_zero_iff.mp hl.symm
        subst this
        rw [stdEqual, if_neg (by simp)]
        rfl
      | cons a cur ih =>
        intro cur' pre pre' post post' hm hm' hl
        cases cur' with
        | nil => cases hl
        | cons b cur' =>
          rw [stdEqual, if_pos (by simp), rd_some (a := a) (by rw [hm]; simp), pure_bind, rd_some (a := b) (by rw [hm']; simp), pure_bind]
          by_cases hab : a = b
          · rw [if_pos hab]
            have := ih cur' (pre ++ [a]) (pre' ++ [b]) post post' (by rw [hm]; simp) (by rw [hm']; simp) (by simpa using hl)
            simp only [List.length_append, List.length_cons, List.length_nil] at this
            rw [List.length_cons, show pre.length + (cur.length + 1) = pre.length + (0 + 1) + cur.length by omega, this]
            simp [hab]
          · rw [if_neg hab]
            simp [hab]
    exact key z.cur z'.cur z.pre z'.pre z.post z'.post h.mem_eq h'.mem_eq hl
  · rw [if_neg hl]
    have : z.cur ≠ z'.cur := fun e => hl (congrArg List.length e)
    simp [this]

example : CView.eq [1, 2, 3] [0, 2, 3] ⟨1, 3⟩ ⟨1, 3⟩ = pure true := by
  rw [C166_view_eq (mem := [1, 2, 3]) (mem' := [0, 2, 3]) (z := ⟨[1], [2, 3], []⟩) (z' := ⟨[0], [2, 3], []⟩) ⟨rfl, rfl, rfl⟩
    ⟨rfl, rfl, rfl⟩]
  rfl

/-- A part that starts where the view starts is as it should be. -/
theorem C167_subspan_partial {z : Parts α} {mem : List α} {v : CView} (h : z.Of mem v) (count : Nat) :
    ∃ w, v.subspan mem 0 count = pure w ∧ (⟨z.pre, z.cur.take count, z.cur.drop count ++ z.post⟩ : Parts α).Of mem w := by
  have hl := len_of h
  refine ⟨⟨v.first, v.first + min count z.cur.length⟩, ?_, ?_, h.first_eq, ?_⟩
  · simp only [CView.subspan]
    rw [size_of h, Nat.min_zero, Nat.sub_zero, ptrAdd_ok (by have := h.first_eq; omega), pure_bind, ptrAdd_ok (by have := h.first_eq; omega)]
    rfl
  · show mem = z.pre ++ z.cur.take count ++ (z.cur.drop count ++ z.post)
    rw [h.mem_eq]
    simp only [List.append_assoc]
    rw [← List.append_assoc (z.cur.take _), List.take_append_drop]
  · simp [h.first_eq]

example : (⟨[1], [2, 3], [4]⟩ : Parts Nat).Of [1, 2, 3, 4] ⟨1, 3⟩ := ⟨rfl, rfl, rfl⟩

/-- Any other part is not: the end is counted from the start of the view. For every `offset` in the view but the first, what comes out has `offset` elements
less than it should have, or its end before its start. -/
theorem C167_subspan_violated {z : Parts α} {mem : List α} {v : CView} (h : z.Of mem v) {offset count : Nat} (h0 : 0 < offset)
    (ho : offset + count ≤ z.cur.length) : ∃ w, v.subspan mem offset count = pure w ∧ w.first = v.first + offset ∧ w.last = v.first + count ∧
      (offset ≤ count → w.size = count - offset) ∧ (count < offset → w.size = 2 ^ 64 - (offset - count)) := by
  have hl := len_of h
  have hf := h.first_eq
  refine ⟨⟨v.first + offset, v.first + count⟩, ?_, rfl, rfl, ?_, ?_⟩
  · simp only [CView.subspan]
    rw [size_of h, ptrAdd_ok (by omega), pure_bind, ptrAdd_ok (by omega), pure_bind]
    congr 2
    omega
  · intro g
    unfold CView.size
    simp only []
    rw [if_pos (by omega)]
    omega
  · intro g
    unfold CView.size
    simp only []
    rw [if_neg (by omega)]
    omega

example := C167_subspan_violated (z := ⟨[1], [2, 3, 4], [5]⟩) (mem := [1, 2, 3, 4, 5]) (v := ⟨1, 4⟩) ⟨rfl, rfl, rfl⟩ (offset := 1) (count := 2) (by decide) (by decide)

/-- The assertion of `operator[]` of a view of elements that are not `const` lets the position behind the last one pass. -/
theorem C167_index_violated : ∃ (mem : List Nat) (v : CView), v.size = 2 ∧ v.indexMutable true mem 2 = pure 7 ∧ v.index true mem 2 = abort ∧
    v.atPos mem 2 = thrown := ⟨[5, 6, 7], ⟨0, 2⟩, by decide, by decide +kernel, by decide +kernel, by decide +kernel⟩

end Verif.Views
