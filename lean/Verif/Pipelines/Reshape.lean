import Verif.Pipelines.Zip
import Verif.Containers.Lists

/-
Arithmetic on zip iterators and `ZipMore`, include/daw/pipelines/zip.h, and `Swizzle`, swizzle.h.
-/

namespace Verif.Pipe.Reshape
open Verif Verif.Cxx Verif.Pipe
variable {α : Type}

/-! ## arithmetic on zip iterators -/

/-- `std::advance` of an iterator into a range of `len` elements: it has to stay between begin and end. (Rule of C++ or its library, no line of the source.) -/
def advance (len p : Nat) (n : Int) : Cxx Nat := if 0 ≤ (p : Int) + n ∧ (p : Int) + n ≤ len then pure ((p : Int) + n).toNat else ub

/-- `zip_iterator::advance`, pipelines/zip.h 68-71, which is `operator+=` and `operator+`, 173-177 and 185-190, and, with `-n`, `operator-=` and `operator-`, 179-183 and 192-197. -/
def zipAdvance (xss : List (List α)) (ps : List Nat) (n : Int) : Cxx (List Nat) :=
  match xss, ps with
  | xs :: xss, p :: ps => do
    let q ← advance xs.length p n
    let qs ← zipAdvance xss ps n
    pure (q :: qs)
  | _, _ => pure []

/-- `zip_iterator::get_at`, pipelines/zip.h 73-77, which is `operator[]`, 163-166. -/
def zipAt (xss : List (List α)) (ps : List Nat) (n : Int) : Cxx (List α) :=
  match xss, ps with
  | xs :: xss, p :: ps => do
    let q ← advance xs.length p n
    let a ← rd xs q
    let as ← zipAt xss ps n
    pure (a :: as)
  | _, _ => pure []

/-- `n` times `++it`. (Specification, no line of the source.) -/
def steps (xss : List (List α)) : Nat → List Nat → Cxx (List Nat)
  | 0, ps => pure ps
  | n + 1, ps => do
    let qs ← zipInc xss ps
    steps xss n qs

theorem advance_pure {len p : Nat} {n : Int} {q : Nat} : advance len p n = pure q ↔ (q : Int) = p + n ∧ q ≤ len := by
  unfold advance
  by_cases h : 0 ≤ (p : Int) + n ∧ (p : Int) + n ≤ len
  · rw [if_pos h, Cxx.pure_inj]; omega
  · rw [if_neg h]
    constructor
    · intro h'; exact absurd h' (ub_ne_pure q)
    · intro h'; omega

theorem zipAdvance_pure (xss : List (List α)) (ps : List Nat) (n : Int) (qs : List Nat) (hl : ps.length = xss.length) :
    zipAdvance xss ps n = pure qs ↔ qs.length = xss.length ∧ ∀ (i p q : Nat), ps[i]? = some p → qs[i]? = some q → (q : Int) = p + n ∧ ∀ xs, xss[i]? = some xs → q ≤ xs.length := by
  induction xss generalizing ps qs with
  | nil =>
    have : ps = [] := by simpa using hl
    subst this
    simp only [zipAdvance, Cxx.pure_inj]
    constructor
    · rintro rfl; simp
    · rintro ⟨h, _⟩; exact (by simpa using h : qs = []).symm
  | cons xs xss ih =>
    match ps, hl with
    | p :: ps, hl =>
      have hl' : ps.length = xss.length := by simpa using hl
      simp only [zipAdvance, Cxx.bind_eq_pure, Cxx.pure_inj]
      constructor
      · rintro ⟨q, h1, rs, h2, rfl⟩
        obtain ⟨h3, h4⟩ := (ih ps rs hl').1 h2
        obtain ⟨h5, h6⟩ := advance_pure.1 h1
        refine ⟨by simp [h3], fun i p' q' hp hq => ?_⟩
        cases i with
        | zero =>
          simp at hp hq
          subst hp hq
          exact ⟨h5, fun xs' h => by simp at h; subst h; exact h6⟩
        | succ i => simpa using h4 i p' q' (by simpa using hp) (by simpa using hq)
      · rintro ⟨h3, h4⟩
        match qs, h3 with
        | q :: rs, h3 =>
          have h5 := h4 0 p q rfl rfl
          refine ⟨q, advance_pure.2 ⟨h5.1, h5.2 xs rfl⟩, rs, (ih ps rs hl').2 ⟨by simpa using h3, fun i p' q' hp hq => ?_⟩, rfl⟩
          have := h4 (i + 1) p' q' (by simpa using hp) (by simpa using hq)
          simpa using this

/-- **C324.**  Moving a zip iterator by `n` moves the iterator into each of the ranges by `n`, if that stays between the begin and the end of every one of them.
Missing: the difference, see `C324_difference_violated`. -/
theorem C324_advance_partial (xss : List (List α)) (ps : List Nat) (n : Int) (qs : List Nat) (hl : ps.length = xss.length) :
    zipAdvance xss ps n = pure qs ↔ qs.length = xss.length ∧ ∀ (i p q : Nat), ps[i]? = some p → qs[i]? = some q → (q : Int) = p + n ∧ ∀ xs, xss[i]? = some xs → q ≤ xs.length :=
  zipAdvance_pure xss ps n qs hl

example : zipAdvance [[1, 2, 3], [4, 5]] [0, 0] 2 = pure [2, 2] := by decide +kernel
example : zipAdvance [[1, 2, 3], [4, 5]] [0, 0] 3 = (ub : Cxx (List Nat)) := by decide +kernel

/-- **C324.**  Moving by `n` and then by `m` is moving by `n + m`, also backwards; moving by `n` and then by `-n` gives the iterator back. -/
theorem C324_add (xss : List (List α)) (ps qs rs : List Nat) (n m : Int) (hl : ps.length = xss.length) (h1 : zipAdvance xss ps n = pure qs) (h2 : zipAdvance xss qs m = pure rs) :
    zipAdvance xss ps (n + m) = pure rs ∧ (n + m = 0 → rs = ps) := by
  obtain ⟨h3, h4⟩ := (zipAdvance_pure xss ps n qs hl).1 h1
  obtain ⟨h5, h6⟩ := (zipAdvance_pure xss qs m rs h3).1 h2
  constructor
  · refine (zipAdvance_pure xss ps (n + m) rs hl).2 ⟨h5, fun i p r hp hr => ?_⟩
    have hi : i < qs.length := by
      have := (List.getElem?_eq_some_iff.1 hp).1
      omega
    have hq : qs[i]? = some qs[i] := List.getElem?_eq_getElem hi
    have a := h4 i p qs[i] hp hq
    have b := h6 i qs[i] r hq hr
    exact ⟨by omega, b.2⟩
  · intro h0
    apply List.ext_getElem
    · omega
    · intro i h7 h8
      have hi : i < qs.length := by omega
      have a := h4 i ps[i] qs[i] (List.getElem?_eq_getElem h8) (List.getElem?_eq_getElem hi)
      have b := h6 i qs[i] rs[i] (List.getElem?_eq_getElem hi) (List.getElem?_eq_getElem h7)
      omega

example : zipAdvance [[1, 2, 3], [4, 5]] [2, 1] (-1) = pure [1, 0] ∧ zipAdvance [[1, 2, 3], [4, 5]] [1, 0] 2 = pure [3, 2] := by decide +kernel

theorem ub_or {β γ : Type} (x : Cxx β) (k : β → Cxx γ) (hx : x = ub ∨ ∃ b, x = pure b) (hk : ∀ b, k b = ub) : (x >>= k) = ub := by
  rcases hx with rfl | ⟨b, rfl⟩
  · exact ub_bind _
  · rw [pure_bind]; exact hk b

theorem advance_total (len p : Nat) (n : Int) : advance len p n = ub ∨ ∃ q, advance len p n = pure q := by
  unfold advance
  by_cases h : 0 ≤ (p : Int) + n ∧ (p : Int) + n ≤ len
  · exact .inr ⟨_, if_pos h⟩
  · exact .inl (if_neg h)

theorem rd_total (xs : List α) (i : Nat) : rd xs i = ub ∨ ∃ a, rd xs i = pure a := by
  by_cases h : i < xs.length
  · exact .inr ⟨_, rd_eq h⟩
  · exact .inl (rd_oob (by omega))

theorem zipAdvance_total (xss : List (List α)) (ps : List Nat) (n : Int) : zipAdvance xss ps n = ub ∨ ∃ qs, zipAdvance xss ps n = pure qs := by
  induction xss generalizing ps with
  | nil => exact .inr ⟨[], by cases ps <;> rfl⟩
  | cons xs xss ih =>
    match ps with
    | [] => exact .inr ⟨[], rfl⟩
    | p :: ps =>
      simp only [zipAdvance]
      rcases advance_total xs.length p n with h | ⟨q, h⟩
      · left; rw [h, ub_bind]
      · rw [h, pure_bind]
        rcases ih ps with h | ⟨qs, h⟩
        · left; rw [h, ub_bind]
        · right; exact ⟨_, by rw [h, pure_bind]⟩

/-- **C324.**  `it[n]` is `*( it + n )`, for every iterator and every `n`, and one is undefined exactly if the other is. -/
theorem C324_index (xss : List (List α)) (ps : List Nat) (n : Int) : zipAt xss ps n = (do let qs ← zipAdvance xss ps n; zipDeref xss qs) := by
  induction xss generalizing ps with
  | nil => cases ps <;> rfl
  | cons xs xss ih =>
    match ps with
    | [] => rfl
    | p :: ps =>
      simp only [zipAt, zipAdvance, bind_assoc, pure_bind, zipDeref, ih]
      rcases advance_total xs.length p n with h | ⟨q, h⟩
      · rw [h, ub_bind, ub_bind]
      · rw [h, pure_bind, pure_bind]
        rcases zipAdvance_total xss ps n with h | ⟨qs, h⟩
        · rw [h, ub_bind]
          exact ub_or _ _ (rd_total xs q) fun _ => ub_bind _
        · rw [h, pure_bind]
          rcases rd_total xs q with h | ⟨a, h⟩
          · rw [h, ub_bind, ub_bind]
          · rw [h, pure_bind, pure_bind, pure_bind]

example : zipAt [[1, 2, 3], [4, 5, 6]] [0, 1] 1 = pure [2, 6] := by decide +kernel

theorem zipInc_eq (xss : List (List α)) (ps : List Nat) : zipInc xss ps = zipAdvance xss ps 1 := by
  induction xss generalizing ps with
  | nil => cases ps <;> rfl
  | cons xs xss ih =>
    match ps with
    | [] => rfl
    | p :: ps =>
      simp only [zipInc, zipAdvance, ih]
      congr 1
      unfold advance
      by_cases h : p < xs.length
      · rw [if_pos h, if_pos (by omega)]; congr 1
      · rw [if_neg h, if_neg (by omega)]

/-- **C324.**  `it + n` is `n` times `++it`, if the steps are defined. -/
theorem C324_steps (xss : List (List α)) (n : Nat) (ps qs : List Nat) (hl : ps.length = xss.length) (hb : ∀ (i p : Nat), ps[i]? = some p → ∀ xs, xss[i]? = some xs → p ≤ xs.length) :
    steps xss n ps = pure qs ↔ zipAdvance xss ps n = pure qs := by
  induction n generalizing ps with
  | zero =>
    rw [zipAdvance_pure xss ps _ qs hl]
    simp only [steps, Cxx.pure_inj]
    constructor
    · rintro rfl
      exact ⟨hl, fun i p q h1 h2 => by rw [h1] at h2; cases h2; exact ⟨by simp, hb i p h1⟩⟩
    · rintro ⟨h1, h2⟩
      apply List.ext_getElem
      · omega
      · intro i h3 h4
        have := h2 i ps[i] qs[i] (List.getElem?_eq_getElem h3) (List.getElem?_eq_getElem h4)
        simp at this
        omega
  | succ n ih =>
    simp only [steps, zipInc_eq, Cxx.bind_eq_pure]
    constructor
    · rintro ⟨rs, h1, h2⟩
      obtain ⟨h3, h4⟩ := (zipAdvance_pure xss ps 1 rs hl).1 h1
      have h5 := (ih rs h3 fun i r hr xs hx => by
        have hi : i < ps.length := by have := (List.getElem?_eq_some_iff.1 hr).1; omega
        exact (h4 i ps[i] r (List.getElem?_eq_getElem hi) hr).2 xs hx).1 h2
      have := (C324_add xss ps rs qs 1 n hl h1 h5).1
      rw [← this]
      congr 1
      push_cast; omega
    · intro h
      obtain ⟨h3, h4⟩ := (zipAdvance_pure xss ps _ qs hl).1 h
      have h1 : zipAdvance xss ps 1 = pure (ps.map (· + 1)) := by
        refine (zipAdvance_pure xss ps 1 _ hl).2 ⟨by simp [hl], fun i p r hp hr => ?_⟩
        simp [hp] at hr
        subst hr
        refine ⟨by push_cast; rfl, fun xs hx => ?_⟩
        have hi : i < qs.length := by have := (List.getElem?_eq_some_iff.1 hp).1; omega
        have := h4 i p qs[i] hp (List.getElem?_eq_getElem hi)
        have h6 := this.2 xs hx
        have h7 := this.1
        push_cast at h7
        omega
      refine ⟨_, h1, (ih _ (by simp [hl]) ?_).2 ?_⟩
      · intro i r hr xs hx
        have h8 := ((zipAdvance_pure xss ps 1 _ hl).1 h1).2
        have hi : i < ps.length := by have := (List.getElem?_eq_some_iff.1 hr).1; simpa using this
        exact (h8 i ps[i] r (List.getElem?_eq_getElem hi) hr).2 xs hx
      · refine (zipAdvance_pure xss _ n qs (by simp [hl])).2 ⟨h3, fun i r q hr hq => ?_⟩
        have hi : i < ps.length := by have := (List.getElem?_eq_some_iff.1 hr).1; simpa using this
        have h9 := h4 i ps[i] q (List.getElem?_eq_getElem hi) hq
        simp [List.getElem?_eq_getElem hi] at hr
        subst hr
        exact ⟨by have := h9.1; push_cast at this ⊢; omega, h9.2⟩

example : steps [[1, 2, 3], [4, 5]] 2 [0, 0] = pure [2, 2] := by decide +kernel

/-- **C324** (finding).  Two iterators that are moved by the same `n` differ by `n`, but the difference is that of the first iterators only: the end of a zip minus its begin is the length
of the first range, and adding it to the begin is undefined as soon as another range is shorter. -/
theorem C324_difference_violated (xs ys : List α) (h : ys.length < xs.length) :
    zipDist (zipEnd [xs, ys]) (zipBegin [xs, ys]) = xs.length ∧ zipAdvance [xs, ys] (zipBegin [xs, ys]) (zipDist (zipEnd [xs, ys]) (zipBegin [xs, ys])) = ub := by
  have h0 : zipDist (zipEnd [xs, ys]) (zipBegin [xs, ys]) = xs.length := by simp [zipDist, zipEnd, zipBegin]
  refine ⟨h0, ?_⟩
  rw [h0]
  simp only [zipBegin, List.map_cons, List.map_nil, zipAdvance]
  have h1 : advance ys.length 0 xs.length = ub := by unfold advance; rw [if_neg (by omega)]
  rw [h1]
  exact ub_or _ _ (advance_total _ _ _) fun _ => rfl

example : zipAdvance [[1, 2, 3], [4, 5]] (zipBegin [[1, 2, 3], [4, 5]]) (zipDist (zipEnd [[1, 2, 3], [4, 5]]) (zipBegin [[1, 2, 3], [4, 5]])) = (ub : Cxx (List Nat)) :=
  (C324_difference_violated [1, 2, 3] [4, 5] (by decide)).2

/-! ## `ZipMore` -/

/-- What is given to `ZipMore`: containers, which own their elements, and views, which do not. (Specification, no line of the source.) -/
inductive Holds
  | container
  | view
  deriving DecidableEq

/-- The ranges a stage `ZipMore( own... )` has: the function object has copies of its arguments, pipelines/zip.h 276-277; the copy of a container has elements of its own, which are gone
with the function object. -/
structure More (α : Type) where
  own : List (Holds × List α)
  alive : Bool

/-- The result of a stage `ZipMore( own... )` called with a range that has the columns `cols`, pipelines/zip.h 277-301: a zip view is taken apart into its ranges, 278-292, any other range is
one column, 299-300.  `zip_view` has iterators only, 228-240. -/
def zipMore (m : More α) (cols : List (List α)) : Cxx (List (List α)) :=
  if m.alive = false ∧ m.own.any (·.1 = .container) then ub else zipView (m.own.map (·.2) ++ cols)

/-- **C325.**  A loop over what `ZipMore( own... )` makes of a zip of the ranges `cols`, or of one range, sees as many rows as the shortest of all ranges has elements; row `i` is the `i`-th
elements of `own` followed by the `i`-th elements of `cols`, as if all ranges had been zipped in that order.  Missing: that this holds when the stage is gone, for which it is false. -/
theorem C325_more_partial (m : More α) (cols : List (List α)) (hc : cols ≠ []) (hm : m.alive = true ∨ ∀ o ∈ m.own, o.1 = .view) :
    ∃ n rows, zipMore m cols = pure rows ∧ rows.length = n ∧ (∃ xs ∈ m.own.map (·.2) ++ cols, xs.length = n) ∧ (∀ xs ∈ m.own.map (·.2) ++ cols, n ≤ xs.length) ∧
      ∀ (i : Nat) (hi : i < rows.length), rows[i] = (m.own.filterMap fun o => o.2[i]?) ++ cols.filterMap (·[i]?) := by
  obtain ⟨n, rows, h1, h2, h3, h4, h5⟩ := C141_zip (m.own.map (·.2) ++ cols) (by simp [hc])
  refine ⟨n, rows, ?_, h2, h3, h4, ?_⟩
  · unfold zipMore
    rw [if_neg, h1]
    rintro ⟨ha, hb⟩
    rcases hm with hm | hm
    · rw [ha] at hm; exact absurd hm (by decide)
    · obtain ⟨o, ho, hk⟩ := List.any_eq_true.1 hb
      rw [hm o ho] at hk
      exact absurd hk (by decide)
  · intro i hi
    have hall : ∀ xs ∈ m.own.map (·.2) ++ cols, i < xs.length := fun xs hx => by have := h4 xs hx; omega
    obtain ⟨h6, h7⟩ := h5 i hi
    have key : ∀ (yss : List (List α)), (∀ xs ∈ yss, i < xs.length) → ∀ j : Nat, (yss.filterMap (·[i]?))[j]? = (yss[j]?).bind (·[i]?) := by
      intro yss
      induction yss with
      | nil => intro _ j; simp
      | cons ys yss ih =>
        intro h j
        have hy := h ys (by simp)
        have h0 : ys[i]? = some ys[i] := List.getElem?_eq_getElem hy
        cases j with
        | zero => simp [h0]
        | succ j =>
          rw [List.filterMap_cons, h0]
          simpa using ih (fun xs hx => h xs (by simp [hx])) j
    have h8 : (m.own.filterMap fun o => o.2[i]?) ++ cols.filterMap (·[i]?) = (m.own.map (·.2) ++ cols).filterMap (·[i]?) := by
      rw [List.filterMap_append, List.filterMap_map]
      rfl
    rw [h8]
    apply List.ext_getElem?
    intro j
    rw [key _ hall j]
    by_cases hj : j < (m.own.map (·.2) ++ cols).length
    · rw [h7 j hj, List.getElem?_eq_getElem hj]; rfl
    · rw [List.getElem?_eq_none (by omega), List.getElem?_eq_none (by omega)]; rfl

example : zipMore ⟨[(.container, [1, 2, 3])], true⟩ [[4, 5], [6, 7, 8]] = pure [[1, 4, 6], [2, 5, 7]] := by
  obtain ⟨n, rows, h1, h2, h3, h4, h5⟩ := C325_more_partial (⟨[(.container, [1, 2, 3])], true⟩ : More Nat) [[4, 5], [6, 7, 8]] (by decide) (.inl rfl)
  have : n = 2 := by
    have a := h4 [4, 5] (by decide)
    obtain ⟨xs, hx, hl⟩ := h3
    simp at hx a
    rcases hx with rfl | rfl | rfl <;> simp at hl <;> omega
  subst this
  rw [h1]
  congr 1
  match rows, h2, h5 with
  | [r, s], _, h5 =>
    have a := h5 0 (by simp)
    have b := h5 1 (by simp)
    simp at a b
    rw [a, b]

/-- **C325** (finding).  The view has iterators into the copies of the containers in the function object `ZipMore( ... )` returned, not into the containers it was given: once that object is
gone, as at the end of `auto v = pipeline( r, ZipMore( a, b ) )`, the view cannot be used, although `a`, `b` and `r` are still there, whatever is in them. -/
theorem C325_dangling_violated (own : List (Holds × List α)) (h : ∃ o ∈ own, o.1 = .container) (cols : List (List α)) : zipMore ⟨own, false⟩ cols = ub := by
  unfold zipMore
  rw [if_pos]
  obtain ⟨o, ho, hk⟩ := h
  exact ⟨rfl, List.any_eq_true.2 ⟨o, ho, by simp [hk]⟩⟩

example : zipMore ⟨[(.container, [1, 2, 3])], false⟩ [[4, 5]] = (ub : Cxx (List (List Nat))) := C325_dangling_violated _ ⟨(.container, [1, 2, 3]), by simp, rfl⟩ _

/-- What `ZipMore` can be called with. (Specification, no line of the source.) -/
inductive Input
  | zipOfRanges
  | tupleOfRanges
  | rangeOfTuples
  | arrayOfArrays
  | rangeOfOthers
  deriving DecidableEq

/-- It is a `Range`. (Rule of C++ or its library, no line of the source.) -/
def Input.isRange : Input → Bool
  | .tupleOfRanges => false
  | _ => true

/-- Its elements have a `std::tuple_size`: pairs, tuples and arrays. (Rule of C++ or its library, no line of the source.) -/
def Input.elementsAreTuples : Input → Bool
  | .zipOfRanges | .rangeOfTuples | .arrayOfArrays => true
  | _ => false

/-- It has a `std::tuple_size` itself and each `std::get` of it is a range. (Rule of C++ or its library, no line of the source.) -/
def Input.isTupleOfRanges : Input → Bool
  | .tupleOfRanges | .arrayOfArrays => true
  | _ => false

/-- The call compiles, pipelines/zip.h 277-301: the parameter is a `Range`, 277; if its elements are tuples, 294, then `std::get` is applied to it, 297-298, not to its elements. -/
def Input.compiles (i : Input) : Bool :=
  i.isRange && (i == .zipOfRanges || (if i.elementsAreTuples then i.isTupleOfRanges else true))

/-- **C325** (finding).  "If the Range passed is a zip_view or tuple<Ranges> it will merge them": a tuple of ranges is no range and a range of tuples is no tuple, so that `ZipMore` compiles
for neither; the only ranges that get to the branch for tuples and compile are arrays of arrays, whose rows, not whose columns, are taken for ranges. -/
theorem C325_tuples_violated (i : Input) : (i.compiles = true ↔ i = .zipOfRanges ∨ i = .arrayOfArrays ∨ i = .rangeOfOthers) := by
  cases i <;> decide

example : Input.compiles .tupleOfRanges = false := by decide

/-! ## `Swizzle` -/

/-- The function object of `Swizzle<Indices...>` for rows, pipelines/swizzle.h 38-41: `get<Indices>( v )...`; an index that is not in the row is rejected, 35-37, here `abort`. -/
def swizzleRow (is : List Nat) (r : List α) : Cxx (List α) :=
  match is with
  | [] => pure []
  | i :: is => do
    let a ← (match r[i]? with | some a => pure a | none => abort : Cxx α)
    let as ← swizzleRow is r
    pure (a :: as)

/-- `Swizzle<Indices...>` of a range of rows, pipelines/swizzle.h 33-41: a `map_view` that calls the function object for each row in turn. -/
def swizzle (is : List Nat) : List (List α) → Cxx (List (List α))
  | [] => pure []
  | r :: rs => do
    let a ← swizzleRow is r
    let as ← swizzle is rs
    pure (a :: as)

/-- `Swizzle<0, 0...>` of a range of other values, pipelines/swizzle.h 42-48: the zip of the range with itself; other indices are rejected, 44-46, and so is having none, 45, as `std::max`
of no values cannot be computed. -/
def swizzleValues (is : List Nat) (xs : List α) : Cxx (List (List α)) :=
  if is ≠ [] ∧ ∀ i ∈ is, i = 0 then zipView (is.map fun _ => xs) else abort

theorem swizzleRow_pure (is : List Nat) (r out : List α) : swizzleRow is r = pure out ↔ is.map (r[·]?) = out.map some := by
  induction is generalizing out with
  | nil =>
    simp only [swizzleRow, Cxx.pure_inj, List.map_nil]
    constructor
    · rintro rfl; rfl
    · intro h; exact (by simpa using h.symm : out = []).symm
  | cons i is ih =>
    simp only [swizzleRow]
    cases h : r[i]? with
    | none =>
      simp only
      constructor
      · intro h'
        have := (Cxx.bind_eq_pure).1 h'
        obtain ⟨a, ha, _⟩ := this
        exact absurd ha (abort_ne_pure a)
      · intro h'
        cases out with
        | nil => simp at h'
        | cons a out => simp [h] at h'
    | some a =>
      simp only [pure_bind, Cxx.bind_eq_pure, Cxx.pure_inj]
      constructor
      · rintro ⟨as, h1, rfl⟩
        simp [h, (ih as).1 h1]
      · intro h'
        cases out with
        | nil => simp at h'
        | cons b out =>
          simp [h] at h'
          exact ⟨out, (ih out).2 h'.2, by rw [h'.1]⟩

theorem swizzle_pure (is : List Nat) (rows out : List (List α)) :
    swizzle is rows = pure out ↔ out.length = rows.length ∧ ∀ (i : Nat) (r o : List α), rows[i]? = some r → out[i]? = some o → is.map (r[·]?) = o.map some := by
  induction rows generalizing out with
  | nil =>
    simp only [swizzle, Cxx.pure_inj]
    constructor
    · rintro rfl; simp
    · rintro ⟨h, _⟩; exact (by simpa using h : out = []).symm
  | cons r rows ih =>
    simp only [swizzle, Cxx.bind_eq_pure, Cxx.pure_inj, swizzleRow_pure]
    constructor
    · rintro ⟨a, h1, as, h2, rfl⟩
      obtain ⟨h3, h4⟩ := (ih as).1 h2
      refine ⟨by simp [h3], fun i r' o hr ho => ?_⟩
      cases i with
      | zero => simp at hr ho; subst hr ho; exact h1
      | succ i => exact h4 i r' o (by simpa using hr) (by simpa using ho)
    · rintro ⟨h3, h4⟩
      match out, h3 with
      | o :: out, h3 =>
        exact ⟨o, h4 0 r o rfl rfl, out, (ih out).2 ⟨by simpa using h3, fun i r' o' hr ho => h4 (i + 1) r' o' (by simpa using hr) (by simpa using ho)⟩, rfl⟩

/-- **C326.**  `Swizzle<Is...>` gives as many rows as there are, and column `j` of row `i` is the column `Is[j]` of row `i`; it compiles for exactly the indices the rows have.
Missing: containers of tuples, see `C326_containers_violated`. -/
theorem C326_swizzle_partial (is : List Nat) (rows out : List (List α)) :
    swizzle is rows = pure out ↔ out.length = rows.length ∧ ∀ (i : Nat) (r o : List α), rows[i]? = some r → out[i]? = some o → o.length = is.length ∧ ∀ (j k : Nat), is[j]? = some k → k < r.length ∧ o[j]? = r[k]? := by
  rw [swizzle_pure]
  refine and_congr Iff.rfl (forall_congr' fun i => forall_congr' fun r => forall_congr' fun o => forall_congr' fun _ => forall_congr' fun _ => ?_)
  constructor
  · intro h
    have hl : o.length = is.length := by simpa using (congrArg List.length h).symm
    refine ⟨hl, fun j k hj => ?_⟩
    have hj' : j < is.length := (List.getElem?_eq_some_iff.1 hj).1
    have h2 : (is.map (r[·]?))[j]? = (o.map some)[j]? := by rw [h]
    rw [List.getElem?_map, List.getElem?_map, hj, List.getElem?_eq_getElem (by omega : j < o.length)] at h2
    simp at h2
    refine ⟨(List.getElem?_eq_some_iff.1 h2).1, ?_⟩
    rw [h2, List.getElem?_eq_getElem (by omega)]
  · rintro ⟨hl, h⟩
    apply List.ext_getElem
    · simp [hl]
    · intro j h1 h2
      simp at h1 h2
      have h3 := h j is[j] (List.getElem?_eq_getElem h1)
      simp only [List.getElem_map]
      rw [← h3.2, List.getElem?_eq_getElem h2]

example : swizzle [1, 0, 0] [["a", "b"], ["c", "d"]] = pure [["b", "a", "a"], ["d", "c", "c"]] := by decide +kernel

/-- **C326.**  `Swizzle<Is...>` followed by `Swizzle<Js...>` is one `Swizzle`, the indices being those of `Is` at the positions `Js`; so a permutation is undone by its inverse. -/
theorem C326_compose (is js ks : List Nat) (h : swizzleRow js is = pure ks) (rows mid out : List (List α)) (h1 : swizzle is rows = pure mid) (h2 : swizzle js mid = pure out) :
    swizzle ks rows = pure out := by
  rw [swizzle_pure] at h1 h2 ⊢
  rw [swizzleRow_pure] at h
  refine ⟨by omega, fun i r o hr ho => ?_⟩
  have hi : i < mid.length := by have := (List.getElem?_eq_some_iff.1 hr).1; omega
  have a := h1.2 i r mid[i] hr (List.getElem?_eq_getElem hi)
  have b := h2.2 i mid[i] o (List.getElem?_eq_getElem hi) ho
  rw [← b]
  have e : ks.map some = js.map (is[·]?) := h.symm
  have f : (ks.map some).map (fun k : Option Nat => k.bind (r[·]?)) = (js.map (is[·]?)).map (fun k : Option Nat => k.bind (r[·]?)) := by rw [e]
  rw [List.map_map, List.map_map] at f
  have g : ks.map (r[·]?) = js.map fun j => (is[j]?).bind (r[·]?) := f
  rw [g]
  apply List.map_congr_left
  intro j hj
  have hj' : ∃ k : Nat, is[j]? = some k := by
    have : (is[j]?) ∈ ks.map some := by rw [e]; exact List.mem_map.2 ⟨j, hj, rfl⟩
    obtain ⟨k, _, hk⟩ := List.mem_map.1 this
    exact ⟨k, hk.symm⟩
  obtain ⟨k, hk⟩ := hj'
  rw [hk]
  have c : (is.map (r[·]?))[j]? = ((mid[i]).map some)[j]? := by rw [a]
  rw [List.getElem?_map, List.getElem?_map, hk] at c
  cases hm : (mid[i])[j]? with
  | none => rw [hm] at c; simp at c
  | some x => rw [hm] at c; simpa using c

example : swizzleRow [2, 0, 1] [1, 2, 0] = pure [0, 1, 2] := by decide +kernel

/-- **C326.**  `Swizzle<0, 0...>` of a range of values that are no tuples repeats each value as often as there are indices. -/
theorem C326_values (is : List Nat) (hn : is ≠ []) (h0 : ∀ i ∈ is, i = 0) (xs : List α) : swizzleValues is xs = pure (xs.map fun x => is.map fun _ => x) := by
  unfold swizzleValues
  rw [if_pos ⟨hn, h0⟩]
  obtain ⟨n, rows, h1, h2, ⟨ys, h3, h3'⟩, h4, h5⟩ := C141_zip (is.map fun _ => xs) (by simpa using hn)
  obtain ⟨_, _, rfl⟩ := List.mem_map.1 h3
  rw [h1]
  congr 1
  apply List.ext_getElem
  · simp; omega
  · intro i hi hi'
    obtain ⟨h6, h7⟩ := h5 i hi
    simp only [List.getElem_map]
    apply List.ext_getElem?
    intro j
    by_cases hj : j < is.length
    · rw [h7 j (by simpa using hj)]
      simp at hi'
      simp [List.getElem?_eq_getElem hj, List.getElem?_eq_getElem hi']
    · rw [List.getElem?_eq_none (by simp at h6; omega), List.getElem?_eq_none (by simp; omega)]

/-- **C326.**  Of such a range no other index than 0 can be asked for, nor none. -/
theorem C326_values_rejected (is : List Nat) (h : is = [] ∨ ∃ i ∈ is, i ≠ 0) (xs : List α) : swizzleValues is xs = abort := by
  unfold swizzleValues
  rw [if_neg]
  rintro ⟨h1, h2⟩
  rcases h with h | ⟨i, hi, h0⟩
  · exact h1 h
  · exact h0 (h2 i hi)

example := C326_values_rejected [0, 1] (Or.inr ⟨1, by decide, by decide⟩) ['a', 'b']

example : swizzleValues [0, 0] [3, 4] = pure [[3, 3], [4, 4]] := C326_values [0, 0] (by decide) (by decide) [3, 4]

/-- What dereferencing the iterators of a range of tuples gives: a tuple, as those of a `zip_view`, or a reference to one, as those of a container. (Specification, no line of the source.) -/
inductive Gives
  | tuple
  | reference
  deriving DecidableEq

/-- `std::tuple_size<T>` and `std::tuple_element<I, T>` are defined for tuples but not for references to tuples. (Rule of C++ or its library, no line of the source.) -/
def Gives.hasTupleSize : Gives → Bool
  | .tuple => true
  | .reference => false

/-- `Swizzle` of a range of tuples compiles, pipelines/swizzle.h 33-37: the branch is taken by the value type, which has no reference, and the number of elements is that of
`range_reference_t<R>`, which is what `*it` gives, daw_iterator_traits.h 21-22 and 186-187; the same type is used in pipelines/elements.h 23-24 and 212-213. -/
def Gives.swizzles (g : Gives) : Bool := g.hasTupleSize

/-- **C326** (finding).  `Swizzle`, `Element` and `Elements` compile for zips of ranges and for views that compute tuples, but for no container of tuples, such as a vector of pairs, although the
tests for tuples are true for it. -/
theorem C326_containers_violated (g : Gives) : g.swizzles = true ↔ g ≠ .reference := by
  cases g <;> decide

example : Gives.swizzles .reference = false := rfl

end Verif.Pipe.Reshape
