import Verif.Pipelines.Map
import Verif.Containers.Lists

/-
`Sort`, `Max`, `Min` and `MinMax`, include/daw/pipelines/algorithm.h, and `Clamp` and the arithmetic of iterators, map.h.
-/

namespace Verif.Pipe.Extrema
open Verif Verif.Cxx Verif.Pipe
variable {α β : Type}

/-! ## `Max`, `Min` and `MinMax` -/

/-- `std::max_element` on the positions from `it` on, `best` being the position of the largest element so far. (Rule of C++ or its library, no line of the source.) -/
def maxElement (lt : α → α → Bool) : List α → Nat → Nat → α → Nat
  | [], _, best, _ => best
  | x :: xs, it, best, b => if lt b x then maxElement lt xs (it + 1) it x else maxElement lt xs (it + 1) best b

/-- `std::min_element`, likewise. (Rule of C++ or its library, no line of the source.) -/
def minElement (lt : α → α → Bool) : List α → Nat → Nat → α → Nat
  | [], _, best, _ => best
  | x :: xs, it, best, b => if lt x b then minElement lt xs (it + 1) it x else minElement lt xs (it + 1) best b

/-- The second iterator of `std::minmax_element`: the last of the largest elements. (Rule of C++ or its library, no line of the source.) -/
def lastMaxElement (lt : α → α → Bool) : List α → Nat → Nat → α → Nat
  | [], _, best, _ => best
  | x :: xs, it, best, b => if lt x b then lastMaxElement lt xs (it + 1) best b else lastMaxElement lt xs (it + 1) it x

/-- The function object that compares, pipelines/algorithm.h 76-81, 110-115 and 145-149: the comparison of the projections. -/
def byKey (cmp : β → β → Bool) (proj : α → β) (a b : α) : Bool := cmp (proj a) (proj b)

/-- `Max_t::operator()( Range )`, pipelines/algorithm.h 73-82, the position of the iterator returned. -/
def max (cmp : β → β → Bool) (proj : α → β) (xs : List α) : Nat :=
  match xs with
  | [] => 0
  | x :: xs => maxElement (byKey cmp proj) xs 1 0 x

/-- `Min_t::operator()( Range )`, pipelines/algorithm.h 107-116. -/
def min (cmp : β → β → Bool) (proj : α → β) (xs : List α) : Nat :=
  match xs with
  | [] => 0
  | x :: xs => minElement (byKey cmp proj) xs 1 0 x

/-- `MinMax_t::operator()( Range )`, pipelines/algorithm.h 141-151. -/
def minMax (cmp : β → β → Bool) (proj : α → β) (xs : List α) : Nat × Nat :=
  match xs with
  | [] => (0, 0)
  | x :: xs => (minElement (byKey cmp proj) xs 1 0 x, lastMaxElement (byKey cmp proj) xs 1 0 x)

theorem byKey_weak {cmp : β → β → Bool} (h : StrictWeak cmp) (proj : α → β) : StrictWeak (byKey cmp proj) where
  irrefl a := h.irrefl (proj a)
  trans a b c := h.trans (proj a) (proj b) (proj c)
  incomp a b c := h.incomp (proj a) (proj b) (proj c)

/-- What has been found after the elements `pre`: the first one that none is larger than. (Specification, no line of the source.) -/
def FirstTop (lt : α → α → Bool) (pre : List α) (k : Nat) : Prop :=
  ∃ b, pre[k]? = some b ∧ (∀ a ∈ pre, lt b a = false) ∧ ∀ (j : Nat) (a : α), j < k → pre[j]? = some a → lt a b = true

/-- The last one that none is larger than. (Specification, no line of the source.) -/
def LastTop (lt : α → α → Bool) (pre : List α) (k : Nat) : Prop :=
  ∃ b, pre[k]? = some b ∧ (∀ a ∈ pre, lt b a = false) ∧ ∀ (j : Nat) (a : α), k < j → pre[j]? = some a → lt a b = true

theorem getElem?_snoc {pre : List α} {x a : α} {j : Nat} (h : (pre ++ [x])[j]? = some a) : pre[j]? = some a ∨ (j = pre.length ∧ a = x) := by
  by_cases hj : j < pre.length
  · left; rwa [List.getElem?_append_left hj] at h
  · right
    rw [List.getElem?_append_right (by omega)] at h
    have h1 := (List.getElem?_eq_some_iff.1 h).1
    simp at h1
    have : j = pre.length := by omega
    subst this
    simp at h
    exact ⟨rfl, h.symm⟩

theorem maxElement_spec {lt : α → α → Bool} (hw : StrictWeak lt) (xs : List α) : ∀ (pre : List α) (best : Nat) (b : α), pre[best]? = some b → FirstTop lt pre best →
    FirstTop lt (pre ++ xs) (maxElement lt xs pre.length best b) := by
  induction xs with
  | nil => intro pre best b _ h; simpa [maxElement] using h
  | cons x xs ih =>
    intro pre best b hb hf
    obtain ⟨b', hb', h1, h2⟩ := hf
    have : b' = b := by rw [hb] at hb'; exact (Option.some.inj hb').symm
    subst this
    have hlen : (pre ++ [x]).length = pre.length + 1 := by simp
    have hcat : pre ++ x :: xs = (pre ++ [x]) ++ xs := by simp
    simp only [maxElement]
    cases hx : lt b' x with
    | true =>
      rw [if_pos rfl, hcat, ← hlen]
      apply ih (pre ++ [x]) pre.length x (by simp)
      refine ⟨x, by simp, fun a ha => ?_, fun j a hj ha => ?_⟩
      · rcases List.mem_append.1 ha with ha | ha
        · cases h : lt x a with
          | false => rfl
          | true => have := hw.trans b' x a hx h; rw [h1 a ha] at this; exact absurd this (by simp)
        · simp at ha; subst ha; exact hw.irrefl _
      · rw [List.getElem?_append_left hj] at ha
        exact hw.lt_of_le_of_lt (h1 a (List.mem_of_getElem? ha)) hx
    | false =>
      rw [if_neg (by simp), hcat, ← hlen]
      have hk : best < pre.length := (List.getElem?_eq_some_iff.1 hb).1
      apply ih (pre ++ [x]) best b' (by rw [List.getElem?_append_left hk]; exact hb)
      refine ⟨b', by rw [List.getElem?_append_left hk]; exact hb, fun a ha => ?_, fun j a hj ha => ?_⟩
      · rcases List.mem_append.1 ha with ha | ha
        · exact h1 a ha
        · simp at ha; subst ha; exact hx
      · rw [List.getElem?_append_left (by omega)] at ha
        exact h2 j a hj ha

theorem lastMaxElement_spec {lt : α → α → Bool} (hw : StrictWeak lt) (xs : List α) : ∀ (pre : List α) (best : Nat) (b : α), pre[best]? = some b → LastTop lt pre best →
    LastTop lt (pre ++ xs) (lastMaxElement lt xs pre.length best b) := by
  induction xs with
  | nil => intro pre best b _ h; simpa [lastMaxElement] using h
  | cons x xs ih =>
    intro pre best b hb hf
    obtain ⟨b', hb', h1, h2⟩ := hf
    have : b' = b := by rw [hb] at hb'; exact (Option.some.inj hb').symm
    subst this
    have hlen : (pre ++ [x]).length = pre.length + 1 := by simp
    have hcat : pre ++ x :: xs = (pre ++ [x]) ++ xs := by simp
    simp only [lastMaxElement]
    cases hx : lt x b' with
    | true =>
      rw [if_pos rfl, hcat, ← hlen]
      have hk : best < pre.length := (List.getElem?_eq_some_iff.1 hb).1
      apply ih (pre ++ [x]) best b' (by rw [List.getElem?_append_left hk]; exact hb)
      refine ⟨b', by rw [List.getElem?_append_left hk]; exact hb, fun a ha => ?_, fun j a hj ha => ?_⟩
      · rcases List.mem_append.1 ha with ha | ha
        · exact h1 a ha
        · simp at ha; subst ha; exact hw.asymm hx
      · rcases getElem?_snoc ha with ha | ⟨_, rfl⟩
        · exact h2 j a hj ha
        · exact hx
    | false =>
      rw [if_neg (by simp), hcat, ← hlen]
      apply ih (pre ++ [x]) pre.length x (by simp)
      refine ⟨x, by simp, fun a ha => ?_, fun j a hj ha => ?_⟩
      · rcases List.mem_append.1 ha with ha | ha
        · exact hw.incomp x b' a hx (h1 a ha)
        · simp at ha; subst ha; exact hw.irrefl _
      · rw [List.getElem?_eq_none (by simp; omega)] at ha
        exact absurd ha (by simp)

/-- The order turned around. (Specification, no line of the source.) -/
def flip (lt : α → α → Bool) (a b : α) : Bool := lt b a

theorem flip_weak {lt : α → α → Bool} (h : StrictWeak lt) : StrictWeak (flip lt) where
  irrefl a := h.irrefl a
  trans a b c h1 h2 := h.trans c b a h2 h1
  incomp a b c h1 h2 := h.incomp c b a h2 h1

theorem minElement_flip (lt : α → α → Bool) (xs : List α) (it best : Nat) (b : α) : minElement lt xs it best b = maxElement (flip lt) xs it best b := by
  induction xs generalizing it best b with
  | nil => rfl
  | cons x xs ih => simp only [minElement, maxElement, flip, ih]; rfl

/-- **C327.**  `Max` gives the first of the elements whose projection no other is greater than, `Min` the first of those no other is less than, and `MinMax` the first of the least and the
last of the greatest; of an empty range they give the end.
Missing: orders of another type than the default, see `C327_order_violated`. -/
theorem C327_extrema_partial {cmp : β → β → Bool} (h : StrictWeak cmp) (proj : α → β) (xs : List α) :
    (xs = [] → max cmp proj xs = xs.length ∧ min cmp proj xs = xs.length ∧ minMax cmp proj xs = (xs.length, xs.length)) ∧
    (xs ≠ [] → (∃ b, xs[max cmp proj xs]? = some b ∧ (∀ a ∈ xs, cmp (proj b) (proj a) = false) ∧ ∀ (j : Nat) (a : α), j < max cmp proj xs → xs[j]? = some a → cmp (proj a) (proj b) = true) ∧
      (∃ b, xs[min cmp proj xs]? = some b ∧ (∀ a ∈ xs, cmp (proj a) (proj b) = false) ∧ ∀ (j : Nat) (a : α), j < min cmp proj xs → xs[j]? = some a → cmp (proj b) (proj a) = true) ∧
      (minMax cmp proj xs).1 = min cmp proj xs ∧
      (∃ b, xs[(minMax cmp proj xs).2]? = some b ∧ (∀ a ∈ xs, cmp (proj b) (proj a) = false) ∧
        ∀ (j : Nat) (a : α), (minMax cmp proj xs).2 < j → xs[j]? = some a → cmp (proj a) (proj b) = true)) := by
  refine ⟨by rintro rfl; exact ⟨rfl, rfl, rfl⟩, fun hn => ?_⟩
  match xs, hn with
  | x :: xs, _ =>
    have hw := byKey_weak h proj
    have first : ∀ (lt : α → α → Bool), StrictWeak lt → FirstTop lt [x] 0 := fun lt hl => ⟨x, rfl, fun a ha => by simp at ha; subst ha; exact hl.irrefl _, fun j a hj _ => by omega⟩
    refine ⟨?_, ?_, rfl, ?_⟩
    · exact maxElement_spec hw xs [x] 0 x rfl (first _ hw)
    · show ∃ b, (x :: xs)[minElement (byKey cmp proj) xs 1 0 x]? = some b ∧ _ ∧ ∀ (j : Nat) (a : α), j < minElement (byKey cmp proj) xs 1 0 x → _ → _
      rw [minElement_flip]
      exact maxElement_spec (flip_weak hw) xs [x] 0 x rfl (first _ (flip_weak hw))
    · refine lastMaxElement_spec hw xs [x] 0 x rfl ⟨x, rfl, fun a ha => by simp at ha; subst ha; exact hw.irrefl _, fun j a hj ha => ?_⟩
      rw [List.getElem?_eq_none (by simp; omega)] at ha
      exact absurd ha (by simp)

/-- The order of the natural numbers. (Specification, no line of the source.) -/
def less (a b : Nat) : Bool := decide (a < b)

theorem less_weak : StrictWeak less where
  irrefl a := by simp [less]
  trans a b c h1 h2 := by simp [less] at *; omega
  incomp a b c h1 h2 := by simp [less] at *; omega

example : (max less id [3, 7, 1, 7], min less id [3, 7, 1, 7], minMax less id [3, 7, 1, 7]) = (1, 2, (2, 3)) := by decide
example := C327_extrema_partial less_weak (fun p : Nat × Nat => p.2) [(1, 2), (3, 4), (5, 4)]

/-- **C327** (finding).  The greatest element `MinMax` gives is not the one `Max` gives whenever two elements have the greatest projection. -/
theorem C327_minmax_finding {cmp : β → β → Bool} (h : StrictWeak cmp) (proj : α → β) (xs : List α) (i j : Nat) (hij : i < j) (a b : α) (ha : xs[i]? = some a) (hb : xs[j]? = some b)
    (hm : ∀ c ∈ xs, cmp (proj a) (proj c) = false ∧ cmp (proj b) (proj c) = false) : max cmp proj xs < (minMax cmp proj xs).2 := by
  have hn : xs ≠ [] := by rintro rfl; simp at ha
  obtain ⟨⟨m, h1, h2, h3⟩, _, _, n, h4, h5, h6⟩ := (C327_extrema_partial h proj xs).2 hn
  have hi : max cmp proj xs ≤ i := by
    cases Nat.lt_or_ge i (max cmp proj xs) with
    | inr h => exact h
    | inl hlt => have := h3 i a hlt ha; rw [(hm m (List.mem_of_getElem? h1)).1] at this; exact absurd this (by simp)
  have hj : j ≤ (minMax cmp proj xs).2 := by
    cases Nat.lt_or_ge (minMax cmp proj xs).2 j with
    | inr h => exact h
    | inl hlt => have := h6 j b hlt hb; rw [(hm n (List.mem_of_getElem? h4)).2] at this; exact absurd this (by simp)
  omega

example : max less id [3, 7, 1, 7] < (minMax less id [3, 7, 1, 7]).2 := C327_minmax_finding less_weak id [3, 7, 1, 7] 1 3 (by decide) 7 7 rfl rfl (by decide)

/-- What the order is made of: the default one, `std::less<>`, or another type. (Specification, no line of the source.) -/
inductive Order
  | standard
  | other
  deriving DecidableEq

/-- A function object with a given type of order. (Specification, no line of the source.) -/
structure Stage where
  order : Order
  deriving DecidableEq

/-- An object of class type `Stage` can be made of an order of the type it has. (Rule of C++ or its library, no line of the source.) -/
def Stage.init (type given : Order) : Option Stage := if type = given then some ⟨type⟩ else none

/-- `Sort( compare )`, `Max( compare )`, `Min( compare )` and `MinMax( compare )`, pipelines/algorithm.h 33-36, 64-71, 98-105 and 132-139; the object called is `Sort_t<std::less<>>` and so
on, 195-198.  In the class its name without arguments is the class itself, not the template, so that the type of the result is that of the object called. -/
def withOrder (self : Stage) (given : Order) : Option Stage := Stage.init self.order given

/-- **C327** (finding).  `Sort`, `Max`, `Min` and `MinMax` accept an order, but a call with one of another type than `std::less<>`, such as `Sort( std::greater<>{ } )`, does not compile: no
pipeline can use them with another order. -/
theorem C327_order_violated (given : Order) : (withOrder ⟨.standard⟩ given).isSome = true ↔ given = .standard := by
  cases given <;> decide

example : withOrder ⟨.standard⟩ .other = none := rfl

/-! ## `Clamp` -/

/-- `std::clamp`: undefined if `hi` is less than `lo`. (Rule of C++ or its library, no line of the source.) -/
def stdClamp (lt : α → α → Bool) (v lo hi : α) : Cxx α :=
  if lt hi lo then ub else if lt v lo then pure lo else if lt hi v then pure hi else pure v

/-- `Clamp_t::operator()` of a value and of a range, pipelines/map.h 291-310: the elements of the `map_view` in turn. -/
def clamp (lt : α → α → Bool) (lo hi : α) : List α → Cxx (List α)
  | [] => pure []
  | v :: vs => do
    let a ← stdClamp lt v lo hi
    let as ← clamp lt lo hi vs
    pure (a :: as)

theorem stdClamp_pure {lt : α → α → Bool} (v lo hi : α) (h : lt hi lo = false) : stdClamp lt v lo hi = pure (if lt v lo then lo else if lt hi v then hi else v) := by
  unfold stdClamp
  rw [h, if_neg (by simp)]
  cases lt v lo <;> cases lt hi v <;> rfl

theorem clamp_pure {lt : α → α → Bool} (lo hi : α) (h : lt hi lo = false) (vs : List α) : clamp lt lo hi vs = pure (vs.map fun v => if lt v lo then lo else if lt hi v then hi else v) := by
  induction vs with
  | nil => rfl
  | cons v vs ih => simp only [clamp, stdClamp_pure v lo hi h, ih, pure_bind, List.map_cons]

/-- **C328.**  If `hi` is not less than `lo`, `Clamp( lo, hi )` gives a range as long as the one it is given; each element of it is neither less than `lo` nor greater than `hi`, and is the
original one if that is so already; elements in order stay in order.
Missing: bounds of another type, see `C328_convertible_violated`. -/
theorem C328_clamp_partial {lt : α → α → Bool} (hw : StrictWeak lt) (lo hi : α) (h : lt hi lo = false) (vs : List α) :
    ∃ ws, clamp lt lo hi vs = pure ws ∧ ws.length = vs.length ∧ (∀ w ∈ ws, lt w lo = false ∧ lt hi w = false) ∧
      (∀ (i : Nat) (v : α), vs[i]? = some v → lt v lo = false → lt hi v = false → ws[i]? = some v) ∧
      ∀ (i j : Nat) (v v' w w' : α), vs[i]? = some v → vs[j]? = some v' → ws[i]? = some w → ws[j]? = some w' → lt v' v = false → lt w' w = false := by
  refine ⟨_, clamp_pure lo hi h vs, by simp, ?_, ?_, ?_⟩
  · intro w hw'
    obtain ⟨v, _, rfl⟩ := List.mem_map.1 hw'
    cases h1 : lt v lo <;> cases h2 : lt hi v <;> simp [hw.irrefl, h, h1, h2]
  · intro i v hv h1 h2
    simp [hv, h1, h2]
  · intro i j v v' w w' h1 h2 h3 h4 h5
    simp [h1] at h3
    simp [h2] at h4
    subst h3 h4
    cases a : lt v lo <;> cases b : lt hi v <;> cases c : lt v' lo <;> cases d : lt hi v' <;> simp [h, h5, hw.irrefl, b, c]
    · -- v inside, v' below
      have := hw.incomp v' v lo h5 a
      rw [c] at this; exact absurd this (by simp)
    · have := hw.incomp v' v lo h5 a
      rw [c] at this; exact absurd this (by simp)
    · have := hw.lt_of_lt_of_le b h5
      rw [d] at this; exact absurd this (by simp)
    · have := hw.incomp v' v lo h5 a
      rw [c] at this; exact absurd this (by simp)
    · have := hw.incomp v' v lo h5 a
      rw [c] at this; exact absurd this (by simp)

example : clamp less 3 7 [1, 5, 9, 7] = pure [3, 5, 7, 7] := by decide +kernel
example := C328_clamp_partial less_weak 3 7 rfl [1, 5, 9, 7]

/-- **C328.**  Clamping twice to the same bounds is clamping once. -/
theorem C328_twice {lt : α → α → Bool} (hw : StrictWeak lt) (lo hi : α) (h : lt hi lo = false) (vs : List α) :
    (do let ws ← clamp lt lo hi vs; clamp lt lo hi ws) = clamp lt lo hi vs := by
  obtain ⟨ws, h1, _, h3, _, _⟩ := C328_clamp_partial hw lo hi h vs
  rw [h1, pure_bind, clamp_pure lo hi h ws]
  congr 1
  conv => rhs; rw [← List.map_id ws]
  apply List.map_congr_left
  intro w hw'
  simp [h3 w hw']

example := C328_twice strictWeak_nat 3 7 (by decide) [1, 5, 9]

/-- **C328.**  With `hi` less than `lo` clamping anything is undefined. -/
theorem C328_bounds {lt : α → α → Bool} (lo hi : α) (h : lt hi lo = true) (vs : List α) (hn : vs ≠ []) : clamp lt lo hi vs = ub := by
  match vs, hn with
  | v :: vs, _ => simp only [clamp, stdClamp]; rw [if_pos h, ub_bind]

example : clamp less 7 3 [1] = ub := C328_bounds 7 3 rfl [1] (by decide)

/-- Two types of values. (Specification, no line of the source.) -/
inductive Ty
  | int
  | long
  deriving DecidableEq

/-- `std::convertible_to` of the two. (Rule of C++ or its library, no line of the source.) -/
def Ty.convertible (_ _ : Ty) : Bool := true

/-- The type `std::clamp( v, lo, hi, c )` deduces for its three arguments has to be one and the same. (Rule of C++ or its library, no line of the source.) -/
def clampDeduces (v bound : Ty) : Bool := v == bound

/-- `Clamp( lo, hi )` of values compiles, pipelines/map.h 296-309: it is asserted that the bounds can be converted, 298 and 306, but they are given to `std::clamp` as they are, 302 and 308. -/
def clampCompiles (value bound : Ty) : Bool := bound.convertible value && clampDeduces value bound

/-- **C328** (finding).  "Clamp requires a lo/hi values convertible to the range value type": bounds of another type than the elements never compile, as in `Clamp( 1, 5 )` of a vector of
`long`. -/
theorem C328_convertible_violated (value bound : Ty) (h : value ≠ bound) : bound.convertible value = true ∧ clampCompiles value bound = false := by
  cases value <;> cases bound <;> first | exact absurd rfl h | decide

example := C328_convertible_violated .long .int (by decide)

/-- What a stage `Clamp( lo, hi )` has as bounds: values or, made with a variable for `lo`, so that `T` is deduced to be a reference, references to variables, pipelines/map.h 287-288, 330 and
332: the numbers of the variables. -/
inductive Bound
  | value (v : Nat)
  | ref (var : Nat)

/-- The bound when the stage is called, pipelines/map.h 293-294. -/
def Bound.read (vars : List Nat) : Bound → Cxx Nat
  | .value v => pure v
  | .ref i => rd vars i

/-- Calling the stage with a range while the variables have the values given, pipelines/map.h 292-310. -/
def clampStage (vars : List Nat) (lo hi : Bound) (vs : List Nat) : Cxx (List Nat) := do
  let h ← hi.read vars
  let l ← lo.read vars
  clamp less l h vs

/-- **C328** (finding).  A stage made with variables for bounds has references to them: it clamps to what is in the variables when it is called, not to what was in them when it was made, so
that after assigning `lo'` and `hi'` to them the stage is the one made with these, and it is undefined once they are gone. -/
theorem C328_references_finding (lo hi lo' hi' : Nat) (vs : List Nat) :
    clampStage [lo, hi] (.ref 0) (.ref 1) vs = clampStage [lo, hi] (.value lo) (.value hi) vs ∧
    clampStage [lo', hi'] (.ref 0) (.ref 1) vs = clampStage [lo, hi] (.value lo') (.value hi') vs ∧ clampStage [] (.ref 0) (.ref 1) vs = ub ∧
    clampStage [] (.value lo) (.value hi) vs = clamp less lo hi vs := by
  refine ⟨rfl, rfl, ?_, rfl⟩
  show (rd [] 1 >>= fun h : Nat => _) = ub
  rw [rd_oob (by simp), ub_bind]

example : clampStage [1, 2] (.ref 0) (.ref 1) [5] ≠ clampStage [3, 4] (.ref 0) (.ref 1) [5] := by decide +kernel

/-! ## arithmetic of map and element iterators -/

/-- The names in the body of `operator+`. (Specification, no line of the source.) -/
inductive Name
  | self
  | result
  deriving DecidableEq

/-- The statements in the body of `operator+` and `operator-` of a position. (Specification, no line of the source.) -/
inductive Stmt
  | copySelf
  | add (to' : Name) (sign : Int)
  deriving DecidableEq

/-- The body of `map_iterator::operator+`, pipelines/map.h 133-134, and of `element_iterator` and `elements_iterator`, pipelines/elements.h 124-125 and 316-317. -/
def plusBody : List Stmt := [.copySelf, .add .self 1]

/-- The body of `map_iterator::operator-`, pipelines/map.h 141-142, and of `element_iterator` and `elements_iterator`, pipelines/elements.h 132-133 and 324-325. -/
def minusBody : List Stmt := [.copySelf, .add .self (-1)]

/-- A statement may be in a `const` member function: `*this` is not modified. (Rule of C++ or its library, no line of the source.) -/
def Stmt.allowed : Stmt → Bool
  | .copySelf => true
  | .add n _ => n ≠ .self

/-- Running the body, with `const` taken no notice of, for the position `self`: what is in `*this` and `result` then. (Rule of C++ or its library, no line of the source.) -/
def exec (n : Int) : List Stmt → Int × Int → Int × Int
  | [], s => s
  | .copySelf :: b, (self, _) => exec n b (self, self)
  | .add .self sign :: b, (self, result) => exec n b (self + sign * n, result)
  | .add .result sign :: b, (self, result) => exec n b (self, result + sign * n)

/-- **C329** (finding).  `it + n` and `it - n` of the iterators of `Map`, `Element` and `Elements` do not compile: they are `const` and modify `*this`; and without `const` they would return the
position of `it` and move `it` itself, whatever `n` is.  So these iterators are no random access iterators, though their category says so. -/
theorem C329_plus_violated (pos n junk : Int) :
    plusBody.all Stmt.allowed = false ∧ minusBody.all Stmt.allowed = false ∧ exec n plusBody (pos, junk) = (pos + n, pos) ∧ exec n minusBody (pos, junk) = (pos - n, pos) := by
  refine ⟨by decide, by decide, ?_, ?_⟩
  · simp [plusBody, exec]
  · simp only [minusBody, exec, Prod.mk.injEq, and_true]; omega

/-- `operator+=` and `operator-=`, pipelines/map.h 118-128: they move the position in the range, which has to stay in it. -/
def addAssign (len pos : Nat) (n : Int) : Cxx Nat := if 0 ≤ (pos : Int) + n ∧ (pos : Int) + n ≤ len then pure ((pos : Int) + n).toNat else ub

/-- `operator-` of two iterators, pipelines/map.h 146-149. -/
def difference (a b : Nat) : Int := (a : Int) - b

/-- **C329.**  `it += n` moves by `n`: the difference to the old position is `n`, `it -= n` afterwards gives it back, and what `*it` gives is the function of the element `n` further on.
Missing: `it + n` and `it - n`, which do not compile. -/
theorem C329_assign_partial (f : α → β) (xs : List α) (pos q : Nat) (n : Int) (hp : pos ≤ xs.length) (h : addAssign xs.length pos n = pure q) :
    difference q pos = n ∧ addAssign xs.length q (-n) = pure pos ∧ ∀ x, xs[((pos : Int) + n).toNat]? = some x → mapDeref f id xs q = pure (f x, q) := by
  unfold addAssign at h
  by_cases hc : 0 ≤ (pos : Int) + n ∧ (pos : Int) + n ≤ xs.length
  · rw [if_pos hc, Cxx.pure_inj] at h
    subst h
    refine ⟨by unfold difference; omega, ?_, fun x hx => ?_⟩
    · unfold addAssign
      rw [if_pos (by omega)]
      congr 1
      omega
    · unfold mapDeref
      rw [rd_some hx, pure_bind]
  · rw [if_neg hc] at h
    exact absurd h (ub_ne_pure q)

example : addAssign 5 1 3 = pure 4 ∧ addAssign 5 4 (-3) = pure 1 := by decide +kernel

end Verif.Pipe.Extrema
