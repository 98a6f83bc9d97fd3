import Verif.Vector.Insert

/-
The free functions `erase` and `erase_if` for `daw::vector` and the comparison operators, vector.h 1244-1308.  (`emplace`, 660-681, and
`swap`, 926-933, use `temp_value` and `swap_allocator`, which are not found from there, so calls of them do not compile.)
-/

namespace Verif.Vector
open Cxx

variable {α : Type}

/-- The search at the start of `std::remove_if`; the predicate is a test of the element at a position of the current memory.
(Rule of C++ or its library, no line of the source.) -/
def removeFind (p : Mem α → Nat → Cxx Bool) (m : Mem α) (i : Nat) : Nat → Cxx Nat
  | 0 => pure i
  | n + 1 => do
    let b ← p m i
    if b then pure i else removeFind p m (i + 1) n

/-- The loop of `std::remove_if`: elements to keep are moved to the front. (Rule of C++ or its library, no line of the source.) -/
def removeLoop (p : Mem α → Nat → Cxx Bool) (m : Mem α) (out i : Nat) : Nat → Cxx (Mem α × Nat)
  | 0 => pure (m, out)
  | n + 1 => do
    let b ← p m i
    if b then removeLoop p m out (i + 1) n
    else do
      let (c, m) ← moveOut m i
      let m ← assignAt m out c
      removeLoop p m (out + 1) (i + 1) n

/-- `std::remove_if( begin, end, pred )`, and `std::remove` with a predicate that compares.
(Rule of C++ or its library, no line of the source.) -/
def removeIf (p : Mem α → Nat → Cxx Bool) (m : Mem α) (last : Nat) : Cxx (Mem α × Nat) := do
  let f ← removeFind p m 0 last
  if f = last then pure (m, last) else removeLoop p m f (f + 1) (last - (f + 1))

/-- The body of `erase_if`, vector.h 1305-1307, and of `erase`, 1297-1299: the vector and the number returned. -/
def Vec.removeErase (v : Vec α) (p : Mem α → Nat → Cxx Bool) : Cxx (Vec α × Nat) := do
  let old := v.size
  let (m, q) ← removeIf p v.mem v.last
  let (v, _) ← Vec.eraseRange { v with mem := m } q v.last
  pure (v, old - v.size)

/-- `erase_if( c, pred )`, vector.h 1302-1308. -/
def Vec.eraseIf (v : Vec α) (q : α → Bool) : Cxx (Vec α × Nat) :=
  v.removeErase fun m i => do
    let a ← value m i
    pure (q a)

/-- `erase( c, v )`, vector.h 1294-1300: the argument is a reference, perhaps to an element. -/
def Vec.eraseValue [DecidableEq α] (v : Vec α) (x : Src α) : Cxx (Vec α × Nat) :=
  v.removeErase fun m i => do
    let a ← value m i
    let b ← x.get m
    pure (decide (a = b))

theorem removeFind_spec (q : α → Bool) (p : Mem α → Nat → Cxx Bool) (k : Nat)
    (hp : ∀ (A B : Mem α) (a : α), p (A ++ Cell.live a :: B) A.length = pure (q a)) : ∀ (ys xs : List α),
    removeFind p (lv xs ++ lv ys ++ rw' k) xs.length ys.length = pure (xs.length + (ys.takeWhile fun a => !q a).length) := by
  intro ys
  induction ys with
  | nil => intro xs; rfl
  | cons y ys ih =>
    intro xs
    rw [List.length_cons, removeFind]
    have e : lv xs ++ lv (y :: ys) ++ rw' k = lv xs ++ Cell.live y :: (lv ys ++ rw' k) := by simp
    have hx := hp (lv xs) (lv ys ++ rw' k) y
    rw [show (lv xs).length = xs.length by simp] at hx
    rw [e, hx, pure_bind]
    cases hq : q y with
    | true => simp [hq]
    | false =>
      have := ih (xs ++ [y])
      rw [show lv (xs ++ [y]) ++ lv ys ++ rw' k = lv xs ++ Cell.live y :: (lv ys ++ rw' k) by simp,
        show (xs ++ [y]).length = xs.length + 1 by simp] at this
      rw [if_neg (by decide), this, List.takeWhile_cons]
      simp only [hq, Bool.not_false, if_true, List.length_cons]
      congr 1; omega

theorem removeLoop_spec (q : α → Bool) (p : Mem α → Nat → Cxx Bool) (k : Nat)
    (hp : ∀ (A B : Mem α) (a : α), p (A ++ Cell.live a :: B) A.length = pure (q a)) : ∀ (ys xs : List α) (Z : Mem α), Objs Z → Z ≠ [] →
    ∃ Z', removeLoop p (lv xs ++ Z ++ lv ys ++ rw' k) xs.length (xs.length + Z.length) ys.length =
        pure (lv (xs ++ ys.filter fun a => !q a) ++ Z' ++ rw' k, (xs ++ ys.filter fun a => !q a).length) ∧ Objs Z' ∧
      Z'.length + (ys.filter fun a => !q a).length = Z.length + ys.length := by
  intro ys
  induction ys with
  | nil =>
    intro xs Z hZ _
    exact ⟨Z, by simp [removeLoop], hZ, by simp⟩
  | cons y ys ih =>
    intro xs Z hZ hne
    rw [List.length_cons, removeLoop]
    have e : lv xs ++ Z ++ lv (y :: ys) ++ rw' k = (lv xs ++ Z) ++ Cell.live y :: (lv ys ++ rw' k) := by simp
    have hx := hp (lv xs ++ Z) (lv ys ++ rw' k) y
    rw [show (lv xs ++ Z).length = xs.length + Z.length by simp] at hx
    rw [e, hx, pure_bind]
    cases hq : q y with
    | true =>
      rw [if_pos rfl]
      obtain ⟨Z', h1, h2, h3⟩ := ih xs (Z ++ [Cell.live y]) (hZ.append (objs_lv [y])) (by simp)
      refine ⟨Z', ?_, h2, ?_⟩
      · rw [show (lv xs ++ Z) ++ Cell.live y :: (lv ys ++ rw' k) = lv xs ++ (Z ++ [Cell.live y]) ++ lv ys ++ rw' k by simp,
          show xs.length + Z.length + 1 = xs.length + (Z ++ [Cell.live y]).length by simp; omega, h1]
        simp [hq]
      · simp [hq] at h3 ⊢; omega
    | false =>
      rw [if_neg (by decide), moveOut_mid _ _ (by simp) (by simp), pure_bind]
      simp only []
      cases Z with
      | nil => exact absurd rfl hne
      | cons z Z =>
        have e2 : lv xs ++ z :: Z ++ Cell.moved :: (lv ys ++ rw' k) = lv xs ++ z :: (Z ++ Cell.moved :: (lv ys ++ rw' k)) := by simp
        rw [e2, assignAt_mid _ _ _ hZ.head (by simp), pure_bind]
        obtain ⟨Z', h1, h2, h3⟩ := ih (xs ++ [y]) (Z ++ [Cell.moved])
          (hZ.tail.append (Objs.cons (by simp) (by intro c hc; simp at hc))) (by simp)
        refine ⟨Z', ?_, h2, ?_⟩
        · rw [show lv xs ++ Cell.live y :: (Z ++ Cell.moved :: (lv ys ++ rw' k)) = lv (xs ++ [y]) ++ (Z ++ [Cell.moved]) ++ lv ys ++ rw' k by
            simp, show xs.length + 1 = (xs ++ [y]).length by simp,
            show xs.length + (z :: Z).length + 1 = (xs ++ [y]).length + (Z ++ [Cell.moved]).length by simp; omega, h1]
          simp [hq]
        · simp [hq] at h3 ⊢; omega

theorem filter_lengths (q : α → Bool) (xs : List α) : xs.length = (xs.filter q).length + (xs.filter fun a => !q a).length := by
  induction xs with
  | nil => rfl
  | cons x xs ih => cases h : q x <;> simp [h] <;> omega

theorem removeErase_spec (q : α → Bool) (p : Mem α → Nat → Cxx Bool)
    (hp : ∀ (A B : Mem α) (a : α), p (A ++ Cell.live a :: B) A.length = pure (q a)) {v : Vec α} {xs : List α} (h : Rep v xs) :
    ∃ v', v.removeErase p = pure (v', (xs.filter q).length) ∧ Rep v' (xs.filter fun a => !q a) ∧ v'.cap = v.cap := by
  obtain ⟨k, hm, hk⟩ := h.ex
  have hl := h.last
  have hcount := filter_lengths q xs
  have hf := removeFind_spec q p k hp xs []
  simp only [lv_nil, List.nil_append, List.length_nil, Nat.zero_add] at hf
  unfold Vec.removeErase removeIf
  rw [hm, hl, hf, pure_bind]
  obtain ⟨A, hA⟩ : ∃ A, xs.takeWhile (fun a => !q a) = A := ⟨_, rfl⟩
  have hsplit := List.takeWhile_append_dropWhile (p := fun a => !q a) (l := xs)
  have hAq : ∀ a ∈ A, (!q a) = true := by
    intro a ha
    rw [← hA] at ha
    have := List.all_takeWhile (p := fun a => !q a) (l := xs)
    exact List.all_eq_true.1 this a ha
  rw [hA]
  cases hB : xs.dropWhile (fun a => !q a) with
  | nil =>
    have hAx : A = xs := by rw [hA, hB, List.append_nil] at hsplit; exact hsplit
    have hall : xs.filter (fun a => !q a) = xs := List.filter_eq_self.2 (hAx ▸ hAq)
    rw [hAx, if_pos rfl, pure_bind]
    refine ⟨v, ?_, by rw [hall]; exact h, rfl⟩
    unfold Vec.eraseRange
    simp only [if_true, pure_bind]
    rw [hall] at hcount
    have : (xs.filter q).length = 0 := by omega
    rw [this, ← hm, ← hl]
    show pure (v, v.size - v.size) = _
    rw [Nat.sub_self]
  | cons b B =>
    have hqb : q b = true := by
      have := List.head?_dropWhile_not (fun a => !q a) xs
      rw [hB] at this
      simpa using this
    have hxs : xs = A ++ b :: B := by rw [← hsplit, hA, hB]
    have hfx : xs.filter (fun a => !q a) = A ++ B.filter fun a => !q a := by
      rw [hxs, List.filter_append, List.filter_eq_self.2 hAq, List.filter_cons]
      simp [hqb]
    have hlx : xs.length = A.length + 1 + B.length := by rw [hxs]; simp; omega
    rw [if_neg (by omega)]
    obtain ⟨Z, h1, h2, h3⟩ := removeLoop_spec q p k hp B A [Cell.live b] (objs_lv [b]) (by simp)
    rw [show lv A ++ [Cell.live b] ++ lv B ++ rw' k = lv xs ++ rw' k by rw [hxs]; simp,
      show A.length + [Cell.live b].length = A.length + 1 from rfl] at h1
    rw [show xs.length - (A.length + 1) = B.length by omega, h1, pure_bind, ← hfx]
    rw [← hfx] at h1
    have hZl : Z.length + (xs.filter fun a => !q a).length = xs.length := by
      rw [hfx, List.length_append]
      simp only [List.length_cons, List.length_nil] at h3
      omega
    have hpos : 0 < Z.length := by
      rw [hfx, List.length_append] at hZl
      have := List.length_filter_le (fun a => !q a) B
      omega
    simp only []
    unfold Vec.eraseRange
    dsimp only
    rw [if_neg (by omega), if_neg (by omega), Nat.sub_self]
    simp only [moveForward, pure_bind, Nat.add_zero]
    obtain ⟨v', e, hr, hc⟩ := Vec.destructAtEnd_spec' (v := { v with mem := lv (xs.filter fun a => !q a) ++ Z ++ rw' k, last := xs.length })
      (xs := xs.filter fun a => !q a) (Z := Z) (k := k) rfl h2 (by dsimp only; omega) (by
        have : ({ v with mem := lv (xs.filter fun a => !q a) ++ Z ++ rw' k, last := xs.length } : Vec α).cap = v.cap := by
          rw [hk]
          unfold Vec.cap
          simp only [List.length_append, lv_length, rw'_length]
          omega
        rw [this]; exact h.blocks)
    rw [e]
    simp only [pure_bind]
    refine ⟨v', ?_, hr, hc.trans ?_⟩
    · unfold Vec.size
      rw [hr.last, hl]
      congr 2; omega
    · rw [hk]
      unfold Vec.cap
      simp only [List.length_append, lv_length, rw'_length]
      omega

/-- C213, `erase_if`: exactly the elements that satisfy the predicate are gone, the others keep their order, the number of erased elements is
returned and the capacity stays. -/
theorem C213_erase_if {v : Vec α} {xs : List α} (h : Rep v xs) (q : α → Bool) :
    ∃ v', v.eraseIf q = pure (v', (xs.filter q).length) ∧ Rep v' (xs.filter fun a => !q a) ∧ v'.cap = v.cap :=
  removeErase_spec q _ (fun A B a => by rw [value_mid _ _ _ rfl]; rfl) h

example := C213_erase_if (v := ⟨[.live 4, .live 5, .raw], 2, 1⟩) (xs := [4, 5]) ⟨rfl, by decide, rfl, rfl⟩ (fun x => decide (x = 4))

/-- C213, `erase` with a value outside of the vector: exactly the elements equal to it are gone.  Missing: references to an element, see
`C213_erase_own_violated`. -/
theorem C213_erase_partial [DecidableEq α] {v : Vec α} {xs : List α} (h : Rep v xs) (x : α) :
    ∃ v', v.eraseValue (.ext x) = pure (v', xs.count x) ∧ Rep v' (xs.filter fun a => a ≠ x) ∧ v'.cap = v.cap := by
  obtain ⟨v', h1, h2, h3⟩ := removeErase_spec (fun a => decide (a = x)) (fun m i => do
    let a ← value m i
    let b ← (Src.ext x).get m
    pure (decide (a = b))) (fun A B a => by rw [value_mid _ _ _ rfl]; rfl) h
  refine ⟨v', ?_, ?_, h3⟩
  · show v.removeErase _ = _
    rw [h1, List.count_eq_length_filter]
    congr 3
  · rw [show (xs.filter fun a => decide (a ≠ x)) = xs.filter fun a => !decide (a = x) by
      congr 1; funext a; rw [decide_not]]
    exact h2

/-- A vector of four elements with room for one more. -/
example : Rep (⟨lv [1, 2, 1, 3] ++ rw' 1, 4, 1⟩ : Vec Nat) [1, 2, 1, 3] := (Rep.of (k := 1) rfl rfl rfl).1
example : (⟨lv [1, 2, 1, 3] ++ rw' 1, 4, 1⟩ : Vec Nat).eraseValue (.ext 1) = pure (⟨lv [2, 3] ++ rw' 3, 2, 1⟩, 2) := rfl

/-- C213 does not hold if the value is an element of the vector: after the first element has been overwritten the reference is to another
value.  Erasing the first element of `a, b, a` by reference leaves `b, a`, and returns 1. -/
theorem C213_erase_own_violated [DecidableEq α] (a b : α) (hab : a ≠ b) (k : Nat) :
    Rep (⟨lv [a, b, a] ++ rw' k, 3, 1⟩ : Vec α) [a, b, a] ∧
    (⟨lv [a, b, a] ++ rw' k, 3, 1⟩ : Vec α).eraseValue (.own 0) = pure (⟨lv [b, a] ++ rw' (k + 1), 2, 1⟩, 1) ∧
    [b, a] ≠ [a, b, a].filter (fun c => c ≠ a) := by
  refine ⟨(Rep.of (k := k) rfl rfl (by simp)).1, ?_, by simp [hab.symm]⟩
  have hba : ¬ b = a := fun h => hab h.symm
  unfold Vec.eraseValue Vec.removeErase removeIf
  have hf : removeFind (fun m i => do
      let a ← value m i
      let b ← (Src.own 0).get m
      pure (decide (a = b))) (lv [a, b, a] ++ rw' k) 0 3 = pure 0 := by
    show (if decide (a = a) = true then pure 0 else _) = (pure 0 : Cxx Nat)
    rw [if_pos (decide_eq_true rfl)]
  have hl : removeLoop (fun m i => do
      let a ← value m i
      let b ← (Src.own 0).get m
      pure (decide (a = b))) (lv [a, b, a] ++ rw' k) 0 1 2 = pure (Cell.live b :: Cell.live a :: Cell.moved :: rw' k, 2) := by
    show (if decide (b = a) = true then _ else (if decide (a = b) = true then _ else _)) = (pure _ : Cxx _)
    rw [if_neg (by simpa using hba), if_neg (by simpa using hab)]
    rfl
  rw [hf, pure_bind]
  dsimp only
  rw [if_neg (by omega), hl]
  rfl

/-! ### Comparison -/

/-- `std::equal` of two ranges of cells. (Rule of C++ or its library, no line of the source.) -/
def equalCells [DecidableEq α] (m w : Mem α) (i : Nat) : Nat → Cxx Bool
  | 0 => pure true
  | n + 1 => do
    let a ← value m i
    let b ← value w i
    if a = b then equalCells m w (i + 1) n else pure false

/-- `operator==`, vector.h 1244-1249. -/
def Vec.eq [DecidableEq α] (x y : Vec α) : Cxx Bool := if x.size = y.size then equalCells x.mem y.mem 0 x.last else pure false

/-- `operator!=`, vector.h 1251-1254. -/
def Vec.ne [DecidableEq α] (x y : Vec α) : Cxx Bool := do
  let b ← x.eq y
  pure (!b)

/-- `std::lexicographical_compare` of two ranges of cells from position `i` on. (Rule of C++ or its library, no line of the source.) -/
def lexCells (lt : α → α → Bool) (m w : Mem α) (i : Nat) : Nat → Nat → Cxx Bool
  | 0, 0 => pure false
  | 0, _ + 1 => pure true
  | _ + 1, 0 => pure false
  | n + 1, k + 1 => do
    let a ← value m i
    let b ← value w i
    if lt a b then pure true else if lt b a then pure false else lexCells lt m w (i + 1) n k

/-- `operator<`, vector.h 1256-1260; `lt` is the `<` of the elements. -/
def Vec.lt (lt : α → α → Bool) (x y : Vec α) : Cxx Bool := lexCells lt x.mem y.mem 0 x.last y.last

/-- `operator>`, vector.h 1262-1265. -/
def Vec.gt (lt : α → α → Bool) (x y : Vec α) : Cxx Bool := y.lt lt x

/-- `operator>=`, vector.h 1267-1270. -/
def Vec.ge (lt : α → α → Bool) (x y : Vec α) : Cxx Bool := do
  let b ← x.lt lt y
  pure (!b)

/-- `operator<=`, vector.h 1272-1275. -/
def Vec.le (lt : α → α → Bool) (x y : Vec α) : Cxx Bool := do
  let b ← y.lt lt x
  pure (!b)

theorem equalCells_spec [DecidableEq α] (k l : Nat) : ∀ (xs ys : List α) (A B : Mem α), A.length = B.length → xs.length = ys.length →
    equalCells (A ++ lv xs ++ rw' k) (B ++ lv ys ++ rw' l) A.length xs.length = pure (decide (xs = ys)) := by
  intro xs
  induction xs with
  | nil => intro ys A B _ h; cases ys with
    | nil => rfl
    | cons => simp at h
  | cons x xs ih =>
    intro ys A B hAB h
    cases ys with
    | nil => simp at h
    | cons y ys =>
      rw [List.length_cons, equalCells, show A ++ lv (x :: xs) ++ rw' k = A ++ Cell.live x :: (lv xs ++ rw' k) by simp,
        show B ++ lv (y :: ys) ++ rw' l = B ++ Cell.live y :: (lv ys ++ rw' l) by simp, value_mid _ _ _ rfl, pure_bind,
        value_mid _ _ _ hAB, pure_bind]
      by_cases hxy : x = y
      · rw [if_pos hxy]
        have := ih ys (A ++ [.live x]) (B ++ [.live y]) (by simp [hAB]) (by simpa using h)
        rw [show A ++ [Cell.live x] ++ lv xs ++ rw' k = A ++ Cell.live x :: (lv xs ++ rw' k) by simp,
          show B ++ [Cell.live y] ++ lv ys ++ rw' l = B ++ Cell.live y :: (lv ys ++ rw' l) by simp, List.length_append] at this
        rw [show A.length + 1 = A.length + [Cell.live x].length from rfl, this]
        congr 1
        simp [hxy]
      · rw [if_neg hxy]
        congr 1
        simp [hxy]

/-- C214, `==` and `!=`: two vectors are equal exactly if they hold the same elements, whatever their capacities. -/
theorem C214_equal [DecidableEq α] {x y : Vec α} {xs ys : List α} (hx : Rep x xs) (hy : Rep y ys) :
    x.eq y = pure (decide (xs = ys)) ∧ x.ne y = pure (decide (xs ≠ ys)) := by
  have h : x.eq y = pure (decide (xs = ys)) := by
    unfold Vec.eq Vec.size
    rw [hx.last, hy.last]
    obtain ⟨k, hk, _⟩ := hx.ex
    obtain ⟨l, hl, _⟩ := hy.ex
    by_cases hlen : xs.length = ys.length
    · rw [if_pos hlen, hk, hl]
      have := equalCells_spec k l xs ys [] [] rfl hlen
      simpa using this
    · rw [if_neg hlen]
      congr 1
      symm
      exact decide_eq_false fun h => hlen (congrArg _ h)
  refine ⟨h, ?_⟩
  unfold Vec.ne
  rw [h, pure_bind]
  congr 1
  rw [decide_not]

/-- The first difference of two lists decides. (Specification, no line of the source.) -/
def Before (lt : α → α → Bool) (xs ys : List α) : Prop :=
  (∃ z, ys = xs ++ z ∧ z ≠ []) ∨ ∃ p a b r s, xs = p ++ a :: r ∧ ys = p ++ b :: s ∧ lt a b = true

theorem before_cons (lt : α → α → Bool) (hirr : ∀ a, lt a a = false) (a : α) (xs ys : List α) :
    Before lt (a :: xs) (a :: ys) ↔ Before lt xs ys := by
  constructor
  · rintro (⟨z, h, hz⟩ | ⟨p, c, d, r, s, h1, h2, h3⟩)
    · rw [List.cons_append] at h
      injection h with _ h
      exact .inl ⟨z, h, hz⟩
    · cases p with
      | nil =>
        injection h1 with h1 _
        injection h2 with h2 _
        rw [← h1, ← h2, hirr] at h3
        cases h3
      | cons e p =>
        rw [List.cons_append] at h1 h2
        injection h1 with _ h1
        injection h2 with _ h2
        exact .inr ⟨p, c, d, r, s, h1, h2, h3⟩
  · rintro (⟨z, h, hz⟩ | ⟨p, c, d, r, s, h1, h2, h3⟩)
    · exact .inl ⟨z, by rw [h]; rfl, hz⟩
    · exact .inr ⟨a :: p, c, d, r, s, by rw [h1]; rfl, by rw [h2]; rfl, h3⟩

theorem lexCells_spec (lt : α → α → Bool) (hirr : ∀ a, lt a a = false)
    (htot : ∀ a b, lt a b = false → lt b a = false → a = b) (k l : Nat) :
    ∀ (xs ys : List α) (A B : Mem α), A.length = B.length →
    ∃ b, lexCells lt (A ++ lv xs ++ rw' k) (B ++ lv ys ++ rw' l) A.length xs.length ys.length = pure b ∧ (b = true ↔ Before lt xs ys) := by
  intro xs
  induction xs with
  | nil =>
    intro ys A B _
    cases ys with
    | nil =>
      refine ⟨false, rfl, ?_⟩
      constructor
      · intro h; cases h
      · rintro (⟨z, h, hz⟩ | ⟨p, a, b, r, s, h, _⟩)
        · exact absurd h.symm hz
        · cases p <;> cases h
    | cons y ys => exact ⟨true, rfl, fun _ => .inl ⟨y :: ys, rfl, by simp⟩, fun _ => rfl⟩
  | cons x xs ih =>
    intro ys A B hAB
    cases ys with
    | nil =>
      refine ⟨false, rfl, ?_⟩
      constructor
      · intro h; cases h
      · rintro (⟨z, h, hz⟩ | ⟨p, a, b, r, s, _, h, _⟩)
        · cases h
        · cases p <;> cases h
    | cons y ys =>
      simp only [List.length_cons, lexCells]
      rw [show A ++ lv (x :: xs) ++ rw' k = A ++ Cell.live x :: (lv xs ++ rw' k) by simp,
        show B ++ lv (y :: ys) ++ rw' l = B ++ Cell.live y :: (lv ys ++ rw' l) by simp, value_mid _ _ _ rfl, pure_bind,
        value_mid _ _ _ hAB, pure_bind]
      cases hxy : lt x y with
      | true => exact ⟨true, rfl, fun _ => .inr ⟨[], x, y, xs, ys, rfl, rfl, hxy⟩, fun _ => rfl⟩
      | false =>
        cases hyx : lt y x with
        | true =>
          refine ⟨false, rfl, ?_⟩
          constructor
          · intro h; cases h
          · rintro (⟨z, h, hz⟩ | ⟨p, a, b, r, s, h1, h2, h3⟩)
            · rw [List.cons_append] at h
              injection h with h _
              rw [h, hirr] at hyx; cases hyx
            · cases p with
              | nil =>
                injection h1 with h1 _
                injection h2 with h2 _
                rw [h1, h2, h3] at hxy; cases hxy
              | cons e p =>
                rw [List.cons_append] at h1 h2
                injection h1 with h1 _
                injection h2 with h2 _
                rw [h1, h2, hirr] at hyx; cases hyx
        | false =>
          have he := htot x y hxy hyx
          subst he
          obtain ⟨b, h1, h2⟩ := ih ys (A ++ [.live x]) (B ++ [.live x]) (by simp [hAB])
          rw [show A ++ [Cell.live x] ++ lv xs ++ rw' k = A ++ Cell.live x :: (lv xs ++ rw' k) by simp,
            show B ++ [Cell.live x] ++ lv ys ++ rw' l = B ++ Cell.live x :: (lv ys ++ rw' l) by simp, List.length_append] at h1
          exact ⟨b, h1, h2.trans (before_cons lt hirr x xs ys).symm⟩

/-- C214, the order: `<` is the lexicographic order, the other operators agree with it, and of `x < y`, `x == y` and `x > y` exactly one
holds, if the elements have a total order. -/
theorem C214_order [DecidableEq α] (lt : α → α → Bool) (hirr : ∀ a, lt a a = false) (hasym : ∀ a b, lt a b = true → lt b a = false)
    (htot : ∀ a b, lt a b = false → lt b a = false → a = b) {x y : Vec α} {xs ys : List α} (hx : Rep x xs) (hy : Rep y ys) :
    ∃ l g e, x.lt lt y = pure l ∧ x.gt lt y = pure g ∧ x.eq y = pure e ∧ x.ge lt y = pure (!l) ∧ x.le lt y = pure (!g) ∧
      (l = true ↔ Before lt xs ys) ∧ (g = true ↔ Before lt ys xs) ∧
      ((l, e, g) = (true, false, false) ∨ (l, e, g) = (false, true, false) ∨ (l, e, g) = (false, false, true)) := by
  obtain ⟨k, hk, _⟩ := hx.ex
  obtain ⟨n, hn, _⟩ := hy.ex
  obtain ⟨l, h1, h2⟩ := lexCells_spec lt hirr htot k n xs ys [] [] rfl
  obtain ⟨g, h3, h4⟩ := lexCells_spec lt hirr htot n k ys xs [] [] rfl
  have hl : x.lt lt y = pure l := by
    unfold Vec.lt; rw [hk, hn, hx.last, hy.last]; simpa using h1
  have hg : y.lt lt x = pure g := by
    unfold Vec.lt; rw [hk, hn, hx.last, hy.last]; simpa using h3
  refine ⟨l, g, decide (xs = ys), hl, hg, (C214_equal hx hy).1, ?_, ?_, h2, h4, ?_⟩
  · unfold Vec.ge; rw [hl]; rfl
  · unfold Vec.le; rw [hg]; rfl
  · have hself : ∀ zs, ¬ Before lt zs zs := by
      intro zs
      induction zs with
      | nil =>
        rintro (⟨z, h, hz⟩ | ⟨p, a, b, r, s, h, _⟩)
        · exact hz h.symm
        · cases p <;> cases h
      | cons a zs ih => rw [before_cons lt hirr]; exact ih
    have hcomp : ∀ (xs ys : List α), (Before lt xs ys → ¬ Before lt ys xs) ∧ (xs ≠ ys → ¬ Before lt xs ys → Before lt ys xs) := by
      intro xs
      induction xs with
      | nil =>
        intro ys
        cases ys with
        | nil => exact ⟨fun h => absurd h (hself _), fun h => absurd rfl h⟩
        | cons b ys =>
          refine ⟨fun _ => ?_, fun _ h => absurd (.inl ⟨b :: ys, rfl, by simp⟩) h⟩
          rintro (⟨z, h, hz⟩ | ⟨p, a, c, r, s, _, h, _⟩)
          · cases h
          · cases p <;> cases h
      | cons a xs ih =>
        intro ys
        cases ys with
        | nil =>
          refine ⟨?_, fun _ _ => .inl ⟨a :: xs, rfl, by simp⟩⟩
          rintro (⟨z, h, hz⟩ | ⟨p, a, c, r, s, _, h, _⟩)
          · cases h
          · cases p <;> cases h
        | cons b ys =>
          have hlt : ∀ a b xs ys, lt a b = true → Before lt (a :: xs) (b :: ys) :=
            fun a b xs ys h => .inr ⟨[], a, b, xs, ys, rfl, rfl, h⟩
          have hnot : ∀ a b xs ys, lt a b = true → ¬ Before lt (b :: ys) (a :: xs) := by
            intro a b xs ys h
            rintro (⟨z, h1, hz⟩ | ⟨p, c, d, r, s, h1, h2, h3⟩)
            · rw [List.cons_append] at h1
              injection h1 with h1 _
              rw [h1, hirr] at h; cases h
            · cases p with
              | nil =>
                injection h1 with h1 _
                injection h2 with h2 _
                rw [← h1, ← h2] at h3
                rw [hasym _ _ h] at h3; cases h3
              | cons e p =>
                rw [List.cons_append] at h1 h2
                injection h1 with h1 _
                injection h2 with h2 _
                rw [h1, h2, hirr] at h; cases h
          cases hab : lt a b with
          | true => exact ⟨fun _ => hnot a b xs ys hab, fun _ h => absurd (hlt a b xs ys hab) h⟩
          | false =>
            cases hba : lt b a with
            | true => exact ⟨fun h => absurd h (hnot b a ys xs hba), fun _ _ => hlt b a ys xs hba⟩
            | false =>
              have he := htot a b hab hba
              subst he
              rw [before_cons lt hirr, before_cons lt hirr]
              exact ⟨(ih ys).1, fun hne => (ih ys).2 fun h => hne (by rw [h])⟩
    by_cases he : xs = ys
    · subst he
      have h5 : l = false := by
        cases hh : l with
        | true => exact absurd (h2.1 hh) (hself _)
        | false => rfl
      have h6 : g = false := by
        cases hh : g with
        | true => exact absurd (h4.1 hh) (hself _)
        | false => rfl
      rw [h5, h6]
      simp
    · by_cases hb : Before lt xs ys
      · have h5 := h2.2 hb
        have h6 : g = false := by
          cases hh : g with
          | true => exact absurd (h4.1 hh) ((hcomp xs ys).1 hb)
          | false => rfl
        rw [h5, h6]
        simp [he]
      · have h6 := h4.2 ((hcomp xs ys).2 he hb)
        have h5 : l = false := by
          cases hh : l with
          | true => exact absurd (h2.1 hh) hb
          | false => rfl
        rw [h5, h6]
        simp [he]

/-- Vectors with different capacities. -/
example : (⟨lv [1, 2] ++ rw' 3, 2, 1⟩ : Vec Nat).lt (fun a b => decide (a < b)) ⟨lv [1, 3, 0] ++ rw' 0, 3, 1⟩ = pure true := rfl
example : Rep (⟨lv [1, 2] ++ rw' 3, 2, 1⟩ : Vec Nat) [1, 2] := (Rep.of (k := 3) rfl rfl rfl).1

end Verif.Vector
