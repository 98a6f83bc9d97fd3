import Verif.Pipelines.Chunk
import Verif.Iter.Iota

/-
Walking several ranges at once, include/daw/pipelines/zip.h, the numbers as a range, iota.h, and both together, enumerate.h.
-/

namespace Verif.Pipe
open Cxx Algorithm Verif.Bits
variable {α : Type}

/-! ## zip -/

/-- `zip_iterator::get_items` (`operator*`), pipelines/zip.h 86-96 and 123-129.  The ranges `xss` have one type of elements, the
iterator is the tuple of the positions, one for each range. -/
def zipDeref (xss : List (List α)) (ps : List Nat) : Cxx (List α) :=
  match xss, ps with
  | xs :: xss, p :: ps => do
    let a ← rd xs p
    let as ← zipDeref xss ps
    pure (a :: as)
  | _, _ => pure []

/-- `zip_iterator::increment` (`operator++`), pipelines/zip.h 58-61 and 112-115.  Each iterator must stay inside its range. -/
def zipInc (xss : List (List α)) (ps : List Nat) : Cxx (List Nat) :=
  match xss, ps with
  | xs :: xss, p :: ps => do
    let p ← (if p < xs.length then pure (p + 1) else ub : Cxx Nat)
    let ps ← zipInc xss ps
    pure (p :: ps)
  | _, _ => pure []

/-- `zip_iterator::operator==`, pipelines/zip.h 131-134. -/
def zipEq (ps qs : List Nat) : Bool := ps == qs

/-- The fold `( get<Is>( m_iters ) == get<Is>( rhs.m_iters ) ) or ...` of `zip_iterator::operator!=`, pipelines/zip.h 142-143. -/
def zipAnyEq : List Nat → List Nat → Bool
  | p :: ps, q :: qs => p == q || zipAnyEq ps qs
  | _, _ => false

/-- `zip_iterator::operator!=`, pipelines/zip.h 136-146. -/
def zipNe (ps qs : List Nat) : Bool := !zipAnyEq ps qs

/-- `zip_iterator::operator-`, pipelines/zip.h 199-202: the distance of the first iterators. -/
def zipDist (ps qs : List Nat) : Int :=
  match ps, qs with
  | p :: _, q :: _ => (p : Int) - q
  | _, _ => 0

/-- `zip_iterator::operator<`, pipelines/zip.h 204-207: the lexicographic order of the tuples. -/
def zipLt (ps qs : List Nat) : Bool := decide (ps < qs)

/-- The iterator `zip_view::begin`, pipelines/zip.h 239 and 242-244. -/
def zipBegin (xss : List (List α)) : List Nat := xss.map fun _ => 0

/-- The iterator `zip_view::end`, pipelines/zip.h 240 and 246-248. -/
def zipEnd (xss : List (List α)) : List Nat := xss.map List.length

/-- What a range based for loop over the `zip_view` of some ranges sees, pipelines/zip.h 227-249. -/
def zipView (xss : List (List α)) : Cxx (List (List α)) :=
  collect (fun ps => zipNe ps (zipEnd xss)) (fun ps => do let r ← zipDeref xss ps; pure (r, ps)) (zipInc xss) (zipBegin xss)

/-- Row `i` of the ranges. (Specification, no line of the source.) -/
def row (xss : List (List α)) (i : Nat) : List α := xss.filterMap (·[i]?)

/-- The positions of an iterator after `i` steps. (Specification, no line of the source.) -/
def lockstep (xss : List (List α)) (i : Nat) : List Nat := xss.map fun _ => i

theorem zipDeref_row {xss : List (List α)} {i : Nat} (h : ∀ xs ∈ xss, i < xs.length) :
    zipDeref xss (lockstep xss i) = pure (row xss i) := by
  induction xss with
  | nil => rfl
  | cons xs xss ih =>
    have h0 := h xs (by simp)
    show (do let a ← rd xs i; let as ← zipDeref xss (lockstep xss i); pure (a :: as)) = _
    rw [rd_eq h0, ih fun ys hy => h ys (by simp [hy])]
    simp [row, List.getElem?_eq_getElem h0]

theorem zipInc_lockstep {xss : List (List α)} {i : Nat} (h : ∀ xs ∈ xss, i < xs.length) :
    zipInc xss (lockstep xss i) = pure (lockstep xss (i + 1)) := by
  induction xss with
  | nil => rfl
  | cons xs xss ih =>
    have h0 := h xs (by simp)
    show (do let p ← (if i < xs.length then pure (i + 1) else ub : Cxx Nat); let ps ← zipInc xss (lockstep xss i); pure (p :: ps)) = _
    rw [if_pos h0, ih fun ys hy => h ys (by simp [hy])]
    rfl

theorem zipAnyEq_lockstep {xss : List (List α)} {i : Nat} :
    zipAnyEq (lockstep xss i) (zipEnd xss) = true ↔ ∃ xs ∈ xss, xs.length = i := by
  induction xss with
  | nil => simp [lockstep, zipEnd, zipAnyEq]
  | cons xs xss ih =>
    show (i == xs.length || zipAnyEq (lockstep xss i) (zipEnd xss)) = true ↔ _
    rw [Bool.or_eq_true, ih, beq_iff_eq]
    constructor
    · rintro (h | ⟨ys, hy, h⟩)
      · exact ⟨xs, by simp, h.symm⟩
      · exact ⟨ys, by simp [hy], h⟩
    · rintro ⟨ys, hy, h⟩
      rcases List.mem_cons.1 hy with rfl | hy
      · exact .inl h.symm
      · exact .inr ⟨ys, hy, h⟩

theorem zip_from {xss : List (List α)} {m : Nat} (hm : ∃ xs ∈ xss, xs.length = m) (hmin : ∀ xs ∈ xss, m ≤ xs.length) (k : Nat) :
    ∀ i, i + k = m → collect (fun ps => zipNe ps (zipEnd xss)) (fun ps => do let r ← zipDeref xss ps; pure (r, ps)) (zipInc xss)
      (lockstep xss i) = pure ((List.range' i k).map (row xss)) := by
  induction k with
  | zero =>
    intro i hi
    apply collect_nil
    obtain ⟨xs, hx, hl⟩ := hm
    simp only [zipNe, zipAnyEq_lockstep.2 ⟨xs, hx, show xs.length = i by omega⟩, Bool.not_true]
  | succ k ih =>
    intro i hi
    have hlt : ∀ xs ∈ xss, i < xs.length := fun xs hx => by have := hmin xs hx; omega
    have hne : zipAnyEq (lockstep xss i) (zipEnd xss) = false := by
      rw [Bool.eq_false_iff]
      intro h
      obtain ⟨xs, hx, hl⟩ := zipAnyEq_lockstep.1 h
      have := hlt xs hx
      omega
    rw [List.range'_succ, List.map_cons]
    exact collect_cons (by simp only [zipNe, hne, Bool.not_false]) (by rw [zipDeref_row hlt]; rfl) (zipInc_lockstep hlt) (ih (i + 1) (by omega))

/-- A loop over the zip of any positive number of ranges, of whatever lengths, sees as many tuples as the shortest range has
elements, the `i`-th one made of the `i`-th element of every range; nothing outside the ranges is touched. -/
theorem C141_zip (xss : List (List α)) (hne : xss ≠ []) :
    ∃ m rows, zipView xss = pure rows ∧ rows.length = m ∧ (∃ xs ∈ xss, xs.length = m) ∧ (∀ xs ∈ xss, m ≤ xs.length) ∧
      ∀ (i : Nat) (hi : i < rows.length), rows[i].length = xss.length ∧
        ∀ (j : Nat) (hj : j < xss.length), rows[i][j]? = xss[j][i]? := by
  obtain ⟨m, hm, hmin⟩ : ∃ m, (∃ xs ∈ xss, xs.length = m) ∧ ∀ xs ∈ xss, m ≤ xs.length := by
    induction xss with
    | nil => exact absurd rfl hne
    | cons xs xss ih =>
      cases xss with
      | nil => exact ⟨xs.length, ⟨xs, by simp, rfl⟩, by simp⟩
      | cons ys yss =>
        obtain ⟨m, ⟨zs, hz, hl⟩, hmin⟩ := ih (by simp)
        by_cases h : xs.length ≤ m
        · refine ⟨xs.length, ⟨xs, by simp, rfl⟩, fun ws hw => ?_⟩
          rcases List.mem_cons.1 hw with rfl | hw
          · exact Nat.le_refl _
          · exact Nat.le_trans h (hmin ws hw)
        · refine ⟨m, ⟨zs, List.mem_cons_of_mem _ hz, hl⟩, fun ws hw => ?_⟩
          rcases List.mem_cons.1 hw with rfl | hw
          · omega
          · exact hmin ws hw
  refine ⟨m, (List.range' 0 m).map (row xss), zip_from hm hmin m 0 (by omega), by simp, hm, hmin, fun i hi => ?_⟩
  have hi' : i < m := by simpa using hi
  have hlt : ∀ xs ∈ xss, i < xs.length := fun xs hx => Nat.lt_of_lt_of_le hi' (hmin xs hx)
  have hrow : ∀ yss : List (List α), (∀ xs ∈ yss, i < xs.length) → (row yss i).length = yss.length ∧
      ∀ (j : Nat) (hj : j < yss.length), (row yss i)[j]? = yss[j][i]? := by
    intro yss
    induction yss with
    | nil => intro _; exact ⟨rfl, fun j hj => absurd hj (by simp)⟩
    | cons ys yss ih =>
      intro h
      obtain ⟨h1, h2⟩ := ih fun xs hx => h xs (by simp [hx])
      have hy := h ys (by simp)
      have e : row (ys :: yss) i = ys[i] :: row yss i := by simp [row, List.getElem?_eq_getElem hy]
      rw [e]
      refine ⟨by simp [h1], fun j hj => ?_⟩
      cases j with
      | zero => simp [List.getElem?_eq_getElem hy]
      | succ j => simpa using h2 j (by simpa using hj)
  have hri : ((List.range' 0 m).map (row xss))[i] = row xss i := by simp
  rw [hri]
  exact hrow xss hlt

example : zipView [[1, 2, 3], [4, 5], [6, 7, 8, 9]] = pure [[1, 4, 6], [2, 5, 7]] := by
  obtain ⟨m, rows, h, -⟩ := C141_zip [[1, 2, 3], [4, 5], [6, 7, 8, 9]] (by simp)
  exact zip_from (m := 2) ⟨[4, 5], by simp, rfl⟩ (by simp) 2 0 rfl

/-- Iterators of a zip that walk in step with one another, over ranges of one length, keep the laws: `!=` is the negation of
`==`, the distance counts the steps and `<` is the order of the steps. -/
theorem C142_lockstep_partial (xss : List (List α)) (hne : xss ≠ []) (i j : Nat) :
    (zipNe (lockstep xss i) (lockstep xss j) = !zipEq (lockstep xss i) (lockstep xss j)) ∧
    (zipEq (lockstep xss i) (lockstep xss j) = true ↔ i = j) ∧
    zipDist (lockstep xss i) (lockstep xss j) = (i : Int) - j ∧
    (zipLt (lockstep xss i) (lockstep xss j) = true ↔ i < j) := by
  have hany : ∀ yss : List (List α), yss ≠ [] → (zipAnyEq (lockstep yss i) (lockstep yss j) = true ↔ i = j) := by
    intro yss
    induction yss with
    | nil => intro h; exact absurd rfl h
    | cons ys yss ih =>
      intro _
      show (i == j || zipAnyEq (lockstep yss i) (lockstep yss j)) = true ↔ _
      rw [Bool.or_eq_true]
      by_cases he : yss = []
      · subst he; simp [lockstep, zipAnyEq]
      · rw [ih he]; simp
  have heq : zipEq (lockstep xss i) (lockstep xss j) = true ↔ i = j := by
    unfold zipEq
    rw [beq_iff_eq]
    constructor
    · intro h
      obtain ⟨xs, yss, rfl⟩ := List.exists_cons_of_ne_nil hne
      exact (List.cons.inj h).1
    · rintro rfl; rfl
  refine ⟨?_, heq, ?_, ?_⟩
  · unfold zipNe
    congr 1
    rw [Bool.eq_iff_iff, hany xss hne, heq]
  · obtain ⟨xs, yss, rfl⟩ := List.exists_cons_of_ne_nil hne
    rfl
  · unfold zipLt
    rw [decide_eq_true_eq]
    have hlt : ∀ yss : List (List α), yss ≠ [] → (lockstep yss i < lockstep yss j ↔ i < j) := by
      intro yss
      induction yss with
      | nil => intro h; exact absurd rfl h
      | cons ys yss ih =>
        intro _
        show (i :: lockstep yss i) < (j :: lockstep yss j) ↔ _
        rw [List.cons_lt_cons_iff]
        constructor
        · rintro (h | ⟨rfl, h⟩)
          · exact h
          · by_cases he : yss = []
            · subst he; simp [lockstep] at h
            · exact (ih he).1 h
        · exact .inl
    exact hlt xss hne

example := C142_lockstep_partial [[1, 2, 3], [4, 5]] (by decide) 1 2

/-- Between iterators that are not in step, as the end of ranges of different length is, `!=` is not the negation of `==`: at
the end of the loop the iterator is still not equal to the end. -/
theorem C142_equality_violated : ∃ (xss : List (List Nat)) (ps : List Nat),
    zipNe ps (zipEnd xss) = false ∧ zipEq ps (zipEnd xss) = false :=
  ⟨[[1], [2, 3]], [1, 1], by decide, by decide⟩

/-- A loop that ends at `==`, as the generic algorithms may write it, reads past the shorter range. -/
theorem C142_loop_equality_violated : ∃ (xss : List (List Nat)),
    zipView xss = pure [[1, 2]] ∧
    collect (fun ps => !zipEq ps (zipEnd xss)) (fun ps => do let r ← zipDeref xss ps; pure (r, ps)) (zipInc xss) (zipBegin xss) = ub := by
  refine ⟨[[1], [2, 3]], zip_from (m := 1) ⟨[1], by simp, rfl⟩ (by simp) 1 0 rfl, ?_⟩
  rw [collect, if_pos (by decide)]
  show (collect _ _ _ [1, 1] >>= _) = _
  rw [collect, if_pos (by decide)]
  rfl

/-- The distance from begin to end is the length of the first range, not the number of tuples. -/
theorem C142_distance_violated : (∀ (xs : List α) (xss : List (List α)),
      zipDist (zipEnd (xs :: xss)) (zipBegin (xs :: xss)) = xs.length) ∧
    ∃ (xss : List (List Nat)), zipView xss = pure [] ∧ zipDist (zipEnd xss) (zipBegin xss) = 2 := by
  refine ⟨fun xs xss => ?_, [[1, 2], []], zip_from (m := 0) ⟨[], by simp, rfl⟩ (by simp) 0 0 rfl, by decide⟩
  show ((xs.length : Int) - (0 : Nat)) = _
  simp

/-! ## iota -/

/-- `++value` of `iota_iterator::operator++`, pipelines/iota.h 54-57. -/
def iotaInc (t : IntTy) (v : Int) : Cxx Int := do
  let r ← Iter.arith t (v + 1)
  pure (t.conv r)

/-- `iota_iterator::operator-`, pipelines/iota.h 100-103. -/
def iotaDist (t : IntTy) (a b : Int) : Cxx Int := do
  let r ← Iter.arith t (a - b)
  pure ((⟨64, true, by decide⟩ : IntTy).conv r)

/-- What a range based for loop over `iota_view<T>( first, last )` sees, pipelines/iota.h 145-172. -/
def iotaView (t : IntTy) (first last : Int) : Cxx (List Int) :=
  collect (fun v => v != last) (fun v => pure (v, v)) (iotaInc t) first

/-- An operation whose exact result fits the type gives that result. -/
theorem arith_conv {t : IntTy} {z : Int} (h' : t.Has z) : (do let r ← Iter.arith t z; pure (t.conv r)) = (pure z : Cxx Int) := by
  unfold Iter.arith
  have hp := t.pos
  split
  · next hs =>
    rw [if_pos]
    · rw [pure_bind, IntTy.conv_of_has h']
    · unfold IntTy.promote at hs ⊢
      split
      · next hb =>
        have h1 : (2 : Int) ^ (t.bits - 1) ≤ 2 ^ 31 := by
          have := Nat.pow_le_pow_right (n := 2) (by omega) (show t.bits - 1 ≤ 31 by omega)
          exact_mod_cast this
        have h2 : (2 : Int) ^ t.bits ≤ 2 ^ 31 := by
          have := Nat.pow_le_pow_right (n := 2) (by omega) (show t.bits ≤ 31 by omega)
          exact_mod_cast this
        have h3 : IntTy.int.lowest = -2 ^ 31 := rfl
        have h4 : IntTy.int.max = 2 ^ 31 - 1 := rfl
        have h5 : (2 : Int) ^ 31 = 2147483648 := by decide
        unfold IntTy.Has at h' ⊢
        rw [h3, h4]
        unfold IntTy.lowest IntTy.max at h'
        split at h' <;> omega
      · exact h'
  · next hs =>
    have e : t.promote = t := by
      unfold IntTy.promote at hs ⊢
      split at hs
      · exact absurd rfl hs
      · next hb => rw [if_neg hb]
    rw [e, IntTy.conv_of_has h', pure_bind, IntTy.conv_of_has h']

theorem iotaInc_eq {t : IntTy} {v : Int} (h' : t.Has (v + 1)) : iotaInc t v = pure (v + 1) := arith_conv h'

theorem iota_from (t : IntTy) {last : Int} (hl : t.Has last) (k : Nat) : ∀ v : Int, t.lowest ≤ v → v + k = last →
    iotaView t v last = pure ((List.range k).map fun i => v + (i : Nat)) := by
  induction k with
  | zero =>
    intro v _ h
    unfold iotaView
    rw [collect_nil (by simp; omega)]
    rfl
  | succ k ih =>
    intro v h0 h
    unfold iotaView
    have hm := hl.2
    rw [List.range_succ_eq_map, List.map_cons, List.map_map]
    refine collect_cons (s' := v) (by simp; omega) (by simp) (iotaInc_eq ⟨by omega, by omega⟩) ?_
    rw [show (collect (fun v => v != last) (fun v => pure (v, v)) (iotaInc t) (v + 1)) = iotaView t (v + 1) last from rfl,
      ih (v + 1) (by omega) (by omega)]
    congr 1
    apply List.map_congr_left
    intro i _
    simp only [Function.comp]
    omega

/-- For `first <= last` a loop over `iota_view( first, last )` sees exactly the numbers from `first` up to `last`, without
`last`, in every integer type and without overflow. -/
theorem C143_iota_partial (t : IntTy) (first last : Int) (hf : t.Has first) (hl : t.Has last) (h : first ≤ last) :
    ∃ l, iotaView t first last = pure l ∧ (l.length : Int) = last - first ∧
      ∀ (i : Nat) (hi : i < l.length), l[i] = first + i := by
  refine ⟨_, iota_from t hl (last - first).toNat first hf.1 (by omega), by simp; omega, fun i hi => by simp⟩

example : iotaView ⟨8, false, by decide⟩ 253 255 = pure [253, 254] := iota_from _ (by decide) 2 253 (by decide) rfl

theorem iota_ub (t : IntTy) (hs : t.signed = true) (hb : 32 ≤ t.bits) {last : Int} (k : Nat) :
    ∀ v : Int, t.lowest ≤ v → last < v → v + k = t.max → iotaView t v last = ub := by
  have e : t.promote = t := by unfold IntTy.promote; rw [if_neg (by omega)]
  induction k with
  | zero =>
    intro v h0 h h'
    unfold iotaView
    rw [collect, if_pos (by simp; omega)]
    have hi : iotaInc t v = ub := by
      unfold iotaInc Iter.arith
      rw [e, if_pos hs, if_neg (by unfold IntTy.Has; omega)]
      rfl
    simp only [pure_bind, hi]
    rfl
  | succ k ih =>
    intro v h0 h h'
    unfold iotaView
    exact collect_step (by simp; omega) rfl (iotaInc_eq ⟨by omega, by omega⟩)
      (ih (v + 1) (by omega) (by omega) (by omega)) rfl

/-- If `first` is behind `last`, which a loop with a computed bound may produce, the loop is not empty: it runs into the
overflow of the type, undefined behaviour for `int` and larger signed types. -/
theorem C143_iota_violated (t : IntTy) (hs : t.signed = true) (hb : 32 ≤ t.bits) (first last : Int) (hf : t.Has first)
    (h : last < first) : iotaView t first last = ub := by
  have h1 := hf.1
  have h2 := hf.2
  exact iota_ub t hs hb (t.max - first).toNat first hf.1 h (by omega)

example : iotaView .int 4 3 = ub := C143_iota_violated .int rfl (by decide) 4 3 (by decide) (by decide)

theorem iotaInc_wrap (t : IntTy) (hs : t.signed = false) (hb : 32 ≤ t.bits) : iotaInc t t.max = pure 0 := by
  have e : t.promote = t := by unfold IntTy.promote; rw [if_neg (by omega)]
  have h : t.conv (t.max + 1) = 0 := by simp [IntTy.conv, IntTy.max, hs]
  unfold iotaInc Iter.arith
  rw [e, if_neg (by simp [hs]), pure_bind, h]
  simp [IntTy.conv]

/-- In an unsigned type it walks through all the numbers above `first` and then those below `last`. -/
theorem C143_iota_wraps_finding (t : IntTy) (hs : t.signed = false) (hb : 32 ≤ t.bits) (first last : Int) (hf : t.Has first)
    (hl : t.Has last) (h : last < first) :
    ∃ l, iotaView t first last = pure l ∧ (l.length : Int) = t.max + 1 - first + last := by
  have h1 := hf.1
  have h2 := hf.2
  have h0 : t.lowest = 0 := by simp [IntTy.lowest, hs]
  have hl1 := hl.1
  have key : ∀ (k : Nat) (v : Int), t.lowest ≤ v → last < v → v + k = t.max →
      ∃ l, iotaView t v last = pure l ∧ (l.length : Int) = t.max + 1 - v + last := by
    intro k
    induction k with
    | zero =>
      intro v hv hlv hk
      obtain ⟨l, he, hlen⟩ := iota_from t hl last.toNat 0 (by omega) (by omega) |> fun e => (⟨_, e, rfl⟩ :
        ∃ l, iotaView t 0 last = pure l ∧ l = (List.range last.toNat).map fun i : Nat => (0 : Int) + (i : Nat))
      have hvm : v = t.max := by omega
      refine ⟨v :: l, collect_cons (by simp; omega) rfl (hvm ▸ iotaInc_wrap t hs hb) he, ?_⟩
      subst hlen
      simp
      omega
    | succ k ih =>
      intro v hv hlv hk
      obtain ⟨l, he, hlen⟩ := ih (v + 1) (by omega) (by omega) (by omega)
      refine ⟨v :: l, collect_cons (by simp; omega) rfl (iotaInc_eq ⟨by omega, by omega⟩) he, ?_⟩
      rw [List.length_cons]
      omega
  exact key (t.max - first).toNat first h1 h (by omega)

/-- The distance of the ends is the number of steps as long as it fits `ptrdiff_t` and, for signed types, the type itself. -/
theorem C143_distance_partial (t : IntTy) (hb : 32 ≤ t.bits) (a b : Int)
    (h : b ≤ a) (hd : a - b < 2 ^ 63) (hd' : t.Has (a - b)) : iotaDist t a b = pure (a - b) := by
  have e : t.promote = t := by unfold IntTy.promote; rw [if_neg (by omega)]
  have hc : (⟨64, true, by decide⟩ : IntTy).conv (a - b) = a - b := by
    apply IntTy.conv_of_has
    show (-2 ^ 63 : Int) ≤ a - b ∧ a - b ≤ 2 ^ 63 - 1
    omega
  unfold iotaDist Iter.arith
  rw [e]
  split
  · rw [pure_bind, hc]
  · rw [IntTy.conv_of_has hd', pure_bind, hc]

example : iotaDist .int 9 4 = pure 5 := C143_distance_partial .int (by decide) 9 4 (by decide) (by decide) (by decide)

/-- `std::size_t` has ranges with more numbers than `ptrdiff_t` can count, and Enumerate (`iota_view<std::size_t>( 0, max )`)
makes one: its distance is -1.  A signed type may overflow. -/
theorem C143_distance_violated :
    iotaDist ⟨64, false, by decide⟩ (2 ^ 64 - 1) 0 = pure (-1) ∧ iotaDist .int (2 ^ 31 - 1) (-1) = ub := by
  constructor <;> decide +kernel

/-- `iota_view( first, last )` without a type for two values of another integer type: the deduction guide, pipelines/iota.h 176-177,
makes it `iota_view<std::size_t>`, whatever the type of the bounds. -/
def iotaDeduced (first last : Int) : Cxx (List Int) :=
  iotaView ⟨64, false, by decide⟩ ((⟨64, false, by decide⟩ : IntTy).conv first) ((⟨64, false, by decide⟩ : IntTy).conv last)

/-- So a range of numbers from a negative one on has the right length but begins with a number above `2^63`. -/
theorem C143_deduced_finding (first last : Int) (h : first < 0) (h0 : -2 ^ 63 ≤ first) (h' : 0 ≤ last) (hl : last < 2 ^ 63) :
    ∃ l, iotaDeduced first last = pure l ∧ (l.length : Int) = last - first ∧ l[0]? = some (2 ^ 64 + first) := by
  have e1 : (⟨64, false, by decide⟩ : IntTy).conv first = 2 ^ 64 + first := by
    show first % 2 ^ 64 = _
    omega
  have e2 : (⟨64, false, by decide⟩ : IntTy).conv last = last := by
    show last % 2 ^ 64 = _
    omega
  have hm : (⟨64, false, by decide⟩ : IntTy).max = 2 ^ 64 - 1 := rfl
  have hlo : (⟨64, false, by decide⟩ : IntTy).lowest = 0 := rfl
  have hlt : last < 2 ^ 64 + first := by omega
  obtain ⟨l, hv, hlen⟩ := C143_iota_wraps_finding ⟨64, false, by decide⟩ rfl (by decide) (2 ^ 64 + first) last
    ⟨by rw [hlo]; omega, by rw [hm]; omega⟩ ⟨by rw [hlo]; omega, by rw [hm]; omega⟩ hlt
  rw [hm] at hlen
  refine ⟨l, by unfold iotaDeduced; rw [e1, e2]; exact hv, by omega, ?_⟩
  unfold iotaView at hv
  rw [collect, if_pos (by simp; omega), pure_bind] at hv
  obtain ⟨w, -, hv⟩ := bind_eq_pure.1 hv
  obtain ⟨rest, -, hv⟩ := bind_eq_pure.1 hv
  rw [← pure_inj.1 hv]
  rfl

example : ∃ l, iotaDeduced (-2) 3 = pure l ∧ l.length = 5 := by
  obtain ⟨l, h, hl, -⟩ := C143_deduced_finding (-2) 3 (by decide) (by decide) (by decide) (by decide)
  exact ⟨l, h, by omega⟩

/-! ## enumerate -/

/-- What a range based for loop over `EnumerateFrom<T>( offset )( xs )` sees, pipelines/enumerate.h 31-39 (`Enumerate`, 21-29, is the
case `offset = 0`): the `zip_view` of `iota_view<T>( offset, max )` and `xs`. -/
def enumerateView (t : IntTy) (offset : Int) (xs : List α) : Cxx (List (Int × α)) :=
  collect (fun it => !(it.1 == t.max || it.2 == xs.length)) (fun it => do let a ← rd xs it.2; pure ((it.1, a), it))
    (fun it => do
      let v ← iotaInc t it.1
      let p ← (if it.2 < xs.length then pure (it.2 + 1) else ub : Cxx Nat)
      pure (v, p)) (offset, 0)

/-- `std::distance` of the iterators of `EnumerateFrom<T>( offset )( xs )`, pipelines/zip.h 199-202 and iota.h 100-103: the
distance of the first iterators, for a type `T` that is not the one of `xs`. -/
def enumerateDist (t : IntTy) (offset : Int) : Cxx Int := iotaDist t t.max offset

theorem enumerate_from (t : IntTy) (xs : List α) (k : Nat) : ∀ (v : Int) (p : Nat), t.lowest ≤ v → p + k ≤ xs.length →
    v + k ≤ t.max → (v + k = t.max ∨ p + k = xs.length) →
    ∃ l, collect (fun it : Int × Nat => !(it.1 == t.max || it.2 == xs.length)) (fun it => do let a ← rd xs it.2; pure ((it.1, a), it))
      (fun it => do
        let v ← iotaInc t it.1
        let p ← (if it.2 < xs.length then pure (it.2 + 1) else ub : Cxx Nat)
        pure (v, p)) (v, p) = pure l ∧ l.length = k ∧ ∀ i : Nat, i < k → l[i]? = (xs[p + i]?).map fun a => (v + i, a) := by
  induction k with
  | zero =>
    intro v p h0 h1 h2 h3
    refine ⟨[], collect_nil ?_, rfl, fun i hi => absurd hi (by omega)⟩
    rcases h3 with h | h
    · simp [show v = t.max by omega]
    · simp [show p = xs.length by omega]
  | succ k ih =>
    intro v p h0 h1 h2 h3
    obtain ⟨l, he, hlen, hi⟩ := ih (v + 1) (p + 1) (by omega) (by omega) (by omega) (by omega)
    have hp : p < xs.length := by omega
    refine ⟨(v, xs[p]) :: l, collect_cons (s' := (v, p)) ?_ ?_ ?_ he, by simp [hlen], fun i hlt => ?_⟩
    · simp; omega
    · rw [rd_eq hp]; rfl
    · simp only [iotaInc_eq (t := t) (v := v) ⟨by omega, by omega⟩, if_pos hp, pure_bind]
    · cases i with
      | zero => simp [List.getElem?_eq_getElem hp]
      | succ i =>
        rw [List.getElem?_cons_succ, hi i (by omega), show p + 1 + i = p + (i + 1) by omega]
        congr 1
        funext a
        rw [show v + 1 + (i : Int) = v + ((i + 1 : Nat) : Int) by omega]

/-- If all the indexes fit below the largest value of the type, a loop over `EnumerateFrom` sees every element together with
its index counted from `offset`. -/
theorem C144_enumerate_partial (t : IntTy) (offset : Int) (ho : t.Has offset) (xs : List α) (h : offset + xs.length ≤ t.max) :
    ∃ l, enumerateView t offset xs = pure l ∧ l.length = xs.length ∧
      ∀ (i : Nat) (hi : i < xs.length), l[i]? = some (offset + i, xs[i]) := by
  obtain ⟨l, he, hlen, hi⟩ := enumerate_from t xs xs.length offset 0 ho.1 (by omega) (by omega) (.inr (by omega))
  refine ⟨l, he, hlen, fun i hlt => ?_⟩
  rw [hi i hlt, Nat.zero_add, List.getElem?_eq_getElem hlt]
  rfl

example := C144_enumerate_partial .int (-1) (by decide) ['a', 'b', 'c'] (by decide)

/-- Otherwise elements are lost without a word: the loop ends before the index would be the largest value. -/
theorem C144_enumerate_violated (t : IntTy) (offset : Int) (ho : t.Has offset) (xs : List α) (h : t.max < offset + xs.length) :
    ∃ l, enumerateView t offset xs = pure l ∧ (l.length : Int) = t.max - offset ∧ l.length < xs.length := by
  have := ho.2
  obtain ⟨l, he, hlen, -⟩ := enumerate_from t xs (t.max - offset).toNat offset 0 ho.1 (by omega) (by omega) (.inl (by omega))
  exact ⟨l, he, by omega, by omega⟩

example : ∃ l, enumerateView ⟨8, false, by decide⟩ 0 (List.replicate 256 'x') = pure l ∧ l.length < 256 := by
  obtain ⟨l, h, -, hl⟩ := C144_enumerate_violated ⟨8, false, by decide⟩ 0 (by decide) (List.replicate 256 'x') (by decide +kernel)
  exact ⟨l, h, List.length_replicate (n := 256) (a := 'x') ▸ hl⟩

example : (("abc".toList).length : Int) ≤ (⟨64, false, by decide⟩ : IntTy).max ∧ (⟨64, false, by decide⟩ : IntTy).Has 0 := by
  constructor <;> decide +kernel

/-- Over ranges with random access the distance from begin to end, by which `std::vector` and others size themselves, has
nothing to do with the range: for the index type `std::size_t` it is -1, which as a size is more than any container holds. -/
theorem C144_distance_violated (xs : List α) :
    enumerateDist ⟨64, false, by decide⟩ 0 = pure (-1) ∧ (xs.length : Int) ≠ -1 := by
  refine ⟨by decide +kernel, by omega⟩

end Verif.Pipe
