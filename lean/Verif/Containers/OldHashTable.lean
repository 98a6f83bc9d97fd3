import Verif.Containers.Lists

/-
`daw::hash_table<Value>`, include/daw/deprecated/daw_hash_table.h: open addressing over a `heap_array` of cells; a cell keeps
a hash and a value, the keys are not kept.

The table grows to `ceil( size * ratio )`, computed in `double`; that is a function `grow` here.  The hash of a key is any
number from 2 on; it is `fnv1a_hash( key ) % ( max - 2 ) + 2` (378-395).  `key_exists`, `count`, `==` and `!=` (606-611,
627-630, 639-661) do not compile when used, `heap_array` has no `priv_end`; neither does `erase( iterator )` (562-569), the
iterator has no `->`.
-/

namespace Verif.Containers
namespace OldHash
open Cxx

variable {V : Type}

/-- `impl::hash_table_item`, daw_hash_table.h 36-46: hash 0 is an empty cell, 1 a removed one. -/
structure Item (V : Type) where
  hash : Nat
  value : V
  deriving DecidableEq

/-- The cell of the default constructor, daw_hash_table.h 69-71. -/
def Item.new (d : V) : Item V := ⟨0, d⟩

/-- `clear` of a cell, daw_hash_table.h 48-51. -/
def Item.removed (d : V) : Item V := ⟨1, d⟩

/-- `good`, daw_hash_table.h 61-63, and the conversion to `bool`, 65-67. -/
def Item.good (i : Item V) : Bool := decide (2 ≤ i.hash)

/-- `daw::hash_table`, daw_hash_table.h 310-314, without the ratio. -/
structure Tbl (V : Type) where
  load : Nat
  growth : Nat
  maxLoad : Nat
  values : List (Item V)
  deriving DecidableEq

/-- The constructor, daw_hash_table.h 333-342. -/
def mk (d : V) (size maxLoad : Nat) : Cxx (Tbl V) :=
  if 0 < size then pure ⟨0, 0, maxLoad, List.replicate size (Item.new d)⟩ else thrown

/-- `scale_hash`, daw_hash_table.h 397-411, with `max_size`, 504-506. -/
def scale (hash size : Nat) : Cxx Nat :=
  if size < 2 ^ 63 - 2 then
    if 2 ≤ hash then
      if size = 0 then ub else pure (((hash * 18446744073709551557 + 18446744073709551533) % 2 ^ 64) % size)
    else thrown
  else thrown

/-- The test of the search, daw_hash_table.h 435-445. -/
def isHere (skipRemoved : Bool) (hash : Nat) (i : Item V) : Bool := i.hash == hash || i.hash == 0 || !skipRemoved

/-- `std::find_if` from one position to another. (Rule of C++ or its library, no line of the source.) -/
def findIf (p : Item V → Bool) (xs : List (Item V)) (lo hi : Nat) : Option Nat :=
  (((xs.take hi).drop lo).findIdx? p).map (· + lo)

/-- `find_item_by_hash`, daw_hash_table.h 428-454; `none` is the end. -/
def findItem (hash : Nat) (xs : List (Item V)) (skipRemoved : Bool) : Cxx (Option Nat) := do
  let start ← scale hash xs.length
  match findIf (isHere skipRemoved hash) xs start xs.length with
  | some i => pure (some i)
  | none => pure (findIf (isHere skipRemoved hash) xs 0 start)

/-- The loop of `resize_table`, daw_hash_table.h 415-423; what is left in the old table is dropped. -/
def moveAll : List (Item V) → List (Item V) → Nat → Cxx (List (Item V) × Nat)
  | [], new, load => pure (new, load)
  | i :: old, new, load =>
    if i.good then do
      match ← findItem i.hash new true with
      | none => thrown
      | some pos => moveAll old (new.set pos i) (addSize load 1)
    else moveAll old new load

/-- `resize_table`, daw_hash_table.h 413-426. -/
def resize (d : V) (old : List (Item V)) (size : Nat) : Cxx (List (Item V) × Nat) :=
  moveAll old (List.replicate size (Item.new d)) 0

/-- `grow_table`, daw_hash_table.h 495-501. -/
def growTable (d : V) (grow : Nat → Nat) (t : Tbl V) : Cxx (Tbl V) := do
  let (values, load) ← resize d t.values (grow t.values.length)
  pure ⟨load, addSize t.growth 1, t.maxLoad, values⟩

/-- `!pos` in daw_hash_table.h 477: the iterator of `heap_array` is a pointer (daw_heap_array.h 29), and this one is to a cell. -/
def isNull (_pos : Nat) : Bool := false

/-- `find_item_by_hash_or_create`, daw_hash_table.h 460-482. -/
def findOrCreate (d : V) (grow : Nat → Nat) (hash : Nat) (t : Tbl V) : Cxx (Nat × Tbl V) := do
  let t ← (if t.load = 0 then growTable d grow t
    else if t.values.length = 0 then ub
    else if t.maxLoad < (t.load * 100) % 2 ^ 64 / t.values.length then growTable d grow t else pure t : Cxx (Tbl V))
  let (pos, t) ← (do
    match ← findItem hash t.values true with
    | some pos => pure (pos, t)
    | none =>
      match ← findItem hash t.values false with
      | some pos => pure (pos, t)
      | none =>
        let t ← growTable d grow t
        match ← findItem hash t.values true with
        | some pos => pure (pos, t)
        | none => thrown : Cxx (Nat × Tbl V))
  if isNull pos then do
    let i ← rd t.values pos
    pure (pos, ⟨addSize t.load 1, t.growth, t.maxLoad, t.values.set pos ⟨hash, i.value⟩⟩)
  else pure (pos, t)

/-- `insert`, daw_hash_table.h 508-514, with the position. -/
def insert (d : V) (grow : Nat → Nat) (hash : Nat) (value : V) (t : Tbl V) : Cxx (Nat × Tbl V) := do
  let (pos, t) ← findOrCreate d grow hash t
  let i ← rd t.values pos
  pure (pos, ⟨t.load, t.growth, t.maxLoad, t.values.set pos ⟨i.hash, value⟩⟩)

/-- `at`, daw_hash_table.h 528-548. -/
def at' (hash : Nat) (t : Tbl V) : Cxx V := do
  match ← findItem hash t.values true with
  | some pos =>
    let i ← rd t.values pos
    pure i.value
  | none => thrown

/-- `erase( key )`, daw_hash_table.h 550-560. -/
def erase (d : V) (hash : Nat) (t : Tbl V) : Cxx (Nat × Tbl V) := do
  match ← findItem hash t.values true with
  | some pos => pure (1, ⟨subSize t.load 1, t.growth, t.maxLoad, t.values.set pos (Item.removed d)⟩)
  | none => pure (0, t)

/-- `clear`, daw_hash_table.h 588-592, with `clear` of the array, daw_heap_array.h 109-114, which leaves no cells. -/
def clear (t : Tbl V) : Tbl V := ⟨0, addSize t.growth 1, t.maxLoad, []⟩

/-- `shrink_to_fit`, daw_hash_table.h 571-574. -/
def shrink (d : V) (t : Tbl V) : Cxx (Tbl V) := do
  let (values, _) ← resize d t.values t.load
  pure ⟨t.load, addSize t.growth 1, t.maxLoad, values⟩

/-- The position of `begin`, daw_hash_table.h 347-351, with `++`, 186-192. -/
def begin (t : Tbl V) : Nat := ((t.values.drop 1).findIdx Item.good) + 1

/-! ### Probing -/

/-- The start of the search. (Specification, no line of the source.) -/
def slot (hash n : Nat) : Nat := ((hash * 18446744073709551557 + 18446744073709551533) % 2 ^ 64) % n

theorem scale_eq {hash n : Nat} (hh : 2 ≤ hash) (h0 : 0 < n) (hn : n < 2 ^ 63 - 2) : scale hash n = pure (slot hash n) := by
  unfold scale slot
  rw [if_pos hn, if_pos hh, if_neg (by omega)]

theorem slot_lt {n : Nat} (hash : Nat) (h0 : 0 < n) : slot hash n < n := Nat.mod_lt _ h0

theorem findIf_some {p : Item V → Bool} {xs : List (Item V)} {lo hi i : Nat} (hh : hi ≤ xs.length)
    (h : findIf p xs lo hi = some i) :
    lo ≤ i ∧ i < hi ∧ (∃ x, xs[i]? = some x ∧ p x = true) ∧ ∀ j x, lo ≤ j → j < i → xs[j]? = some x → p x = false := by
  unfold findIf at h
  obtain ⟨k, hk, rfl⟩ := Option.map_eq_some_iff.1 h
  rw [List.findIdx?_eq_some_iff_getElem] at hk
  obtain ⟨hl, hp, hb⟩ := hk
  rw [List.length_drop, List.length_take] at hl
  refine ⟨by omega, by omega, ⟨_, ?_, hp⟩, fun j x hj hji hx => ?_⟩
  · rw [List.getElem_drop, List.getElem_take, List.getElem?_eq_getElem (by omega)]
    simp only [Nat.add_comm]
  · have := hb (j - lo) (by omega)
    rw [List.getElem_drop, List.getElem_take] at this
    obtain ⟨_, rfl⟩ := List.getElem?_eq_some_iff.1 hx
    simpa [show lo + (j - lo) = j by omega] using this

theorem findIf_none {p : Item V → Bool} {xs : List (Item V)} {lo hi : Nat} (h : findIf p xs lo hi = none) :
    ∀ j x, lo ≤ j → j < hi → xs[j]? = some x → p x = false := by
  intro j x hl hh hx
  unfold findIf at h
  rw [Option.map_eq_none_iff, List.findIdx?_eq_none_iff] at h
  refine h x ?_
  refine List.mem_iff_getElem?.2 ⟨j - lo, ?_⟩
  rw [List.getElem?_drop, show lo + (j - lo) = j by omega, List.getElem?_take_of_lt hh, hx]

theorem probe (xs : List (Item V)) (hash : Nat) (b : Bool) (hh : 2 ≤ hash) (h0 : 0 < xs.length) (hn : xs.length < 2 ^ 63 - 2) :
    ∃ r, findItem hash xs b = pure r ∧
      (∀ i, r = some i → ∃ k x, k < xs.length ∧ i = (slot hash xs.length + k) % xs.length ∧ xs[i]? = some x ∧ isHere b hash x = true ∧
        ∀ k' x', k' < k → xs[(slot hash xs.length + k') % xs.length]? = some x' → isHere b hash x' = false) ∧
      (r = none → ∀ x ∈ xs, isHere b hash x = false) := by
  have hs := slot_lt hash h0
  have he : findItem hash xs b = pure (match findIf (isHere b hash) xs (slot hash xs.length) xs.length with
      | some i => some i
      | none => findIf (isHere b hash) xs 0 (slot hash xs.length)) := by
    unfold findItem
    rw [scale_eq hh h0 hn, pure_bind]
    cases findIf (isHere b hash) xs (slot hash xs.length) xs.length <;> rfl
  refine ⟨_, he, ?_, ?_⟩
  · intro i hr
    cases h1 : findIf (isHere b hash) xs (slot hash xs.length) xs.length with
    | some j =>
      rw [h1] at hr
      cases hr
      obtain ⟨ha, hb, ⟨x, hx, hp⟩, hq⟩ := findIf_some (Nat.le_refl _) h1
      refine ⟨i - slot hash xs.length, x, by omega, ?_, hx, hp, fun k' x' hk hx' => ?_⟩
      · rw [show slot hash xs.length + (i - slot hash xs.length) = i by omega, Nat.mod_eq_of_lt hb]
      · rw [Nat.mod_eq_of_lt (by omega)] at hx'
        exact hq _ x' (by omega) (by omega) hx'
    | none =>
      rw [h1] at hr
      obtain ⟨ha, hb, ⟨x, hx, hp⟩, hq⟩ := findIf_some (by omega) hr
      have hnone := findIf_none h1
      refine ⟨xs.length - slot hash xs.length + i, x, by omega, ?_, hx, hp, fun k' x' hk hx' => ?_⟩
      · rw [show slot hash xs.length + (xs.length - slot hash xs.length + i) = i + xs.length by omega, Nat.add_mod_right,
          Nat.mod_eq_of_lt (by omega)]
      · by_cases hlt : slot hash xs.length + k' < xs.length
        · rw [Nat.mod_eq_of_lt hlt] at hx'
          exact hnone _ x' (by omega) hlt hx'
        · rw [show slot hash xs.length + k' = (slot hash xs.length + k' - xs.length) + xs.length by omega, Nat.add_mod_right,
            Nat.mod_eq_of_lt (by omega)] at hx'
          exact hq _ x' (by omega) (by omega) hx'
  · intro hr x hx
    cases h1 : findIf (isHere b hash) xs (slot hash xs.length) xs.length with
    | some j => rw [h1] at hr; cases hr
    | none =>
      rw [h1] at hr
      obtain ⟨j, hj⟩ := List.mem_iff_getElem?.1 hx
      have hjl := (List.getElem?_eq_some_iff.1 hj).1
      by_cases hlt : j < slot hash xs.length
      · exact findIf_none hr j x (by omega) hlt hj
      · exact findIf_none h1 j x (by omega) hjl hj

/-- **C221**, the search: from the start of the hash, around the end of the table, the first cell that has the hash, is
empty, or, if removed cells are not skipped, any; the end if there is none. -/
theorem C221_probe (xs : List (Item V)) (hash : Nat) (b : Bool) (hh : 2 ≤ hash) (h0 : 0 < xs.length) (hn : xs.length < 2 ^ 63 - 2) :
    ∃ r, findItem hash xs b = pure r ∧
      (∀ i, r = some i → ∃ k x, k < xs.length ∧ i = (slot hash xs.length + k) % xs.length ∧ xs[i]? = some x ∧
        (x.hash = hash ∨ x.hash = 0 ∨ b = false) ∧
        ∀ k' x', k' < k → xs[(slot hash xs.length + k') % xs.length]? = some x' → x'.hash ≠ hash ∧ x'.hash ≠ 0 ∧ b = true) ∧
      (r = none → ∀ x ∈ xs, x.hash ≠ hash ∧ x.hash ≠ 0 ∧ b = true) := by
  have ht : ∀ x : Item V, isHere b hash x = true → x.hash = hash ∨ x.hash = 0 ∨ b = false := by
    intro x hx
    simpa [isHere, or_assoc] using hx
  have hf : ∀ x : Item V, isHere b hash x = false → x.hash ≠ hash ∧ x.hash ≠ 0 ∧ b = true := by
    intro x hx
    simpa [isHere, and_assoc] using hx
  obtain ⟨r, e, h1, h2⟩ := probe xs hash b hh h0 hn
  refine ⟨r, e, fun i hi => ?_, fun hr x hx => hf x (h2 hr x hx)⟩
  obtain ⟨k, x, hk, hik, hx, hp, hq⟩ := h1 i hi
  exact ⟨k, x, hk, hik, hx, ht x hp, fun k' x' hk' hx' => hf x' (hq k' x' hk' hx')⟩

example : slot 3 3 = 2 ∧ findItem 3 [⟨1, 0⟩, ⟨0, 0⟩, ⟨5, 9⟩] true = pure (some 1) ∧
    findItem 3 [⟨1, 0⟩, ⟨4, 0⟩, ⟨5, 9⟩] true = pure none := ⟨by decide +kernel, by decide +kernel, by decide +kernel⟩

/-! ### What the table keeps -/

theorem findIf_here {p : Item V → Bool} {xs : List (Item V)} {s hi : Nat} {x : Item V} (hs : s < hi) (hx : xs[s]? = some x)
    (hp : p x = true) : findIf p xs s hi = some s := by
  unfold findIf
  have hl := (List.getElem?_eq_some_iff.1 hx).1
  have : (xs.take hi).drop s = x :: (xs.take hi).drop (s + 1) := by
    rw [← List.getElem_cons_drop (by rw [List.length_take]; omega), List.getElem_take]
    obtain ⟨_, rfl⟩ := List.getElem?_eq_some_iff.1 hx
    rfl
  rw [this, List.findIdx?_cons, if_pos hp]
  simp

/-- No hash is kept in the table. (Specification, no line of the source.) -/
def AllEmpty (xs : List (Item V)) : Prop := ∀ x ∈ xs, x.hash = 0

theorem findItem_empty {xs : List (Item V)} (h : AllEmpty xs) {hash : Nat} (b : Bool) (hh : 2 ≤ hash) (h0 : 0 < xs.length)
    (hn : xs.length < 2 ^ 63 - 2) : findItem hash xs b = pure (some (slot hash xs.length)) := by
  have hs := slot_lt hash h0
  unfold findItem
  rw [scale_eq hh h0 hn, pure_bind, findIf_here hs (List.getElem?_eq_getElem hs)]
  unfold isHere
  rw [h _ (List.getElem_mem hs)]
  simp

theorem moveAll_empty : ∀ {xs : List (Item V)}, AllEmpty xs → ∀ (new : List (Item V)) (l : Nat), moveAll xs new l = pure (new, l) := by
  intro xs
  induction xs with
  | nil => intro _ _ _; rfl
  | cons x xs ih =>
    intro h new l
    rw [moveAll, if_neg (by unfold Item.good; rw [h x List.mem_cons_self]; simp)]
    exact ih (fun y hy => h y (List.mem_cons_of_mem _ hy)) new l

theorem replicate_empty (d : V) (n : Nat) : AllEmpty (List.replicate n (Item.new d)) := by
  intro x hx
  rw [List.eq_of_mem_replicate hx]
  rfl

/-- One insertion. -/
theorem insert_empty (d : V) (grow : Nat → Nat) {t : Tbl V} (hl : t.load = 0) (he : AllEmpty t.values) {hash : Nat} (hh : 2 ≤ hash)
    (v : V) (h0 : 0 < grow t.values.length) (hn : grow t.values.length < 2 ^ 63 - 2) :
    insert d grow hash v t = pure (slot hash (grow t.values.length), ⟨0, addSize t.growth 1, t.maxLoad,
      (List.replicate (grow t.values.length) (Item.new d)).set (slot hash (grow t.values.length)) ⟨0, v⟩⟩) := by
  have hs := slot_lt hash h0
  have hg : growTable d grow t = pure ⟨0, addSize t.growth 1, t.maxLoad, List.replicate (grow t.values.length) (Item.new d)⟩ := by
    unfold growTable resize
    rw [moveAll_empty he, pure_bind]
  have hf := findItem_empty (replicate_empty d (grow t.values.length)) (hash := hash) true hh (by simpa using h0) (by simpa using hn)
  rw [List.length_replicate] at hf
  unfold insert findOrCreate
  rw [if_pos hl, hg]
  simp only [pure_bind, hf, isNull, Bool.false_eq_true, if_false]
  rw [rd_some (a := Item.new d) (by rw [List.getElem?_replicate, if_pos hs]), pure_bind]
  rfl

/-- A history of insertions. (Calls of `insert`, daw_hash_table.h 508-514.) -/
def insertAll (d : V) (grow : Nat → Nat) : List (Nat × V) → Tbl V → Cxx (Tbl V)
  | [], t => pure t
  | (h, v) :: os, t => do
    let (_, t) ← insert d grow h v t
    insertAll d grow os t

/-- The size after some growths. (Specification, no line of the source.) -/
def grown (grow : Nat → Nat) : Nat → Nat → Nat
  | 0, n => n
  | k + 1, n => grown grow k (grow n)

theorem insertAll_empty (d : V) (grow : Nat → Nat) : ∀ (os : List (Nat × V)) (t : Tbl V), t.load = 0 → AllEmpty t.values →
    (∀ o ∈ os, 2 ≤ o.1) → (∀ k, 0 < k → k ≤ os.length → 0 < grown grow k t.values.length ∧ grown grow k t.values.length < 2 ^ 63 - 2) →
    ∃ t', insertAll d grow os t = pure t' ∧ t'.load = 0 ∧ AllEmpty t'.values ∧ t'.values.length = grown grow os.length t.values.length ∧
      ∀ pre h v, os = pre ++ [(h, v)] → t'.values =
        (List.replicate t'.values.length (Item.new d)).set (slot h t'.values.length) ⟨0, v⟩ := by
  intro os
  induction os with
  | nil =>
    intro t hl he _ _
    exact ⟨t, rfl, hl, he, rfl, fun pre h v e => by simp at e⟩
  | cons o os ih =>
    intro t hl he ho hg
    obtain ⟨h, v⟩ := o
    have hg1 := hg 1 (by omega) (by simp)
    simp only [grown] at hg1
    have e := insert_empty d grow hl he (ho (h, v) List.mem_cons_self) v hg1.1 hg1.2
    obtain ⟨t', e', hl', he', hlen, hlast⟩ := ih ⟨0, addSize t.growth 1, t.maxLoad,
      (List.replicate (grow t.values.length) (Item.new d)).set (slot h (grow t.values.length)) ⟨0, v⟩⟩ rfl
      (fun x hx => by
        rcases List.mem_or_eq_of_mem_set hx with hm | rfl
        · exact replicate_empty d _ x hm
        · rfl)
      (fun o hm => ho o (List.mem_cons_of_mem _ hm))
      (fun k hk0 hk => by
        have := hg (k + 1) (by omega) (by simpa using hk)
        simpa [grown] using this)
    simp only [List.length_set, List.length_replicate] at hlen
    refine ⟨t', by rw [insertAll, e, pure_bind]; exact e', hl', he', hlen, fun pre h' v' ep => ?_⟩
    cases pre with
    | nil =>
      simp only [List.nil_append, List.cons.injEq, Prod.mk.injEq] at ep
      obtain ⟨⟨rfl, rfl⟩, rfl⟩ := ep
      have := Cxx.pure_inj.mp e'
      rw [← this]
      simp
    | cons p pre =>
      simp only [List.cons_append, List.cons.injEq] at ep
      exact hlast pre h' v' ep.2

theorem at_last (d : V) {t : Tbl V} (he : AllEmpty t.values) (h0 : 0 < t.values.length) (hn : t.values.length < 2 ^ 63 - 2) {h : Nat}
    {v : V} (hv : t.values = (List.replicate t.values.length (Item.new d)).set (slot h t.values.length) ⟨0, v⟩) {h' : Nat} (hh : 2 ≤ h') :
    at' h' t = pure (if slot h' t.values.length = slot h t.values.length then v else d) := by
  have hs := slot_lt h' h0
  have hs2 := slot_lt h h0
  unfold at'
  rw [findItem_empty he true hh h0 hn]
  simp only [pure_bind]
  by_cases heq : slot h' t.values.length = slot h t.values.length
  · have : t.values[slot h' t.values.length]? = some ⟨0, v⟩ := by
      generalize hm : t.values.length = m at *
      rw [hv, heq, List.getElem?_set_self (by simpa using hs2)]
    rw [rd_some this, pure_bind, if_pos heq]
  · have : t.values[slot h' t.values.length]? = some (Item.new d) := by
      generalize hm : t.values.length = m at *
      rw [hv, List.getElem?_set_ne (fun e => heq e.symm), List.getElem?_replicate, if_pos hs]
    rw [rd_some this, pure_bind, if_neg heq]
    rfl

/-- C221, as far as it holds: the value inserted last is found.  Missing: all other values, and keys that were never
inserted; see `C221_lookup_violated`. -/
theorem C221_insert_partial (d : V) (grow : Nat → Nat) (n maxLoad : Nat) (h0 : 0 < n) (os : List (Nat × V)) (h : Nat) (v : V)
    (ho : ∀ o ∈ os ++ [(h, v)], 2 ≤ o.1)
    (hg : ∀ k, 0 < k → k ≤ os.length + 1 → 0 < grown grow k n ∧ grown grow k n < 2 ^ 63 - 2) :
    ∃ t t', mk d n maxLoad = pure t ∧ insertAll d grow (os ++ [(h, v)]) t = pure t' ∧ at' h t' = pure v := by
  have hv0 : (⟨0, 0, maxLoad, List.replicate n (Item.new d)⟩ : Tbl V).values.length = n := by simp
  obtain ⟨t', e, hl, he, hlen, hlast⟩ := insertAll_empty d grow (os ++ [(h, v)]) ⟨0, 0, maxLoad, List.replicate n (Item.new d)⟩ rfl
    (replicate_empty d n) ho (by rw [hv0, List.length_append]; exact hg)
  rw [hv0, List.length_append] at hlen
  have hb := hg (os.length + 1) (by omega) (Nat.le_refl _)
  refine ⟨_, t', by unfold mk; rw [if_pos h0], e, ?_⟩
  rw [at_last d he (by rw [hlen]; exact hb.1) (by rw [hlen]; exact hb.2) (hlast os h v rfl) (ho (h, v) (by simp)), if_pos rfl]

example := C221_insert_partial 0 (fun n => 2 * n) 4 70 (by decide) [(5, 1), (9, 2)] 13 3 (by decide) (fun k h1 h2 => by
  simp at h2
  have h3 : k = 1 ∨ k = 2 ∨ k = 3 := by omega
  rcases h3 with rfl | rfl | rfl <;> decide)

/-- C221 does not hold: after any insertions `occupied` is 0, `at` throws for no key at all, and every lookup gives the value
inserted last or a default value, so that the others are lost; iteration finds nothing; `erase` of any key reports success and
`occupied` becomes the largest number. -/
theorem C221_lookup_violated (d : V) (grow : Nat → Nat) (n maxLoad : Nat) (h0 : 0 < n) (os : List (Nat × V)) (h : Nat) (v : V)
    (ho : ∀ o ∈ os ++ [(h, v)], 2 ≤ o.1)
    (hg : ∀ k, 0 < k → k ≤ os.length + 1 → 0 < grown grow k n ∧ grown grow k n < 2 ^ 63 - 2) :
    ∃ t t', mk d n maxLoad = pure t ∧ insertAll d grow (os ++ [(h, v)]) t = pure t' ∧ t'.load = 0 ∧
      t'.values.length = grown grow (os.length + 1) n ∧ begin t' = t'.values.length ∧
      (∀ h', 2 ≤ h' → at' h' t' = pure v ∨ at' h' t' = pure d) ∧
      (∀ h', 2 ≤ h' → ∃ t'', erase d h' t' = pure (1, t'') ∧ t''.load = 2 ^ 64 - 1) := by
  have hv0 : (⟨0, 0, maxLoad, List.replicate n (Item.new d)⟩ : Tbl V).values.length = n := by simp
  obtain ⟨t', e, hl, he, hlen, hlast⟩ := insertAll_empty d grow (os ++ [(h, v)]) ⟨0, 0, maxLoad, List.replicate n (Item.new d)⟩ rfl
    (replicate_empty d n) ho (by rw [hv0, List.length_append]; exact hg)
  rw [hv0, List.length_append] at hlen
  have hb := hg (os.length + 1) (by omega) (Nat.le_refl _)
  have hb1 : 0 < t'.values.length := by rw [hlen]; exact hb.1
  have hb2 : t'.values.length < 2 ^ 63 - 2 := by rw [hlen]; exact hb.2
  refine ⟨_, t', by unfold mk; rw [if_pos h0], e, hl, hlen, ?_, fun h' hh => ?_, fun h' hh => ?_⟩
  · unfold begin
    rw [List.findIdx_eq_length.2 (fun x hx => by unfold Item.good; rw [he x (List.mem_of_mem_drop hx)]; simp), List.length_drop]
    omega
  · rw [at_last d he hb1 hb2 (hlast os h v rfl) hh]
    by_cases hs : slot h' t'.values.length = slot h t'.values.length
    · rw [if_pos hs]; exact Or.inl rfl
    · rw [if_neg hs]; exact Or.inr rfl
  · refine ⟨_, by unfold erase; rw [findItem_empty he true hh hb1 hb2]; rfl, ?_⟩
    show subSize t'.load 1 = _
    rw [hl]
    rfl

/-- Two insertions: the first value is lost, and a key never inserted is found. -/
example : (do insertAll 0 (2 * ·) [(5, 11), (6, 12)] (← mk 0 3 50) : Cxx (Tbl Nat)) =
      pure ⟨0, 2, 50, (List.replicate 12 ⟨0, 0⟩).set (slot 6 12) ⟨0, 12⟩⟩ ∧
    at' 5 ⟨0, 2, 50, (List.replicate 12 ⟨0, 0⟩).set (slot 6 12) ⟨0, 12⟩⟩ = pure 0 ∧
    at' 6 ⟨0, 2, 50, (List.replicate 12 ⟨0, 0⟩).set (slot 6 12) ⟨0, 12⟩⟩ = pure 12 ∧
    at' 7 ⟨0, 2, 50, (List.replicate 12 ⟨0, 0⟩).set (slot 6 12) ⟨0, 12⟩⟩ = pure 0 :=
  ⟨by decide +kernel, by decide +kernel, by decide +kernel, by decide +kernel⟩

/-- The sizes of the hypotheses: three growths from 7 on, as with the default constructor. -/
example : ∀ k, 0 < k → k ≤ 2 + 1 → 0 < grown (fun n => (n * 26 + 9) / 10) k 7 ∧ grown (fun n => (n * 26 + 9) / 10) k 7 < 2 ^ 63 - 2 := by
  intro k h1 h2
  have : k = 1 ∨ k = 2 ∨ k = 3 := by omega
  rcases this with rfl | rfl | rfl <;> decide

/-- C221: erasing a key from a table that has none reports that one was erased, the count of the keys becomes the greatest number, and one cell is neither empty nor in use afterwards: it has
the default value, and the other cells are unchanged. -/
theorem C221_erase_finding (d : V) (t : Tbl V) (hl : t.load = 0) (he : AllEmpty t.values) (h0 : 0 < t.values.length) (hn : t.values.length < 2 ^ 63 - 2)
    (h : Nat) (hh : 2 ≤ h) : ∃ t', erase d h t = pure (1, t') ∧ t'.load = 2 ^ 64 - 1 ∧ t'.values.length = t.values.length ∧
      ∃ i x, i < t.values.length ∧ t'.values[i]? = some x ∧ x.value = d ∧ x.hash ≠ 0 ∧ x.good = false ∧ ∀ j, j ≠ i → t'.values[j]? = t.values[j]? := by
  have hs := slot_lt h h0
  refine ⟨⟨subSize t.load 1, t.growth, t.maxLoad, t.values.set (slot h t.values.length) (Item.removed d)⟩, ?_, by rw [hl]; rfl, List.length_set,
    slot h t.values.length, Item.removed d, hs, ?_, rfl, Nat.one_ne_zero, rfl, fun j hj => List.getElem?_set_ne (Ne.symm hj)⟩
  · unfold erase
    rw [findItem_empty he true hh h0 hn, pure_bind]
  · show (t.values.set _ _)[_]? = _
    rw [List.getElem?_set, if_pos rfl, if_pos hs]

example := C221_erase_finding 0 ⟨0, 0, 70, List.replicate 7 (Item.new 0)⟩ rfl (replicate_empty 0 7) (by decide) (by decide) 5 (by decide)

/-- C221: in a table without empty cells, erasing and looking up a key that is in no cell leave the table alone: zero is returned, and the exception is thrown. -/
theorem C221_erase_none (d : V) (t : Tbl V) (h0 : 0 < t.values.length) (hn : t.values.length < 2 ^ 63 - 2) (h : Nat) (hh : 2 ≤ h)
    (hx : ∀ x ∈ t.values, x.hash ≠ h ∧ x.hash ≠ 0) : erase d h t = pure (0, t) ∧ at' h t = thrown := by
  obtain ⟨r, e, h1, _⟩ := C221_probe t.values h true hh h0 hn
  have hr : r = none := by
    cases r with
    | none => rfl
    | some i =>
      obtain ⟨k, x, _, _, hxi, hp, _⟩ := h1 i rfl
      have hm := hx x (List.mem_of_getElem? hxi)
      rcases hp with hp | hp | hp
      · exact absurd hp hm.1
      · exact absurd hp hm.2
      · cases hp
  subst hr
  unfold erase at'
  rw [e]
  exact ⟨rfl, rfl⟩

/-- C221: a table without cells is refused by an exception, one with cells is made empty, whatever its load may be. -/
theorem C221_construct (d : V) (size maxLoad : Nat) :
    (size = 0 → mk d size maxLoad = thrown) ∧
    (0 < size → ∃ t, mk d size maxLoad = pure t ∧ t.values.length = size ∧ ∀ i ∈ t.values, i.good = false) := by
  unfold mk
  refine ⟨fun h => by rw [if_neg (by omega)], fun h => ⟨_, by rw [if_pos h], by simp, fun i hi => ?_⟩⟩
  rw [(List.mem_replicate.1 hi).2]
  rfl

example : mk 'z' 0 70 = thrown := (C221_construct 'z' 0 70).1 rfl

example := C221_erase_none 0 ⟨0, 0, 70, [⟨1, 0⟩, ⟨1, 0⟩, ⟨4, 9⟩]⟩ (by decide) (by decide) 5 (by decide) (by decide)

/-- C221: after `clear`, or after `shrink_to_fit` of a table in the state of `C221_lookup_violated`, there are no cells, and
the next insertion or lookup divides by zero. -/
theorem C221_clear_finding (d : V) (grow : Nat → Nat) (hg : grow 0 = 0) (t : Tbl V) (h : Nat) (hh : 2 ≤ h) (v : V) :
    insert d grow h v (clear t) = ub ∧ at' h (clear t) = ub ∧
    (t.load = 0 → AllEmpty t.values → ∃ t', shrink d t = pure t' ∧ insert d grow h v t' = ub ∧ at' h t' = ub) := by
  have hsc : scale h 0 = ub := by
    unfold scale
    rw [if_pos (by decide), if_pos hh, if_pos rfl]
  have hf : ∀ b, findItem h ([] : List (Item V)) b = ub := by
    intro b
    unfold findItem
    rw [List.length_nil, hsc]
    rfl
  have key : ∀ g m, insert d grow h v ⟨0, g, m, []⟩ = ub ∧ at' h (⟨0, g, m, []⟩ : Tbl V) = ub := by
    intro g m
    refine ⟨?_, ?_⟩
    · have : growTable d grow (⟨0, g, m, []⟩ : Tbl V) = pure ⟨0, addSize g 1, m, []⟩ := by
        unfold growTable resize
        rw [List.length_nil, hg]
        rfl
      unfold insert findOrCreate
      rw [if_pos rfl, this]
      simp only [pure_bind, hf, ub_bind]
    · unfold at'
      rw [hf]
      rfl
  refine ⟨(key _ _).1, (key (addSize t.growth 1) t.maxLoad).2, fun hl he => ?_⟩
  have e : shrink d t = pure ⟨0, addSize t.growth 1, t.maxLoad, []⟩ := by
    unfold shrink resize
    rw [moveAll_empty he, hl]
    rfl
  exact ⟨_, e, (key _ _).1, (key _ _).2⟩

example := C221_clear_finding 0 (fun n => 2 * n) rfl ⟨0, 0, 70, [⟨0, 0⟩, ⟨0, 0⟩]⟩ 9 (by decide) 5

end OldHash
end Verif.Containers
