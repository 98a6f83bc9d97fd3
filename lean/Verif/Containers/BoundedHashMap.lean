import Verif.Containers.Probe
import Mathlib.Data.List.Basic

/-
`daw::bounded_hash_map`, include/daw/deprecated/daw_bounded_hash_map.h.  The array `m_data` of `N + 1` items is a list; an item
without value is `none`, as its key and value are always those of a default constructed item.  The hash function is any function
into the 64 bit numbers and `KeyEqual` is equality.  `empty` (467-473) hands `find_if` a predicate whose result only converts
explicitly to `bool`, which the library rejects, so it is not modelled.
-/

namespace Verif.Containers.BoundedHashMap
open Cxx Probe

variable {κ υ : Type} [DecidableEq κ]

/-- `m_data`, daw_bounded_hash_map.h 322. -/
abbrev Table (κ υ : Type) := List (Option (κ × υ))

/-- The default constructor, daw_bounded_hash_map.h 322 and 355. -/
def make (κ υ : Type) (cap : Nat) : Table κ υ := List.replicate (cap + 1) none

/-- `find_index`, daw_bounded_hash_map.h 331-346; `cap` is `N`. -/
def findIdx (hash : κ → Nat) (cap : Nat) (t : Table κ υ) (x : κ) : Cxx (Option Nat) :=
  findIndex (stopAt Prod.fst x) t cap (hash x)

/-- `*find_index( key )`: the value of an empty optional is undefined behaviour, daw_optional.h 44-59. -/
def place (hash : κ → Nat) (cap : Nat) (t : Table κ υ) (x : κ) : Cxx Nat := do
  match ← findIdx hash cap t x with
  | none => ub
  | some i => pure i

/-- `insert`, daw_bounded_hash_map.h 348-352, 377-386 and 388-391. -/
def insert (hash : κ → Nat) (cap : Nat) (t : Table κ υ) (x : κ) (v : υ) : Cxx (Table κ υ) := do
  let i ← place hash cap t x
  wr t i (some (x, v))

/-- `exists`, daw_bounded_hash_map.h 393-400. -/
def exists' (hash : κ → Nat) (cap : Nat) (t : Table κ υ) (x : κ) : Cxx Bool := do
  match ← findIdx hash cap t x with
  | none => pure false
  | some i =>
    let o ← rd t i
    pure o.isSome

/-- `count`, daw_bounded_hash_map.h 443-448. -/
def count (hash : κ → Nat) (cap : Nat) (t : Table κ υ) (x : κ) : Cxx Nat := do
  let b ← exists' hash cap t x
  pure (if b then 1 else 0)

/-- `operator[]` of a map that may be changed, daw_bounded_hash_map.h 402-420; `dflt` is `Value{ }`.  The map afterwards and the
value referred to. -/
def index (hash : κ → Nat) (cap : Nat) (dflt : υ) (t : Table κ υ) (x : κ) : Cxx (Table κ υ × υ) := do
  let i ← place hash cap t x
  match ← rd t i with
  | none =>
    let t ← wr t i (some (x, dflt))
    pure (t, dflt)
  | some e => pure (t, e.2)

/-- `map[key] = v`, daw_bounded_hash_map.h 402-410. -/
def assign (hash : κ → Nat) (cap : Nat) (t : Table κ υ) (x : κ) (v : υ) : Cxx (Table κ υ) := do
  let i ← place hash cap t x
  match ← rd t i with
  | none => wr t i (some (x, v))
  | some e => wr t i (some (e.1, v))

/-- `operator[]` of a constant map, daw_bounded_hash_map.h 422-428. -/
def indexConst (hash : κ → Nat) (cap : Nat) (t : Table κ υ) (x : κ) : Cxx υ := do
  let i ← place hash cap t x
  match ← rd t i with
  | none => abort
  | some e => pure e.2

/-- `try_get`, daw_bounded_hash_map.h 430-441. -/
def tryGet (hash : κ → Nat) (cap : Nat) (t : Table κ υ) (x : κ) : Cxx (Option υ) := do
  match ← findIdx hash cap t x with
  | none => pure none
  | some i =>
    match ← rd t i with
    | none => pure none
    | some e => pure (some e.2)

/-- `size`, daw_bounded_hash_map.h 454-465: all `N + 1` items are counted. -/
def size (t : Table κ υ) : Nat := t.foldl (fun n o => if o.isSome then n + 1 else n) 0

/-- `find`, daw_bounded_hash_map.h 517-533: the position of the iterator; `end( )` is at `N`. -/
def find (hash : κ → Nat) (cap : Nat) (t : Table κ υ) (x : κ) : Cxx Nat := do
  match ← findIdx hash cap t x with
  | none => pure cap
  | some i => pure i

/-- `erase`, daw_bounded_hash_map.h 535-540. -/
def erase (hash : κ → Nat) (cap : Nat) (t : Table κ υ) (x : κ) : Cxx (Table κ υ) := do
  match ← findIdx hash cap t x with
  | none => pure t
  | some i => wr t i none

/-- The loop of `begin`, daw_bounded_hash_map.h 475-500. -/
def firstFrom (cap : Nat) (t : Table κ υ) (i : Nat) : Cxx Nat :=
  if i < cap then do
    let o ← rd t i
    if o.isSome then pure i else firstFrom cap t (i + 1)
  else pure i
  termination_by cap - i

/-- The loop of the iterator's `operator++`, daw_bounded_hash_map.h 191-197: the item is read before the end is tested. -/
def skip (cap : Nat) (t : Table κ υ) (i : Nat) : Cxx Nat := do
  let o ← rd t i
  if h : o.isNone ∧ i < cap then skip cap t (i + 1) else pure i
  termination_by cap - i
  decreasing_by omega

/-- A loop from an iterator to `end( )`, daw_bounded_hash_map.h 175-197 and 502-505: the items met; an item without value would be
met as `none`. -/
def walk (cap : Nat) (t : Table κ υ) (i : Nat) : Cxx (List (Option (κ × υ))) := do
  if i = cap then pure []
  else
    let o ← rd t i
    let i ← skip cap t (i + 1)
    let os ← walk cap t i
    pure (o :: os)
  partial_fixpoint

/-- Calls. (Members of `bounded_hash_map`, deprecated/daw_bounded_hash_map.h 305-541.) -/
inductive Op (κ υ : Type) where
  | insert (x : κ) (v : υ)
  | index (x : κ)
  | assign (x : κ) (v : υ)
  | exists (x : κ)
  | count (x : κ)
  | tryGet (x : κ)
  | size
  | erase (x : κ)

/-- Results. (Members of `bounded_hash_map`, deprecated/daw_bounded_hash_map.h 305-541.) -/
inductive Res (υ : Type) where
  | done
  | is (b : Bool)
  | number (n : Nat)
  | value (v : υ)
  | maybe (v : Option υ)
  deriving DecidableEq

/-- The model of a call, daw_bounded_hash_map.h 377-465 and 535-540. -/
def step (hash : κ → Nat) (cap : Nat) (dflt : υ) (t : Table κ υ) : Op κ υ → Cxx (Table κ υ × Res υ)
  | .insert x v => do
    let t ← insert hash cap t x v
    pure (t, .done)
  | .index x => do
    let (t, v) ← index hash cap dflt t x
    pure (t, .value v)
  | .assign x v => do
    let t ← assign hash cap t x v
    pure (t, .done)
  | .exists x => do
    let b ← exists' hash cap t x
    pure (t, .is b)
  | .count x => do
    let n ← count hash cap t x
    pure (t, .number n)
  | .tryGet x => do
    let v ← tryGet hash cap t x
    pure (t, .maybe v)
  | .size => pure (t, .number (size t))
  | .erase x => do
    let t ← erase hash cap t x
    pure (t, .done)

/-- A history of calls. (Members of `bounded_hash_map`, deprecated/daw_bounded_hash_map.h 305-541.) -/
def run (hash : κ → Nat) (cap : Nat) (dflt : υ) (t : Table κ υ) : List (Op κ υ) → Cxx (Table κ υ × List (Res υ))
  | [] => pure (t, [])
  | o :: os => do
    let (t, r) ← step hash cap dflt t o
    let (t, rs) ← run hash cap dflt t os
    pure (t, r :: rs)

/-! ### The finite map -/

/-- The map after a value was given to a key; nothing if there is no room for the key. (Specification, no line of the source.) -/
def put (cap : Nat) (m : List (κ × υ)) (x : κ) (v : υ) : Option (List (κ × υ)) :=
  if (m.lookup x).isSome then some ((x, v) :: m.filter fun e => e.1 ≠ x)
  else if m.length < cap then some ((x, v) :: m) else none

/-- The same call on a finite map, given as list of pairs; nothing if the call is refused for lack of room.
(Specification, no line of the source.) -/
def mapStep (cap : Nat) (dflt : υ) (m : List (κ × υ)) : Op κ υ → Option (List (κ × υ) × Res υ)
  | .insert x v => (put cap m x v).map fun m => (m, .done)
  | .index x =>
    match m.lookup x with
    | some v => some (m, .value v)
    | none => (put cap m x dflt).map fun m => (m, .value dflt)
  | .assign x v => (put cap m x v).map fun m => (m, .done)
  | .exists x => some (m, .is (m.lookup x).isSome)
  | .count x => some (m, .number (if (m.lookup x).isSome then 1 else 0))
  | .tryGet x => some (m, .maybe (m.lookup x))
  | .size => some (m, .number m.length)
  | .erase x => some (m.filter fun e => e.1 ≠ x, .done)

/-- The same history on a finite map. (Specification, no line of the source.) -/
def mapRun (cap : Nat) (dflt : υ) (m : List (κ × υ)) : List (Op κ υ) → Option (List (κ × υ) × List (Res υ))
  | [] => some (m, [])
  | o :: os => do
    let (m, r) ← mapStep cap dflt m o
    let (m, rs) ← mapRun cap dflt m os
    pure (m, r :: rs)

/-- What holds of the table between calls. (Specification, no line of the source.) -/
structure Inv (hash : κ → Nat) (cap : Nat) (t : Table κ υ) : Prop where
  ch : Chained Prod.fst (homeOf hash cap) cap t
  len : t.length = cap + 1
  last : t[cap]? = some none

theorem lookup_of_mem {m : List (κ × υ)} (hn : (m.map Prod.fst).Nodup) {x : κ} {v : υ} (h : (x, v) ∈ m) : m.lookup x = some v := by
  induction m with
  | nil => cases h
  | cons e m ih =>
    rw [List.map_cons, List.nodup_cons] at hn
    rw [List.mem_cons] at h
    obtain ⟨y, w⟩ := e
    rcases h with h | h
    · injection h with h1 h2
      subst h1 h2
      rw [List.lookup_cons_self]
    · have hne : x ≠ y := by
        rintro rfl
        exact hn.1 (List.mem_map.2 ⟨(x, v), h, rfl⟩)
      rw [List.lookup_cons, show (x == y) = false by simpa using hne]
      exact ih hn.2 h

theorem lookup_none {m : List (κ × υ)} {x : κ} (h : ∀ e ∈ m, e.1 ≠ x) : m.lookup x = none := by
  induction m with
  | nil => rfl
  | cons e m ih =>
    obtain ⟨y, w⟩ := e
    have hne : x ≠ y := fun hc => h (y, w) (by simp) hc.symm
    rw [List.lookup_cons, show (x == y) = false by simpa using hne]
    exact ih fun e he => h e (List.mem_cons_of_mem _ he)

/-- Removing a key from a list of pairs that holds it once. -/
theorem filter_perm {m l : List (κ × υ)} {x : κ} {v : υ} (hn : (m.map Prod.fst).Nodup) (h : m.Perm ((x, v) :: l)) :
    (m.filter fun e => e.1 ≠ x).Perm l := by
  have hn' : (((x, v) :: l).map Prod.fst).Nodup := (h.map Prod.fst).nodup_iff.1 hn
  rw [List.map_cons, List.nodup_cons] at hn'
  have h1 := h.filter fun e => decide (e.1 ≠ x)
  have h2 : (l.filter fun e => decide (e.1 ≠ x)) = l := by
    rw [List.filter_eq_self]
    intro e he
    rw [decide_eq_true_eq]
    rintro rfl
    exact hn'.1 (List.mem_map.2 ⟨e, he, rfl⟩)
  rw [List.filter_cons_of_neg (by simp), h2] at h1
  exact h1

/-- The search tells whether the key is there. -/
theorem find_mem {hash : κ → Nat} {cap : Nat} {t : Table κ υ} (h : Inv hash cap t) {m : List (κ × υ)}
    (hm : (entries cap t).Perm m) (x : κ) :
    (∃ i v l, findIdx hash cap t x = pure (some i) ∧ i < cap ∧ t[i]? = some (some (x, v)) ∧ m.lookup x = some v ∧
      m.Perm ((x, v) :: l) ∧
      (∀ w, (entries cap (t.set i (some (x, w)))).Perm ((x, w) :: l)) ∧ (entries cap (t.set i none)).Perm l ∧
      EndsAt Prod.fst (homeOf hash cap) cap t x i) ∨
    (∃ i, findIdx hash cap t x = pure (some i) ∧ i < cap ∧ t[i]? = some none ∧ m.lookup x = none ∧ m.length < cap ∧
      (∀ w, (entries cap (t.set i (some (x, w)))).Perm ((x, w) :: m)) ∧ EndsAt Prod.fst (homeOf hash cap) cap t x i) ∨
    (findIdx hash cap t x = pure none ∧ m.lookup x = none ∧ m.length = cap) := by
  have hnd : (m.map Prod.fst).Nodup := (hm.map Prod.fst).nodup_iff.1 h.ch.nodup
  rcases find_ends Prod.fst hash cap t h.ch.pos h.ch.len x with ⟨i, e, hi⟩ | ⟨e, hj⟩
  · rcases hi.choose_spec.2.2.1 with ho | ⟨⟨y, v⟩, ho, hy⟩
    · right; left
      have ha := h.ch.absent hi ho
      refine ⟨i, e, hi.lt, ho, lookup_none fun e he => ha e (hm.mem_iff.2 he), ?_, fun w => ?_, hi⟩
      · rw [← hm.length_eq]; exact entries_lt hi.lt ho
      · exact (entries_add hi.lt ho _).trans (hm.cons _)
    · left
      have hy : y = x := hy
      subst hy
      obtain ⟨l, h1, h2, h3⟩ := entries_replace hi.lt ho
      refine ⟨i, v, l, e, hi.lt, ho, lookup_of_mem hnd ?_, hm.symm.trans h1, fun w => h2 _, h3, hi⟩
      exact hm.mem_iff.1 (mem_entries.2 ⟨i, hi.lt, ho⟩)
  · right; right
    refine ⟨e, lookup_none fun e he => ?_, ?_⟩
    · obtain ⟨i, hi, he⟩ := mem_entries.1 (hm.mem_iff.2 he)
      obtain ⟨e', he', hne⟩ := hj i hi
      rw [he] at he'
      injection he' with he'; injection he' with he'
      rw [he']
      exact hne
    · rw [← hm.length_eq]
      exact entries_full h.ch.len fun j hjl => by
        obtain ⟨e', he', _⟩ := hj j hjl
        exact ⟨e', he'⟩

omit [DecidableEq κ] in
theorem set_inv {hash : κ → Nat} {cap : Nat} {t : Table κ υ} (h : Inv hash cap t) {x : κ} {v : υ} {i : Nat}
    (hi : EndsAt Prod.fst (homeOf hash cap) cap t x i) : Inv hash cap (t.set i (some (x, v))) := by
  have hlt := hi.lt
  refine ⟨h.ch.write (e := (x, v)) hi, by rw [List.length_set]; exact h.len, ?_⟩
  rw [List.getElem?_set_ne (by omega)]
  exact h.last

omit [DecidableEq κ] in
theorem foldl_count (t : Table κ υ) (n : Nat) :
    t.foldl (fun n o => if o.isSome then n + 1 else n) n = n + (t.filterMap id).length := by
  induction t generalizing n with
  | nil => rfl
  | cons o t ih =>
    cases o with
    | none => rw [List.foldl_cons, ih]; rfl
    | some e => rw [List.foldl_cons, ih]; show n + 1 + _ = n + ((t.filterMap id).length + 1); omega

omit [DecidableEq κ] in
theorem size_eq {hash : κ → Nat} {cap : Nat} {t : Table κ υ} (h : Inv hash cap t) : size t = (entries cap t).length := by
  unfold size entries
  rw [foldl_count, Nat.zero_add]
  have hlen := h.len
  have : t = t.take cap ++ [none] := by
    have h1 := List.take_append_drop cap t
    rw [List.drop_eq_getElem_cons (by omega), List.drop_eq_nil_of_le (by omega)] at h1
    have h2 := h.last
    rw [List.getElem?_eq_getElem (by omega)] at h2
    injection h2 with h2
    rw [h2] at h1
    exact h1.symm
  conv_lhs => rw [this]
  rw [List.filterMap_append]
  simp

/-- An erase that cannot break a chain: the place after the entry is free. (Specification, no line of the source.) -/
def Safe (cap : Nat) (t : Table κ υ) : Op κ υ → Prop
  | .erase x => ∀ i v, i < cap → t[i]? = some (some (x, v)) → t[(i + 1) % cap]? = some none
  | _ => True

/-- All erases of a history are of that kind. (Specification, no line of the source.) -/
def AllSafe (hash : κ → Nat) (cap : Nat) (dflt : υ) (t : Table κ υ) : List (Op κ υ) → Prop
  | [] => True
  | o :: os => Safe cap t o ∧ ∀ t' r, step hash cap dflt t o = pure (t', r) → AllSafe hash cap dflt t' os

theorem step_ok {hash : κ → Nat} {cap : Nat} (dflt : υ) {t : Table κ υ} (h : Inv hash cap t) {m : List (κ × υ)}
    (hm : (entries cap t).Perm m) (o : Op κ υ) (hs : Safe cap t o) :
    (∃ t' m' r, step hash cap dflt t o = pure (t', r) ∧ mapStep cap dflt m o = some (m', r) ∧ Inv hash cap t' ∧
      (entries cap t').Perm m') ∨
    (step hash cap dflt t o = ub ∧ mapStep cap dflt m o = none) := by
  have hnd : (m.map Prod.fst).Nodup := (hm.map Prod.fst).nodup_iff.1 h.ch.nodup
  have hlen := h.len
  have hput : ∀ x (v : υ),
      (∃ i t' m', place hash cap t x = pure i ∧ wr t i (some (x, v)) = pure t' ∧ put cap m x v = some m' ∧ Inv hash cap t' ∧
        (entries cap t').Perm m' ∧ (t[i]? = some none ∧ m.lookup x = none ∨ ∃ w, t[i]? = some (some (x, w)) ∧ m.lookup x = some w)) ∨
      (place hash cap t x = ub ∧ put cap m x v = none ∧ m.lookup x = none) := by
    intro x v
    unfold place
    rcases find_mem h hm x with ⟨i, w, l, e, hi, ho, hl, hp, hset, _, hends⟩ | ⟨i, e, hi, ho, hl, hlt, hset, hends⟩ | ⟨e, hl, hf⟩
    · left
      refine ⟨i, t.set i (some (x, v)), (x, v) :: m.filter fun e => e.1 ≠ x, ?_, wr_eq (by omega), ?_, set_inv h hends, ?_,
        Or.inr ⟨w, ho, hl⟩⟩
      · rw [e]; rfl
      · unfold put; rw [hl]; rfl
      · exact (hset v).trans ((filter_perm hnd hp).symm.cons _)
    · left
      refine ⟨i, t.set i (some (x, v)), (x, v) :: m, ?_, wr_eq (by omega), ?_, set_inv h hends, hset v, Or.inl ⟨ho, hl⟩⟩
      · rw [e]; rfl
      · unfold put; rw [hl, if_pos hlt]; rfl
    · right
      refine ⟨by rw [e]; rfl, ?_, hl⟩
      unfold put; rw [hl, hf, if_neg (Nat.lt_irrefl _)]; rfl
  have hex : ∀ x, exists' hash cap t x = pure (m.lookup x).isSome := by
    intro x
    unfold exists'
    rcases find_mem h hm x with ⟨i, w, l, e, hi, ho, hl, _⟩ | ⟨i, e, hi, ho, hl, _⟩ | ⟨e, hl, hf⟩
    · rw [e, hl]; simp only [pure_bind]; rw [rd_some ho]; rfl
    · rw [e, hl]; simp only [pure_bind]; rw [rd_some ho]; rfl
    · rw [e, hl]; rfl
  cases o with
  | insert x v =>
    rcases hput x v with ⟨i, t', m', e1, e2, e3, hi, hp, _⟩ | ⟨e1, e3, _⟩
    · refine Or.inl ⟨t', m', .done, ?_, ?_, hi, hp⟩
      · simp only [step]; unfold insert; rw [e1]; simp only [pure_bind]; rw [e2]; rfl
      · simp only [mapStep]; rw [e3]; rfl
    · refine Or.inr ⟨?_, ?_⟩
      · simp only [step]; unfold insert; rw [e1]; rfl
      · simp only [mapStep]; rw [e3]; rfl
  | assign x v =>
    rcases hput x v with ⟨i, t', m', e1, e2, e3, hi, hp, ho⟩ | ⟨e1, e3, _⟩
    · refine Or.inl ⟨t', m', .done, ?_, ?_, hi, hp⟩
      · simp only [step]; unfold assign; rw [e1]; simp only [pure_bind]
        rcases ho with ⟨ho, _⟩ | ⟨w, ho, _⟩
        · rw [rd_some ho]; simp only [pure_bind]; rw [e2]; rfl
        · rw [rd_some ho]; simp only [pure_bind]; rw [e2]; rfl
      · simp only [mapStep]; rw [e3]; rfl
    · refine Or.inr ⟨?_, ?_⟩
      · simp only [step]; unfold assign; rw [e1]; rfl
      · simp only [mapStep]; rw [e3]; rfl
  | index x =>
    rcases hput x dflt with ⟨i, t', m', e1, e2, e3, hi, hp, ho⟩ | ⟨e1, e3, hl⟩
    · rcases ho with ⟨ho, hl⟩ | ⟨w, ho, hl⟩
      · refine Or.inl ⟨t', m', .value dflt, ?_, ?_, hi, hp⟩
        · simp only [step]; unfold index; rw [e1]; simp only [pure_bind]; rw [rd_some ho]; simp only [pure_bind]; rw [e2]; rfl
        · simp only [mapStep]; rw [hl, e3]; rfl
      · refine Or.inl ⟨t, m, .value w, ?_, ?_, h, hm⟩
        · simp only [step]; unfold index; rw [e1]; simp only [pure_bind]; rw [rd_some ho]; rfl
        · simp only [mapStep]; rw [hl]
    · refine Or.inr ⟨?_, ?_⟩
      · simp only [step]; unfold index; rw [e1]; rfl
      · simp only [mapStep]; rw [hl, e3]; rfl
  | «exists» x =>
    refine Or.inl ⟨t, m, .is (m.lookup x).isSome, ?_, rfl, h, hm⟩
    simp only [step]; rw [hex]; rfl
  | count x =>
    refine Or.inl ⟨t, m, .number (if (m.lookup x).isSome then 1 else 0), ?_, rfl, h, hm⟩
    simp only [step]; unfold count; rw [hex]; rfl
  | tryGet x =>
    refine Or.inl ⟨t, m, .maybe (m.lookup x), ?_, rfl, h, hm⟩
    simp only [step]
    unfold tryGet
    rcases find_mem h hm x with ⟨i, w, l, e, hi, ho, hl, _⟩ | ⟨i, e, hi, ho, hl, _⟩ | ⟨e, hl, hf⟩
    · rw [e, hl]; simp only [pure_bind]; rw [rd_some ho]; rfl
    · rw [e, hl]; simp only [pure_bind]; rw [rd_some ho]; rfl
    · rw [e, hl]; rfl
  | size =>
    refine Or.inl ⟨t, m, .number m.length, ?_, rfl, h, hm⟩
    simp only [step]
    rw [size_eq h, hm.length_eq]
  | erase x =>
    left
    rcases find_mem h hm x with ⟨i, w, l, e, hi, ho, hl, hp, _, hset, _⟩ | ⟨i, e, hi, ho, hl, _⟩ | ⟨e, hl, hf⟩
    · refine ⟨t.set i none, _, .done, ?_, rfl, ⟨h.ch.free hi (hs i w hi ho), by rw [List.length_set]; exact hlen, ?_⟩, ?_⟩
      · simp only [step]; unfold erase; rw [e]; simp only [pure_bind]; rw [wr_eq (by omega)]; rfl
      · rw [List.getElem?_set_ne (by omega)]; exact h.last
      · exact hset.trans (filter_perm hnd hp).symm
    · have hself : t.set i none = t := by
        rw [List.getElem?_eq_getElem (by omega)] at ho
        injection ho with ho
        rw [← ho, List.set_getElem_self]
      refine ⟨t, _, .done, ?_, rfl, h, ?_⟩
      · simp only [step]; unfold erase; rw [e]; simp only [pure_bind]; rw [wr_eq (by omega), hself]; rfl
      · rw [List.filter_eq_self.2]
        · exact hm
        · intro e' he'
          rw [decide_eq_true_eq]
          intro hc
          have := lookup_of_mem hnd (x := x) (v := e'.2) (by rw [← hc]; exact he')
          rw [hl] at this; injection this
    · refine ⟨t, _, .done, ?_, rfl, h, ?_⟩
      · simp only [step]; unfold erase; rw [e]; rfl
      · rw [List.filter_eq_self.2]
        · exact hm
        · intro e' he'
          rw [decide_eq_true_eq]
          intro hc
          have := lookup_of_mem hnd (x := x) (v := e'.2) (by rw [← hc]; exact he')
          rw [hl] at this; injection this

theorem inv_make (κ υ : Type) [DecidableEq κ] (hash : κ → Nat) (cap : Nat) (hc : 0 < cap) :
    Inv hash cap (make κ υ cap) ∧ entries cap (make κ υ cap) = [] := by
  obtain ⟨h1, h2⟩ := chained_empty (ε := κ × υ) Prod.fst hash cap (cap + 1) hc (by omega)
  exact ⟨⟨h1, by simp [make], by simp [make]⟩, h2⟩

theorem run_ok {hash : κ → Nat} {cap : Nat} (dflt : υ) (os : List (Op κ υ)) : ∀ (t : Table κ υ) (m : List (κ × υ)),
    Inv hash cap t → (entries cap t).Perm m → AllSafe hash cap dflt t os →
    (∃ t' m' rs, run hash cap dflt t os = pure (t', rs) ∧ mapRun cap dflt m os = some (m', rs) ∧ Inv hash cap t' ∧
      (entries cap t').Perm m') ∨
    (run hash cap dflt t os = ub ∧ mapRun cap dflt m os = none) := by
  induction os with
  | nil => intro t m h hm _; exact Or.inl ⟨t, m, [], rfl, rfl, h, hm⟩
  | cons o os ih =>
    intro t m h hm hs
    rcases step_ok dflt h hm o hs.1 with ⟨t1, m1, r, e1, e2, h1, hm1⟩ | ⟨e1, e2⟩
    · rcases ih t1 m1 h1 hm1 (hs.2 t1 r e1) with ⟨t2, m2, rs, e3, e4, h2, hm2⟩ | ⟨e3, e4⟩
      · refine Or.inl ⟨t2, m2, r :: rs, ?_, ?_, h2, hm2⟩
        · simp only [run]; rw [e1]; simp only [pure_bind]; rw [e3]; rfl
        · simp only [mapRun]; rw [e2]; show (mapRun cap dflt m1 os).bind _ = _; rw [e4]; rfl
      · refine Or.inr ⟨?_, ?_⟩
        · simp only [run]; rw [e1]; simp only [pure_bind]; rw [e3]; rfl
        · simp only [mapRun]; rw [e2]; show (mapRun cap dflt m1 os).bind _ = _; rw [e4]; rfl
    · refine Or.inr ⟨?_, ?_⟩
      · simp only [run]; rw [e1]; rfl
      · simp only [mapRun]; rw [e2]; rfl

omit [DecidableEq κ] in
/-- The iterator's increment goes to the next entry or the end. -/
theorem skip_eq {cap : Nat} {t : Table κ υ} (hl : t.length = cap + 1) (i : Nat) (hi : i ≤ cap) :
    ∃ j, skip cap t i = pure j ∧ i ≤ j ∧ j ≤ cap ∧ (j < cap → ∃ e, t[j]? = some (some e)) ∧
      ∀ k, i ≤ k → k < j → t[k]? = some none := by
  induction hk : cap - i generalizing i with
  | zero =>
    have : i = cap := by omega
    subst this
    rw [skip, rd_eq (by omega)]
    simp only [pure_bind]
    rw [dif_neg (by omega)]
    exact ⟨i, rfl, Nat.le_refl _, Nat.le_refl _, fun h => by omega, fun k h1 h2 => by omega⟩
  | succ n ih =>
    rw [skip, rd_eq (by omega)]
    simp only [pure_bind]
    cases ho : t[i] with
    | none =>
      rw [dif_pos ⟨rfl, by omega⟩]
      obtain ⟨j, e, h1, h2, h3, h4⟩ := ih (i + 1) (by omega) (by omega)
      refine ⟨j, e, by omega, h2, h3, fun k hk1 hk2 => ?_⟩
      by_cases hki : k = i
      · subst hki; rw [List.getElem?_eq_getElem (by omega), ho]
      · exact h4 k (by omega) hk2
    | some e =>
      rw [dif_neg (by simp)]
      exact ⟨i, rfl, Nat.le_refl _, by omega, fun _ => ⟨e, by rw [List.getElem?_eq_getElem (by omega), ho]⟩, fun k h1 h2 => by omega⟩

omit [DecidableEq κ] in
theorem firstFrom_eq {cap : Nat} {t : Table κ υ} (hl : t.length = cap + 1) (i : Nat) (hi : i ≤ cap) :
    ∃ j, firstFrom cap t i = pure j ∧ i ≤ j ∧ j ≤ cap ∧ (j < cap → ∃ e, t[j]? = some (some e)) ∧
      ∀ k, i ≤ k → k < j → t[k]? = some none := by
  induction hk : cap - i generalizing i with
  | zero =>
    have : i = cap := by omega
    subst this
    rw [firstFrom, if_neg (by omega)]
    exact ⟨i, rfl, Nat.le_refl _, Nat.le_refl _, fun h => by omega, fun k h1 h2 => by omega⟩
  | succ n ih =>
    rw [firstFrom, if_pos (by omega), rd_eq (by omega)]
    simp only [pure_bind]
    cases ho : t[i] with
    | none =>
      obtain ⟨j, e, h1, h2, h3, h4⟩ := ih (i + 1) (by omega) (by omega)
      refine ⟨j, e, by omega, h2, h3, fun k hk1 hk2 => ?_⟩
      by_cases hki : k = i
      · subst hki; rw [List.getElem?_eq_getElem (by omega), ho]
      · exact h4 k (by omega) hk2
    | some e =>
      exact ⟨i, rfl, Nat.le_refl _, by omega, fun _ => ⟨e, by rw [List.getElem?_eq_getElem (by omega), ho]⟩, fun k h1 h2 => by omega⟩

omit [DecidableEq κ] in
theorem filterMap_skip {t : Table κ υ} {cap i j : Nat} (hij : i ≤ j) (hjc : j ≤ cap) (hl : t.length = cap + 1)
    (h : ∀ k, i ≤ k → k < j → t[k]? = some none) :
    ((t.take cap).drop i).filterMap id = ((t.take cap).drop j).filterMap id := by
  induction hk : j - i generalizing i with
  | zero => rw [show i = j by omega]
  | succ n ih =>
    have hlt : i < (t.take cap).length := by rw [List.length_take]; omega
    have h1 := h i (Nat.le_refl _) (by omega)
    rw [List.getElem?_eq_getElem (by omega)] at h1
    injection h1 with h1
    rw [List.drop_eq_getElem_cons hlt, List.getElem_take, h1]
    exact ih (i := i + 1) (by omega) (fun k h2 h3 => h k (by omega) h3) (by omega)

omit [DecidableEq κ] in
theorem walk_eq {cap : Nat} {t : Table κ υ} (hl : t.length = cap + 1) (n : Nat) : ∀ i, cap - i = n → i ≤ cap →
    (i < cap → ∃ e, t[i]? = some (some e)) → walk cap t i = pure ((((t.take cap).drop i).filterMap id).map some) := by
  induction n using Nat.strongRecOn with
  | _ n ih =>
    intro i hn hi ho
    rw [walk]
    by_cases hc : i = cap
    · subst hc
      rw [if_pos rfl, List.drop_eq_nil_of_le (by rw [List.length_take]; omega)]
      rfl
    · obtain ⟨e, he⟩ := ho (by omega)
      rw [if_neg hc, rd_some he]
      simp only [pure_bind]
      obtain ⟨j, e1, h1, h2, h3, h4⟩ := skip_eq hl (i + 1) (by omega)
      rw [e1]
      simp only [pure_bind]
      rw [ih (cap - j) (by omega) j rfl h2 h3]
      simp only [pure_bind]
      rw [← filterMap_skip h1 h2 hl h4, List.drop_eq_getElem_cons (i := i) (by rw [List.length_take]; omega), List.getElem_take]
      rw [List.getElem?_eq_getElem (by omega)] at he
      injection he with he
      rw [he]
      rfl

/-- C49, histories, as far as it holds: on a new map of positive capacity, for every hash function, any history of calls has the
results of the same history on a finite map, as long as `erase` is only called for entries after which the next place is free.
The history is undefined exactly if the finite map has no room for a new key.  The entries, their number, and what a loop from
`begin( )` to `end( )` meets are those of the finite map.  Missing: other erases, see `C49_erase_violated`, the report of a full
map, see `C49_full_violated`, and capacity zero, see `C49_zero_violated`. -/
theorem C49_history_partial (hash : κ → Nat) (cap : Nat) (hc : 0 < cap) (dflt : υ) (os : List (Op κ υ))
    (hs : AllSafe hash cap dflt (make κ υ cap) os) :
    (∃ (t : Table κ υ) (m : List (κ × υ)) (rs : List (Res υ)) (first : Nat) (l : List (κ × υ)), run hash cap dflt (make κ υ cap) os = pure (t, rs) ∧ mapRun cap dflt [] os = some (m, rs) ∧
      firstFrom cap t 0 = pure first ∧ walk cap t first = pure (l.map some) ∧ l.Perm m ∧ (m.map Prod.fst).Nodup) ∨
    (run hash cap dflt (make κ υ cap) os = ub ∧ mapRun cap dflt [] os = none) := by
  obtain ⟨h1, h2⟩ := inv_make κ υ hash cap hc
  rcases run_ok dflt os (make κ υ cap) [] h1 (by rw [h2]) hs with ⟨t, m, rs, e1, e2, hi, hp⟩ | h
  · left
    obtain ⟨first, e3, h3, h4, h5, h6⟩ := firstFrom_eq hi.len 0 (Nat.zero_le _)
    refine ⟨t, m, rs, first, entries cap t, e1, e2, e3, ?_, hp, (hp.map Prod.fst).nodup_iff.1 hi.ch.nodup⟩
    rw [walk_eq hi.len _ first rfl h4 h5, ← filterMap_skip h3 h4 hi.len h6]
    rfl
  · exact Or.inr h

/-- Colliding keys; an erase at the end of a chain. -/
example : run (fun _ : Nat => 7) 3 0 (make Nat Nat 3) [.insert 5 50, .insert 6 60, .tryGet 6, .assign 5 51, .index 5, .erase 6, .index 6,
      .size] = pure ([some (5, 51), some (6, 0), none, none],
      [.done, .done, .maybe (some 60), .done, .value 51, .done, .value 0, .number 2]) ∧
    mapRun 3 0 [] [.insert 5 50, .insert 6 60, .tryGet 6, .assign 5 51, .index 5, .erase 6, .index 6, .size] =
      some ([((6 : Nat), (0 : Nat)), (5, 51)],
        [.done, .done, .maybe (some 60), .done, .value 51, .done, .value 0, .number 2]) := by decide +kernel

/-- C49: a history without `erase` needs no condition. -/
theorem C49_no_erase (hash : κ → Nat) (cap : Nat) (hc : 0 < cap) (dflt : υ) (os : List (Op κ υ))
    (hs : ∀ o ∈ os, ∀ x, o ≠ .erase x) :
    (∃ t m rs, run hash cap dflt (make κ υ cap) os = pure (t, rs) ∧ mapRun cap dflt [] os = some (m, rs)) ∨
    (run hash cap dflt (make κ υ cap) os = ub ∧ mapRun cap dflt [] os = none) := by
  have : ∀ (os : List (Op κ υ)) (t : Table κ υ), (∀ o ∈ os, ∀ x, o ≠ .erase x) → AllSafe hash cap dflt t os := by
    intro os
    induction os with
    | nil => intro t _; exact True.intro
    | cons o os ih =>
      intro t h
      refine ⟨?_, fun t' r _ => ih t' fun o' ho' => h o' (List.mem_cons_of_mem _ ho')⟩
      cases o with
      | erase x => exact absurd rfl (h _ (by simp) x)
      | _ => exact True.intro
  rcases C49_history_partial hash cap hc dflt os (this os _ hs) with ⟨t, m, rs, _, _, e1, e2, _⟩ | h
  · exact Or.inl ⟨t, m, rs, e1, e2⟩
  · exact Or.inr h

example := C49_no_erase (fun k : Nat => k) 3 (by decide) 0 [.insert 4 1] (by simp)

theorem findIdx_at (hash : κ → Nat) (cap : Nat) (t : Table κ υ) (hl : cap ≤ t.length) (x : κ) (k : Nat) (hk : k < cap)
    (o : Option (κ × υ)) (ho : t[(homeOf hash cap x + k) % cap]? = some o) (hs : stopAt Prod.fst x o = true)
    (hj : ∀ j, j < k → ∃ y, t[(homeOf hash cap x + j) % cap]? = some y ∧ stopAt Prod.fst x y = false) :
    findIdx hash cap t x = pure (some ((homeOf hash cap x + k) % cap)) := by
  unfold findIdx
  rcases findIndex_spec (stopAt Prod.fst x) t cap (hash x) hl (homeOf hash cap x)
    (by unfold scaleHash; rw [if_neg (by omega)]; rfl) (Nat.mod_lt _ (by omega)) with ⟨k', o', hk', e, ho', hs', hj'⟩ | ⟨e, hj'⟩
  · rcases Nat.lt_trichotomy k k' with h | h | h
    · obtain ⟨y, h1, h2⟩ := hj' k h
      rw [ho] at h1; injection h1 with h1; subst h1
      rw [hs] at h2; injection h2
    · rw [e, h]
    · obtain ⟨y, h1, h2⟩ := hj k' h
      rw [ho'] at h1; injection h1 with h1; subst h1
      rw [hs'] at h2; injection h2
  · obtain ⟨y, h1, h2⟩ := hj' _ (Nat.mod_lt (homeOf hash cap x + k) (by omega))
    rw [ho] at h1; injection h1 with h1; subst h1
    rw [hs] at h2; injection h2

omit [DecidableEq κ] in
theorem size_entries (t : Table κ υ) (n : Nat) (h : t.length ≤ n) : size t = (entries n t).length := by
  unfold size entries
  rw [foldl_count, Nat.zero_add, List.take_of_length_le h]

/-- C49 does not hold for `erase` in the middle of a chain: whatever the hash, if two different keys have the same hash, then
erasing the first one makes the second one, which was not erased, disappear from a map of two or more places; inserting it again
makes two entries of it. -/
theorem C49_erase_violated (hash : κ → Nat) (cap : Nat) (hc : 2 ≤ cap) (dflt : υ) (x y : κ) (v w : υ) (hne : x ≠ y)
    (hh : hash x = hash y) :
    ∃ t, run hash cap dflt (make κ υ cap) [.insert x v, .insert y w, .exists y, .erase x, .exists y, .size] =
      pure (t, [.done, .done, .is true, .done, .is false, .number 1]) ∧
    ∃ t', run hash cap dflt t [.insert y w, .size] = pure (t', [.done, .number 2]) ∧
      mapRun cap dflt [] [.insert x v, .insert y w, .exists y, .erase x, .exists y, .size] =
        some ([(y, w)], [.done, .done, .is true, .done, .is true, .number 1]) := by
  have hhome : homeOf hash cap y = homeOf hash cap x := homeOf_congr cap hh
  have hsc := homeOf_lt hash (show 0 < cap by omega) x
  obtain ⟨s, hsd⟩ : ∃ s, homeOf hash cap x = s := ⟨_, rfl⟩
  rw [hsd] at hhome hsc
  have hs0 : (s + 0) % cap = s := by rw [Nat.add_zero]; exact Nat.mod_eq_of_lt hsc
  have hn : (s + 1) % cap < cap := Nat.mod_lt _ (by omega)
  have hns : (s + 1) % cap ≠ s := by
    intro hc'
    by_cases hlt : s + 1 < cap
    · rw [Nat.mod_eq_of_lt hlt] at hc'; omega
    · rw [show s + 1 = cap by omega, Nat.mod_self] at hc'; omega
  obtain ⟨n, hnd⟩ : ∃ n, (s + 1) % cap = n := ⟨_, rfl⟩
  rw [hnd] at hn hns
  have hget0 : ∀ i, i < cap + 1 → (make κ υ cap)[i]? = some none := by
    intro i hi; unfold make; rw [List.getElem?_replicate, if_pos hi]
  have hlen0 : (make κ υ cap).length = cap + 1 := by simp [make]
  generalize make κ υ cap = t0 at *
  -- the table with both
  have e1 : insert hash cap t0 x v = pure (t0.set s (some (x, v))) := by
    unfold insert place
    rw [findIdx_at hash cap t0 (by omega) x 0 (by omega) none (by rw [hsd, hs0]; exact hget0 s (by omega)) rfl (fun j hj => absurd hj (Nat.not_lt_zero j)), hsd, hs0]
    simp only [pure_bind]
    rw [wr_eq (by omega)]
  have hb : ∀ t : Table κ υ, t[s]? = some (some (x, v)) → ∀ j, j < 1 →
      ∃ o, t[(homeOf hash cap y + j) % cap]? = some o ∧ stopAt Prod.fst y o = false := by
    intro t ht j hj
    refine ⟨some (x, v), ?_, by simpa [stopAt] using hne⟩
    rw [show j = 0 by omega, hhome, hs0]
    exact ht
  have e2 : insert hash cap (t0.set s (some (x, v))) y w = pure ((t0.set s (some (x, v))).set n (some (y, w))) := by
    unfold insert place
    rw [findIdx_at hash cap _ (by rw [List.length_set]; omega) y 1 (by omega) none
      (by rw [hhome, hnd, List.getElem?_set_ne (by omega)]; exact hget0 n (by omega)) rfl
      (hb _ (by rw [List.getElem?_set_self (by omega)])), hhome, hnd]
    simp only [pure_bind]
    rw [wr_eq (by rw [List.length_set]; omega)]
  have e3 : exists' hash cap ((t0.set s (some (x, v))).set n (some (y, w))) y = pure true := by
    unfold exists'
    rw [findIdx_at hash cap _ (by simp; omega) y 1 (by omega) (some (y, w))
      (by rw [hhome, hnd, List.getElem?_set_self (by rw [List.length_set]; omega)]) (by simp [stopAt])
      (hb _ (by rw [List.getElem?_set_ne (by omega), List.getElem?_set_self (by omega)])), hhome, hnd]
    simp only [pure_bind]
    rw [rd_some (by rw [List.getElem?_set_self (by rw [List.length_set]; omega)])]
    rfl
  have hself : t0.set s none = t0 := by
    apply List.ext_getElem?
    intro i
    by_cases hi : i = s
    · rw [hi, List.getElem?_set_self (by omega), hget0 s (by omega)]
    · rw [List.getElem?_set_ne (by omega)]
  have e4 : erase hash cap ((t0.set s (some (x, v))).set n (some (y, w))) x = pure (t0.set n (some (y, w))) := by
    unfold erase
    rw [findIdx_at hash cap _ (by simp; omega) x 0 (by omega) (some (x, v))
      (by rw [hsd, hs0, List.getElem?_set_ne (by omega), List.getElem?_set_self (by omega)]) (by simp [stopAt]) (fun j hj => absurd hj (Nat.not_lt_zero j)), hsd, hs0]
    simp only [pure_bind]
    rw [wr_eq (by simp; omega), List.set_comm _ _ (by omega), List.set_set, hself]
  have hs3 : (t0.set n (some (y, w)))[(homeOf hash cap y + 0) % cap]? = some none := by
    rw [hhome, hs0, List.getElem?_set_ne (by omega)]; exact hget0 s (by omega)
  have e5 : exists' hash cap (t0.set n (some (y, w))) y = pure false := by
    unfold exists'
    rw [findIdx_at hash cap _ (by simp; omega) y 0 (by omega) none hs3 rfl (fun j hj => absurd hj (Nat.not_lt_zero j))]
    simp only [pure_bind]
    rw [rd_some hs3]
    rfl
  have e6 : insert hash cap (t0.set n (some (y, w))) y w = pure ((t0.set n (some (y, w))).set s (some (y, w))) := by
    unfold insert place
    rw [findIdx_at hash cap _ (by simp; omega) y 0 (by omega) none hs3 rfl (fun j hj => absurd hj (Nat.not_lt_zero j)), hhome, hs0]
    simp only [pure_bind]
    rw [wr_eq (by rw [List.length_set]; omega)]
  have z0 : (entries (cap + 1) t0).length = 0 := by
    rw [List.length_eq_zero_iff, List.eq_nil_iff_forall_not_mem]
    intro e he
    obtain ⟨i, hi, h⟩ := mem_entries.1 he
    rw [hget0 i hi] at h
    injection h with h; injection h
  have z1 : size (t0.set n (some (y, w))) = 1 := by
    rw [size_entries _ (cap + 1) (by simp; omega), (entries_add (by omega) (hget0 n (by omega)) _).length_eq, List.length_cons, z0]
  have z2 : size ((t0.set n (some (y, w))).set s (some (y, w))) = 2 := by
    rw [size_entries _ (cap + 1) (by simp; omega),
      (entries_add (by omega) (by rw [List.getElem?_set_ne (by omega)]; exact hget0 s (by omega)) _).length_eq, List.length_cons,
      ← size_entries _ (cap + 1) (by simp; omega), z1]
  refine ⟨t0.set n (some (y, w)), ?_, (t0.set n (some (y, w))).set s (some (y, w)), ?_, ?_⟩
  · simp only [run, step]
    rw [e1]; simp only [pure_bind]
    rw [e2]; simp only [pure_bind]
    rw [e3]; simp only [pure_bind]
    rw [e4]; simp only [pure_bind]
    rw [e5]; simp only [pure_bind]
    rw [z1]
  · simp only [run, step]
    rw [e6]; simp only [pure_bind]
    rw [z2]
  · have hb : (y == x) = false := by simpa using hne.symm
    simp [mapRun, mapStep, put, List.lookup_cons, hb, hne.symm, show 0 < cap by omega, show 1 < cap by omega]

/-- C49 does not hold for full maps: a new key is not refused, the call is undefined. -/
theorem C49_full_violated (hash : κ → Nat) (cap : Nat) (dflt : υ) (t : Table κ υ) (h : Inv hash cap t)
    (hf : (entries cap t).length = cap) (x : κ) (hx : ∀ e ∈ entries cap t, e.1 ≠ x) (v : υ) :
    insert hash cap t x v = ub ∧ index hash cap dflt t x = ub ∧ indexConst hash cap t x = ub := by
  have e : place hash cap t x = ub := by
    unfold place
    rcases find_mem h (List.Perm.refl _) x with ⟨i, w, l, e, hi, ho, hl, hp, _⟩ | ⟨i, e, hi, ho, hl, hlt, _⟩ | ⟨e, hl, hf⟩
    · exact absurd rfl (hx (x, w) (mem_entries.2 ⟨i, hi, ho⟩))
    · omega
    · rw [e]; rfl
  unfold insert index indexConst
  rw [e]
  exact ⟨rfl, rfl, rfl⟩

/-- A full map of one place. -/
example : insert (fun x : Nat => x) 1 [some (3, 4), none] 5 6 = (ub : Cxx (Table Nat Nat)) := by decide +kernel

/-- C49 does not hold for capacity zero: even the test for a key is undefined. -/
theorem C49_zero_violated (hash : κ → Nat) (t : Table κ υ) (x : κ) : exists' hash 0 t x = ub ∧ erase hash 0 t x = ub := ⟨rfl, rfl⟩

/-- C49, `find`, as far as it holds: for a key that is there it is the position of its entry.  Missing: for other keys, see
`C49_find_violated`. -/
theorem C49_find_partial (hash : κ → Nat) (cap : Nat) (t : Table κ υ) (h : Inv hash cap t) (x : κ) (v : υ) :
    (x, v) ∈ entries cap t ↔ ∃ i, find hash cap t x = pure i ∧ i < cap ∧ t[i]? = some (some (x, v)) := by
  constructor
  · intro hv
    unfold find
    rcases find_mem h (List.Perm.refl _) x with ⟨i, w, l, e, hi, ho, hl, hp, _⟩ | ⟨i, e, hi, ho, hl, hlt, _⟩ | ⟨e, hl, hf⟩
    · have := lookup_of_mem h.ch.nodup hv
      rw [hl] at this
      injection this with this
      subst this
      exact ⟨i, by rw [e]; rfl, hi, ho⟩
    · have := lookup_of_mem h.ch.nodup hv
      rw [hl] at this; injection this
    · have := lookup_of_mem h.ch.nodup hv
      rw [hl] at this; injection this
  · rintro ⟨i, _, hi, ho⟩
    exact mem_entries.2 ⟨i, hi, ho⟩

/-- C49 does not hold for `find` of a key that is not there: unless the map is full the iterator is not `end( )`, but the position
of an item without value. -/
theorem C49_find_violated (hash : κ → Nat) (cap : Nat) (t : Table κ υ) (h : Inv hash cap t) (x : κ)
    (hx : ∀ e ∈ entries cap t, e.1 ≠ x) (hf : (entries cap t).length < cap) :
    ∃ i, find hash cap t x = pure i ∧ i ≠ cap ∧ t[i]? = some none := by
  unfold find
  rcases find_mem h (List.Perm.refl _) x with ⟨i, w, l, e, hi, ho, hl, hp, _⟩ | ⟨i, e, hi, ho, hl, hlt, _⟩ | ⟨e, hl, hf'⟩
  · exact absurd rfl (hx (x, w) (mem_entries.2 ⟨i, hi, ho⟩))
  · exact ⟨i, by rw [e]; rfl, by omega, ho⟩
  · omega

/-- Every new map. -/
example : ∃ i, find (fun x : Nat => x) 4 (make Nat Nat 4) 9 = pure i ∧ i ≠ 4 ∧ (make Nat Nat 4)[i]? = some none :=
  C49_find_violated _ 4 _ (inv_make Nat Nat _ 4 (by omega)).1 9 (by rw [(inv_make Nat Nat (fun x => x) 4 (by omega)).2]; simp)
    (by rw [(inv_make Nat Nat (fun x => x) 4 (by omega)).2]; simp)

/-- C49, `operator[]` of a constant map: the value of a key that is there; for another key the program is ended if there is room for it (see `C49_full_violated` for
a full map). -/
theorem C49_index_const_partial (hash : κ → Nat) (cap : Nat) (t : Table κ υ) (h : Inv hash cap t) (x : κ) :
    (∀ v, (x, v) ∈ entries cap t → indexConst hash cap t x = pure v) ∧
    ((∀ e ∈ entries cap t, e.1 ≠ x) → (entries cap t).length < cap → indexConst hash cap t x = abort) := by
  unfold indexConst place
  rcases find_mem h (List.Perm.refl _) x with ⟨i, w, l, e, hi, ho, hl, hp, _⟩ | ⟨i, e, hi, ho, hl, hlt, _⟩ | ⟨e, hl, hf'⟩
  · constructor
    · intro v hv
      have := lookup_of_mem h.ch.nodup hv
      rw [hl] at this
      injection this with this
      subst this
      rw [e, pure_bind, pure_bind, rd_some ho, pure_bind]
    · intro hx
      exact absurd rfl (hx (x, w) (mem_entries.2 ⟨i, hi, ho⟩))
  · constructor
    · intro v hv
      have := lookup_of_mem h.ch.nodup hv
      rw [hl] at this; injection this
    · intro _ _
      rw [e, pure_bind, pure_bind, rd_some ho, pure_bind]
  · constructor
    · intro v hv
      have := lookup_of_mem h.ch.nodup hv
      rw [hl] at this; injection this
    · intro _ hr; omega

example : indexConst (fun x : Nat => x) 2 [some (3, 4), none, none] 3 = pure 4 ∧ indexConst (fun x : Nat => x) 2 [some (3, 4), none, none] 2 = (abort : Cxx Nat) := by
  decide +kernel

end Verif.Containers.BoundedHashMap
