import Verif.Containers.BoundedHashMap
import Mathlib.Data.Fintype.Pigeonhole

/-
`daw::fixed_lookup`, include/daw/deprecated/daw_fixed_lookup.h, with hashes of 8 bytes (`HashSize` is `sizeof( size_t )`).  The
table is value initialised, as `make_fixed_lookup` does it (line 198): with a defaulted constructor `fixed_lookup<V, N> t;` leaves
`m_hashes` uninitialised.
-/

namespace Verif.Containers.FixedLookup
open Cxx Probe

variable {κ υ : Type}

/-- `m_hashes` and `m_values`, daw_fixed_lookup.h 71-72. -/
structure Table (υ : Type) where
  hashes : List Nat
  values : List υ
  deriving DecidableEq

/-- `fixed_lookup{ }`, daw_fixed_lookup.h 141-142 and 198: no hash is 0, which is `empty` (line 27). -/
def make (cap : Nat) (dflt : υ) : Table υ := ⟨List.replicate cap 0, List.replicate cap dflt⟩

/-- `size`, daw_fixed_lookup.h 79-87: the hashes that are not sentinels. -/
def size (t : Table υ) : Nat := t.hashes.foldl (fun n h => n + if 2 ≤ h then 1 else 0) 0

/-- `hash_fn`, daw_fixed_lookup.h 90-98; `h` is the `generic_hash` of the key, a number of 64 bits. -/
def hashFn (h : Nat) : Nat := h % (2 ^ 64 - 1 - 2) + 2

/-- `lookup`, daw_fixed_lookup.h 100-138: the position and whether it holds the hash. -/
def lookup (cap : Nat) (t : Table υ) (h : Nat) : Cxx (Nat × Bool) := do
  match ← findIndex (fun g => h == g || g == 0) t.hashes cap h with
  | some n =>
    let g ← rd t.hashes n
    pure (n, h == g)
  | none => pure (cap, false)

/-- `find_existing`, daw_fixed_lookup.h 144-151, given the hash of the key. -/
def findExisting (cap : Nat) (t : Table υ) (h : Nat) : Cxx Nat := do
  let (n, found) ← lookup cap t h
  if found then pure n else thrown

/-- `insert`, daw_fixed_lookup.h 153-163. -/
def insert (cap : Nat) (t : Table υ) (h : Nat) (v : υ) : Cxx (Table υ × Nat) := do
  let (n, found) ← lookup cap t h
  if !found && n == cap then thrown
  else
    let hs ← wr t.hashes n h
    let vs ← wr t.values n v
    pure (⟨hs, vs⟩, n)

/-- `get_existing`, daw_fixed_lookup.h 165-171. -/
def getExisting (t : Table υ) (n : Nat) : Cxx υ := rd t.values n

/-- `operator[]` of a constant table, daw_fixed_lookup.h 173-176. -/
def indexConst (cap : Nat) (t : Table υ) (h : Nat) : Cxx υ := do
  let n ← findExisting cap t h
  rd t.values n

/-- `operator[]`, daw_fixed_lookup.h 178-187: the table and the position of the value referred to. -/
def place (cap : Nat) (t : Table υ) (h : Nat) : Cxx (Table υ × Nat) := do
  let (n, found) ← lookup cap t h
  if !found && n == cap then thrown
  else
    let hs ← wr t.hashes n h
    pure (⟨hs, t.values⟩, n)

/-- Reading through `operator[]`, daw_fixed_lookup.h 178-187. -/
def index (cap : Nat) (t : Table υ) (h : Nat) : Cxx (Table υ × υ) := do
  let (t, n) ← place cap t h
  let v ← rd t.values n
  pure (t, v)

/-- Assigning to what `operator[]` refers to, daw_fixed_lookup.h 178-187. -/
def assign (cap : Nat) (t : Table υ) (h : Nat) (v : υ) : Cxx (Table υ) := do
  let (t, n) ← place cap t h
  let vs ← wr t.values n v
  pure ⟨t.hashes, vs⟩

/-- `exists`, daw_fixed_lookup.h 189-193. -/
def exists' (cap : Nat) (t : Table υ) (h : Nat) : Cxx Bool := do
  let (_, found) ← lookup cap t h
  pure found

/-- Calls. (Members of `fixed_lookup`, deprecated/daw_fixed_lookup.h 144-193.) -/
inductive Op (κ υ : Type) where
  | insert (x : κ) (v : υ)
  | index (x : κ)
  | assign (x : κ) (v : υ)
  | indexConst (x : κ)
  | find (x : κ)
  | exists (x : κ)
  | size
  deriving DecidableEq

/-- Results. (Members of `fixed_lookup`, deprecated/daw_fixed_lookup.h 144-193.) -/
inductive Res (υ : Type) where
  | done
  | is (b : Bool)
  | position (n : Nat)
  | number (n : Nat)
  | value (v : υ)
  deriving DecidableEq

/-- A call with a key of any type, of which only the hash matters, daw_fixed_lookup.h 90-98 and 144-193. -/
def step (hash : κ → Nat) (cap : Nat) (t : Table υ) : Op κ υ → Cxx (Table υ × Res υ)
  | .insert x v => do
    let (t, n) ← insert cap t (hashFn (hash x)) v
    pure (t, .position n)
  | .index x => do
    let (t, v) ← index cap t (hashFn (hash x))
    pure (t, .value v)
  | .assign x v => do
    let t ← assign cap t (hashFn (hash x)) v
    pure (t, .done)
  | .indexConst x => do
    let v ← indexConst cap t (hashFn (hash x))
    pure (t, .value v)
  | .find x => do
    let n ← findExisting cap t (hashFn (hash x))
    pure (t, .position n)
  | .exists x => do
    let b ← exists' cap t (hashFn (hash x))
    pure (t, .is b)
  | .size => pure (t, .number (size t))

/-- A history of calls, ended by the first exception. (Members of `fixed_lookup`, deprecated/daw_fixed_lookup.h 144-193.) -/
def run (hash : κ → Nat) (cap : Nat) (t : Table υ) : List (Op κ υ) → Cxx (Table υ × List (Res υ))
  | [] => pure (t, [])
  | o :: os => do
    let (t, r) ← step hash cap t o
    let (t, rs) ← run hash cap t os
    pure (t, r :: rs)

/-- The call of a function that is `noexcept`: an exception ends the program. (Rule of C++ or its library, no line of the source.) -/
def noexcept {α : Type} (c : Cxx α) : Cxx α :=
  match c.run with
  | some (.error .thrown) => abort
  | _ => c

/-- `make_fixed_lookup`, daw_fixed_lookup.h 195-202: `result[key] = Value{ }` for every key; the call is `noexcept`, so that an
exception ends the program. -/
def makeFixedLookup (hash : κ → Nat) (dflt : υ) (keys : List κ) : Cxx (Table υ) :=
  noexcept (keys.foldlM (fun t x => assign keys.length t (hashFn (hash x)) dflt) (make keys.length dflt))

/-! ### The finite map -/

/-- The same call on a finite map, given as list of pairs, in which every key has a fixed position; nothing if the call is refused:
there is no room, or no such key. (Specification, no line of the source.) -/
def mapStep [DecidableEq κ] (pos : κ → Nat) (cap : Nat) (dflt : υ) (m : List (κ × υ)) : Op κ υ → Option (List (κ × υ) × Res υ)
  | .insert x v => (BoundedHashMap.put cap m x v).map fun m => (m, .position (pos x))
  | .index x =>
    match m.lookup x with
    | some v => some (m, .value v)
    | none => (BoundedHashMap.put cap m x dflt).map fun m => (m, .value dflt)
  | .assign x v => (BoundedHashMap.put cap m x v).map fun m => (m, .done)
  | .indexConst x => (m.lookup x).map fun v => (m, .value v)
  | .find x => (m.lookup x).map fun _ => (m, .position (pos x))
  | .exists x => some (m, .is (m.lookup x).isSome)
  | .size => some (m, .number m.length)

/-- The same history on a finite map. (Specification, no line of the source.) -/
def mapRun [DecidableEq κ] (pos : κ → Nat) (cap : Nat) (dflt : υ) (m : List (κ × υ)) :
    List (Op κ υ) → Option (List (κ × υ) × List (Res υ))
  | [] => some (m, [])
  | o :: os => do
    let (m, r) ← mapStep pos cap dflt m o
    let (m, rs) ← mapRun pos cap dflt m os
    pure (m, r :: rs)

/-! ### Proofs -/

/-- A place as an entry of a table of the kind of `bounded_hash_map`. (Specification, no line of the source.) -/
def cell (h : Nat) (v : υ) : Option (Nat × υ) := if h = 0 then none else some (h, v)

/-- The table as a table of the kind of `bounded_hash_map`. (Specification, no line of the source.) -/
def view (t : Table υ) : BoundedHashMap.Table Nat υ := List.zipWith cell t.hashes t.values ++ [none]

/-- What holds between calls. (Specification, no line of the source.) -/
structure Inv (cap : Nat) (dflt : υ) (t : Table υ) : Prop where
  hlen : t.hashes.length = cap
  vlen : t.values.length = cap
  inv : BoundedHashMap.Inv id cap (view t)
  fresh : ∀ i : Nat, t.hashes[i]? = some 0 → t.values[i]? = some dflt
  real : ∀ i h : Nat, t.hashes[i]? = some h → h = 0 ∨ 2 ≤ h

theorem view_get {cap : Nat} {t : Table υ} (hh : t.hashes.length = cap) (hv : t.values.length = cap) {i : Nat} (hi : i < cap) :
    ∃ h v, t.hashes[i]? = some h ∧ t.values[i]? = some v ∧ (view t)[i]? = some (cell h v) := by
  have h1 : i < t.hashes.length := by omega
  have h2 : i < t.values.length := by omega
  refine ⟨t.hashes[i], t.values[i], List.getElem?_eq_getElem h1, List.getElem?_eq_getElem h2, ?_⟩
  unfold view
  rw [List.getElem?_append_left (by rw [List.length_zipWith]; omega), List.getElem?_zipWith, List.getElem?_eq_getElem h1,
    List.getElem?_eq_getElem h2]

theorem scan_congr {α β : Type} {p : α → Bool} {q : β → Bool} {s : List α} {t : List β} {cap : Nat}
    (h : ∀ i, i < cap → ∃ a b, s[i]? = some a ∧ t[i]? = some b ∧ p a = q b) (n last : Nat) (hl : last ≤ cap) :
    scan p s n last = scan q t n last := by
  induction hk : last - n generalizing n with
  | zero => rw [scan.eq_def p, scan.eq_def q, if_neg (by omega), if_neg (by omega)]
  | succ k ih =>
    obtain ⟨a, b, ha, hb, hp⟩ := h n (by omega)
    rw [scan.eq_def p, scan.eq_def q, if_pos (by omega), if_pos (by omega), rd_some ha, rd_some hb]
    simp only [pure_bind]
    rw [hp, ih (n + 1) (by omega)]

theorem findIndex_congr {α β : Type} {p : α → Bool} {q : β → Bool} {s : List α} {t : List β} {cap : Nat} (hc : 0 < cap)
    (h : ∀ i, i < cap → ∃ a b, s[i]? = some a ∧ t[i]? = some b ∧ p a = q b) (x : Nat) :
    findIndex p s cap x = findIndex q t cap x := by
  unfold findIndex
  obtain ⟨k, e, hk⟩ := scaleHash_lt x hc
  rw [e]
  simp only [pure_bind]
  rw [scan_congr h k cap (Nat.le_refl _), scan_congr h 0 k (by omega)]

theorem findIndex_view {cap : Nat} {dflt : υ} {t : Table υ} (hi : Inv cap dflt t) (h : Nat) :
    findIndex (fun g => h == g || g == 0) t.hashes cap h = BoundedHashMap.findIdx id cap (view t) h := by
  unfold BoundedHashMap.findIdx
  refine findIndex_congr hi.inv.ch.pos ?_ h
  intro i hlt
  obtain ⟨g, v, h1, h2, h3⟩ := view_get hi.hlen hi.vlen hlt
  refine ⟨g, cell g v, h1, h3, ?_⟩
  unfold cell
  by_cases hg : g = 0
  · subst hg; simp [stopAt]
  · rw [if_neg hg]
    simp only [stopAt]
    rw [show (g == 0) = false by simpa using hg, Bool.or_false]
    exact BEq.comm

theorem view_set {cap : Nat} {t : Table υ} (hh : t.hashes.length = cap) (hv : t.values.length = cap) {i h : Nat} {v : υ}
    (hi : i < cap) (h0 : h ≠ 0) : view ⟨t.hashes.set i h, t.values.set i v⟩ = (view t).set i (some (h, v)) := by
  unfold view
  rw [List.set_append_left _ _ (by rw [List.length_zipWith]; omega)]
  congr 1
  apply List.ext_getElem?
  intro k
  rw [List.getElem?_zipWith, List.getElem?_set]
  simp only [List.getElem?_set, List.getElem?_zipWith, List.length_zipWith]
  by_cases hk : i = k
  · subst hk
    rw [if_pos rfl, if_pos (by omega), if_pos rfl, if_pos (by omega), if_pos rfl, if_pos (by omega)]
    simp only [cell, if_neg h0]
  · rw [if_neg hk, if_neg hk, if_neg hk]

theorem fresh_set {cap : Nat} {dflt : υ} {t : Table υ} (hi : Inv cap dflt t) {i h : Nat} {v : υ} (h2 : 2 ≤ h) :
    (∀ j : Nat, (t.hashes.set i h)[j]? = some 0 → (t.values.set i v)[j]? = some dflt) ∧
    ∀ j g : Nat, (t.hashes.set i h)[j]? = some g → g = 0 ∨ 2 ≤ g := by
  constructor
  · intro j hj
    rw [List.getElem?_set] at hj ⊢
    by_cases hij : i = j
    · rw [if_pos hij] at hj
      by_cases hl : i < t.hashes.length
      · rw [if_pos hl] at hj; injection hj; omega
      · rw [if_neg hl] at hj; cases hj
    · rw [if_neg hij] at hj ⊢
      exact hi.fresh j hj
  · intro j g hj
    rw [List.getElem?_set] at hj
    by_cases hij : i = j
    · rw [if_pos hij] at hj
      by_cases hl : i < t.hashes.length
      · rw [if_pos hl] at hj; injection hj with hj; right; omega
      · rw [if_neg hl] at hj; cases hj
    · rw [if_neg hij] at hj
      exact hi.real j g hj

/-- A lookup finds the hash, a free place for it, or neither. -/
theorem lookup_mem {cap : Nat} {dflt : υ} {t : Table υ} (hi : Inv cap dflt t) {m : List (Nat × υ)}
    (hm : (entries cap (view t)).Perm m) (h : Nat) (h2 : 2 ≤ h) :
    (∃ i v, lookup cap t h = pure (i, true) ∧ i < cap ∧ t.hashes[i]? = some h ∧ t.values[i]? = some v ∧ m.lookup h = some v ∧
      ∀ w, Inv cap dflt ⟨t.hashes.set i h, t.values.set i w⟩ ∧ ∃ m', BoundedHashMap.put cap m h w = some m' ∧
        (entries cap (view ⟨t.hashes.set i h, t.values.set i w⟩)).Perm m') ∨
    (∃ i, lookup cap t h = pure (i, false) ∧ i < cap ∧ t.hashes[i]? = some 0 ∧ t.values[i]? = some dflt ∧ m.lookup h = none ∧
      ∀ w, Inv cap dflt ⟨t.hashes.set i h, t.values.set i w⟩ ∧ ∃ m', BoundedHashMap.put cap m h w = some m' ∧
        (entries cap (view ⟨t.hashes.set i h, t.values.set i w⟩)).Perm m') ∨
    (lookup cap t h = pure (cap, false) ∧ m.lookup h = none ∧ ∀ w, BoundedHashMap.put cap m h w = none) := by
  have hnd : (m.map Prod.fst).Nodup := (hm.map Prod.fst).nodup_iff.1 hi.inv.ch.nodup
  have hset : ∀ i w, i < cap → EndsAt Prod.fst (homeOf id cap) cap (view t) h i →
      Inv cap dflt ⟨t.hashes.set i h, t.values.set i w⟩ := by
    intro i w hlt he
    obtain ⟨f1, f2⟩ := fresh_set hi (i := i) (v := w) h2
    refine ⟨by simpa using hi.hlen, by simpa using hi.vlen, ?_, f1, f2⟩
    rw [view_set hi.hlen hi.vlen hlt (by omega)]
    exact BoundedHashMap.set_inv hi.inv he
  unfold lookup
  rw [findIndex_view hi]
  rcases BoundedHashMap.find_mem hi.inv hm h with ⟨i, v, l, e, hlt, ho, hl, hp, hs, _, he⟩ | ⟨i, e, hlt, ho, hl, hlen, hs, he⟩ |
    ⟨e, hl, hf⟩
  · left
    obtain ⟨g, v', h3, h4, h5⟩ := view_get hi.hlen hi.vlen hlt
    rw [h5] at ho
    injection ho with ho
    unfold cell at ho
    by_cases hg : g = 0
    · rw [if_pos hg] at ho; cases ho
    · rw [if_neg hg] at ho
      injection ho with ho; injection ho with ho1 ho2
      subst ho1; subst ho2
      refine ⟨i, v', ?_, hlt, h3, h4, hl, fun w => ⟨hset i w hlt he, (g, w) :: m.filter fun e => e.1 ≠ g, ?_, ?_⟩⟩
      · rw [e]; simp only [pure_bind]; rw [rd_some h3]; simp
      · unfold BoundedHashMap.put; rw [hl]; rfl
      · rw [view_set hi.hlen hi.vlen hlt hg]
        exact (hs w).trans ((BoundedHashMap.filter_perm hnd hp).symm.cons _)
  · right; left
    obtain ⟨g, v', h3, h4, h5⟩ := view_get hi.hlen hi.vlen hlt
    rw [h5] at ho
    injection ho with ho
    unfold cell at ho
    by_cases hg : g = 0
    · subst hg
      refine ⟨i, ?_, hlt, h3, hi.fresh i h3, hl, fun w => ⟨hset i w hlt he, (h, w) :: m, ?_, ?_⟩⟩
      · rw [e]; simp only [pure_bind]; rw [rd_some h3]; simp only [pure_bind]
        rw [show (h == 0) = false by simp; omega]
      · unfold BoundedHashMap.put; rw [hl, if_pos hlen]; rfl
      · rw [view_set hi.hlen hi.vlen hlt (by omega)]
        exact hs w
    · rw [if_neg hg] at ho; cases ho
  · right; right
    refine ⟨by rw [e]; rfl, hl, fun w => ?_⟩
    unfold BoundedHashMap.put; rw [hl, hf, if_neg (Nat.lt_irrefl _)]; rfl

theorem size_eq {cap : Nat} {dflt : υ} {t : Table υ} (hi : Inv cap dflt t) : size t = (entries cap (view t)).length := by
  have key : ∀ (hs : List Nat) (vs : List υ) (n : Nat), hs.length = vs.length → (∀ h ∈ hs, h = 0 ∨ 2 ≤ h) →
      hs.foldl (fun n h => n + if 2 ≤ h then 1 else 0) n = n + ((List.zipWith cell hs vs).filterMap id).length := by
    intro hs
    induction hs with
    | nil => intro vs n _ _; cases vs <;> rfl
    | cons h hs ih =>
      intro vs n hl hr
      cases vs with
      | nil => simp at hl
      | cons v vs =>
        rw [List.foldl_cons, ih vs _ (by simpa using hl) fun g hg => hr g (List.mem_cons_of_mem _ hg), List.zipWith_cons_cons]
        rcases hr h (by simp) with h0 | h2
        · subst h0
          rw [if_neg (by omega)]
          rfl
        · rw [if_pos h2, show cell h v = some (h, v) by unfold cell; rw [if_neg (by omega)]]
          simp only [List.filterMap_cons, id, List.length_cons]
          omega
  unfold size entries view
  rw [List.take_append_of_le_length (by rw [List.length_zipWith, hi.hlen, hi.vlen]; omega),
    List.take_of_length_le (by rw [List.length_zipWith, hi.hlen, hi.vlen]; omega), key _ _ _ (by rw [hi.hlen, hi.vlen]), Nat.zero_add]
  intro h hh
  obtain ⟨i, hh⟩ := List.mem_iff_getElem?.1 hh
  exact hi.real i h hh

theorem hashFn_ge (h : Nat) : 2 ≤ hashFn h := by unfold hashFn; omega

/-- The call with the stored hash for its key. (Specification, no line of the source.) -/
def Op.map {κ' : Type} (f : κ → κ') : Op κ υ → Op κ' υ
  | .insert x v => .insert (f x) v
  | .index x => .index (f x)
  | .assign x v => .assign (f x) v
  | .indexConst x => .indexConst (f x)
  | .find x => .find (f x)
  | .exists x => .exists (f x)
  | .size => .size

/-- One call, on the finite map of stored hashes. -/
theorem step_ok (hash : κ → Nat) {cap : Nat} {dflt : υ} {t : Table υ} (hi : Inv cap dflt t) {m : List (Nat × υ)}
    (hm : (entries cap (view t)).Perm m) (o : Op κ υ) :
    (∃ t' m' r, step hash cap t o = pure (t', r) ∧ Inv cap dflt t' ∧ (entries cap (view t')).Perm m' ∧
      (∀ i h : Nat, t.hashes[i]? = some h → h ≠ 0 → t'.hashes[i]? = some h) ∧
      ∀ pos : Nat → Nat, (∀ h i : Nat, 2 ≤ h → t'.hashes[i]? = some h → pos h = i) →
        mapStep pos cap dflt m (o.map fun x => hashFn (hash x)) = some (m', r)) ∨
    (step hash cap t o = thrown ∧ ∀ pos : Nat → Nat, mapStep pos cap dflt m (o.map fun x => hashFn (hash x)) = none) := by
  have keep : ∀ i h : Nat, (t.hashes[i]? = some h ∨ t.hashes[i]? = some 0) → ∀ j g : Nat, t.hashes[j]? = some g → g ≠ 0 →
      (t.hashes.set i h)[j]? = some g := by
    intro i h ho j g hj hg
    rw [List.getElem?_set]
    by_cases hij : i = j
    · subst hij
      rw [if_pos rfl, if_pos (by rcases Nat.lt_or_ge i t.hashes.length with h' | h'; exact h'; rw [List.getElem?_eq_none h'] at hj; cases hj)]
      rcases ho with ho | ho
      · rw [← ho, hj]
      · rw [ho] at hj; injection hj with hj; omega
    · rw [if_neg hij]; exact hj
  have self : ∀ (i : Nat) (v : υ), t.values[i]? = some v → t.values.set i v = t.values := by
    intro i v hv
    obtain ⟨hlt, he⟩ := List.getElem?_eq_some_iff.1 hv
    rw [← he, List.set_getElem_self]
  have hlen := hi.hlen
  have vlen := hi.vlen
  cases o with
  | insert x v =>
    rcases lookup_mem hi hm (hashFn (hash x)) (hashFn_ge _) with ⟨i, w, e, hlt, h1, h2, hl, hw⟩ | ⟨i, e, hlt, h1, h2, hl, hw⟩ | ⟨e, hl, hp⟩
    · left
      obtain ⟨hi', m', e', hp'⟩ := hw v
      refine ⟨_, m', .position i, ?_, hi', hp', keep i _ (Or.inl h1), fun pos hpos => ?_⟩
      · simp only [step]; unfold insert; rw [e]; simp only [pure_bind, Bool.not_true, Bool.false_and, Bool.false_eq_true, if_false]
        rw [wr_eq (by omega), wr_eq (by omega)]; rfl
      · simp only [Op.map, mapStep]
        rw [e', hpos _ i (hashFn_ge _) (List.getElem?_set_self (by omega))]; rfl
    · left
      obtain ⟨hi', m', e', hp'⟩ := hw v
      refine ⟨_, m', .position i, ?_, hi', hp', keep i _ (Or.inr h1), fun pos hpos => ?_⟩
      · simp only [step]; unfold insert; rw [e]
        simp only [pure_bind, Bool.not_false, Bool.true_and, beq_iff_eq]
        rw [if_neg (by omega), wr_eq (by omega), wr_eq (by omega)]; rfl
      · simp only [Op.map, mapStep]
        rw [e', hpos _ i (hashFn_ge _) (List.getElem?_set_self (by omega))]; rfl
    · right
      refine ⟨?_, fun pos => ?_⟩
      · simp only [step]; unfold insert; rw [e]; simp only [pure_bind, Bool.not_false, Bool.true_and, beq_self_eq_true, if_true]; rfl
      · simp only [Op.map, mapStep]; rw [hp]; rfl
  | index x =>
    rcases lookup_mem hi hm (hashFn (hash x)) (hashFn_ge _) with ⟨i, w, e, hlt, h1, h2, hl, hw⟩ | ⟨i, e, hlt, h1, h2, hl, hw⟩ | ⟨e, hl, hp⟩
    · left
      have hs : t.hashes.set i (hashFn (hash x)) = t.hashes := by
        obtain ⟨hlt, he⟩ := List.getElem?_eq_some_iff.1 h1
        conv_lhs => rw [← he]
        rw [List.set_getElem_self]
      refine ⟨t, m, .value w, ?_, hi, hm, fun _ _ h _ => h, fun pos hpos => ?_⟩
      · simp only [step]; unfold index place; rw [e]
        simp only [pure_bind, Bool.not_true, Bool.false_and, Bool.false_eq_true, if_false]
        rw [wr_eq (by omega)]; simp only [pure_bind]; rw [rd_some h2, hs]; rfl
      · simp only [Op.map, mapStep]; rw [hl]
    · left
      obtain ⟨hi', m', e', hp'⟩ := hw dflt
      rw [self i dflt h2] at hi' hp'
      refine ⟨_, m', .value dflt, ?_, hi', hp', keep i _ (Or.inr h1), fun pos hpos => ?_⟩
      · simp only [step]; unfold index place; rw [e]
        simp only [pure_bind, Bool.not_false, Bool.true_and, beq_iff_eq]
        rw [if_neg (by omega), wr_eq (by omega)]; simp only [pure_bind]; rw [rd_some h2]; rfl
      · simp only [Op.map, mapStep]; rw [hl, e']; rfl
    · right
      refine ⟨?_, fun pos => ?_⟩
      · simp only [step]; unfold index place; rw [e]; simp only [pure_bind, Bool.not_false, Bool.true_and, beq_self_eq_true, if_true]; rfl
      · simp only [Op.map, mapStep]; rw [hl, hp]; rfl
  | assign x v =>
    rcases lookup_mem hi hm (hashFn (hash x)) (hashFn_ge _) with ⟨i, w, e, hlt, h1, h2, hl, hw⟩ | ⟨i, e, hlt, h1, h2, hl, hw⟩ | ⟨e, hl, hp⟩
    · left
      obtain ⟨hi', m', e', hp'⟩ := hw v
      refine ⟨_, m', .done, ?_, hi', hp', keep i _ (Or.inl h1), fun pos hpos => ?_⟩
      · simp only [step]; unfold assign place; rw [e]
        simp only [pure_bind, Bool.not_true, Bool.false_and, Bool.false_eq_true, if_false]
        rw [wr_eq (by omega)]; simp only [pure_bind]; rw [wr_eq (by omega)]; rfl
      · simp only [Op.map, mapStep]
        rw [e']; rfl
    · left
      obtain ⟨hi', m', e', hp'⟩ := hw v
      refine ⟨_, m', .done, ?_, hi', hp', keep i _ (Or.inr h1), fun pos hpos => ?_⟩
      · simp only [step]; unfold assign place; rw [e]
        simp only [pure_bind, Bool.not_false, Bool.true_and, beq_iff_eq]
        rw [if_neg (by omega), wr_eq (by omega)]; simp only [pure_bind]; rw [wr_eq (by omega)]; rfl
      · simp only [Op.map, mapStep]
        rw [e']; rfl
    · right
      refine ⟨?_, fun pos => ?_⟩
      · simp only [step]; unfold assign place; rw [e]; simp only [pure_bind, Bool.not_false, Bool.true_and, beq_self_eq_true, if_true]; rfl
      · simp only [Op.map, mapStep]; rw [hp]; rfl
  | indexConst x =>
    rcases lookup_mem hi hm (hashFn (hash x)) (hashFn_ge _) with ⟨i, w, e, hlt, h1, h2, hl, hw⟩ | ⟨i, e, hlt, h1, h2, hl, hw⟩ | ⟨e, hl, hp⟩
    · left
      refine ⟨t, m, .value w, ?_, hi, hm, fun _ _ h _ => h, fun pos hpos => ?_⟩
      · simp only [step]; unfold indexConst findExisting; rw [e]; simp only [pure_bind, if_true]; rw [rd_some h2]; rfl
      · simp only [Op.map, mapStep]; rw [hl]; rfl
    · right
      refine ⟨?_, fun pos => ?_⟩
      · simp only [step]; unfold indexConst findExisting; rw [e]; rfl
      · simp only [Op.map, mapStep]; rw [hl]; rfl
    · right
      refine ⟨?_, fun pos => ?_⟩
      · simp only [step]; unfold indexConst findExisting; rw [e]; rfl
      · simp only [Op.map, mapStep]; rw [hl]; rfl
  | find x =>
    rcases lookup_mem hi hm (hashFn (hash x)) (hashFn_ge _) with ⟨i, w, e, hlt, h1, h2, hl, hw⟩ | ⟨i, e, hlt, h1, h2, hl, hw⟩ | ⟨e, hl, hp⟩
    · left
      refine ⟨t, m, .position i, ?_, hi, hm, fun _ _ h _ => h, fun pos hpos => ?_⟩
      · simp only [step]; unfold findExisting; rw [e]; rfl
      · simp only [Op.map, mapStep]; rw [hl, hpos _ i (hashFn_ge _) h1]; rfl
    · right
      refine ⟨?_, fun pos => ?_⟩
      · simp only [step]; unfold findExisting; rw [e]; rfl
      · simp only [Op.map, mapStep]; rw [hl]; rfl
    · right
      refine ⟨?_, fun pos => ?_⟩
      · simp only [step]; unfold findExisting; rw [e]; rfl
      · simp only [Op.map, mapStep]; rw [hl]; rfl
  | «exists» x =>
    left
    refine ⟨t, m, .is (m.lookup (hashFn (hash x))).isSome, ?_, hi, hm, fun _ _ h _ => h, fun pos hpos => rfl⟩
    simp only [step]; unfold exists'
    rcases lookup_mem hi hm (hashFn (hash x)) (hashFn_ge _) with ⟨i, w, e, hlt, h1, h2, hl, hw⟩ | ⟨i, e, hlt, h1, h2, hl, hw⟩ | ⟨e, hl, hp⟩
    · rw [e, hl]; rfl
    · rw [e, hl]; rfl
    · rw [e, hl]; rfl
  | size =>
    left
    refine ⟨t, m, .number m.length, ?_, hi, hm, fun _ _ h _ => h, fun pos hpos => rfl⟩
    simp only [step]; rw [size_eq hi, hm.length_eq]

/-- Whether a call is refused, and the map afterwards, do not depend on the positions. -/
theorem mapStep_pos [DecidableEq κ] (pos pos' : κ → Nat) (cap : Nat) (dflt : υ) (m : List (κ × υ)) (o : Op κ υ) :
    (mapStep pos cap dflt m o).map Prod.fst = (mapStep pos' cap dflt m o).map Prod.fst := by
  cases o with
  | insert x v => simp only [mapStep, Option.map_map]; rfl
  | index x => rfl
  | assign x v => rfl
  | indexConst x => rfl
  | find x => simp only [mapStep, Option.map_map]; rfl
  | «exists» x => rfl
  | size => rfl

theorem pos_of {cap : Nat} {dflt : υ} {t : Table υ} (hi : Inv cap dflt t) {h i j : Nat} (h0 : h ≠ 0) (h1 : t.hashes[i]? = some h)
    (h2 : t.hashes[j]? = some h) : i = j := by
  have hl := hi.hlen
  have lt : ∀ k : Nat, t.hashes[k]? = some h → k < cap := by
    intro k hk
    rcases Nat.lt_or_ge k cap with h' | h'
    · exact h'
    · rw [List.getElem?_eq_none (by omega)] at hk; cases hk
  have at' : ∀ k : Nat, t.hashes[k]? = some h → ∃ v, (view t)[k]? = some (some (h, v)) := by
    intro k hk
    obtain ⟨g, v, e1, _, e3⟩ := view_get hi.hlen hi.vlen (lt k hk)
    rw [hk] at e1
    injection e1 with e1
    subst e1
    refine ⟨v, ?_⟩
    rw [e3]; unfold cell; rw [if_neg h0]
  obtain ⟨v, hv⟩ := at' i h1
  obtain ⟨w, hw⟩ := at' j h2
  exact hi.inv.ch.unique (lt i h1) (lt j h2) hv hw rfl

/-- The place of a hash in the table. (Specification, no line of the source.) -/
def posIn (t : Table υ) (h : Nat) : Nat := t.hashes.idxOf h

theorem posIn_eq {cap : Nat} {dflt : υ} {t : Table υ} (hi : Inv cap dflt t) (h i : Nat) (h2 : 2 ≤ h) (h1 : t.hashes[i]? = some h) :
    posIn t h = i := by
  have hm : h ∈ t.hashes := List.mem_iff_getElem?.2 ⟨i, h1⟩
  refine pos_of hi (by omega) ?_ h1
  unfold posIn
  rw [List.getElem?_eq_getElem (List.idxOf_lt_length_of_mem hm), List.getElem_idxOf]

theorem run_ok (hash : κ → Nat) {cap : Nat} {dflt : υ} (os : List (Op κ υ)) : ∀ (t : Table υ) (m : List (Nat × υ)),
    Inv cap dflt t → (entries cap (view t)).Perm m →
    (∃ t' m' rs, run hash cap t os = pure (t', rs) ∧ Inv cap dflt t' ∧ (entries cap (view t')).Perm m' ∧
      (∀ i h : Nat, t.hashes[i]? = some h → h ≠ 0 → t'.hashes[i]? = some h) ∧
      ∀ pos : Nat → Nat, (∀ h i : Nat, 2 ≤ h → t'.hashes[i]? = some h → pos h = i) →
        mapRun pos cap dflt m (os.map (Op.map fun x => hashFn (hash x))) = some (m', rs)) ∨
    (run hash cap t os = thrown ∧ ∀ pos : Nat → Nat, mapRun pos cap dflt m (os.map (Op.map fun x => hashFn (hash x))) = none) := by
  induction os with
  | nil => intro t m hi hm; exact Or.inl ⟨t, m, [], rfl, hi, hm, fun _ _ h _ => h, fun _ _ => rfl⟩
  | cons o os ih =>
    intro t m hi hm
    rcases step_ok hash hi hm o with ⟨t1, m1, r, e1, hi1, hm1, k1, p1⟩ | ⟨e1, p1⟩
    · rcases ih t1 m1 hi1 hm1 with ⟨t2, m2, rs, e2, hi2, hm2, k2, p2⟩ | ⟨e2, p2⟩
      · left
        refine ⟨t2, m2, r :: rs, ?_, hi2, hm2, fun i h h1 h0 => k2 i h (k1 i h h1 h0) h0, fun pos hpos => ?_⟩
        · simp only [run]; rw [e1]; simp only [pure_bind]; rw [e2]; rfl
        · rw [List.map_cons, mapRun, p1 pos fun h i h2 hh => hpos h i h2 (k2 i h hh (by omega))]
          show (mapRun pos cap dflt m1 _).bind _ = _
          rw [p2 pos hpos]; rfl
      · right
        refine ⟨by simp only [run]; rw [e1]; simp only [pure_bind]; rw [e2]; rfl, fun pos => ?_⟩
        have hs := mapStep_pos pos (posIn t1) cap dflt m (o.map fun x => hashFn (hash x))
        rw [p1 (posIn t1) fun h i h2 hh => posIn_eq hi1 h i h2 hh] at hs
        rw [List.map_cons, mapRun]
        cases hc : mapStep pos cap dflt m (o.map fun x => hashFn (hash x)) with
        | none => rfl
        | some q =>
          rw [hc] at hs
          injection hs with hs
          obtain ⟨m3, r3⟩ := q
          have hs : m3 = m1 := hs
          subst hs
          show (mapRun pos cap dflt m3 _).bind _ = _
          rw [p2 pos]; rfl
    · right
      refine ⟨by simp only [run]; rw [e1]; rfl, fun pos => ?_⟩
      rw [List.map_cons, mapRun, p1]; rfl

theorem inv_make (cap : Nat) (dflt : υ) (hc : 0 < cap) : Inv cap dflt (make cap dflt) ∧ entries cap (view (make cap dflt)) = [] := by
  have e : view (make cap dflt) = BoundedHashMap.make Nat υ cap := by
    unfold view make BoundedHashMap.make
    rw [List.zipWith_replicate', List.replicate_succ', show cell 0 dflt = none from rfl]
  obtain ⟨h1, h2⟩ := BoundedHashMap.inv_make Nat υ id cap hc
  rw [← e] at h1 h2
  refine ⟨⟨by simp [make], by simp [make], h1, fun i h => ?_, fun i h hh => ?_⟩, h2⟩
  · simp only [make, List.getElem?_replicate] at h ⊢
    by_cases hi : i < cap
    · rw [if_pos hi]
    · rw [if_neg hi] at h; cases h
  · simp only [make, List.getElem?_replicate] at hh
    by_cases hi : i < cap
    · rw [if_pos hi] at hh; injection hh with hh; left; omega
    · rw [if_neg hi] at hh; cases hh

section
variable [DecidableEq κ]

theorem lookup_map {f : κ → Nat} (hf : ∀ x y, f x = f y → x = y) (m : List (κ × υ)) (x : κ) :
    (m.map fun e => (f e.1, e.2)).lookup (f x) = m.lookup x := by
  induction m with
  | nil => rfl
  | cons e m ih =>
    obtain ⟨y, v⟩ := e
    rw [List.map_cons, List.lookup_cons, List.lookup_cons, ih]
    by_cases hxy : x = y
    · subst hxy; simp
    · rw [show (x == y) = false by simpa using hxy, show (f x == f y) = false by simpa using fun h => hxy (hf _ _ h)]

theorem put_map {f : κ → Nat} (hf : ∀ x y, f x = f y → x = y) (cap : Nat) (m : List (κ × υ)) (x : κ) (v : υ) :
    BoundedHashMap.put cap (m.map fun e => (f e.1, e.2)) (f x) v =
      (BoundedHashMap.put cap m x v).map (List.map fun e => (f e.1, e.2)) := by
  unfold BoundedHashMap.put
  rw [lookup_map hf, List.length_map]
  by_cases h1 : (m.lookup x).isSome
  · rw [if_pos h1, if_pos h1]
    simp only [Option.map_some, List.map_cons, List.filter_map]
    congr 4
    funext e
    simp only [Function.comp]
    rw [decide_eq_decide]
    exact ⟨fun h h' => h (by rw [h']), fun h h' => h (hf _ _ h')⟩
  · rw [if_neg h1, if_neg h1]
    by_cases h2 : m.length < cap
    · rw [if_pos h2, if_pos h2]; rfl
    · rw [if_neg h2, if_neg h2]; rfl

theorem mapStep_map {f : κ → Nat} (hf : ∀ x y, f x = f y → x = y) (pos : Nat → Nat) (cap : Nat) (dflt : υ) (m : List (κ × υ))
    (o : Op κ υ) : mapStep pos cap dflt (m.map fun e => (f e.1, e.2)) (o.map f) =
      (mapStep (fun x => pos (f x)) cap dflt m o).map fun r => (r.1.map fun e => (f e.1, e.2), r.2) := by
  cases o with
  | insert x v => simp only [Op.map, mapStep]; rw [put_map hf, Option.map_map, Option.map_map]; rfl
  | index x =>
    simp only [Op.map, mapStep]
    rw [lookup_map hf, put_map hf]
    cases m.lookup x with
    | some v => rfl
    | none => simp only [Option.map_map]; rfl
  | assign x v => simp only [Op.map, mapStep]; rw [put_map hf, Option.map_map, Option.map_map]; rfl
  | indexConst x => simp only [Op.map, mapStep]; rw [lookup_map hf, Option.map_map]; rfl
  | find x => simp only [Op.map, mapStep]; rw [lookup_map hf, Option.map_map]; rfl
  | «exists» x => simp only [Op.map, mapStep]; rw [lookup_map hf]; rfl
  | size => simp only [Op.map, mapStep]; rw [List.length_map]; rfl

theorem mapRun_map {f : κ → Nat} (hf : ∀ x y, f x = f y → x = y) (pos : Nat → Nat) (cap : Nat) (dflt : υ) (os : List (Op κ υ)) :
    ∀ m : List (κ × υ), mapRun pos cap dflt (m.map fun e => (f e.1, e.2)) (os.map (Op.map f)) =
      (mapRun (fun x => pos (f x)) cap dflt m os).map fun r => (r.1.map fun e => (f e.1, e.2), r.2) := by
  induction os with
  | nil => intro m; rfl
  | cons o os ih =>
    intro m
    rw [List.map_cons, mapRun, mapRun, mapStep_map hf]
    cases mapStep (fun x => pos (f x)) cap dflt m o with
    | none => rfl
    | some q =>
      obtain ⟨m1, r⟩ := q
      show (mapRun pos cap dflt (m1.map fun e => (f e.1, e.2)) (os.map (Op.map f))).bind _ = Option.map _ ((mapRun _ cap dflt m1 os).bind _)
      rw [ih m1]
      cases mapRun (fun x => pos (f x)) cap dflt m1 os with
      | none => rfl
      | some q => rfl

theorem mapRun_pos (pos pos' : κ → Nat) (cap : Nat) (dflt : υ) (os : List (Op κ υ)) : ∀ m : List (κ × υ),
    (mapRun pos cap dflt m os).map Prod.fst = (mapRun pos' cap dflt m os).map Prod.fst := by
  induction os with
  | nil => intro m; rfl
  | cons o os ih =>
    intro m
    have h := mapStep_pos pos pos' cap dflt m o
    rw [mapRun, mapRun]
    cases h1 : mapStep pos cap dflt m o with
    | none =>
      rw [h1] at h
      rw [Option.map_eq_none_iff.1 h.symm]; rfl
    | some q =>
      rw [h1] at h
      cases h2 : mapStep pos' cap dflt m o with
      | none => rw [h2] at h; cases h
      | some q' =>
        rw [h2] at h
        injection h with h
        obtain ⟨m1, r1⟩ := q
        obtain ⟨m2, r2⟩ := q'
        have h : m1 = m2 := h
        subst h
        have ih := ih m1
        show ((mapRun pos cap dflt m1 os).bind _).map _ = ((mapRun pos' cap dflt m1 os).bind _).map _
        cases h3 : mapRun pos cap dflt m1 os with
        | none => rw [h3] at ih; rw [Option.map_eq_none_iff.1 ih.symm]; rfl
        | some q3 =>
          rw [h3] at ih
          cases h4 : mapRun pos' cap dflt m1 os with
          | none => rw [h4] at ih; cases ih
          | some q4 => rw [h4] at ih; injection ih with ih; exact congrArg some ih

/-- C192, as far as it holds: if different keys have different stored hashes, then any history of calls on a new table has the
results of the same history on a finite map, in which every key has one position, told by `insert` and `find_existing`, for good.
The history ends with an exception exactly if the finite map refuses a call.  At the end `get_existing` of its position is the
value of every key, and different keys have different positions.  Missing: keys whose stored hashes are equal, see
`C192_collision_violated`. -/
theorem C192_history_partial (hash : κ → Nat) (hf : ∀ x y, hashFn (hash x) = hashFn (hash y) → x = y) (cap : Nat) (hc : 0 < cap)
    (dflt : υ) (os : List (Op κ υ)) :
    (∃ (t : Table υ) (m : List (κ × υ)) (rs : List (Res υ)) (pos : κ → Nat), run hash cap (make cap dflt) os = pure (t, rs) ∧
      mapRun pos cap dflt [] os = some (m, rs) ∧ (m.map Prod.fst).Nodup ∧
      (∀ x v, (x, v) ∈ m → pos x < cap ∧ getExisting t (pos x) = pure v) ∧
      ∀ x y v w, (x, v) ∈ m → (y, w) ∈ m → pos x = pos y → x = y) ∨
    (run hash cap (make cap dflt) os = thrown ∧ ∀ pos : κ → Nat, mapRun pos cap dflt [] os = none) := by
  obtain ⟨h1, h2⟩ := inv_make cap dflt hc
  rcases run_ok hash os (make cap dflt) [] h1 (by rw [h2]) with ⟨t, m, rs, e, hi, hm, _, hp⟩ | ⟨e, hp⟩
  · left
    have hr := hp (posIn t) fun h i h2 hh => posIn_eq hi h i h2 hh
    have hr' := mapRun_map hf (posIn t) cap dflt os []
    rw [List.map_nil, hr] at hr'
    cases hq : mapRun (fun x => posIn t (hashFn (hash x))) cap dflt ([] : List (κ × υ)) os with
    | none => rw [hq] at hr'; cases hr'
    | some q =>
      obtain ⟨m', rs'⟩ := q
      rw [hq] at hr'
      injection hr' with hr'
      injection hr' with em er
      subst er
      have hnd : (m.map Prod.fst).Nodup := (hm.map Prod.fst).nodup_iff.1 hi.inv.ch.nodup
      have hat : ∀ x v, (x, v) ∈ m' → t.hashes[posIn t (hashFn (hash x))]? = some (hashFn (hash x)) ∧
          posIn t (hashFn (hash x)) < cap ∧ getExisting t (posIn t (hashFn (hash x))) = pure v := by
        intro x v hx
        have hx' : (hashFn (hash x), v) ∈ entries cap (view t) := by
          rw [hm.mem_iff, em]
          exact List.mem_map.2 ⟨(x, v), hx, rfl⟩
        obtain ⟨i, hlt, hv⟩ := mem_entries.1 hx'
        obtain ⟨g, w, e1, e2, e3⟩ := view_get hi.hlen hi.vlen hlt
        rw [hv] at e3
        injection e3 with e3
        unfold cell at e3
        by_cases hg : g = 0
        · rw [if_pos hg] at e3; cases e3
        · rw [if_neg hg] at e3
          injection e3 with e3; injection e3 with e3 e4
          subst e4
          rw [← e3] at e1
          rw [posIn_eq hi _ i (hashFn_ge _) e1]
          exact ⟨e1, hlt, rd_some e2⟩
      refine ⟨t, m', rs, fun x => posIn t (hashFn (hash x)), e, hq, ?_, fun x v hx => (hat x v hx).2, ?_⟩
      · rw [em, List.map_map] at hnd
        refine List.Nodup.of_map (fun x => hashFn (hash x)) ?_
        rw [List.map_map]
        exact hnd
      · intro x y v w hx hy hxy
        have hx := (hat x v hx).1
        have hy := (hat y w hy).1
        have hxy : posIn t (hashFn (hash x)) = posIn t (hashFn (hash y)) := hxy
        rw [hxy, hy] at hx
        injection hx with hx
        exact (hf _ _ hx).symm
  · right
    refine ⟨e, fun pos => ?_⟩
    have hq := mapRun_map hf id cap dflt os []
    rw [List.map_nil, hp id] at hq
    have hn := mapRun_pos pos (fun x => id (hashFn (hash x))) cap dflt os []
    rw [Option.map_eq_none_iff.1 hq.symm] at hn
    exact Option.map_eq_none_iff.1 hn

/-- Two keys, a full table, positions that stay. -/
example : (∀ x y : Fin 1000, hashFn x.val = hashFn y.val → x = y) ∧
    run (fun x : Fin 1000 => x.val) 2 (make 2 0) [.insert 5 50, .index 7, .assign 7 70, .find 5, .insert 5 51, .indexConst 5, .exists 6,
      .size] = pure (⟨[7, 9], [51, 70]⟩,
      [.position 0, .value 0, .done, .position 0, .position 0, .value 51, .is false, .number 2]) ∧
    run (fun x : Fin 1000 => x.val) 2 (make 2 0) [.insert 5 50, .index 7, .insert 6 60] = thrown := by
  refine ⟨fun x y h => ?_, by decide +kernel, by decide +kernel⟩
  unfold hashFn at h
  omega

end

theorem find_at {cap : Nat} {dflt : υ} {t : Table υ} (hi : Inv cap dflt t) {h i : Nat} (h2 : 2 ≤ h) :
    findExisting cap t h = pure i ↔ t.hashes[i]? = some h := by
  unfold findExisting
  rcases lookup_mem hi (List.Perm.refl _) h h2 with ⟨k, w, e, hlt, h1, _, hl, _⟩ | ⟨k, e, hlt, h1, _, hl, _⟩ | ⟨e, hl, _⟩
  · rw [e]
    constructor
    · intro hp
      have : k = i := Cxx.pure_inj.mp hp
      rw [← this]; exact h1
    · intro hp
      rw [pos_of hi (by omega) hp h1]; rfl
  all_goals
    rw [e]
    constructor
    · intro hp; exact absurd hp (thrown_ne_pure _)
    · intro hp
      exfalso
      have hlt : i < cap := by
        rcases Nat.lt_or_ge i cap with h' | h'
        · exact h'
        · rw [List.getElem?_eq_none (by rw [hi.hlen]; exact h')] at hp; cases hp
      obtain ⟨g, v, e1, _, e3⟩ := view_get hi.hlen hi.vlen hlt
      rw [hp] at e1
      injection e1 with e1
      subst e1
      unfold cell at e3
      rw [if_neg (by omega)] at e3
      rw [BoundedHashMap.lookup_of_mem hi.inv.ch.nodup (mem_entries.2 ⟨i, hlt, e3⟩)] at hl
      cases hl

/-- C193: whatever the hash function and the history, a position told by `insert` or `find_existing` stays the position of that key
in every later history. -/
theorem C193_positions_stay (hash : κ → Nat) (cap : Nat) (hc : 0 < cap) (dflt : υ) (os os' : List (Op κ υ)) (t t' : Table υ)
    (rs rs' : List (Res υ)) (h : run hash cap (make cap dflt) os = pure (t, rs)) (h' : run hash cap t os' = pure (t', rs')) (x : κ)
    (i : Nat) :
    (findExisting cap t (hashFn (hash x)) = pure i → findExisting cap t' (hashFn (hash x)) = pure i) ∧
    ∀ v t1, insert cap t (hashFn (hash x)) v = pure (t1, i) → ∀ os1 t2 rs1, run hash cap t1 os1 = pure (t2, rs1) →
      findExisting cap t2 (hashFn (hash x)) = pure i := by
  obtain ⟨h1, h2⟩ := inv_make cap dflt hc
  rcases run_ok hash os (make cap dflt) [] h1 (by rw [h2]) with ⟨t0, m, rs0, e, hi, hm, _, _⟩ | ⟨e, _⟩
  · rw [h] at e
    obtain ⟨rfl, rfl⟩ := Prod.mk.inj (Cxx.pure_inj.mp e)
    constructor
    · intro hf
      rcases run_ok hash os' t m hi hm with ⟨t0, m', rs0, e', hi', _, hk, _⟩ | ⟨e', _⟩
      · rw [h'] at e'
        obtain ⟨rfl, rfl⟩ := Prod.mk.inj (Cxx.pure_inj.mp e')
        rw [find_at hi (hashFn_ge _)] at hf
        rw [find_at hi' (hashFn_ge _)]
        exact hk i _ hf (by have := hashFn_ge (hash x); omega)
      · rw [h'] at e'; exact absurd e'.symm (thrown_ne_pure _)
    · intro v t1 hins os1 t2 rs1 hr
      have hr' : run hash cap t (.insert x v :: os1) = pure (t2, .position i :: rs1) := by
        simp only [run, step]; rw [hins]; simp only [pure_bind]; rw [hr]; rfl
      rcases step_ok hash hi hm (.insert x v) with ⟨t0, m', r, e', hi', hm', _, hp⟩ | ⟨e', _⟩
      · simp only [step] at e'
        rw [hins] at e'
        obtain ⟨rfl, rfl⟩ := Prod.mk.inj (Cxx.pure_inj.mp e')
        have h3 : t1.hashes[i]? = some (hashFn (hash x)) := by
          have hp := hp (posIn t1) fun h i h2 hh => posIn_eq hi' h i h2 hh
          unfold insert at hins
          obtain ⟨⟨n, f⟩, _, hins⟩ := bind_eq_pure.mp hins
          replace hins : (if (!f && n == cap) = true then (thrown : Cxx (Table υ × Nat)) else do
            let hs ← wr t.hashes n (hashFn (hash x))
            let vs ← wr t.values n v
            pure (⟨hs, vs⟩, n)) = pure (t1, i) := hins
          by_cases hb : (!f && n == cap) = true
          · rw [if_pos hb] at hins; exact absurd hins (thrown_ne_pure _)
          · rw [if_neg hb] at hins
            obtain ⟨hs, hw, hins⟩ := bind_eq_pure.mp hins
            obtain ⟨vs, _, hins⟩ := bind_eq_pure.mp hins
            obtain ⟨rfl, rfl⟩ := Prod.mk.inj (Cxx.pure_inj.mp hins)
            rcases Nat.lt_or_ge n t.hashes.length with hn | hn
            · rw [wr_eq hn] at hw
              rw [← Cxx.pure_inj.mp hw]
              exact List.getElem?_set_self hn
            · rw [wr_oob hn] at hw; exact absurd hw (ub_ne_pure _)
        rcases run_ok hash os1 t1 m' hi' hm' with ⟨t0, m2, rs0, e2, hi2, _, hk, _⟩ | ⟨e2, _⟩
        · rw [hr] at e2
          obtain ⟨rfl, rfl⟩ := Prod.mk.inj (Cxx.pure_inj.mp e2)
          rw [find_at hi2 (hashFn_ge _)]
          exact hk i _ h3 (by have := hashFn_ge (hash x); omega)
        · rw [hr] at e2; exact absurd e2.symm (thrown_ne_pure _)
      · simp only [step] at e'; rw [hins] at e'; exact absurd e'.symm (thrown_ne_pure _)
  · rw [h] at e; exact absurd e.symm (thrown_ne_pure _)

/-- The position of a key while others that collide with it come later. -/
example : ∃ t t' : Table Nat, run id 3 (make 3 0) [.insert 0 10, .insert 3 13] = pure (t, [.position 1, .position 2]) ∧
    run id 3 t [.insert 6 16, .assign 3 14] = pure (t', [.position 0, .done]) ∧ findExisting 3 t (hashFn 3) = pure 2 ∧
    findExisting 3 t' (hashFn 3) = pure 2 := by
  refine ⟨⟨[0, 2, 5], [0, 10, 13]⟩, ⟨[8, 2, 5], [16, 10, 14]⟩, ?_⟩
  decide +kernel

/-- C192 does not hold for two keys whose stored hashes are equal: the keys themselves are not stored, so that after one of them was
inserted the other one is there too, with its value, and inserting it changes the value of the first.  Such keys exist in every
infinite type, whatever its hash function. -/
theorem C192_collision_violated :
    (∀ (κ υ : Type) (hash : κ → Nat) (cap : Nat) (dflt v w : υ) (x y : κ), 0 < cap → hashFn (hash x) = hashFn (hash y) →
      ∃ t i, run hash cap (make cap dflt) [.insert x v, .exists y, .indexConst y, .insert y w, .indexConst x, .size] =
        pure (t, [.position i, .is true, .value v, .position i, .value w, .number 1])) ∧
    (∀ (κ : Type) (hash : κ → Nat), Infinite κ → ∃ x y, x ≠ y ∧ hashFn (hash x) = hashFn (hash y)) ∧
    hashFn 0 = hashFn (2 ^ 64 - 3) := by
  refine ⟨fun κ υ hash cap dflt v w x y hc hxy => ?_, fun κ hash hinf => ?_, by decide +kernel⟩
  · obtain ⟨h1, h2⟩ := inv_make cap dflt hc
    rcases run_ok hash [.insert x v, .exists y, .indexConst y, .insert y w, .indexConst x, .size] (make cap dflt) [] h1 (by rw [h2]) with
      ⟨t, m, rs, e, hi, hm, _, hp⟩ | ⟨e, hp⟩
    · have hr := hp (posIn t) fun h i h2 hh => posIn_eq hi h i h2 hh
      refine ⟨t, posIn t (hashFn (hash x)), ?_⟩
      rw [e]
      simp only [List.map_cons, List.map_nil, Op.map, mapRun, mapStep, BoundedHashMap.put, ← hxy, List.lookup_nil, Option.isSome_none,
        List.length_nil, hc, if_true, Option.map_some, Option.bind_eq_bind, Option.bind_some, List.lookup_cons_self, Option.isSome_some,
        List.filter_cons, List.filter_nil, Option.pure_def, Bool.false_eq_true, if_false, ne_eq, not_true_eq_false, decide_false,
        List.length_cons] at hr
      injection hr with hr
      injection hr with _ hr
      rw [← hr]
    · have hr := hp id
      simp only [List.map_cons, List.map_nil, Op.map, mapRun, mapStep, BoundedHashMap.put, ← hxy, List.lookup_nil, Option.isSome_none,
        List.length_nil, hc, if_true, Option.map_some, Option.bind_eq_bind, Option.bind_some, List.lookup_cons_self, Option.isSome_some,
        List.filter_cons, List.filter_nil, Option.pure_def, Bool.false_eq_true, if_false, ne_eq, not_true_eq_false, decide_false,
        List.length_cons] at hr
      cases hr
  · have hlt : ∀ n, hashFn n < 2 ^ 64 := by
      intro n; unfold hashFn; omega
    obtain ⟨x, y, hne, h⟩ := Finite.exists_ne_map_eq_of_infinite fun x : κ => (⟨hashFn (hash x), hlt _⟩ : Fin (2 ^ 64))
    exact ⟨x, y, hne, congrArg Fin.val h⟩

/-- C194: `make_fixed_lookup` never ends the program, whatever the keys: every key is there with a default value, and no other
stored hash is. -/
theorem C194_make (hash : κ → Nat) (dflt : υ) (keys : List κ) (hk : keys ≠ []) :
    ∃ t, makeFixedLookup hash dflt keys = pure t ∧
      (∀ x ∈ keys, indexConst keys.length t (hashFn (hash x)) = pure dflt) ∧
      ∀ y, (∀ x ∈ keys, hashFn (hash x) ≠ hashFn (hash y)) → exists' keys.length t (hashFn (hash y)) = pure false := by
  have hc : 0 < keys.length := by cases keys with | nil => exact absurd rfl hk | cons => simp
  obtain ⟨cap, hcap⟩ : ∃ cap, keys.length = cap := ⟨_, rfl⟩
  rw [hcap] at hc
  have key : ∀ (ks : List κ) (t : Table υ) (m : List (Nat × υ)), Inv cap dflt t → (entries cap (view t)).Perm m →
      m.length + ks.length ≤ cap → (∀ e ∈ m, e.2 = dflt) →
      ∃ t' m', ks.foldlM (fun t x => assign cap t (hashFn (hash x)) dflt) t = pure t' ∧ Inv cap dflt t' ∧
        (entries cap (view t')).Perm m' ∧ (∀ e ∈ m', e.2 = dflt) ∧
        ∀ h, (m'.lookup h).isSome = ((m.lookup h).isSome || (ks.map fun x => hashFn (hash x)).contains h) := by
    intro ks
    induction ks with
    | nil => intro t m hi hm _ hd; exact ⟨t, m, rfl, hi, hm, hd, fun h => by simp⟩
    | cons x ks ih =>
      intro t m hi hm hl hd
      rw [List.length_cons] at hl
      have hput : ∃ m1, BoundedHashMap.put cap m (hashFn (hash x)) dflt = some m1 ∧ m1.length ≤ m.length + 1 ∧ (∀ e ∈ m1, e.2 = dflt) ∧
          ∀ h, (m1.lookup h).isSome = ((m.lookup h).isSome || h == hashFn (hash x)) := by
        unfold BoundedHashMap.put
        by_cases hs : (m.lookup (hashFn (hash x))).isSome
        · rw [if_pos hs]
          refine ⟨_, rfl, ?_, ?_, fun h => ?_⟩
          · rw [List.length_cons]
            have := List.length_filter_le (fun e : Nat × υ => decide (e.1 ≠ hashFn (hash x))) m
            omega
          · intro e he
            rw [List.mem_cons] at he
            rcases he with rfl | he
            · rfl
            · exact hd e (List.mem_filter.1 he).1
          · rw [List.lookup_cons]
            by_cases hh : h = hashFn (hash x)
            · subst hh; simp
            · rw [show (h == hashFn (hash x)) = false by simpa using hh]
              simp only [Bool.or_false]
              congr 1
              clear hs hm hl hd ih
              induction m with
              | nil => rfl
              | cons e m ih =>
                obtain ⟨g, u⟩ := e
                by_cases hg : g = hashFn (hash x)
                · rw [List.filter_cons_of_neg (by simp [hg]), ih, List.lookup_cons,
                    show (h == g) = false by rw [hg]; simpa using hh]
                · rw [List.filter_cons_of_pos (by simpa using hg), List.lookup_cons, List.lookup_cons, ih]
        · rw [if_neg hs, if_pos (by omega)]
          refine ⟨_, rfl, Nat.le_refl _, ?_, fun h => ?_⟩
          · intro e he
            rw [List.mem_cons] at he
            rcases he with rfl | he
            · rfl
            · exact hd e he
          · rw [List.lookup_cons]
            by_cases hh : h = hashFn (hash x)
            · subst hh; simp
            · rw [show (h == hashFn (hash x)) = false by simpa using hh]; simp
      obtain ⟨m1, hp1, hl1, hd1, hk1⟩ := hput
      rcases step_ok hash hi hm (.assign x dflt) with ⟨t1, m1', r, e1, hi1, hm1, _, p1⟩ | ⟨_, p1⟩
      · have hms := p1 (posIn t1) fun h i h2 hh => posIn_eq hi1 h i h2 hh
        simp only [Op.map, mapStep] at hms
        rw [hp1] at hms
        injection hms with hms
        injection hms with hms _
        subst hms
        simp only [step] at e1
        obtain ⟨t1', e4, e2⟩ := bind_eq_pure.mp e1
        obtain ⟨rfl, _⟩ := Prod.mk.inj (Cxx.pure_inj.mp e2)
        obtain ⟨t', m', e3, hi', hm', hd', hk'⟩ := ih t1' m1 hi1 hm1 (by omega) hd1
        refine ⟨t', m', ?_, hi', hm', hd', fun h => ?_⟩
        · rw [List.foldlM_cons]; rw [e4]; exact e3
        · rw [hk' h, hk1 h, List.map_cons, List.contains_cons, Bool.or_assoc]
      · have hms := p1 id
        simp only [Op.map, mapStep] at hms
        rw [hp1] at hms
        cases hms
  obtain ⟨h1, h2⟩ := inv_make cap dflt hc
  obtain ⟨t, m, e, hi, hm, hd, hk⟩ := key keys (make cap dflt) [] h1 (by rw [h2]) (by simp [hcap]) (by simp)
  rw [hcap]
  refine ⟨t, ?_, fun x hx => ?_, fun y hy => ?_⟩
  · unfold makeFixedLookup
    rw [hcap, e]; rfl
  · have hs : (m.lookup (hashFn (hash x))).isSome = true := by
      rw [hk]; simp only [List.lookup_nil, Option.isSome_none, Bool.false_or, List.contains_iff_mem]
      exact List.mem_map.2 ⟨x, hx, rfl⟩
    rcases lookup_mem hi hm (hashFn (hash x)) (hashFn_ge _) with ⟨i, w, e, hlt, h1, h2, hl, hw⟩ | ⟨i, e, hlt, h1, h2, hl, hw⟩ | ⟨e, hl, hp⟩
    · unfold indexConst findExisting
      rw [e]; simp only [pure_bind, if_true]; rw [rd_some h2]
      have : (hashFn (hash x), w) ∈ m := by
        clear hs hw
        revert hl
        clear hm hd hk
        induction m with
        | nil => intro hl; cases hl
        | cons e m ih =>
          obtain ⟨g, u⟩ := e
          intro hl
          rw [List.lookup_cons] at hl
          by_cases hg : hashFn (hash x) = g
          · rw [show (hashFn (hash x) == g) = true by simpa using hg] at hl
            injection hl with hl
            rw [hg, hl]; simp
          · rw [show (hashFn (hash x) == g) = false by simpa using hg] at hl
            exact List.mem_cons_of_mem _ (ih hl)
      exact congrArg pure (hd _ this)
    · rw [hl] at hs; cases hs
    · rw [hl] at hs; cases hs
  · have hs : (m.lookup (hashFn (hash y))).isSome = false := by
      rw [hk]; simp only [List.lookup_nil, Option.isSome_none, Bool.false_or]
      rw [Bool.eq_false_iff]
      intro hc
      rw [List.contains_iff_mem] at hc
      obtain ⟨x, hx, hxy⟩ := List.mem_map.1 hc
      exact hy x hx hxy
    unfold exists'
    rcases lookup_mem hi hm (hashFn (hash y)) (hashFn_ge _) with ⟨i, w, e, hlt, h1, h2, hl, hw⟩ | ⟨i, e, hlt, h1, h2, hl, hw⟩ | ⟨e, hl, hp⟩
    · rw [hl] at hs; cases hs
    · rw [e]; rfl
    · rw [e]; rfl

/-- Three keys, one of them twice. -/
example : makeFixedLookup (fun n : Nat => n) (0 : Nat) [4, 9, 4] = pure ⟨[0, 11, 6], [0, 0, 0]⟩ ∧
    indexConst 3 (⟨[0, 11, 6], [0, 0, 0]⟩ : Table Nat) (hashFn 9) = pure 0 ∧
    exists' 3 (⟨[0, 11, 6], [0, 0, 0]⟩ : Table Nat) (hashFn 5) = pure false := by
  refine ⟨by decide +kernel, by decide +kernel, by decide +kernel⟩

end Verif.Containers.FixedLookup
