import Verif.Algorithm.Search
import Verif.Containers.Lists

/-
`daw::ordered_map`, include/daw/deprecated/daw_ordered_map.h, on a `std::vector` of pairs.  The constructors from a range or list
(233-285) hand `find` a whole pair instead of a key, and are not modelled.
-/

namespace Verif.Containers.OrderedMap
open Cxx Algorithm

variable {κ υ : Type}

/-- Two keys are the same to the comparison, daw_ordered_map.h 211-213 and 220-222. -/
def same (lt : κ → κ → Bool) (a b : κ) : Bool := !lt a b && !lt b a

/-- `find`, daw_ordered_map.h 208-224: the position of the iterator. -/
def find (lt : κ → κ → Bool) (m : List (κ × υ)) (x : κ) : Cxx Nat := findIf (fun e => same lt e.1 x) m 0 m.length

/-- `insert`, daw_ordered_map.h 302-325: the map, the position of the iterator and whether the pair was inserted. -/
def insert (lt : κ → κ → Bool) (m : List (κ × υ)) (x : κ) (v : υ) : Cxx (List (κ × υ) × Nat × Bool) := do
  let pos ← find lt m x
  if pos = m.length then pure (m.take pos ++ [(x, v)] ++ m.drop pos, pos, true) else pure (m, pos, false)

/-- `operator[]`, daw_ordered_map.h 327-334: the map and the position of the value referred to. -/
def place (lt : κ → κ → Bool) (dflt : υ) (m : List (κ × υ)) (x : κ) : Cxx (List (κ × υ) × Nat) := do
  let pos ← find lt m x
  if pos = m.length then do
    let (m, pos, _) ← insert lt m x dflt
    pure (m, pos)
  else pure (m, pos)

/-- `at`, daw_ordered_map.h 336-352: the position of the value referred to. -/
def at' (lt : κ → κ → Bool) (m : List (κ × υ)) (x : κ) : Cxx Nat := do
  let pos ← find lt m x
  if pos = m.length then thrown else pure pos

/-- Calls. (Members of `ordered_map`, deprecated/daw_ordered_map.h 158-352.) -/
inductive Op (κ υ : Type) where
  | insert (x : κ) (v : υ)
  | index (x : κ)
  | assign (x : κ) (v : υ)
  | at (x : κ)
  | atAssign (x : κ) (v : υ)
  | find (x : κ)
  | size
  | empty
  | clear

/-- Results. (Members of `ordered_map`, deprecated/daw_ordered_map.h 158-352.) -/
inductive Res (υ : Type) where
  | done
  | is (b : Bool)
  | inserted (n : Nat) (b : Bool)
  | number (n : Nat)
  | value (v : υ)
  deriving DecidableEq

/-- Assigning through a reference to a mapped value. (Rule of C++ or its library, no line of the source.) -/
def store (m : List (κ × υ)) (pos : Nat) (v : υ) : Cxx (List (κ × υ)) := do
  let e ← rd m pos
  wr m pos (e.1, v)

/-- A call, daw_ordered_map.h 190-224 and 302-352. -/
def step (lt : κ → κ → Bool) (dflt : υ) (m : List (κ × υ)) : Op κ υ → Cxx (List (κ × υ) × Res υ)
  | .insert x v => do
    let (m, pos, b) ← insert lt m x v
    pure (m, .inserted pos b)
  | .index x => do
    let (m, pos) ← place lt dflt m x
    let e ← rd m pos
    pure (m, .value e.2)
  | .assign x v => do
    let (m, pos) ← place lt dflt m x
    let m ← store m pos v
    pure (m, .done)
  | .at x => do
    let pos ← at' lt m x
    let e ← rd m pos
    pure (m, .value e.2)
  | .atAssign x v => do
    let pos ← at' lt m x
    let m ← store m pos v
    pure (m, .done)
  | .find x => do
    let pos ← find lt m x
    pure (m, .number pos)
  | .size => pure (m, .number m.length)
  | .empty => pure (m, .is m.isEmpty)
  | .clear => pure ([], .done)

/-- A history of calls, ended by the first exception. (Members of `ordered_map`, deprecated/daw_ordered_map.h 158-352.) -/
def run (lt : κ → κ → Bool) (dflt : υ) (m : List (κ × υ)) : List (Op κ υ) → Cxx (List (κ × υ) × List (Res υ))
  | [] => pure (m, [])
  | o :: os => do
    let (m, r) ← step lt dflt m o
    let (m, rs) ← run lt dflt m os
    pure (m, r :: rs)

/-! ### A map and the order in which its keys came -/

/-- A map, as a function, and the keys in the order in which they were first given a value. (Specification, no line of the source.) -/
structure Spec (κ υ : Type) where
  order : List κ
  val : κ → Option υ

/-- The empty map. (Specification, no line of the source.) -/
def Spec.none : Spec κ υ := ⟨[], fun _ => Option.none⟩

/-- Neither key is before the other. (Specification, no line of the source.) -/
def Equiv (lt : κ → κ → Bool) (a b : κ) : Prop := lt a b = false ∧ lt b a = false

instance (lt : κ → κ → Bool) (a b : κ) : Decidable (Equiv lt a b) := inferInstanceAs (Decidable (_ ∧ _))

/-- Giving a value to a key. (Specification, no line of the source.) -/
def Spec.put (lt : κ → κ → Bool) (s : Spec κ υ) (x : κ) (v : υ) : Spec κ υ where
  order := if (s.val x).isSome then s.order else s.order ++ [x]
  val := fun y => if Equiv lt x y then some v else s.val y

/-- The number of keys before `x`. (Specification, no line of the source.) -/
def Spec.rank (lt : κ → κ → Bool) (s : Spec κ υ) (x : κ) : Nat := s.order.findIdx fun y => decide (Equiv lt y x)

/-- The same call; nothing for an exception. (Specification, no line of the source.) -/
def specStep (lt : κ → κ → Bool) (dflt : υ) (s : Spec κ υ) : Op κ υ → Option (Spec κ υ × Res υ)
  | .insert x v =>
    match s.val x with
    | some _ => some (s, .inserted (s.rank lt x) false)
    | none => some (s.put lt x v, .inserted s.order.length true)
  | .index x =>
    match s.val x with
    | some v => some (s, .value v)
    | none => some (s.put lt x dflt, .value dflt)
  | .assign x v => some (s.put lt x v, .done)
  | .at x => (s.val x).map fun v => (s, .value v)
  | .atAssign x v => (s.val x).map fun _ => (s.put lt x v, .done)
  | .find x => some (s, .number (s.rank lt x))
  | .size => some (s, .number s.order.length)
  | .empty => some (s, .is (s.order.length == 0))
  | .clear => some (.none, .done)

/-- The same history. (Specification, no line of the source.) -/
def specRun (lt : κ → κ → Bool) (dflt : υ) (s : Spec κ υ) : List (Op κ υ) → Option (Spec κ υ × List (Res υ))
  | [] => some (s, [])
  | o :: os => do
    let (s, r) ← specStep lt dflt s o
    let (s, rs) ← specRun lt dflt s os
    pure (s, r :: rs)

/-! ### Proofs -/

/-- The vector holds the map in order. (Specification, no line of the source.) -/
structure Holds (lt : κ → κ → Bool) (m : List (κ × υ)) (s : Spec κ υ) : Prop where
  keys : m.map Prod.fst = s.order
  value : ∀ e ∈ m, s.val e.1 = some e.2
  congr : ∀ x y, Equiv lt x y → s.val x = s.val y
  absent : ∀ x, s.val x = none → ∀ e ∈ m, ¬ Equiv lt e.1 x
  present : ∀ x v, s.val x = some v → ∃ e ∈ m, Equiv lt e.1 x
  apart : m.Pairwise fun a b => ¬ Equiv lt a.1 b.1

theorem same_iff {lt : κ → κ → Bool} {a b : κ} : same lt a b = true ↔ Equiv lt a b := by
  unfold same Equiv; simp

theorem equiv_symm {lt : κ → κ → Bool} {a b : κ} (h : Equiv lt a b) : Equiv lt b a := ⟨h.2, h.1⟩

theorem equiv_trans {lt : κ → κ → Bool} (hw : StrictWeak lt) {a b c : κ} (h : Equiv lt a b) (h' : Equiv lt b c) : Equiv lt a c :=
  ⟨hw.incomp _ _ _ h.1 h'.1, hw.incomp _ _ _ h'.2 h.2⟩

theorem find_ok {lt : κ → κ → Bool} {m : List (κ × υ)} {s : Spec κ υ} (h : Holds lt m s) (x : κ) :
    find lt m x = pure (s.rank lt x) ∧
    ((∃ e, s.rank lt x < m.length ∧ m[s.rank lt x]? = some e ∧ Equiv lt e.1 x ∧ s.val x = some e.2) ∨
     (s.rank lt x = m.length ∧ s.val x = none)) := by
  obtain ⟨r, e, _, hle, hbefore, hat⟩ := find_if_first (fun e : κ × υ => same lt e.1 x) m 0 m.length (Nat.zero_le _) (Nat.le_refl _)
  have hrank : s.rank lt x = r := by
    unfold Spec.rank
    rw [← h.keys]
    rcases Nat.lt_or_ge r m.length with hlt | hge
    · rw [List.findIdx_eq (by simpa using hlt)]
      obtain ⟨a, ha, hq⟩ := hat hlt
      rw [List.getElem?_eq_getElem hlt] at ha
      injection ha with ha
      refine ⟨?_, fun j hj => ?_⟩
      · simp only [List.getElem_map, ha, decide_eq_true_eq]
        exact same_iff.1 hq
      · have := hbefore j m[j] (Nat.zero_le _) hj (List.getElem?_eq_getElem (by omega))
        simp only [List.getElem_map, decide_eq_false_iff_not]
        intro hc
        exact Bool.noConfusion ((same_iff.2 hc).symm.trans this)
    · have : r = m.length := by omega
      subst this
      rw [← List.length_map (f := Prod.fst), List.findIdx_eq_length]
      intro k hk
      obtain ⟨e', he', rfl⟩ := List.mem_map.1 hk
      obtain ⟨i, hi⟩ := List.mem_iff_getElem?.1 he'
      have hil : i < m.length := by
        rcases Nat.lt_or_ge i m.length with h' | h'
        · exact h'
        · rw [List.getElem?_eq_none h'] at hi; cases hi
      have := hbefore i e' (Nat.zero_le _) hil hi
      simp only [decide_eq_false_iff_not]
      intro hc
      exact Bool.noConfusion ((same_iff.2 hc).symm.trans this)
  rw [hrank]
  refine ⟨e, ?_⟩
  rcases Nat.lt_or_ge r m.length with hlt | hge
  · left
    obtain ⟨a, ha, hq⟩ := hat hlt
    have hq := same_iff.1 hq
    exact ⟨a, hlt, ha, hq, by rw [← h.congr _ _ hq]; exact h.value a (List.mem_iff_getElem?.2 ⟨r, ha⟩)⟩
  · right
    refine ⟨by omega, ?_⟩
    cases hv : s.val x with
    | none => rfl
    | some v =>
      exfalso
      obtain ⟨e', he', hq⟩ := h.present x v hv
      obtain ⟨i, hi⟩ := List.mem_iff_getElem?.1 he'
      have hil : i < m.length := by
        rcases Nat.lt_or_ge i m.length with h' | h'
        · exact h'
        · rw [List.getElem?_eq_none h'] at hi; cases hi
      have := hbefore i e' (Nat.zero_le _) (by omega) hi
      exact Bool.noConfusion ((same_iff.2 hq).symm.trans this)

theorem holds_add {lt : κ → κ → Bool} (hw : StrictWeak lt) {m : List (κ × υ)} {s : Spec κ υ} (h : Holds lt m s) {x : κ} (v : υ)
    (hx : s.val x = none) : Holds lt (m ++ [(x, v)]) (s.put lt x v) := by
  have ha := h.absent x hx
  refine ⟨?_, ?_, ?_, ?_, ?_, ?_⟩
  · simp only [Spec.put, hx, Option.isSome_none, Bool.false_eq_true, if_false, List.map_append, h.keys]; rfl
  · intro e he
    simp only [Spec.put]
    rw [List.mem_append] at he
    rcases he with he | he
    · rw [if_neg fun hc => ha e he (equiv_symm hc)]
      exact h.value e he
    · rw [List.mem_singleton] at he
      subst he
      rw [if_pos ⟨hw.irrefl _, hw.irrefl _⟩]
  · intro a b hab
    simp only [Spec.put]
    by_cases hxa : Equiv lt x a
    · rw [if_pos hxa, if_pos (equiv_trans hw hxa hab)]
    · rw [if_neg hxa, if_neg fun hc => hxa (equiv_trans hw hc (equiv_symm hab))]
      exact h.congr a b hab
  · intro y hy e he hc
    simp only [Spec.put] at hy
    by_cases hxy : Equiv lt x y
    · rw [if_pos hxy] at hy; cases hy
    · rw [if_neg hxy] at hy
      rw [List.mem_append] at he
      rcases he with he | he
      · exact h.absent y hy e he hc
      · rw [List.mem_singleton] at he; subst he; exact hxy hc
  · intro y w hy
    simp only [Spec.put] at hy
    by_cases hxy : Equiv lt x y
    · exact ⟨(x, v), by simp, hxy⟩
    · rw [if_neg hxy] at hy
      obtain ⟨e, he, hc⟩ := h.present y w hy
      exact ⟨e, by simp [he], hc⟩
  · rw [List.pairwise_append]
    refine ⟨h.apart, List.pairwise_singleton _ _, fun a haa b hb => ?_⟩
    rw [List.mem_singleton] at hb
    subst hb
    exact ha a haa

theorem holds_set {lt : κ → κ → Bool} (hw : StrictWeak lt) {m : List (κ × υ)} {s : Spec κ υ} (h : Holds lt m s) {x : κ} (v : υ)
    {i : Nat} {e : κ × υ} (hi : i < m.length) (he : m[i]? = some e) (hx : Equiv lt e.1 x) :
    Holds lt (m.set i (e.1, v)) (s.put lt x v) := by
  have hem : e ∈ m := List.mem_iff_getElem?.2 ⟨i, he⟩
  have hval : s.val x = some e.2 := by rw [← h.congr _ _ hx]; exact h.value e hem
  have hkeys : (m.set i (e.1, v)).map Prod.fst = m.map Prod.fst := by
    rw [List.map_set]
    have : (m.map Prod.fst)[i]? = some e.1 := by rw [List.getElem?_map, he]; rfl
    obtain ⟨hl, hg⟩ := List.getElem?_eq_some_iff.1 this
    show (m.map Prod.fst).set i e.1 = _
    exact (congrArg _ hg.symm).trans (List.set_getElem_self _)
  have hback : ∀ f ∈ m.set i (e.1, v), ∃ f' ∈ m, f'.1 = f.1 := by
    intro f hf
    have : f.1 ∈ m.map Prod.fst := by rw [← hkeys]; exact List.mem_map.2 ⟨f, hf, rfl⟩
    obtain ⟨f', hf', e'⟩ := List.mem_map.1 this
    exact ⟨f', hf', e'⟩
  have hforth : ∀ f ∈ m, ∃ f' ∈ m.set i (e.1, v), f'.1 = f.1 := by
    intro f hf
    have : f.1 ∈ (m.set i (e.1, v)).map Prod.fst := by rw [hkeys]; exact List.mem_map.2 ⟨f, hf, rfl⟩
    obtain ⟨f', hf', e'⟩ := List.mem_map.1 this
    exact ⟨f', hf', e'⟩
  refine ⟨?_, ?_, ?_, ?_, ?_, ?_⟩
  · simp only [Spec.put, hval, Option.isSome_some, if_true]; rw [hkeys]; exact h.keys
  · intro f hf
    simp only [Spec.put]
    obtain ⟨j, hj⟩ := List.mem_iff_getElem?.1 hf
    rw [List.getElem?_set] at hj
    by_cases hij : i = j
    · rw [if_pos hij, if_pos hi] at hj
      injection hj with hj
      rw [← hj, if_pos (equiv_symm hx)]
    · rw [if_neg hij] at hj
      have hne : ¬ Equiv lt e.1 f.1 := by
        intro hc
        have hp := List.pairwise_iff_getElem.1 h.apart
        have hjl : j < m.length := by
          rcases Nat.lt_or_ge j m.length with h' | h'
          · exact h'
          · rw [List.getElem?_eq_none h'] at hj; cases hj
        rw [List.getElem?_eq_getElem hjl] at hj
        rw [List.getElem?_eq_getElem hi] at he
        injection hj with hj; injection he with he
        rcases Nat.lt_or_gt_of_ne hij with h' | h'
        · have := hp i j hi hjl h'
          rw [hj, he] at this
          exact this hc
        · have := hp j i hjl hi h'
          rw [hj, he] at this
          exact this (equiv_symm hc)
      rw [if_neg fun hc => hne (equiv_trans hw hx hc)]
      exact h.value f (List.mem_iff_getElem?.2 ⟨j, hj⟩)
  · intro a b hab
    simp only [Spec.put]
    by_cases hxa : Equiv lt x a
    · rw [if_pos hxa, if_pos (equiv_trans hw hxa hab)]
    · rw [if_neg hxa, if_neg fun hc => hxa (equiv_trans hw hc (equiv_symm hab))]
      exact h.congr a b hab
  · intro y hy f hf hc
    simp only [Spec.put] at hy
    by_cases hxy : Equiv lt x y
    · rw [if_pos hxy] at hy; cases hy
    · rw [if_neg hxy] at hy
      obtain ⟨f', hf', e'⟩ := hback f hf
      exact h.absent y hy f' hf' (by rw [e']; exact hc)
  · intro y w hy
    simp only [Spec.put] at hy
    by_cases hxy : Equiv lt x y
    · obtain ⟨f', hf', e'⟩ := hforth e hem
      exact ⟨f', hf', by rw [e']; exact equiv_trans hw hx hxy⟩
    · rw [if_neg hxy] at hy
      obtain ⟨f, hf, hc⟩ := h.present y w hy
      obtain ⟨f', hf', e'⟩ := hforth f hf
      exact ⟨f', hf', by rw [e']; exact hc⟩
  · have : ((m.set i (e.1, v)).map Prod.fst).Pairwise fun a b => ¬ Equiv lt a b := by
      rw [hkeys, List.pairwise_map]; exact h.apart
    rw [List.pairwise_map] at this
    exact this

theorem insert_new {lt : κ → κ → Bool} {m : List (κ × υ)} {s : Spec κ υ} (h : Holds lt m s) {x : κ} (v : υ)
    (hx : s.rank lt x = m.length) : insert lt m x v = pure (m ++ [(x, v)], m.length, true) := by
  unfold insert
  rw [(find_ok h x).1, hx]
  simp only [pure_bind, if_true]
  rw [List.take_length, List.drop_length, List.append_nil]

theorem step_ok {lt : κ → κ → Bool} (hw : StrictWeak lt) (dflt : υ) {m : List (κ × υ)} {s : Spec κ υ} (h : Holds lt m s) (o : Op κ υ) :
    (∃ m' s' r, step lt dflt m o = pure (m', r) ∧ specStep lt dflt s o = some (s', r) ∧ Holds lt m' s') ∨
    (step lt dflt m o = thrown ∧ specStep lt dflt s o = none) := by
  have hlen : s.order.length = m.length := by rw [← h.keys, List.length_map]
  have hplace : ∀ x, ∃ m1 i e, place lt dflt m x = pure (m1, i) ∧ i < m1.length ∧ m1[i]? = some e ∧
      ((s.val x = some e.2 ∧ m1 = m ∧ Equiv lt e.1 x) ∨ (s.val x = none ∧ m1 = m ++ [(x, dflt)] ∧ i = m.length ∧ e = (x, dflt))) := by
    intro x
    obtain ⟨hf, ⟨e, hlt, he, hq, hv⟩ | ⟨hr, hv⟩⟩ := find_ok h x
    · refine ⟨m, s.rank lt x, e, ?_, hlt, he, Or.inl ⟨hv, rfl, hq⟩⟩
      unfold place; rw [hf]; simp only [pure_bind]; rw [if_neg (by omega)]
    · refine ⟨m ++ [(x, dflt)], m.length, (x, dflt), ?_, by simp, by simp, Or.inr ⟨hv, rfl, rfl, rfl⟩⟩
      unfold place; rw [hf]; simp only [pure_bind]; rw [if_pos hr, insert_new h dflt hr]; rfl
  have hat : ∀ x, (∃ e, at' lt m x = pure (s.rank lt x) ∧ s.rank lt x < m.length ∧ m[s.rank lt x]? = some e ∧ Equiv lt e.1 x ∧
      s.val x = some e.2) ∨ (at' lt m x = thrown ∧ s.val x = none) := by
    intro x
    obtain ⟨hf, ⟨e, hlt, he, hq, hv⟩ | ⟨hr, hv⟩⟩ := find_ok h x
    · left
      refine ⟨e, ?_, hlt, he, hq, hv⟩
      unfold at'; rw [hf]; simp only [pure_bind]; rw [if_neg (by omega)]
    · right
      refine ⟨?_, hv⟩
      unfold at'; rw [hf]; simp only [pure_bind]; rw [if_pos hr]
  cases o with
  | insert x v =>
    left
    obtain ⟨hf, ⟨e, hlt, he, hq, hv⟩ | ⟨hr, hv⟩⟩ := find_ok h x
    · refine ⟨m, s, .inserted (s.rank lt x) false, ?_, ?_, h⟩
      · simp only [step]; unfold insert; rw [hf]; simp only [pure_bind]; rw [if_neg (by omega)]; rfl
      · simp only [specStep]; rw [hv]
    · refine ⟨m ++ [(x, v)], s.put lt x v, .inserted m.length true, ?_, ?_, holds_add hw h v hv⟩
      · simp only [step]; rw [insert_new h v hr]; rfl
      · simp only [specStep]; rw [hv, hlen]
  | index x =>
    left
    obtain ⟨m1, i, e, hp, hi, he, ⟨hv, rfl, hq⟩ | ⟨hv, rfl, rfl, rfl⟩⟩ := hplace x
    · refine ⟨m1, s, .value e.2, ?_, ?_, h⟩
      · simp only [step]; rw [hp]; simp only [pure_bind]; rw [rd_some he]; rfl
      · simp only [specStep]; rw [hv]
    · refine ⟨_, s.put lt x dflt, .value dflt, ?_, ?_, holds_add hw h dflt hv⟩
      · simp only [step]; rw [hp]; simp only [pure_bind]; rw [rd_some he]; rfl
      · simp only [specStep]; rw [hv]
  | assign x v =>
    left
    obtain ⟨m1, i, e, hp, hi, he, ⟨hv, rfl, hq⟩ | ⟨hv, rfl, rfl, rfl⟩⟩ := hplace x
    · refine ⟨m1.set i (e.1, v), s.put lt x v, .done, ?_, rfl, holds_set hw h v hi he hq⟩
      simp only [step]; rw [hp]; simp only [pure_bind, store]; rw [rd_some he]; simp only [pure_bind]; rw [wr_eq hi]; rfl
    · refine ⟨m ++ [(x, v)], s.put lt x v, .done, ?_, rfl, holds_add hw h v hv⟩
      simp only [step]; rw [hp]; simp only [pure_bind, store]; rw [rd_some he]; simp only [pure_bind]; rw [wr_eq hi]
      simp
  | «at» x =>
    rcases hat x with ⟨e, hp, hi, he, hq, hv⟩ | ⟨hp, hv⟩
    · refine Or.inl ⟨m, s, .value e.2, ?_, ?_, h⟩
      · simp only [step]; rw [hp]; simp only [pure_bind]; rw [rd_some he]; rfl
      · simp only [specStep]; rw [hv]; rfl
    · refine Or.inr ⟨?_, ?_⟩
      · simp only [step]; rw [hp]; rfl
      · simp only [specStep]; rw [hv]; rfl
  | atAssign x v =>
    rcases hat x with ⟨e, hp, hi, he, hq, hv⟩ | ⟨hp, hv⟩
    · refine Or.inl ⟨m.set (s.rank lt x) (e.1, v), s.put lt x v, .done, ?_, ?_, holds_set hw h v hi he hq⟩
      · simp only [step]; rw [hp]; simp only [pure_bind, store]; rw [rd_some he]; simp only [pure_bind]; rw [wr_eq hi]; rfl
      · simp only [specStep]; rw [hv]; rfl
    · refine Or.inr ⟨?_, ?_⟩
      · simp only [step]; rw [hp]; rfl
      · simp only [specStep]; rw [hv]; rfl
  | find x =>
    refine Or.inl ⟨m, s, .number (s.rank lt x), ?_, rfl, h⟩
    simp only [step]; rw [(find_ok h x).1]; rfl
  | size => exact Or.inl ⟨m, s, .number m.length, rfl, by simp only [specStep]; rw [hlen], h⟩
  | empty =>
    refine Or.inl ⟨m, s, .is m.isEmpty, rfl, ?_, h⟩
    simp only [specStep]; rw [hlen]
    cases m <;> rfl
  | clear =>
    refine Or.inl ⟨[], .none, .done, rfl, rfl, ⟨rfl, by simp, fun _ _ _ => rfl, by simp, ?_, List.Pairwise.nil⟩⟩
    intro x v hv; cases hv

theorem run_ok {lt : κ → κ → Bool} (hw : StrictWeak lt) (dflt : υ) (os : List (Op κ υ)) : ∀ (m : List (κ × υ)) (s : Spec κ υ),
    Holds lt m s → (∃ m' s' rs, run lt dflt m os = pure (m', rs) ∧ specRun lt dflt s os = some (s', rs) ∧ Holds lt m' s') ∨
    (run lt dflt m os = thrown ∧ specRun lt dflt s os = none) := by
  induction os with
  | nil => intro m s h; exact Or.inl ⟨m, s, [], rfl, rfl, h⟩
  | cons o os ih =>
    intro m s h
    rcases step_ok hw dflt h o with ⟨m1, s1, r, e1, e2, h1⟩ | ⟨e1, e2⟩
    · rcases ih m1 s1 h1 with ⟨m2, s2, rs, e3, e4, h2⟩ | ⟨e3, e4⟩
      · refine Or.inl ⟨m2, s2, r :: rs, ?_, ?_, h2⟩
        · simp only [run]; rw [e1]; simp only [pure_bind]; rw [e3]; rfl
        · simp only [specRun]; rw [e2]; show (specRun lt dflt s1 os).bind _ = _; rw [e4]; rfl
      · refine Or.inr ⟨?_, ?_⟩
        · simp only [run]; rw [e1]; simp only [pure_bind]; rw [e3]; rfl
        · simp only [specRun]; rw [e2]; show (specRun lt dflt s1 os).bind _ = _; rw [e4]; rfl
    · refine Or.inr ⟨?_, ?_⟩
      · simp only [run]; rw [e1]; rfl
      · simp only [specRun]; rw [e2]; rfl

/-- C195: for every comparison that is a strict weak order, any history of calls on an empty `ordered_map` has the results of the
same history on a map of the classes of equivalent keys, and iterating it meets each class once, under the key that came first, in
the order in which the classes came, with their present values.  The history ends with an exception exactly if `at` is called for a
key that is not there. -/
theorem C195_ordered_map (lt : κ → κ → Bool) (hw : StrictWeak lt) (dflt : υ) (os : List (Op κ υ)) :
    (∃ m s rs, run lt dflt [] os = pure (m, rs) ∧ specRun lt dflt .none os = some (s, rs) ∧
      m.map (fun e => (e.1, some e.2)) = s.order.map (fun k => (k, s.val k)) ∧
      s.order.Pairwise fun a b => ¬ (lt a b = false ∧ lt b a = false)) ∨
    (run lt dflt [] os = thrown ∧ specRun lt dflt .none os = none) := by
  rcases run_ok hw dflt os [] .none ⟨rfl, by simp, fun _ _ _ => rfl, by simp, (fun x v hv => by cases hv), List.Pairwise.nil⟩ with
    ⟨m, s, rs, e1, e2, h⟩ | h
  · left
    refine ⟨m, s, rs, e1, e2, ?_, ?_⟩
    · rw [← h.keys, List.map_map]
      apply List.map_congr_left
      intro e he
      show (e.1, some e.2) = (e.1, s.val e.1)
      rw [h.value e he]
    · rw [← h.keys, List.pairwise_map]
      exact h.apart
  · exact Or.inr h

/-- Keys that are equivalent if they agree modulo 10. -/
example : StrictWeak (fun a b : Nat => decide (a % 10 < b % 10)) ∧
    ((specRun (fun a b : Nat => decide (a % 10 < b % 10)) 0 .none [.insert 5 50, .insert 3 30, .insert 15 99, .assign 13 31, .index 7,
      .find 17, .at 25, .size]).map fun p => (p.1.order.map fun k => (k, p.1.val k), p.2)) =
      some ([(5, some 50), (3, some 31), (7, some 0)],
      [.inserted 0 true, .inserted 1 true, .inserted 0 false, .done, .value 0, .number 2, .value 50, .number 3]) ∧
    (∃ rs, run (fun a b : Nat => decide (a % 10 < b % 10)) 0 [] [.insert 5 50, .insert 3 30, .insert 15 99] =
      pure ([(5, 50), (3, 30)], rs)) ∧
    run (fun a b : Nat => decide (a % 10 < b % 10)) 0 [] [.insert 5 50, .at 6] = (thrown : Cxx (List (Nat × Nat) × List (Res Nat))) := by
  have hw : StrictWeak (fun a b : Nat => decide (a % 10 < b % 10)) := by
    refine ⟨fun a => by simp, fun a b c h1 h2 => ?_, fun a b c h1 h2 => ?_⟩
    · simp only [decide_eq_true_eq] at *; omega
    · simp only [decide_eq_false_iff_not] at *; omega
  refine ⟨hw, by decide +kernel, ⟨[.inserted 0 true, .inserted 1 true, .inserted 0 false], ?_⟩, ?_⟩
  · simp only [run, step, insert, find]
    repeat (rw [findIf]; simp [same, rd])
  · simp only [run, step, insert, find, at']
    repeat (rw [findIf]; simp [same, rd])

end Verif.Containers.OrderedMap
