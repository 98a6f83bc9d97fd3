import Verif.Containers.Lists

/-
Iterators over several ranges at once: include/daw/iterator/daw_zipiter.h and daw_zipcontainer.h.
-/

namespace Verif.Iter.Zip
open Cxx

variable {α : Type}

/-- A range that one component goes over: its elements, and whether it still exists. (Rule of C++ or its library, no line of the source.) -/
structure Src (α : Type) where
  alive : Bool
  items : List α

/-- `daw::advance` of one component: it must not leave its range. (Rule of C++ or its library, no line of the source.) -/
def moveOne (s : Src α) (p : Nat) (n : Int) : Cxx Nat :=
  if s.alive ∧ 0 ≤ (p : Int) + n ∧ (p : Int) + n ≤ s.items.length then pure ((p : Int) + n).toNat else ub

/-- `increment`, `decrement` and `advance`, iterator/daw_zipiter.h 53-85: `++` is by one and `--` by minus one. -/
def moveAll : List (Src α) → List Nat → Int → Cxx (List Nat)
  | s :: ss, p :: ps, n => do
    let q ← moveOne s p n
    let qs ← moveAll ss ps n
    pure (q :: qs)
  | _, _, _ => pure []

/-- `*` of one component. (Rule of C++ or its library, no line of the source.) -/
def readOne (s : Src α) (p : Nat) : Cxx α := if s.alive then rd s.items p else ub

/-- `operator*` by `get_items`, iterator/daw_zipiter.h 140-160. -/
def deref : List (Src α) → List Nat → Cxx (List α)
  | s :: ss, p :: ps => do
    let x ← readOne s p
    let xs ← deref ss ps
    pure (x :: xs)
  | _, _ => pure []

/-- `std::begin` of all, daw_zipcontainer.h 30. -/
def begins (ss : List (Src α)) : List Nat := ss.map fun _ => 0

/-- `std::end` of all, daw_zipcontainer.h 31. -/
def ends (ss : List (Src α)) : List Nat := ss.map fun s => s.items.length

/-- `operator!=`, iterator/daw_zipiter.h 174-176. -/
def neq (ps qs : List Nat) : Bool := decide (ps ≠ qs)

/-- `for( auto it = first; it != last; ++it ) result.push_back( *it )` (Specification, no line of the source.) -/
def collect (ss : List (Src α)) (first last : List Nat) (acc : List (List α)) : Cxx (List (List α)) := do
  if neq first last then
    let x ← deref ss first
    let first ← moveAll ss first 1
    collect ss first last (acc ++ [x])
  else pure acc
partial_fixpoint

/-- The ranges as they are after the constructor of `zip_container`, daw_zipcontainer.h 29-31 with 58-59: a container that was given as an
rvalue is a parameter of the constructor, and is gone.  `true` stands for an lvalue. -/
def zipContainer (cs : List (Bool × List α)) : List (Src α) := cs.map fun c => ⟨c.1, c.2⟩

/-- A loop over a `zip_container`. (Specification, no line of the source.) -/
def overContainer (cs : List (Bool × List α)) : Cxx (List (List α)) :=
  collect (zipContainer cs) (begins (zipContainer cs)) (ends (zipContainer cs)) []

/-! ## Moving -/

/-- Moves one after the other. (Specification, no line of the source.) -/
def moves (ss : List (Src α)) : List Int → List Nat → Cxx (List Nat)
  | [], ps => pure ps
  | n :: ns, ps => do
    let ps ← moveAll ss ps n
    moves ss ns ps

theorem moveAll_ok (n : Int) (k : Nat) : ∀ ss : List (Src α),
    (∀ s ∈ ss, s.alive = true ∧ 0 ≤ (k : Int) + n ∧ (k : Int) + n ≤ s.items.length) →
    moveAll ss (ss.map fun _ => k) n = pure (ss.map fun _ => ((k : Int) + n).toNat) := by
  intro ss
  induction ss with
  | nil => intro _; rfl
  | cons s ss ih =>
    intro h
    obtain ⟨h1, h2, h3⟩ := h s (by simp)
    simp only [List.map_cons, moveAll]
    rw [moveOne, if_pos ⟨h1, h2, h3⟩, pure_bind, ih (fun t ht => h t (by simp [ht])), pure_bind]

theorem moveAll_ub (n : Int) (k : Nat) : ∀ ss : List (Src α),
    (∃ s ∈ ss, ¬ (s.alive = true ∧ 0 ≤ (k : Int) + n ∧ (k : Int) + n ≤ s.items.length)) →
    moveAll ss (ss.map fun _ => k) n = ub := by
  intro ss
  induction ss with
  | nil => rintro ⟨s, hs, _⟩; cases hs
  | cons s ss ih =>
    rintro ⟨t, ht, hb⟩
    simp only [List.map_cons, moveAll]
    by_cases hs : s.alive = true ∧ 0 ≤ (k : Int) + n ∧ (k : Int) + n ≤ s.items.length
    · have hts : t ∈ ss := by
        rcases List.mem_cons.mp ht with rfl | h
        · exact absurd hs hb
        · exact h
      rw [moveOne, if_pos hs, pure_bind, ih ⟨t, hts, hb⟩]
      rfl
    · rw [moveOne, if_neg hs]
      rfl

theorem deref_ok (k : Nat) : ∀ ss : List (Src α), (∀ s ∈ ss, s.alive = true ∧ k < s.items.length) →
    ∃ xs : List α, deref ss (ss.map fun _ => k) = pure xs ∧ xs.map some = ss.map fun s => s.items[k]? := by
  intro ss
  induction ss with
  | nil => intro _; exact ⟨[], rfl, rfl⟩
  | cons s ss ih =>
    intro h
    obtain ⟨h1, h2⟩ := h s (by simp)
    obtain ⟨xs, h3, h4⟩ := ih (fun t ht => h t (by simp [ht]))
    refine ⟨s.items[k] :: xs, ?_, ?_⟩
    · simp only [List.map_cons, deref]
      rw [readOne, if_pos h1, rd_some (List.getElem?_eq_getElem h2), pure_bind, h3, pure_bind]
    · simp only [List.map_cons, h4, List.getElem?_eq_getElem h2]

theorem deref_ub (k : Nat) : ∀ ss : List (Src α), (∃ s ∈ ss, ¬ (s.alive = true ∧ k < s.items.length)) →
    deref ss (ss.map fun _ => k) = ub := by
  intro ss
  induction ss with
  | nil => rintro ⟨s, hs, _⟩; cases hs
  | cons s ss ih =>
    rintro ⟨t, ht, hb⟩
    simp only [List.map_cons, deref]
    by_cases hs : s.alive = true ∧ k < s.items.length
    · have hts : t ∈ ss := by
        rcases List.mem_cons.mp ht with rfl | h
        · exact absurd hs hb
        · exact h
      rw [readOne, if_pos hs.1, rd_some (List.getElem?_eq_getElem hs.2), pure_bind, ih ⟨t, hts, hb⟩]
      rfl
    · unfold readOne
      by_cases ha : s.alive = true
      · rw [if_pos ha, rd_oob (by have : ¬ k < s.items.length := fun h => hs ⟨ha, h⟩
                                  omega)]
        rfl
      · rw [if_neg ha]
        rfl

/-- A place is in all ranges, or at their ends. (Specification, no line of the source.) -/
def Inside (ss : List (Src α)) (k : Int) : Prop := ∀ s ∈ ss, 0 ≤ k ∧ k ≤ s.items.length

/-- All components stay at one place together, whatever moves there were: where the sum of the moves is, if it was in all ranges all the
time; otherwise it is undefined. -/
theorem C255_moves (ss : List (Src α)) (hl : ∀ s ∈ ss, s.alive = true) (hne : ss ≠ []) : ∀ (ns : List Int) (k : Nat),
    ((∀ j, j ≤ ns.length → 1 ≤ j → Inside ss (k + (ns.take j).sum)) →
      moves ss ns (ss.map fun _ => k) = pure (ss.map fun _ => ((k : Int) + ns.sum).toNat)) ∧
    ((∃ j, 1 ≤ j ∧ j ≤ ns.length ∧ ¬ Inside ss (k + (ns.take j).sum)) → moves ss ns (ss.map fun _ => k) = ub) := by
  intro ns
  induction ns with
  | nil =>
    intro k
    refine ⟨fun _ => by simp [moves], ?_⟩
    rintro ⟨j, h1, h2, _⟩
    simp at h2
    omega
  | cons n ns ih =>
    intro k
    by_cases hin : Inside ss (k + n)
    · have hk0 : 0 ≤ (k : Int) + n := by
        obtain ⟨s, hs⟩ := List.exists_mem_of_ne_nil ss hne
        exact (hin s hs).1
      have hm := moveAll_ok n k ss (fun s hs => ⟨hl s hs, hin s hs⟩)
      have hcast : ((((k : Int) + n).toNat : Nat) : Int) = (k : Int) + n := Int.toNat_of_nonneg hk0
      have hi := ih ((k : Int) + n).toNat
      rw [hcast] at hi
      refine ⟨fun h => ?_, ?_⟩
      · unfold moves
        rw [hm, pure_bind, hi.1 ?_]
        · simp only [List.sum_cons, Int.add_assoc]
        · intro j hj h1
          have := h (j + 1) (by simpa using hj) (by omega)
          simpa [Int.add_assoc] using this
      · rintro ⟨j, h1, h2, hb⟩
        unfold moves
        rw [hm, pure_bind]
        apply hi.2
        match j with
        | 1 => simp at hb; exact absurd hin hb
        | j + 2 => exact ⟨j + 1, by omega, by simpa using h2, by simpa [Int.add_assoc] using hb⟩
    · have hb : ∃ s ∈ ss, ¬ (s.alive = true ∧ 0 ≤ (k : Int) + n ∧ (k : Int) + n ≤ s.items.length) := by
        refine Classical.byContradiction fun hc => hin fun s hs => ?_
        have := Classical.not_not.mp fun h => hc ⟨s, hs, h⟩
        exact this.2
      refine ⟨fun h => ?_, fun _ => ?_⟩
      · have := h 1 (by simp) (by omega)
        simp at this
        exact absurd this hin
      · unfold moves
        rw [moveAll_ub n k ss hb]
        rfl

/-- Two ranges for the cases. (Specification, no line of the source.) -/
def sample : List (Src Nat) := [⟨true, [9, 8, 7]⟩, ⟨true, [1, 2, 3, 4]⟩]

example : moves sample [1, 2, -2] [0, 0] = pure [1, 1] :=
  (C255_moves sample (by simp [sample]) (by simp [sample]) [1, 2, -2] 0).1 (by
    intro j h1 h2 s hs
    have hj : j = 1 ∨ j = 2 ∨ j = 3 := by simp at h1; omega
    simp [sample] at hs
    rcases hs with rfl | rfl <;> rcases hj with rfl | rfl | rfl <;> simp)

example : moves sample [1, 3, -2] [0, 0] = ub :=
  (C255_moves sample (by simp [sample]) (by simp [sample]) [1, 3, -2] 0).2
    ⟨2, by omega, by simp, fun h => by have := h ⟨true, [9, 8, 7]⟩ (by simp [sample]); simp at this⟩

/-- Where an iterator is, it gives the elements at that place of all ranges, in the order of the ranges. -/
theorem C255_deref (ss : List (Src α)) (k : Nat) (h : ∀ s ∈ ss, s.alive = true ∧ k < s.items.length) :
    ∃ xs : List α, deref ss (ss.map fun _ => k) = pure xs ∧ xs.map some = ss.map fun s => s.items[k]? := deref_ok k ss h

example : ∃ xs : List Nat, deref sample [2, 2] = pure xs ∧ xs.map some = [some 7, some 3] :=
  C255_deref sample 2 (by simp [sample])

/-! ## Loops -/

/-- The rows of ranges from a place on. (Specification, no line of the source.) -/
def Rows (ss : List (Src α)) (k : Nat) (rows : List (List α)) : Prop :=
  ∀ (i : Nat) (r : List α), rows[i]? = some r → r.map some = ss.map fun s => s.items[k + i]?

theorem collect_same (ss : List (Src α)) (hne : ss ≠ []) (len : Nat) (hl : ∀ s ∈ ss, s.alive = true ∧ s.items.length = len) :
    ∀ (m k : Nat) (acc : List (List α)), k + m = len →
      ∃ rows : List (List α), collect ss (ss.map fun _ => k) (ends ss) acc = pure (acc ++ rows) ∧ rows.length = m ∧ Rows ss k rows := by
  have hends : ends ss = ss.map fun _ => len := List.map_congr_left fun s hs => (hl s hs).2
  intro m
  induction m with
  | zero =>
    intro k acc hk
    refine ⟨[], ?_, rfl, fun i r h => by simp at h⟩
    rw [collect, hends]
    obtain rfl : k = len := by omega
    simp [neq]
  | succ m ih =>
    intro k acc hk
    obtain ⟨x, hx, hx'⟩ := deref_ok k ss (fun s hs => ⟨(hl s hs).1, by rw [(hl s hs).2]; omega⟩)
    have hm := moveAll_ok 1 k ss (fun s hs => ⟨(hl s hs).1, by omega, by rw [(hl s hs).2]; omega⟩)
    have h1 : ((k : Int) + 1).toNat = k + 1 := by omega
    rw [h1] at hm
    obtain ⟨rows, hr, hlen, hrow⟩ := ih (k + 1) (acc ++ [x]) (by omega)
    refine ⟨x :: rows, ?_, by simp [hlen], fun i r h => ?_⟩
    · rw [collect]
      have hn : neq (ss.map fun _ => k) (ends ss) = true := by
        rw [hends]
        simp only [neq, decide_eq_true_eq]
        intro he
        obtain ⟨s, hs⟩ := List.exists_mem_of_ne_nil ss hne
        have hpos := List.length_pos_of_mem hs
        have := congrArg (·[0]?) he
        simp [List.getElem?_map, List.getElem?_eq_getElem hpos] at this
        omega
      rw [hn, if_pos rfl, hx, pure_bind, hm, pure_bind, hr]
      simp
    · match i with
      | 0 => simp at h; subst h; simpa using hx'
      | i + 1 =>
        have := hrow i r (by simpa using h)
        rw [show k + (i + 1) = k + 1 + i by omega]
        exact this

theorem collect_differ (ss : List (Src α)) (hl : ∀ s ∈ ss, s.alive = true) (a b : Src α) (ha : a ∈ ss) (hb : b ∈ ss)
    (hab : a.items.length < b.items.length) :
    ∀ (m k : Nat) (acc : List (List α)), k + m = a.items.length → (∀ s ∈ ss, a.items.length ≤ s.items.length) →
      collect ss (ss.map fun _ => k) (ends ss) acc = ub := by
  intro m
  have hneq : ∀ k, k ≤ a.items.length → neq (ss.map fun _ => k) (ends ss) = true := by
    intro k hk
    simp only [neq, decide_eq_true_eq]
    intro he
    obtain ⟨i, hi⟩ := List.getElem?_of_mem hb
    have := congrArg (·[i]?) he
    simp [ends, List.getElem?_map, hi] at this
    omega
  induction m with
  | zero =>
    intro k acc hk hmin
    rw [collect, hneq k (by omega), if_pos rfl, deref_ub k ss ⟨a, ha, fun h => by omega⟩]
    rfl
  | succ m ih =>
    intro k acc hk hmin
    obtain ⟨x, hx, _⟩ := deref_ok k ss (fun s hs => ⟨hl s hs, by have := hmin s hs; omega⟩)
    have hm := moveAll_ok 1 k ss (fun s hs => ⟨hl s hs, by omega, by have := hmin s hs; omega⟩)
    have h1 : ((k : Int) + 1).toNat = k + 1 := by omega
    rw [h1] at hm
    rw [collect, hneq k (by omega), if_pos rfl, hx, pure_bind, hm, pure_bind]
    exact ih (k + 1) (acc ++ [x]) (by omega) hmin

theorem exists_shortest : ∀ ss : List (Src α), ss ≠ [] → ∃ a ∈ ss, ∀ s ∈ ss, a.items.length ≤ s.items.length := by
  intro ss
  induction ss with
  | nil => intro h; exact absurd rfl h
  | cons x xs ih =>
    intro _
    by_cases hx : xs = []
    · subst hx; exact ⟨x, by simp, by simp⟩
    · obtain ⟨a, ha, hmin⟩ := ih hx
      by_cases h : x.items.length ≤ a.items.length
      · refine ⟨x, by simp, fun s hs => ?_⟩
        rcases List.mem_cons.mp hs with rfl | hs
        · omega
        · have := hmin s hs; omega
      · refine ⟨a, by simp [ha], fun s hs => ?_⟩
        rcases List.mem_cons.mp hs with rfl | hs
        · omega
        · exact hmin s hs

/-- A loop over containers of one length that were given as lvalues sees all rows: as many as the containers have elements, each with the
elements at its place. -/
theorem C256_zip_loop_partial (cs : List (Bool × List α)) (hne : cs ≠ []) (len : Nat)
    (h : ∀ c ∈ cs, c.1 = true ∧ c.2.length = len) :
    ∃ rows : List (List α), overContainer cs = pure rows ∧ rows.length = len ∧
      ∀ (i : Nat) (r : List α), rows[i]? = some r → r.map some = cs.map fun c => c.2[i]? := by
  have hss : ∀ s ∈ zipContainer cs, s.alive = true ∧ s.items.length = len := by
    intro s hs
    obtain ⟨c, hc, rfl⟩ := List.mem_map.mp hs
    exact h c hc
  obtain ⟨rows, hr, hlen, hrow⟩ := collect_same (zipContainer cs) (by simpa [zipContainer] using hne) len hss len 0 [] (by omega)
  refine ⟨rows, hr, hlen, fun i r hi => ?_⟩
  have := hrow i r hi
  rw [Nat.zero_add, zipContainer, List.map_map] at this
  exact this

example : overContainer [(true, [1, 2]), (true, [5, 6])] = pure [[1, 5], [2, 6]] := by
  obtain ⟨rows, h, hl, hr⟩ := C256_zip_loop_partial [(true, [1, 2]), (true, [5, 6])] (by simp) 2 (by simp)
  rw [h]
  match rows, hl with
  | [x, y], _ =>
    have h0 := hr 0 x rfl
    have h1 := hr 1 y rfl
    match x, y with
    | [a, b], [c, d] =>
      simp at h0 h1
      rw [h0.1, h0.2, h1.1, h1.2]
    | [], _ => simp at h0
    | [_], _ => simp at h0
    | _ :: _ :: _ :: _, _ => simp at h0
    | [_, _], [] => simp at h1
    | [_, _], [_] => simp at h1
    | [_, _], _ :: _ :: _ :: _ => simp at h1

/-- A loop over containers of different lengths is always undefined: the ends are only met if all are met at once. -/
theorem C256_lengths_violated (cs : List (Bool × List α)) (hl : ∀ c ∈ cs, c.1 = true) (a b : Bool × List α) (ha : a ∈ cs) (hb : b ∈ cs)
    (hab : a.2.length ≠ b.2.length) : overContainer cs = ub := by
  have hls : ∀ s ∈ zipContainer cs, s.alive = true := by
    intro s hs
    obtain ⟨c, hc, rfl⟩ := List.mem_map.mp hs
    exact hl c hc
  have hne : zipContainer cs ≠ [] := by
    intro h
    simp [zipContainer] at h
    subst h
    cases ha
  obtain ⟨x, hx, hmin⟩ := exists_shortest (zipContainer cs) hne
  have hma : (⟨a.1, a.2⟩ : Src α) ∈ zipContainer cs := List.mem_map.mpr ⟨a, ha, rfl⟩
  have hmb : (⟨b.1, b.2⟩ : Src α) ∈ zipContainer cs := List.mem_map.mpr ⟨b, hb, rfl⟩
  have h1 := hmin _ hma
  have h2 := hmin _ hmb
  dsimp only at h1 h2
  rcases Nat.lt_or_ge x.items.length a.2.length with h | h
  · exact collect_differ (zipContainer cs) hls x _ hx hma h x.items.length 0 [] (by omega) hmin
  · exact collect_differ (zipContainer cs) hls x _ hx hmb (by dsimp only; omega) x.items.length 0 [] (by omega) hmin

example : overContainer [(true, [1, 2]), (true, [5])] = ub :=
  C256_lengths_violated _ (by simp) (true, [1, 2]) (true, [5]) (by simp) (by simp) (by simp)

/-- A loop over elements of a container that was given as an rvalue is undefined: the iterators are of a parameter. -/
theorem C256_rvalue_violated (cs : List (Bool × List α)) (a : Bool × List α) (ha : a ∈ cs) (h : a.1 = false)
    (hn : ∃ c ∈ cs, c.2 ≠ []) : overContainer cs = ub := by
  unfold overContainer
  have hneq : neq (begins (zipContainer cs)) (ends (zipContainer cs)) = true := by
    simp only [neq, decide_eq_true_eq]
    intro he
    obtain ⟨c, hc, hcn⟩ := hn
    obtain ⟨i, hi⟩ := List.getElem?_of_mem hc
    have := congrArg (·[i]?) he
    simp [begins, ends, zipContainer, List.getElem?_map, hi] at this
    exact hcn (by simpa using this.symm)
  rw [collect, hneq, if_pos rfl]
  have : deref (zipContainer cs) (begins (zipContainer cs)) = ub :=
    deref_ub 0 (zipContainer cs) ⟨⟨a.1, a.2⟩, List.mem_map.mpr ⟨a, ha, rfl⟩, fun hh => by simp [h] at hh⟩
  rw [this]
  rfl

example : overContainer [(true, [1, 2]), (false, [5, 6])] = ub :=
  C256_rvalue_violated _ (false, [5, 6]) (by simp) rfl ⟨(true, [1, 2]), by simp, by simp⟩

end Verif.Iter.Zip
