import Verif.Base
import Verif.Containers.Lists
import Verif.Algorithm.Split

/-
The views of include/daw/pipelines over a range `xs`.  An iterator of the range is a position 0 ≤ i ≤ xs.length.  The views are those over a
reference or a view; a view that owns its container copies it with every iterator and is not modelled.
-/

namespace Verif.Pipe
open Cxx Algorithm
variable {α β σ : Type}

/-- `for( auto it = r.begin( ); it != r.end( ); ++it ) out.push_back( *it )`: what the user of a view sees.  `deref` may change the iterator (it has
mutable members). (Rule of C++ or its library, no line of the source.) -/
def collect (more : σ → Bool) (deref : σ → Cxx (β × σ)) (next : σ → Cxx σ) (it : σ) : Cxx (List β) :=
  if more it then do
    let (b, it) ← deref it
    let it ← next it
    let rest ← collect more deref next it
    pure (b :: rest)
  else pure []
partial_fixpoint

section
variable {more : σ → Bool} {deref : σ → Cxx (β × σ)} {next : σ → Cxx σ}

theorem collect_nil {s : σ} (h : more s = false) : collect more deref next s = pure [] := by
  rw [collect, if_neg (by simp [h])]

theorem collect_cons {s s' s'' : σ} {b : β} {t : List β} (h : more s = true) (h1 : deref s = pure (b, s')) (h2 : next s' = pure s'')
    (h3 : collect more deref next s'' = pure t) : collect more deref next s = pure (b :: t) := by
  rw [collect, if_pos h, h1]
  simp only [pure_bind]
  rw [h2]
  simp only [pure_bind]
  rw [h3]
  rfl

theorem collect_step {s s' s'' : σ} {b : β} {e : Cxx (List β)} (h : more s = true) (h1 : deref s = pure (b, s')) (h2 : next s' = pure s'')
    (h3 : collect more deref next s'' = e) (he : (e >>= fun rest => pure (b :: rest)) = e) : collect more deref next s = e := by
  rw [collect, if_pos h, h1]
  simp only [pure_bind]
  rw [h2]
  simp only [pure_bind]
  rw [h3]
  exact he

theorem collect_deref_ub {s : σ} (h : more s = true) (h1 : deref s = ub) : collect more deref next s = ub := by
  rw [collect, if_pos h, h1]
  rfl

theorem collect_deref_abort {s : σ} (h : more s = true) (h1 : deref s = abort) : collect more deref next s = abort := by
  rw [collect, if_pos h, h1]
  rfl

/-- An iteration whose iterator never gets to the end does not return. -/
theorem collect_never {Inv : σ → Prop} (hmore : ∀ s, Inv s → more s = true)
    (hnext : ∀ s, Inv s → ∀ b s', deref s = pure (b, s') → ∀ s'', next s' = pure s'' → Inv s'') (s : σ) (hs : Inv s) (t : List β) :
    collect more deref next s ≠ pure t := by
  intro h
  have key : ∀ (s : σ) (t : List β), collect more deref next s = pure t → ¬Inv s := by
    refine collect.fixpoint_induct more deref next (fun f => ∀ (s : σ) (t : List β), f s = pure t → ¬Inv s) ?_ ?_
    · exact admissible1 (fun (s : σ) x => ∀ t, x = pure t → ¬Inv s) (fun _ t h => by cases h)
    · intro f ih s t ht hs
      dsimp only at ht
      rw [if_pos (hmore s hs)] at ht
      obtain ⟨⟨b, s'⟩, h1, ht⟩ := bind_eq_pure.1 ht
      obtain ⟨s'', h2, ht⟩ := bind_eq_pure.1 ht
      obtain ⟨t', h3, _⟩ := bind_eq_pure.1 ht
      exact ih _ _ h3 (hnext s hs b s' h1 s'' h2)
  exact key s t h hs

end

/-- The elements of `range_t{ first, first + n }`; a range that reaches past the end is undefined.
(Specification, no line of the source.) -/
def window (xs : List α) (first n : Nat) : Cxx (List α) := if first + n ≤ xs.length then pure ((xs.drop first).take n) else ub

/-! ### Chunk -/

/-- `chunk_view::increment`, pipelines/chunk.h 46-53. -/
def chunkInc (last : Nat) : Nat → Nat → Nat
  | 0, it => it
  | n + 1, it => if it ≠ last then chunkInc last n (it + 1) else it

/-- `chunk_view::operator*`, pipelines/chunk.h 108-114. -/
def chunkDeref (xs : List α) (n it : Nat) : Cxx (List α × Nat) := do
  let w ← window xs it n
  pure (w, it)

/-- Iterating `Chunk( n )`, pipelines/chunk.h 64-122, for n ≤ PTRDIFF_MAX. -/
def chunk (n : Nat) (xs : List α) : Cxx (List (List α)) :=
  collect (fun it => it != xs.length) (chunkDeref xs n) (fun it => pure (chunkInc xs.length n it)) 0

theorem chunkInc_eq (last n : Nat) : ∀ it, it ≤ last → chunkInc last n it = min (it + n) last := by
  induction n with
  | zero => intro it h; rw [chunkInc]; omega
  | succ n ih =>
    intro it h
    rw [chunkInc]
    split
    · rw [ih (it + 1) (by omega)]; omega
    · omega

theorem chunk_from (n : Nat) (hn : 0 < n) (xs : List α) (k : Nat) : ∀ it, it + k * n = xs.length →
    ∃ cs, collect (fun it => it != xs.length) (chunkDeref xs n) (fun it => pure (chunkInc xs.length n it)) it = pure cs ∧
      cs.flatten = xs.drop it ∧ (∀ c ∈ cs, c.length = n) := by
  induction k with
  | zero =>
    intro it h
    refine ⟨[], collect_nil (by simp; omega), ?_, by simp⟩
    rw [List.drop_of_length_le (by omega)]
    rfl
  | succ k ih =>
    intro it h
    have hk : (k + 1) * n = k * n + n := Nat.succ_mul k n
    obtain ⟨cs, e, h1, h2⟩ := ih (it + n) (by omega)
    refine ⟨(xs.drop it).take n :: cs, ?_, ?_, ?_⟩
    · refine collect_cons (s' := it) (s'' := it + n) (by simp; omega) ?_ ?_ e
      · unfold chunkDeref window
        rw [if_pos (by omega)]
        rfl
      · rw [chunkInc_eq _ _ _ (by omega), pure_inj]
        omega
    · rw [List.flatten_cons, h1, ← List.drop_drop, List.take_append_drop]
    · intro c hc
      rcases List.mem_cons.1 hc with rfl | hc
      · rw [List.length_take, List.length_drop]; omega
      · exact h2 c hc

/-- When the length is a multiple of `n`, `Chunk( n )` gives parts of `n` elements that together are the range. -/
theorem C64_chunk_partial (n : Nat) (hn : 0 < n) (xs : List α) (h : n ∣ xs.length) :
    ∃ cs, chunk n xs = pure cs ∧ cs.flatten = xs ∧ ∀ c ∈ cs, c.length = n := by
  obtain ⟨k, hk⟩ := h
  obtain ⟨cs, e, h1, h2⟩ := chunk_from n hn xs k 0 (by rw [Nat.mul_comm] at hk; omega)
  exact ⟨cs, e, by simpa using h1, h2⟩

example : (2 : Nat) ∣ [1, 2, 3, 4].length := by decide

/-- Otherwise the last part reaches past the end. -/
theorem C64_violated (n : Nat) (hn : 0 < n) (xs : List α) (h : ¬n ∣ xs.length) : chunk n xs = ub := by
  suffices ∀ (k it : Nat), xs.length - it ≤ k → it ≤ xs.length → ¬n ∣ xs.length - it →
      collect (fun it => it != xs.length) (chunkDeref xs n) (fun it => pure (chunkInc xs.length n it)) it = ub from
    this xs.length 0 (by omega) (by omega) (by simpa using h)
  intro k
  induction k with
  | zero =>
    intro it h1 h2 h3
    exact absurd ⟨0, by omega⟩ h3
  | succ k ih =>
    intro it h1 h2 h3
    have hlt : it < xs.length := by
      by_cases he : it = xs.length
      · exact absurd ⟨0, by omega⟩ h3
      · omega
    by_cases hw : it + n ≤ xs.length
    · refine collect_step (b := (xs.drop it).take n) (s' := it) (s'' := it + n) (by simp; omega) ?_ ?_ (ih (it + n) (by omega) hw ?_) rfl
      · unfold chunkDeref window
        rw [if_pos hw]
        rfl
      · rw [chunkInc_eq _ _ _ h2, pure_inj]
        omega
      · intro hd
        apply h3
        have : xs.length - it = xs.length - (it + n) + n := by omega
        rw [this]
        exact (Nat.dvd_add_right hd).2 (Nat.dvd_refl n)
    · refine collect_deref_ub (by simp; omega) ?_
      unfold chunkDeref window
      rw [if_neg hw]
      rfl

example : ¬(2 : Nat) ∣ [1, 2, 3].length := by decide

/-- `Chunk( 0 )` never ends. -/
theorem C64_zero_violated (xs : List α) (hne : xs ≠ []) (r : List (List α)) : chunk 0 xs ≠ pure r := by
  have hpos : 0 < xs.length := List.length_pos_iff.2 hne
  refine collect_never (Inv := fun it => it = 0) (fun s hs => by simp [hs]; omega) (fun s hs b s' h1 s'' h2 => ?_) 0 rfl r
  unfold chunkDeref at h1
  obtain ⟨w, _, h1⟩ := bind_eq_pure.1 h1
  cases pure_inj.1 h1
  rw [chunkInc] at h2
  rw [← pure_inj.1 h2, hs]

example : chunk 0 [1, 2] ≠ pure [[1, 2]] := C64_zero_violated [1, 2] (by decide) _

/-! ### Slide -/

/-- `slide_view::increment`, pipelines/slide.h 46-53. -/
def slideInc (last n it : Nat) : Cxx Nat := do
  let i ← safeNext it last n
  if i = last then pure last else pure (it + 1)

/-- Iterating `Slide( n )`, pipelines/slide.h 64-122. -/
def slide (n : Nat) (xs : List α) : Cxx (List (List α)) :=
  collect (fun it => it != xs.length) (chunkDeref xs n) (slideInc xs.length n) 0

theorem slide_from (n : Nat) (hn : 0 < n) (hb : (n : Int) ≤ ptrdiffMax) (xs : List α) (k : Nat) : ∀ it, it + n + k = xs.length →
    collect (fun it => it != xs.length) (chunkDeref xs n) (slideInc xs.length n) it =
      pure ((List.range' it (k + 1)).map fun i => (xs.drop i).take n) := by
  induction k with
  | zero =>
    intro it h
    rw [List.range'_succ, List.range'_zero, List.map_cons, List.map_nil]
    refine collect_cons (s' := it) (s'' := xs.length) (by simp; omega) ?_ ?_ (collect_nil (by simp))
    · unfold chunkDeref window
      rw [if_pos (by omega)]
      rfl
    · unfold slideInc
      rw [C31_safe_next_partial it xs.length n (by omega) hb]
      simp only [pure_bind]
      rw [if_pos (by omega)]
  | succ k ih =>
    intro it h
    rw [List.range'_succ, List.map_cons]
    refine collect_cons (s' := it) (s'' := it + 1) (by simp; omega) ?_ ?_ (ih (it + 1) (by omega))
    · unfold chunkDeref window
      rw [if_pos (by omega)]
      rfl
    · unfold slideInc
      rw [C31_safe_next_partial it xs.length n (by omega) hb]
      simp only [pure_bind]
      rw [if_neg (by omega)]

/-- `Slide( n )` over a range of at least `n` elements, or none, gives the windows of `n` elements in order. -/
theorem C65_slide_partial (n : Nat) (hn : 0 < n) (hb : (n : Int) ≤ ptrdiffMax) (xs : List α) (h : n ≤ xs.length ∨ xs = []) :
    slide n xs = pure ((List.range (xs.length + 1 - n)).map fun i => (xs.drop i).take n) := by
  rcases h with h | rfl
  · have := slide_from n hn hb xs (xs.length - n) 0 (by omega)
    unfold slide
    rw [this, List.range_eq_range', show xs.length - n + 1 = xs.length + 1 - n by omega]
  · unfold slide
    rw [collect_nil (by simp)]
    simp [show 1 - n = 0 by omega]

example : (2 : Nat) ≤ [1, 2, 3].length ∧ ((2 : Nat) : Int) ≤ ptrdiffMax := by decide

/-- A range that is shorter than the window, but not empty, gives a window that reaches past the end. -/
theorem C65_violated (n : Nat) (xs : List α) (h : xs.length < n) (hne : xs ≠ []) : slide n xs = ub := by
  have hpos : 0 < xs.length := List.length_pos_iff.2 hne
  refine collect_deref_ub (by simp; omega) ?_
  unfold chunkDeref window
  rw [if_neg (by omega)]
  rfl

example : [1, 2].length < 3 ∧ ([1, 2] : List Nat) ≠ [] := by decide

end Verif.Pipe
