import Verif.Pipelines.Chunk

/-
Views that compute their elements: include/daw/pipelines/map.h, generate.h and cache_last_view.h.
-/

namespace Verif.Pipe
open Cxx Algorithm
variable {α β γ σ : Type}

/-! ## map -/

/-- `map_iterator::operator*`, pipelines/map.h 78-84: the projection the iterator was made with is not called. -/
def mapDeref (f : α → γ) (_proj : α → α) (xs : List α) (it : Nat) : Cxx (γ × Nat) := do
  let a ← rd xs it
  pure (f a, it)

/-- `++m_iter` of `map_iterator::operator++`, pipelines/map.h 94-97. -/
def posInc (xs : List α) (it : Nat) : Cxx Nat := if it < xs.length then pure (it + 1) else ub

/-- What a range based for loop over `Map( f, proj )( xs )` sees, pipelines/map.h 175-214 and 229-245.  `f` is applied to the element
itself, so that this compiles only if `f` takes it: the types before and after the projection are the same here. -/
def mapView (f : α → γ) (proj : α → α) (xs : List α) : Cxx (List γ) :=
  collect (fun it => it != xs.length) (mapDeref f proj xs) (posInc xs) 0

/-- `Map( f, proj )( v )` for a value that is no range, pipelines/map.h 256-257. -/
def mapValue (f : β → γ) (proj : α → β) (v : α) : γ := f (proj v)

/-- `map_iterator::operator[]`, pipelines/map.h 73-76. -/
def mapAt (f : α → γ) (_proj : α → α) (xs : List α) (it n : Nat) : Cxx γ := do
  let a ← rd xs (it + n)
  pure (f a)

/-- A walk over all positions of a range. -/
theorem walk_from {deref : Nat → Cxx (γ × Nat)} {xs : List α} {g : Nat → γ}
    (hd : ∀ i, i < xs.length → deref i = pure (g i, i)) (k : Nat) : ∀ it, it + k = xs.length →
    collect (fun it => it != xs.length) deref (posInc xs) it = pure ((List.range' it k).map g) := by
  induction k with
  | zero => intro it h; exact collect_nil (by simp; omega)
  | succ k ih =>
    intro it h
    rw [List.range'_succ, List.map_cons]
    exact collect_cons (by simp; omega) (hd it (by omega)) (by unfold posInc; rw [if_pos (by omega)]) (ih (it + 1) (by omega))

theorem mapView_eq (f : α → γ) (proj : α → α) (xs : List α) : mapView f proj xs = pure (xs.map f) := by
  cases hx : xs with
  | nil => exact collect_nil (by simp)
  | cons a0 tl =>
    rw [← hx]
    unfold mapView
    have hd : ∀ i, i < xs.length → mapDeref f proj xs i = pure (f (xs.getD i a0), i) := by
      intro i hi
      unfold mapDeref
      rw [rd_eq hi]
      simp [List.getD_eq_getElem?_getD, List.getElem?_eq_getElem hi]
    rw [walk_from hd xs.length 0 (by omega)]
    congr 1
    apply List.ext_getElem
    · simp
    · intro i h1 h2
      have hi : i < xs.length := by simpa using h2
      simp [List.getElem?_eq_getElem hi]

/-- Without a projection (`std::identity`) a loop over `Map( f )( xs )` sees `f` of every element, in order, and `it[n]` is `f` of
the element `n` further on. -/
theorem C145_map_partial (f : α → γ) (xs : List α) :
    mapView f id xs = pure (xs.map f) ∧
    ∀ (it n : Nat) (h : it + n < xs.length), mapAt f id xs it n = pure (f xs[it + n]) := by
  refine ⟨mapView_eq f id xs, fun it n h => ?_⟩
  unfold mapAt
  rw [rd_eq h]; rfl

example := (C145_map_partial (· + 1) [4, 5, 6]).2 1 1 (by decide)

/-- With a projection `Map` of a single value applies it and `Map` of a range does not: it is ignored. -/
theorem C145_projection_violated (f : α → γ) (proj : α → α) (xs : List α) (v : α) :
    mapView f proj xs = pure (xs.map f) ∧ mapValue f proj v = f (proj v) ∧
    ∃ (f : Nat → Nat) (proj : Nat → Nat) (xs : List Nat), mapView f proj xs ≠ pure (xs.map (mapValue f proj)) :=
  ⟨mapView_eq f proj xs, rfl, id, (· + 1), [1], by rw [mapView_eq]; decide⟩

example : mapView (· * 2) id [1, 2, 3] = pure [2, 4, 6] := mapView_eq _ _ _

/-! ## A view that owns its range -/

/-- A `map_view` over a temporary container: the buffer its container `m_range` owns, if it has not been moved away, and the
buffer its iterators `m_first`, `m_last` point into, pipelines/map.h 188-190.  The container is one that keeps its elements in a
buffer of its own, as `std::vector` does. -/
structure OwnView where
  own : Option Nat
  iters : Nat
  deriving DecidableEq, Repr

/-- The buffers, `none` once freed, and the views, `none` once destroyed. (Rule of C++ or its library, no line of the source.) -/
structure Store (α : Type) where
  bufs : List (Option (List α))
  views : List (Option OwnView)

/-- A view that is alive. (Rule of C++ or its library, no line of the source.) -/
def Store.view (s : Store α) (i : Nat) : Cxx OwnView :=
  match s.views[i]? with
  | some (some v) => pure v
  | _ => ub

/-- `map_view( r, fn )` for a temporary `r`, pipelines/map.h 194-205: the container moves into the view and the iterators are
those of the member. -/
def Store.make (s : Store α) (xs : List α) : Store α :=
  ⟨s.bufs ++ [some xs], s.views ++ [some ⟨some s.bufs.length, s.bufs.length⟩]⟩

/-- The implicit copy constructor of `map_view`, pipelines/map.h 176-190: every member is copied, the container with its elements, the
iterators as they are. -/
def Store.copy (s : Store α) (i : Nat) : Cxx (Store α) := do
  let v ← s.view i
  match v.own with
  | some b =>
    match s.bufs[b]? with
    | some (some xs) => pure ⟨s.bufs ++ [some xs], s.views ++ [some ⟨some s.bufs.length, v.iters⟩]⟩
    | _ => ub
  | none => pure ⟨s.bufs ++ [some []], s.views ++ [some ⟨some s.bufs.length, v.iters⟩]⟩

/-- The implicit move constructor of `map_view`, pipelines/map.h 176-190: the buffer goes to the new container, the iterators are
copied. -/
def Store.move (s : Store α) (i : Nat) : Cxx (Store α) := do
  let v ← s.view i
  pure ⟨s.bufs, (s.views.set i (some ⟨none, v.iters⟩)) ++ [some v]⟩

/-- The destructor of `map_view`, pipelines/map.h 188. -/
def Store.destroy (s : Store α) (i : Nat) : Cxx (Store α) := do
  let v ← s.view i
  match v.own with
  | some b => pure ⟨s.bufs.set b none, s.views.set i none⟩
  | none => pure ⟨s.bufs, s.views.set i none⟩

/-- What a loop over `begin( )` and `end( )` of the view sees, pipelines/map.h 207-213: the iterators read the buffer they point into. -/
def Store.see (s : Store α) (f : α → γ) (i : Nat) : Cxx (List γ) := do
  let v ← s.view i
  match s.bufs[v.iters]? with
  | some (some xs) => mapView f id xs
  | _ => ub

/-- What a program does with views over temporaries, but copy them. (Specification, no line of the source.) -/
inductive ViewOp (α : Type) where
  | make (xs : List α)
  | move (i : Nat)
  | destroy (i : Nat)

/-- One operation. (Specification, no line of the source.) -/
def Store.step (s : Store α) : ViewOp α → Cxx (Store α)
  | .make xs => pure (s.make xs)
  | .move i => s.move i
  | .destroy i => s.destroy i

/-- Several operations. (Specification, no line of the source.) -/
def Store.run (s : Store α) : List (ViewOp α) → Cxx (Store α)
  | [] => pure s
  | op :: ops => do
    let s ← s.step op
    s.run ops

/-- Views own different living buffers, which are those of their iterators. (Specification, no line of the source.) -/
def Store.Sound (s : Store α) : Prop :=
  (∀ (i : Nat) (v : OwnView) (b : Nat), s.views[i]? = some (some v) → v.own = some b → v.iters = b ∧ ∃ xs, s.bufs[b]? = some (some xs)) ∧
  ∀ (i j : Nat) (v w : OwnView) (b : Nat), s.views[i]? = some (some v) → s.views[j]? = some (some w) → v.own = some b →
    w.own = some b → i = j

theorem view_eq {s : Store α} {i : Nat} {v : OwnView} : s.view i = pure v ↔ s.views[i]? = some (some v) := by
  unfold Store.view
  split
  · next w h => rw [pure_inj, h]; simp
  · next h =>
    constructor
    · intro e; exact absurd e (ub_ne_pure v)
    · intro e; exact absurd e (h v)

theorem getElem?_snoc {l : List β} {x y : β} {i : Nat} (h : (l ++ [x])[i]? = some y) : l[i]? = some y ∨ i = l.length ∧ y = x := by
  by_cases hi : i < l.length
  · rw [List.getElem?_append_left hi] at h; exact .inl h
  · rw [List.getElem?_append_right (by omega)] at h
    by_cases h0 : i - l.length = 0
    · rw [h0] at h
      exact .inr ⟨by omega, by simpa using h.symm⟩
    · rw [List.getElem?_eq_none (by simp; omega)] at h; cases h

theorem getElem?_set_some {l : List (Option β)} {i j : Nat} {x : Option β} {y : β} (h : (l.set i x)[j]? = some (some y)) :
    j ≠ i ∧ l[j]? = some (some y) ∨ j = i ∧ x = some y := by
  by_cases hij : i = j
  · subst hij
    by_cases hlt : i < l.length
    · rw [List.getElem?_set_self hlt] at h
      exact .inr ⟨rfl, by simpa using h⟩
    · rw [List.getElem?_eq_none (by simp; omega)] at h; cases h
  · rw [List.getElem?_set_ne hij] at h
    exact .inl ⟨fun e => hij e.symm, h⟩

theorem Sound.step {s s' : Store α} {op : ViewOp α} (hs : s.Sound) (h : s.step op = pure s') : s'.Sound := by
  obtain ⟨h1, h2⟩ := hs
  have hlt : ∀ (i : Nat) (v : OwnView) (b : Nat), s.views[i]? = some (some v) → v.own = some b → b < s.bufs.length := by
    intro i v b hv hb
    obtain ⟨-, xs, hx⟩ := h1 i v b hv hb
    exact (List.getElem?_eq_some_iff.1 hx).1
  cases op with
  | make xs =>
    obtain rfl : s.make xs = s' := pure_inj.1 h
    constructor
    · intro i v b hv hb
      rcases getElem?_snoc hv with hv | ⟨-, e⟩
      · obtain ⟨e, ys, hy⟩ := h1 i v b hv hb
        refine ⟨e, ys, ?_⟩
        show (s.bufs ++ [some xs])[b]? = _
        rw [List.getElem?_append_left (hlt i v b hv hb)]; exact hy
      · obtain rfl := Option.some.inj e
        obtain rfl : s.bufs.length = b := Option.some.inj hb
        exact ⟨rfl, xs, by show (s.bufs ++ [some xs])[_]? = _; simp⟩
    · intro i j v w b hv hw hb hb'
      rcases getElem?_snoc hv with hv | ⟨hi, e⟩ <;> rcases getElem?_snoc hw with hw | ⟨hj, e'⟩
      · exact h2 i j v w b hv hw hb hb'
      · obtain rfl := Option.some.inj e'
        obtain rfl : s.bufs.length = b := Option.some.inj hb'
        exact absurd (hlt i v _ hv hb) (by omega)
      · obtain rfl := Option.some.inj e
        obtain rfl : s.bufs.length = b := Option.some.inj hb
        exact absurd (hlt j w _ hw hb') (by omega)
      · omega
  | move k =>
    obtain ⟨u, hu, h⟩ := bind_eq_pure.1 (h : s.move k = pure s')
    rw [view_eq] at hu
    obtain rfl := pure_inj.1 h
    have hcase : ∀ (i : Nat) (v : OwnView) (b : Nat), ((s.views.set k (some ⟨none, u.iters⟩)) ++ [some u])[i]? = some (some v) →
        v.own = some b → i ≠ k ∧ i < s.views.length ∧ s.views[i]? = some (some v) ∨ i = s.views.length ∧ v = u := by
      intro i v b hv hb
      rcases getElem?_snoc hv with hv | ⟨hi, e⟩
      · rcases getElem?_set_some hv with ⟨hik, hv⟩ | ⟨-, e⟩
        · exact .inl ⟨hik, (List.getElem?_eq_some_iff.1 hv).1, hv⟩
        · obtain rfl := Option.some.inj e; cases hb
      · exact .inr ⟨by simpa using hi, Option.some.inj e⟩
    constructor
    · intro i v b hv hb
      rcases hcase i v b hv hb with ⟨-, -, hv⟩ | ⟨-, rfl⟩
      · exact h1 i v b hv hb
      · exact h1 k v b hu hb
    · intro i j v w b hv hw hb hb'
      rcases hcase i v b hv hb with ⟨hik, hil, hv'⟩ | ⟨hi, ev⟩ <;> rcases hcase j w b hw hb' with ⟨hjk, hjl, hw'⟩ | ⟨hj, ew⟩
      · exact h2 i j v w b hv' hw' hb hb'
      · exact absurd (h2 i k v u b hv' hu hb (ew ▸ hb')) hik
      · exact absurd (h2 j k w u b hw' hu hb' (ev ▸ hb)) hjk
      · omega
  | destroy k =>
    obtain ⟨u, hu, h⟩ := bind_eq_pure.1 (h : s.destroy k = pure s')
    rw [view_eq] at hu
    have hcase : ∀ (i : Nat) (v : OwnView), (s.views.set k none)[i]? = some (some v) → i ≠ k ∧ s.views[i]? = some (some v) := by
      intro i v hv
      rcases getElem?_set_some hv with h | ⟨-, e⟩
      · exact h
      · cases e
    cases hown : u.own with
    | none =>
      simp only [hown] at h
      obtain rfl := pure_inj.1 h
      exact ⟨fun i v b hv hb => h1 i v b (hcase i v hv).2 hb,
        fun i j v w b hv hw => h2 i j v w b (hcase i v hv).2 (hcase j w hw).2⟩
    | some c =>
      simp only [hown] at h
      obtain rfl := pure_inj.1 h
      refine ⟨fun i v b hv hb => ?_, fun i j v w b hv hw => h2 i j v w b (hcase i v hv).2 (hcase j w hw).2⟩
      obtain ⟨hik, hv⟩ := hcase i v hv
      obtain ⟨e, xs, hx⟩ := h1 i v b hv hb
      refine ⟨e, xs, ?_⟩
      have hcb : c ≠ b := by
        rintro rfl
        exact hik (h2 i k v u c hv hu hb hown)
      show (s.bufs.set c none)[b]? = _
      rw [List.getElem?_set_ne hcb]; exact hx

/-- However views over temporaries are made, moved and destroyed, a loop over one that still has its container is defined and
sees `f` of the elements of that container. -/
theorem C146_moves_partial (ops : List (ViewOp α)) (s : Store α) (h : Store.run ⟨[], []⟩ ops = pure s) (f : α → γ) (i b : Nat)
    (v : OwnView) (hv : s.views[i]? = some (some v)) (hb : v.own = some b) :
    ∃ xs, s.bufs[b]? = some (some xs) ∧ s.see f i = pure (xs.map f) := by
  have key : ∀ (ops : List (ViewOp α)) (s₀ : Store α), s₀.Sound → s₀.run ops = pure s → s.Sound := by
    intro ops
    induction ops with
    | nil => intro s₀ h0 he; exact pure_inj.1 he ▸ h0
    | cons op ops ih =>
      intro s₀ h0 he
      obtain ⟨s₁, h1, he⟩ := bind_eq_pure.1 he
      exact ih s₁ (Sound.step h0 h1) he
  have hs : s.Sound := key ops ⟨[], []⟩ ⟨by simp, by simp⟩ h
  obtain ⟨e, xs, hx⟩ := hs.1 i v b hv hb
  refine ⟨xs, hx, ?_⟩
  unfold Store.see
  rw [view_eq.2 hv, pure_bind, e, hx]
  exact mapView_eq f id xs

example : ∃ s, Store.run ⟨[], []⟩ [.make [1, 2], .move 0, .destroy 0] = pure s ∧ s.see (· + 1) 1 = pure [2, 3] :=
  ⟨_, rfl, mapView_eq _ _ _⟩

/-- A copy of a view over a temporary looks at the elements of the original, not at its own: after the original is destroyed a
loop over the copy reads freed memory. -/
theorem C146_copy_violated (xs : List α) (f : α → γ) :
    ∃ s s', (Store.make ⟨[], []⟩ xs).copy 0 = pure s ∧ s.views[1]? = some (some ⟨some 1, 0⟩) ∧ s.bufs[1]? = some (some xs) ∧
      s.destroy 0 = pure s' ∧ s'.see f 1 = ub ∧ s'.bufs[1]? = some (some xs) :=
  ⟨_, _, rfl, rfl, rfl, rfl, rfl, rfl⟩

/-! ## generate_n -/

/-- What a range based for loop over `generate_n( n, fn )` sees, pipelines/generate.h 18-33.  The function is part of the iterators
and may change its state with every call. -/
def generateView (n : Nat) (f : σ → α × σ) (s : σ) : Cxx (List α) :=
  collect (fun it => it.1 != n) (fun it : Nat × σ => let r := f it.2; pure (r.1, (it.1, r.2))) (fun it => pure (it.1 + 1, it.2)) (0, s)

/-- The first `n` results of a function with a state. (Specification, no line of the source.) -/
def results (f : σ → α × σ) : Nat → σ → List α
  | 0, _ => []
  | n + 1, s => (f s).1 :: results f n (f s).2

/-- A loop over `generate_n( n, fn )` sees the first `n` results of the function, in the order of the calls. -/
theorem C147_generate (n : Nat) (f : σ → α × σ) (s : σ) : generateView n f s = pure (results f n s) := by
  have key : ∀ (k : Nat) (it : Nat) (s : σ), it + k = n →
      collect (fun it : Nat × σ => it.1 != n) (fun it : Nat × σ => let r := f it.2; pure (r.1, (it.1, r.2)))
        (fun it => pure (it.1 + 1, it.2)) (it, s) = pure (results f k s) := by
    intro k
    induction k with
    | zero => intro it s h; exact collect_nil (by simp; omega)
    | succ k ih =>
      intro it s h
      exact collect_cons (by simp; omega) rfl rfl (ih (it + 1) (f s).2 (by omega))
  exact key n 0 s (by omega)

example : generateView 3 (fun s => (s, s * 2)) 5 = pure [5, 10, 20] := C147_generate _ _ _

/-! ## cache_last_view -/

/-- A `cache_last_iterator`, pipelines/cache_last_view.h 32-33: position and cached value. -/
structure Cached (α : Type) where
  pos : Nat
  cached : Option α

/-- `cache_last_iterator::value` (`operator*`), pipelines/cache_last_view.h 41-50.  Reading the underlying iterator changes a
state `σ`, for instance counts the calls. -/
def Cached.value (d : σ → Nat → Cxx (α × σ)) (it : Cached α) (s : σ) : Cxx (α × Cached α × σ) :=
  match it.cached with
  | some a => pure (a, it, s)
  | none => do
    let (a, s) ← d s it.pos
    pure (a, { it with cached := some a }, s)

/-- `cache_last_iterator::operator++`, pipelines/cache_last_view.h 56-60. -/
def Cached.inc (it : Cached α) : Cached α := ⟨it.pos + 1, none⟩

/-- `cache_last_iterator::operator--`, pipelines/cache_last_view.h 68-74. -/
def Cached.dec (it : Cached α) : Cxx (Cached α) := if 0 < it.pos then pure ⟨it.pos - 1, none⟩ else ub

/-- A loop whose body reads `*it` a number of times, given for each position, and keeps what it read.
(Specification, no line of the source.) -/
def readMany (d : σ → Nat → Cxx (α × σ)) : Nat → Cached α → σ → Cxx (List α × Cached α × σ)
  | 0, it, s => pure ([], it, s)
  | n + 1, it, s => do
    let (a, it, s) ← it.value d s
    let (as, it, s) ← readMany d n it s
    pure (a :: as, it, s)

/-- The loop over positions, `reads` telling how often each is read. (Specification, no line of the source.) -/
def cacheLoop (d : σ → Nat → Cxx (α × σ)) : List Nat → Cached α → σ → Cxx (List (List α) × σ)
  | [], _, s => pure ([], s)
  | n :: reads, it, s => do
    let (as, it, s) ← readMany d n it s
    let (rest, s) ← cacheLoop d reads it.inc s
    pure (as :: rest, s)

/-- The same positions read once each without a cache. (Specification, no line of the source.) -/
def plainLoop (d : σ → Nat → Cxx (α × σ)) : List Nat → Nat → σ → Cxx (List (List α) × σ)
  | [], _, s => pure ([], s)
  | n :: reads, p, s => do
    let (a, s) ← d s p
    let (rest, s) ← plainLoop d reads (p + 1) s
    pure (List.replicate n a :: rest, s)

theorem readMany_cached (d : σ → Nat → Cxx (α × σ)) (n : Nat) (p : Nat) (a : α) (s : σ) :
    readMany d n ⟨p, some a⟩ s = pure (List.replicate n a, ⟨p, some a⟩, s) := by
  induction n with
  | zero => rfl
  | succ n ih =>
    show (do
      let (as, it, s) ← readMany d n ⟨p, some a⟩ s
      pure (a :: as, it, s)) = _
    rw [ih]; rfl

/-- Whatever the underlying iterator does when it is read, a loop over `CacheLast` that reads every element at least once
does to it exactly what a loop reading each element once does, and every repeated read sees the same value. -/
theorem C148_cache (d : σ → Nat → Cxx (α × σ)) (reads : List Nat) (hr : ∀ n ∈ reads, 0 < n) (p : Nat) (s : σ) :
    cacheLoop d reads ⟨p, none⟩ s = plainLoop d reads p s := by
  induction reads generalizing p s with
  | nil => rfl
  | cons n reads ih =>
    obtain ⟨m, rfl⟩ : ∃ m, n = m + 1 := ⟨n - 1, by have := hr n (by simp); omega⟩
    have h1 : readMany d (m + 1) ⟨p, none⟩ s = (do
        let (a, s) ← d s p
        pure (List.replicate (m + 1) a, (⟨p, some a⟩ : Cached α), s)) := by
      show (do
        let (a, it, s) ← (do let (a, s) ← d s p; pure (a, (⟨p, some a⟩ : Cached α), s) : Cxx (α × Cached α × σ))
        let (as, it, s) ← readMany d m it s
        pure (a :: as, it, s)) = _
      rw [bind_assoc]
      congr 1
      funext ⟨a, s⟩
      simp only [pure_bind]
      rw [readMany_cached]
      rfl
    show (do
      let (as, it, s) ← readMany d (m + 1) ⟨p, none⟩ s
      let (rest, s) ← cacheLoop d reads it.inc s
      pure (as :: rest, s)) = _
    rw [h1, bind_assoc]
    show _ = (do
      let (a, s) ← d s p
      let (rest, s) ← plainLoop d reads (p + 1) s
      pure (List.replicate (m + 1) a :: rest, s))
    congr 1
    funext ⟨a, s⟩
    simp only [pure_bind, Cached.inc]
    rw [ih (fun n hn => hr n (by simp [hn])) (p + 1) s]

example := C148_cache (fun (s p : Nat) => pure (s + p, s + 1)) [2, 1, 3] (by decide) 0 7

/-- Stepping back also forgets the cached value: whatever was read before, the element read after `--` is the one of the position
before, read from the underlying iterator; after `++`, a read and `--` it is again the element of the old position. -/
theorem C148_back (d : σ → Nat → Cxx (α × σ)) (p : Nat) (c : Option α) (s : σ) :
    (do let it ← (⟨p + 1, c⟩ : Cached α).dec; it.value d s) = (do let (a, s) ← d s p; pure (a, (⟨p, some a⟩ : Cached α), s)) ∧
    (do
      let (_, it, s) ← (⟨p, c⟩ : Cached α).inc.value d s
      let it ← it.dec
      it.value d s) = (do
      let (_, s) ← d s (p + 1)
      let (a, s) ← d s p
      pure (a, (⟨p, some a⟩ : Cached α), s)) := by
  have h1 : ∀ (c : Option α) (s : σ), (do let it ← (⟨p + 1, c⟩ : Cached α).dec; it.value d s) =
      (do let (a, s) ← d s p; pure (a, (⟨p, some a⟩ : Cached α), s)) := by
    intro c s
    unfold Cached.dec
    rw [if_pos (by simp), pure_bind]
    rfl
  refine ⟨h1 c s, ?_⟩
  show ((do let (a, s) ← d s (p + 1); pure (a, (⟨p + 1, some a⟩ : Cached α), s) : Cxx (α × Cached α × σ)) >>= _) = _
  rw [bind_assoc]
  congr 1

example : cacheLoop (fun s p => do let a ← rd [7, 8] p; pure (a, s + 1)) [2, 1] ⟨0, none⟩ 0 = pure ([[7, 7], [8]], 2) := by rfl

end Verif.Pipe
