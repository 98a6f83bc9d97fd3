import Verif.Vector.OldVector

/-
`daw::carray` of deprecated/daw_carray.h.  The element type is trivially copyable; `z` is the value that bytes of zero make.  `swap`,
224-229, calls `daw::swap_ranges`, which does not compile for elements that are not pointers.
-/

namespace Verif.Containers.CArray
open Cxx Verif.Containers

variable {α : Type}

/-- `assign_to`, deprecated/daw_carray.h 24-35: `i` is the place written next. -/
def assignTo (c : List α) (i : Nat) : List α → Cxx (List α)
  | [] => pure c
  | y :: ys => do
    let c ← wr c i y
    assignTo c (i + 1) ys

/-- `carray( )`, deprecated/daw_carray.h 65-66. -/
def zero (N : Nat) (z : α) : List α := List.replicate N z

/-- `carray( args... )`, deprecated/daw_carray.h 80-86. -/
def ofArgs (N : Nat) (z : α) (args : List α) : Cxx (List α) := assignTo (zero N z) 0 args

/-- `daw::algorithm::copy_n( values, ptr( ), N )` as called in deprecated/daw_carray.h 71, 76, 92 and 97: `n` are left, `i` is the
place. -/
def copyN (src dst : List α) (i : Nat) : Nat → Cxx (List α)
  | 0 => pure dst
  | n + 1 => do
    let x ← rd src i
    let dst ← wr dst i x
    copyN src dst (i + 1) n

/-- `carray( values )`, deprecated/daw_carray.h 68-72. -/
def ofArray (N : Nat) (z : α) (values : List α) : Cxx (List α) := copyN values (zero N z) 0 N

/-- The assignments, deprecated/daw_carray.h 74-78 and 95-99. -/
def assign (N : Nat) (c values : List α) : Cxx (List α) := copyN values c 0 N

/-- `operator[]`, deprecated/daw_carray.h 107-114. -/
def index (c : List α) (pos : Nat) : Cxx α := rd c pos

/-- `at`, deprecated/daw_carray.h 116-126. -/
def at' (N : Nat) (c : List α) (pos : Nat) : Cxx α := if pos < N then rd c pos else thrown

/-- `a.at( pos ) = v`, deprecated/daw_carray.h 116-120. -/
def setAt (N : Nat) (c : List α) (pos : Nat) (v : α) : Cxx (List α) := if pos < N then wr c pos v else thrown

/-- `front`, deprecated/daw_carray.h 182-190; for N = 0 it does not compile. -/
def front (c : List α) : Cxx α := rd c 0

/-- `back`, deprecated/daw_carray.h 192-200; for N = 0 it does not compile. -/
def back (N : Nat) (c : List α) : Cxx α := rd c (N - 1)

/-- `fill`, deprecated/daw_carray.h 218-221: `std::fill` with `n` places left. -/
def fill (c : List α) (v : α) (i : Nat) : Nat → Cxx (List α)
  | 0 => pure c
  | n + 1 => do
    let c ← wr c i v
    fill c v (i + 1) n

/-- The place a pointer of an array may have: `ptr( ) + d`. (Rule of C++ or its library, no line of the source.) -/
def place (N : Nat) (d : Int) : Cxx Nat := if 0 ≤ d ∧ d ≤ (N : Int) then pure d.toNat else ub

/-- `*it` of a `std::reverse_iterator` with base `p`: the element before `p`.
(Rule of C++ or its library, no line of the source.) -/
def derefRev (c : List α) (p : Nat) : Cxx α :=
  match p with
  | 0 => ub
  | p + 1 => rd c p

/-- `rbegin` and `crbegin`, deprecated/daw_carray.h 152-165: the base of the iterator. -/
def rbegin (N : Nat) : Cxx Nat := place N ((N : Int) - 1)

/-- `rend` and `crend`, deprecated/daw_carray.h 167-180: the base of the iterator. -/
def rend (N : Nat) : Cxx Nat := place N (-1)

/-- `++it` of a `std::reverse_iterator`. (Rule of C++ or its library, no line of the source.) -/
def incRev : Nat → Cxx Nat
  | 0 => ub
  | p + 1 => pure p

/-- The loop of `reverseVisit`, deprecated/daw_carray.h 152-180. -/
def revLoop (c : List α) (p e : Nat) : Cxx (List α) := do
  if p = e then pure []
  else do
    let x ← derefRev c p
    let p ← incRev p
    let xs ← revLoop c p e
    pure (x :: xs)
  partial_fixpoint

/-- A loop from `rbegin( )` to `rend( )`, deprecated/daw_carray.h 152-180. -/
def reverseVisit (N : Nat) (c : List α) : Cxx (List α) := do
  let f ← rbegin N
  let l ← rend N
  revLoop c f l

/-- The loop of `visit`, deprecated/daw_carray.h 128-150. -/
def loop (c : List α) (p e : Nat) : Cxx (List α) := do
  if p = e then pure []
  else do
    let x ← rd c p
    let xs ← loop c (p + 1) e
    pure (x :: xs)
  partial_fixpoint

/-- A loop from `begin( )` to `end( )`, deprecated/daw_carray.h 128-150. -/
def visit (N : Nat) (c : List α) : Cxx (List α) := loop c 0 N

/-! ### Writing -/

theorem assignTo_eq : ∀ (ys : List α) (c : List α) (i : Nat), i + ys.length ≤ c.length →
    assignTo c i ys = pure (c.take i ++ ys ++ c.drop (i + ys.length)) := by
  intro ys
  induction ys with
  | nil => intro c i _; simp [assignTo]
  | cons y ys ih =>
    intro c i h
    simp only [List.length_cons] at h
    rw [assignTo, wr_eq (by omega), pure_bind, ih _ _ (by simp; omega)]
    congr 1
    rw [List.take_set, List.drop_set_of_lt (by omega), List.take_succ_eq_append_getElem (by omega),
      List.set_append_right _ _ (by simp; omega)]
    simp only [List.length_take, List.length_cons]
    rw [show i - min i c.length = 0 by omega, show i + 1 + ys.length = i + (ys.length + 1) by omega]
    simp

theorem assignTo_ub : ∀ (ys : List α) (c : List α) (i : Nat), i ≤ c.length → c.length < i + ys.length → assignTo c i ys = ub := by
  intro ys
  induction ys with
  | nil => intro c i h h'; simp at h'; omega
  | cons y ys ih =>
    intro c i h h'
    simp only [List.length_cons] at h'
    rw [assignTo]
    by_cases hi : i < c.length
    · rw [wr_eq hi, pure_bind, ih _ _ (by simp; omega) (by simp; omega)]
    · rw [wr_oob (by omega), ub_bind]

theorem copyN_eq (src : List α) : ∀ (n i : Nat) (dst : List α), i + n ≤ src.length → i + n ≤ dst.length →
    copyN src dst i n = pure (dst.take i ++ (src.drop i).take n ++ dst.drop (i + n)) := by
  intro n
  induction n with
  | zero => intro i dst _ _; simp [copyN]
  | succ n ih =>
    intro i dst h h'
    rw [copyN, rd_eq (by omega), pure_bind, wr_eq (by omega), pure_bind, ih _ _ (by omega) (by simp; omega)]
    congr 1
    rw [List.take_set, List.drop_set_of_lt (by omega), List.take_succ_eq_append_getElem (by omega),
      List.set_append_right _ _ (by simp; omega), List.drop_eq_getElem_cons (show i < src.length by omega), List.take_succ_cons]
    simp only [List.length_take]
    rw [show i - min i dst.length = 0 by omega, show i + 1 + n = i + (n + 1) by omega]
    simp

theorem fill_eq (v : α) : ∀ (n i : Nat) (c : List α), i + n ≤ c.length →
    fill c v i n = pure (c.take i ++ List.replicate n v ++ c.drop (i + n)) := by
  intro n
  induction n with
  | zero => intro i c _; simp [fill]
  | succ n ih =>
    intro i c h
    rw [fill, wr_eq (by omega), pure_bind, ih _ _ (by simp; omega)]
    congr 1
    rw [List.take_set, List.drop_set_of_lt (by omega), List.take_succ_eq_append_getElem (by omega),
      List.set_append_right _ _ (by simp; omega), List.replicate_succ]
    simp only [List.length_take]
    rw [show i - min i c.length = 0 by omega, show i + 1 + n = i + (n + 1) by omega]
    simp

/-- C232, construction with at most as many values as places: the array begins with them and the rest is zero.  With more values memory
behind the array is written.  The constructor from an array takes its elements. -/
theorem C232_construct_partial (N : Nat) (z : α) (args : List α) :
    (args.length ≤ N → ofArgs N z args = pure (args ++ List.replicate (N - args.length) z)) ∧
    (args.length = N → ofArray N z args = pure args) := by
  constructor
  · intro h
    unfold ofArgs zero
    rw [assignTo_eq _ _ _ (by simp; omega)]
    simp
  · intro h
    unfold ofArray zero
    rw [copyN_eq _ _ _ _ (by omega) (by simp)]
    simp
    rw [List.take_of_length_le (by omega)]

example : ofArgs 4 0 [7, 8] = pure [7, 8, 0, 0] := by decide +kernel

/-- C232, violated: more values than places compile and are written behind the array. -/
theorem C232_excess_violated (N : Nat) (z : α) (args : List α) (h : N < args.length) : ofArgs N z args = ub := by
  unfold ofArgs zero
  exact assignTo_ub _ _ _ (by simp) (by simp; omega)

example : ofArgs 2 0 [7, 8, 9] = ub := C232_excess_violated 2 0 [7, 8, 9] (by decide)

/-- The calls that change one of several arrays of the same size. (Specification, no line of the source.) -/
inductive Op (α : Type) where
  | fill (i : Nat) (v : α)
  | assign (i j : Nat)
  | setAt (i pos : Nat) (v : α)

/-- A call, deprecated/daw_carray.h 95-126 and 218-221. -/
def step (N : Nat) (vs : List (List α)) : Op α → Cxx (List (List α))
  | .fill i v => do
    let c ← rd vs i
    let c ← CArray.fill c v 0 N
    wr vs i c
  | .assign i j => do
    let c ← rd vs i
    let src ← rd vs j
    let c ← CArray.assign N c src
    wr vs i c
  | .setAt i pos v => do
    let c ← rd vs i
    let c ← CArray.setAt N c pos v
    wr vs i c

/-- The calls one after the other; an exception ends the program. (Specification, no line of the source.) -/
def run (N : Nat) : List (List α) → List (Op α) → Cxx (List (List α))
  | vs, [] => pure vs
  | vs, o :: os => do
    let vs ← step N vs o
    run N vs os

/-- The arrays exist. (Specification, no line of the source.) -/
def Op.Known (n : Nat) : Op α → Prop
  | .fill i _ => i < n
  | .assign i j => i < n ∧ j < n
  | .setAt i _ _ => i < n

/-- What a call means: nothing, if a position is outside. (Specification, no line of the source.) -/
def means (N : Nat) (f : Nat → Nat → α) : Op α → Option (Nat → Nat → α)
  | .fill i v => some (fun k p => if k = i then v else f k p)
  | .assign i j => some (fun k p => if k = i then f j p else f k p)
  | .setAt i pos v => if pos < N then some (fun k p => if k = i ∧ p = pos then v else f k p) else none

/-- What calls mean together. (Specification, no line of the source.) -/
def meaning (N : Nat) : (Nat → Nat → α) → List (Op α) → Option (Nat → Nat → α)
  | f, [] => some f
  | f, o :: os =>
    match means N f o with
    | some f => meaning N f os
    | none => none

/-- `n` arrays of `N` elements with the elements that a function gives. (Specification, no line of the source.) -/
structure Rep (n N : Nat) (vs : List (List α)) (f : Nat → Nat → α) : Prop where
  len : vs.length = n
  lens : ∀ c ∈ vs, c.length = N
  elem : ∀ (k : Nat) c (p : Nat), vs[k]? = some c → p < N → c[p]? = some (f k p)

theorem Rep.get {n N : Nat} {vs : List (List α)} {f : Nat → Nat → α} (R : Rep n N vs f) {i : Nat} (h : i < n) :
    ∃ c, rd vs i = pure c ∧ vs[i]? = some c ∧ c.length = N := by
  have hi : i < vs.length := by rw [R.len]; exact h
  exact ⟨vs[i], rd_eq hi, List.getElem?_eq_getElem hi, R.lens _ (List.getElem_mem hi)⟩

theorem Rep.put {n N : Nat} {vs : List (List α)} {f g : Nat → Nat → α} (R : Rep n N vs f) {i : Nat} (h : i < n) {c : List α}
    (hl : c.length = N) (hc : ∀ p, p < N → c[p]? = some (g i p)) (ho : ∀ k p, k ≠ i → g k p = f k p) :
    wr vs i c = pure (vs.set i c) ∧ Rep n N (vs.set i c) g := by
  have hi : i < vs.length := by rw [R.len]; exact h
  refine ⟨wr_eq hi, by simp [R.len], ?_, ?_⟩
  · intro d hd
    rcases List.mem_or_eq_of_mem_set hd with hd | hd
    · exact R.lens d hd
    · rw [hd, hl]
  · intro k d p hk hp
    by_cases e : k = i
    · subst e
      rw [List.getElem?_set_self hi] at hk
      cases hk
      exact hc p hp
    · rw [List.getElem?_set_ne (fun e' => e e'.symm)] at hk
      rw [ho k p e]
      exact R.elem k d p hk hp

theorem step_ok {n N : Nat} {vs : List (List α)} {f : Nat → Nat → α} (R : Rep n N vs f) (o : Op α) (hk : o.Known n) :
    match means N f o with
    | some g => ∃ vs', step N vs o = pure vs' ∧ Rep n N vs' g
    | none => step N vs o = thrown := by
  cases o with
  | fill i v =>
    obtain ⟨c, h1, h2, h3⟩ := R.get hk
    have hf : CArray.fill c v 0 N = pure (List.replicate N v) := by
      rw [fill_eq v N 0 c (by omega), List.drop_of_length_le (by omega)]
      simp
    obtain ⟨h4, R'⟩ := R.put (g := fun k p => if k = i then v else f k p) hk (c := List.replicate N v) (by simp)
      (by intro p hp; rw [if_pos rfl, List.getElem?_replicate, if_pos hp]) (by intro k p e; rw [if_neg e])
    refine ⟨_, ?_, R'⟩
    show (do let c ← rd vs i; _) = _
    rw [h1, pure_bind, hf, pure_bind, h4]
  | assign i j =>
    obtain ⟨c, h1, h2, h3⟩ := R.get hk.1
    obtain ⟨d, g1, g2, g3⟩ := R.get hk.2
    have hf : CArray.assign N c d = pure d := by
      unfold CArray.assign
      rw [copyN_eq d N 0 c (by omega) (by omega), List.drop_of_length_le (l := c) (by omega), List.drop_zero,
        List.take_of_length_le (l := d) (by omega)]
      simp
    obtain ⟨h4, R'⟩ := R.put (g := fun k p => if k = i then f j p else f k p) hk.1 (c := d) g3
      (by intro p hp; rw [if_pos rfl]; exact R.elem j d p g2 hp) (by intro k p e; rw [if_neg e])
    refine ⟨_, ?_, R'⟩
    show (do let c ← rd vs i; _) = _
    rw [h1, pure_bind, g1, pure_bind, hf, pure_bind, h4]
  | setAt i pos v =>
    obtain ⟨c, h1, h2, h3⟩ := R.get hk
    rw [means]
    by_cases hp : pos < N
    · rw [if_pos hp]
      obtain ⟨h4, R'⟩ := R.put (g := fun k p => if k = i ∧ p = pos then v else f k p) hk (c := c.set pos v) (by simp [h3])
        (by
          intro p hp'
          by_cases e : p = pos
          · subst e
            rw [List.getElem?_set_self (by omega), if_pos ⟨rfl, rfl⟩]
          · rw [List.getElem?_set_ne (fun e' => e e'.symm), if_neg (fun h => e h.2)]
            exact R.elem i c p h2 hp')
        (by intro k p e; rw [if_neg (fun h => e h.1)])
      refine ⟨_, ?_, R'⟩
      show (do let c ← rd vs i; _) = _
      rw [h1, pure_bind]
      unfold CArray.setAt
      rw [if_pos hp, wr_eq (by omega), pure_bind, h4]
    · rw [if_neg hp]
      show (do let c ← rd vs i; _) = _
      rw [h1, pure_bind]
      unfold CArray.setAt
      rw [if_neg hp]
      rfl

theorem run_ok {n N : Nat} : ∀ (os : List (Op α)) {vs : List (List α)} {f : Nat → Nat → α}, Rep n N vs f → (∀ o ∈ os, o.Known n) →
    match meaning N f os with
    | some g => ∃ vs', run N vs os = pure vs' ∧ Rep n N vs' g
    | none => run N vs os = thrown := by
  intro os
  induction os with
  | nil => intro vs f R _; exact ⟨vs, rfl, R⟩
  | cons o os ih =>
    intro vs f R hk
    have h := step_ok R o (hk o List.mem_cons_self)
    rw [meaning, run]
    cases hm : means N f o with
    | none =>
      rw [hm] at h
      dsimp only at h ⊢
      rw [h]
      rfl
    | some g =>
      rw [hm] at h
      obtain ⟨vs', h1, R'⟩ := h
      rw [h1, pure_bind]
      exact ih R' (fun o ho => hk o (List.mem_cons_of_mem _ ho))

theorem loop_eq (c : List α) : ∀ (n p : Nat), p + n = c.length → loop c p c.length = pure (c.drop p) := by
  intro n
  induction n with
  | zero =>
    intro p h
    rw [loop, if_pos (by omega), List.drop_eq_nil_of_le (by omega)]
  | succ n ih =>
    intro p h
    rw [loop, if_neg (by omega), rd_eq (by omega), pure_bind, ih (p + 1) (by omega), pure_bind,
      List.drop_eq_getElem_cons (show p < c.length by omega)]

/-- C232, histories: after any history of `fill`, assignments and writes through `at` on arrays that exist, every array has the elements
the history means, and a loop over it meets them in order.  A position outside throws, whatever happened before; nothing is undefined. -/
theorem C232_history (N : Nat) (z : α) (n : Nat) (os : List (Op α)) (hk : ∀ o ∈ os, o.Known n) :
    match meaning N (fun _ _ => z) os with
    | some f => ∃ vs, run N (List.replicate n (zero N z)) os = pure vs ∧ vs.length = n ∧
        ∀ (k : Nat) c, vs[k]? = some c →
          visit N c = pure ((List.range N).map (f k)) ∧
          (∀ p, p < N → index c p = pure (f k p) ∧ at' N c p = pure (f k p)) ∧
          (∀ p, N ≤ p → at' N c p = thrown) ∧
          (0 < N → front c = pure (f k 0) ∧ back N c = pure (f k (N - 1)))
    | none => run N (List.replicate n (zero N z)) os = thrown := by
  have R0 : Rep n N (List.replicate n (zero N z)) (fun _ _ => z) := by
    refine ⟨by simp, ?_, ?_⟩
    · intro c hc
      rw [(List.mem_replicate.mp hc).2]
      simp [zero]
    · intro k c p hk hp
      rw [List.getElem?_replicate] at hk
      split at hk
      · cases hk
        unfold zero
        rw [List.getElem?_replicate, if_pos hp]
      · cases hk
  have h := run_ok os R0 hk
  cases hm : meaning N (fun _ _ => z) os with
  | none => rw [hm] at h; exact h
  | some f =>
    rw [hm] at h
    obtain ⟨vs, h1, R⟩ := h
    refine ⟨vs, h1, R.len, ?_⟩
    intro k c hc
    have hl : c.length = N := R.lens c (List.mem_of_getElem? hc)
    have he : ∀ p, p < N → rd c p = pure (f k p) := fun p hp => rd_some (R.elem k c p hc hp)
    refine ⟨?_, ?_, ?_, ?_⟩
    · unfold visit
      rw [← hl, loop_eq c c.length 0 (by omega), List.drop_zero]
      congr 1
      apply List.ext_getElem?
      intro p
      by_cases hp : p < N
      · rw [R.elem k c p hc hp, List.getElem?_map, List.getElem?_range (by omega)]
        rfl
      · rw [List.getElem?_eq_none (by omega), List.getElem?_eq_none (by simp; omega)]
    · intro p hp
      exact ⟨he p hp, by unfold at'; rw [if_pos hp, he p hp]⟩
    · intro p hp
      unfold at'
      rw [if_neg (by omega)]
    · intro h0
      exact ⟨he 0 h0, he (N - 1) (by omega)⟩

example : ∀ o ∈ [Op.fill 0 5, Op.setAt 1 2 (7 : Nat), .assign 0 1], o.Known 2 := by
  intro o ho
  simp at ho
  rcases ho with rfl | rfl | rfl <;> simp [Op.Known]

example : run 3 [[0, 0, 0], [0, 0, 0]] [Op.fill 0 5, Op.setAt 1 2 (7 : Nat), .assign 0 1] = pure [[0, 0, 7], [0, 0, 7]] := by decide +kernel

/-- C233, violated: `*rbegin( )` is the element before the last one, and nothing at all for one element. -/
theorem C233_rbegin_violated (c : List α) (x : α) :
    (∀ y, (rbegin (c ++ [x, y]).length >>= derefRev (c ++ [x, y])) = pure x) ∧ (rbegin [x].length >>= derefRev [x]) = ub := by
  constructor
  · intro y
    have : rbegin (c ++ [x, y]).length = pure (c.length + 1) := by
      unfold rbegin place
      rw [if_pos (by simp; omega)]
      congr 1
      simp only [List.length_append, List.length_cons, List.length_nil]
      omega
    rw [this, pure_bind]
    show rd _ c.length = _
    exact rd_some (by simp)
  · rfl

example : (rbegin 3 >>= derefRev [1, 2, 3]) = pure 2 := by decide +kernel

/-- C233, violated: a loop over an array from `rbegin( )` to `rend( )` is never defined, as `rend` goes before the array. -/
theorem C233_reverse_violated (N : Nat) (h : 0 < N) (c : List α) : reverseVisit N c = ub := by
  unfold reverseVisit
  have : rbegin N = pure (N - 1) := by
    unfold rbegin place
    rw [if_pos (by omega)]
    congr 1
    omega
  rw [this, pure_bind]
  rfl

/-- C233, also if `rend( )` is taken as some base `e` that a loop from `rbegin( )` does not come to: the loop reads the element before
the first one. -/
theorem C233_reverse_reads_violated (c : List α) (e : Nat) : ∀ p, p < e → p ≤ c.length → revLoop c p e = ub := by
  intro p
  induction p with
  | zero =>
    intro h _
    rw [revLoop, if_neg (by omega)]
    rfl
  | succ p ih =>
    intro h hp
    rw [revLoop, if_neg (by omega)]
    show (do let x ← rd c p; _) = _
    rw [rd_eq (by omega), pure_bind, show incRev (p + 1) = pure p from rfl, pure_bind, ih (by omega) (by omega), ub_bind]

example : revLoop [1, 2, 3] 2 4 = ub := C233_reverse_reads_violated [1, 2, 3] 4 2 (by decide) (by decide)

/-- C233, what does hold: from `rbegin( )`, a loop that stops at base 0, as `rend( )` should be, meets all elements but the last one,
backwards.  Missing: the last element and the end of the loop, see `C233_rbegin_violated` and `C233_reverse_violated`. -/
theorem C233_reverse_partial (c : List α) : ∀ p, p ≤ c.length → revLoop c p 0 = pure (c.take p).reverse := by
  intro p
  induction p with
  | zero => intro _; rw [revLoop, if_pos rfl]; simp
  | succ p ih =>
    intro hp
    rw [revLoop, if_neg (by omega)]
    show (do let x ← rd c p; _) = _
    rw [rd_eq (by omega), pure_bind, show incRev (p + 1) = pure p from rfl, pure_bind, ih (by omega), pure_bind,
      List.take_succ_eq_append_getElem (by omega), List.reverse_append]
    rfl

example : revLoop [1, 2, 3] 2 0 = pure [2, 1] := by rw [C233_reverse_partial [1, 2, 3] 2 (by decide)]; rfl

end Verif.Containers.CArray
