import Verif.Sort.Perm
import Verif.Algorithm.Spec

/- Sorting networks: reduction to Boolean inputs, and the check of the Boolean inputs. -/

namespace Verif.Sort
open Cxx Verif.Algorithm

variable {α : Type}

/-! ### Boolean networks -/

/-- One comparator on Boolean wires. (Specification, no line of the source.) -/
def boolStep (v : Nat → Bool) (p q : Nat) : Nat → Bool :=
  fun k => if k = q then v p || v q else if k = p then v p && v q else v k

/-- A network on Boolean wires. (Specification, no line of the source.) -/
def boolNet : List (Nat × Nat) → (Nat → Bool) → Nat → Bool
  | [], v => v
  | (p, q) :: net, v => boolNet net (boolStep v p q)

theorem boolNet_append (a b : List (Nat × Nat)) (v : Nat → Bool) :
    boolNet (a ++ b) v = boolNet b (boolNet a v) := by
  induction a generalizing v with
  | nil => rfl
  | cons c a ih => exact ih _

/-- All comparators of the network connect two different wires among the first `n`. (Specification, no line of the source.) -/
def WF (n : Nat) (net : List (Nat × Nat)) : Prop := ∀ c ∈ net, c.1 < n ∧ c.2 < n ∧ c.1 ≠ c.2

instance (n : Nat) (net : List (Nat × Nat)) : Decidable (WF n net) := by unfold WF; infer_instance

/-- The wires `lo .. lo+n-1` are sorted. (Specification, no line of the source.) -/
def BoolSorted (lo n : Nat) (v : Nat → Bool) : Prop :=
  ∀ i j, lo ≤ i → i ≤ j → j < lo + n → v i = true → v j = true

theorem BoolSorted.of_adjacent {lo n : Nat} {v : Nat → Bool}
    (h : ∀ k, lo ≤ k → k + 1 < lo + n → v k = true → v (k + 1) = true) : BoolSorted lo n v := by
  intro i j h1 h2 h3 hi
  induction j with
  | zero => have : i = 0 := by omega
            subst this; exact hi
  | succ j ih =>
    by_cases he : i = j + 1
    · subst he; exact hi
    · exact h j (by omega) (by omega) (ih (by omega) (by omega))

/-! ### Reduction to Boolean wires -/

/-- Which of the cells `pos 0, pos 1, …` hold an element not less than `t`. (Specification, no line of the source.) -/
def view (lt : α → α → Bool) (pos : Nat → Nat) (xs : List α) (t : α) (k : Nat) : Bool :=
  match xs[pos k]? with
  | some a => !lt a t
  | none => false

theorem view_eq {lt : α → α → Bool} {pos : Nat → Nat} {xs : List α} {t : α} {k : Nat} {a : α}
    (h : xs[pos k]? = some a) : view lt pos xs t k = !lt a t := by
  simp [view, h]

/-- A comparator that leaves the lesser element in the first cell acts on every view as a
Boolean comparator. -/
theorem cmp_view {lt : α → α → Bool} (sw : StrictWeak lt) {pos : Nat → Nat} {n : Nat}
    (inj : ∀ i j, i < n → j < n → pos i = pos j → i = j) {xs ys : List α} {p q : Nat}
    (hp : p < n) (hq : q < n) {a b : α} (ha : xs[pos p]? = some a) (hb : xs[pos q]? = some b)
    (h : (ys = xs ∧ lt b a = false) ∨
      (lt a b = false ∧ ∀ k, ys[k]? = if k = pos q then some a else if k = pos p then some b else xs[k]?)) :
    ∀ t k, k < n → view lt pos ys t k = boolStep (view lt pos xs t) p q k := by
  intro t k hk
  have mono : ∀ x y : α, lt y x = false → (!lt x t) = true → (!lt y t) = true := by
    intro x y hxy hx
    simp only [Bool.not_eq_true'] at *
    exact sw.incomp _ _ _ hxy hx
  unfold boolStep
  rcases h with ⟨rfl, hba⟩ | ⟨hab, hy⟩
  · have := mono a b hba
    split
    · rename_i hkq; subst hkq
      rw [view_eq ha, view_eq hb]
      revert this; cases lt a t <;> cases lt b t <;> simp
    · split
      · rename_i hkp; subst hkp
        rw [view_eq ha, view_eq hb]
        revert this; cases lt a t <;> cases lt b t <;> simp
      · rfl
  · have hm := mono b a hab
    split
    · rename_i hkq; subst hkq
      rw [view_eq ha, view_eq hb]
      have : ys[pos k]? = some a := by rw [hy, if_pos rfl]
      rw [view_eq this]
      revert hm; cases lt a t <;> cases lt b t <;> simp
    · rename_i hkq
      have hne : pos k ≠ pos q := fun e => hkq (inj _ _ hk hq e)
      split
      · rename_i hkp; subst hkp
        rw [view_eq ha, view_eq hb]
        have : ys[pos k]? = some b := by rw [hy, if_neg hne, if_pos rfl]
        rw [view_eq this]
        revert hm; cases lt a t <;> cases lt b t <;> simp
      · rename_i hkp
        have hne' : pos k ≠ pos p := fun e => hkp (inj _ _ hk hp e)
        unfold view
        rw [hy, if_neg hne, if_neg hne']

theorem swapIf_view {lt : α → α → Bool} (sw : StrictWeak lt) {pos : Nat → Nat} {n first last : Nat}
    (inj : ∀ i j, i < n → j < n → pos i = pos j → i = j)
    (hpos : ∀ i, i < n → first ≤ pos i ∧ pos i < last) {xs : List α} (hlen : last ≤ xs.length)
    {p q : Nat} (hp : p < n) (hq : q < n) :
    ∃ ys, swapIf lt xs (pos p) (pos q) = pure ys ∧ RangePerm first last xs ys ∧
      ∀ t k, k < n → view lt pos ys t k = boolStep (view lt pos xs t) p q k := by
  have hpp := hpos p hp
  have hqq := hpos q hq
  obtain ⟨a, ha⟩ := getElem?_of_lt (xs := xs) (i := pos p) (by omega)
  obtain ⟨b, hb⟩ := getElem?_of_lt (xs := xs) (i := pos q) (by omega)
  unfold swapIf
  rw [rd_some ha, rd_some hb]
  simp only [pure_bind]
  by_cases h : lt a b
  · refine ⟨xs, by simp [h], RangePerm.refl _ _ _, ?_⟩
    exact cmp_view sw inj hp hq ha hb (Or.inl ⟨rfl, sw.asymm h⟩)
  · obtain ⟨ys, e, hperm, hk⟩ :=
      swapAt_rangePerm (first := first) (last := last) ha hb hpp.1 hpp.2 hqq.1 hqq.2
    refine ⟨ys, by simp [h, e], hperm, ?_⟩
    exact cmp_view sw inj hp hq ha hb (Or.inr ⟨by simpa using h, hk⟩)

theorem swapIf2_view {lt : α → α → Bool} (sw : StrictWeak lt) {pos : Nat → Nat} {n first last : Nat}
    (inj : ∀ i j, i < n → j < n → pos i = pos j → i = j)
    (hpos : ∀ i, i < n → first ≤ pos i ∧ pos i < last) {xs : List α} (hlen : last ≤ xs.length)
    {p q : Nat} (hp : p < n) (hq : q < n) (hpq : p ≠ q) :
    ∃ ys c, swapIf2 lt xs (pos p) (pos q) = pure (ys, c) ∧ RangePerm first last xs ys ∧
      ∀ t k, k < n → view lt pos ys t k = boolStep (view lt pos xs t) p q k := by
  have hpp := hpos p hp
  have hqq := hpos q hq
  have hne : pos p ≠ pos q := fun e => hpq (inj _ _ hp hq e)
  obtain ⟨a, ha⟩ := getElem?_of_lt (xs := xs) (i := pos p) (by omega)
  obtain ⟨b, hb⟩ := getElem?_of_lt (xs := xs) (i := pos q) (by omega)
  unfold swapIf2
  rw [rd_some ha, rd_some hb]
  simp only [pure_bind]
  by_cases h : lt b a
  · obtain ⟨ys, e, hperm, hk⟩ :=
      swapAt_rangePerm (first := first) (last := last) hb ha hqq.1 hqq.2 hpp.1 hpp.2
    refine ⟨ys, 1, by simp [h, e], hperm, ?_⟩
    refine cmp_view sw inj hp hq ha hb (Or.inr ⟨sw.asymm h, fun k => ?_⟩)
    rw [hk]
    by_cases h1 : k = pos p
    · subst h1; simp [hne]
    · simp [h1]
  · refine ⟨xs, 0, by simp [h], RangePerm.refl _ _ _, ?_⟩
    exact cmp_view sw inj hp hq ha hb (Or.inl ⟨rfl, by simpa using h⟩)

theorem boolNet_congr {n : Nat} {net : List (Nat × Nat)} (wf : WF n net) {v w : Nat → Bool}
    (h : ∀ k, k < n → v k = w k) : ∀ k, k < n → boolNet net v k = boolNet net w k := by
  induction net generalizing v w with
  | nil => exact h
  | cons c net ih =>
    obtain ⟨p, q⟩ := c
    have hc := wf (p, q) (by simp)
    refine ih (fun c hc => wf c (by simp [hc])) ?_
    intro k hk
    unfold boolStep
    rw [h p hc.1, h q hc.2.1, h k hk]

theorem runNet_view {lt : α → α → Bool} (sw : StrictWeak lt) {n first : Nat}
    {net : List (Nat × Nat)} (wf : WF n net) :
    ∀ xs : List α, first + n ≤ xs.length →
    ∃ ys, runNet lt first net xs = pure ys ∧ RangePerm first (first + n) xs ys ∧
      ∀ t k, k < n → view lt (first + ·) ys t k = boolNet net (view lt (first + ·) xs t) k := by
  induction net with
  | nil => intro xs _; exact ⟨xs, rfl, RangePerm.refl _ _ _, fun _ _ _ => rfl⟩
  | cons c net ih =>
    intro xs hlen
    obtain ⟨p, q⟩ := c
    have hc := wf (p, q) (by simp)
    have wf' : WF n net := fun c hc => wf c (by simp [hc])
    obtain ⟨ys, e, h1, h2⟩ := swapIf_view sw (pos := (first + ·)) (n := n) (first := first)
      (last := first + n) (by intros; omega) (by intros; omega) hlen hc.1 hc.2.1
    obtain ⟨zs, e', h3, h4⟩ := ih wf' ys (by rw [h1.length_eq]; exact hlen)
    refine ⟨zs, ?_, h1.trans h3, ?_⟩
    · simp only [runNet]
      simp only at e
      rw [e, pure_bind, e']
    · intro t k hk
      rw [h4 t k hk]
      exact boolNet_congr wf' (h2 t) k hk

theorem runNet2_view {lt : α → α → Bool} (sw : StrictWeak lt) {pos : Nat → Nat} {n first last : Nat}
    (inj : ∀ i j, i < n → j < n → pos i = pos j → i = j)
    (hpos : ∀ i, i < n → first ≤ pos i ∧ pos i < last) {net : List (Nat × Nat)} (wf : WF n net) :
    ∀ (xs : List α) (c : Nat), last ≤ xs.length →
    ∃ ys d, runNet2 lt pos net (xs, c) = pure (ys, d) ∧ RangePerm first last xs ys ∧
      ∀ t k, k < n → view lt pos ys t k = boolNet net (view lt pos xs t) k := by
  induction net with
  | nil => intro xs c _; exact ⟨xs, c, rfl, RangePerm.refl _ _ _, fun _ _ _ => rfl⟩
  | cons cc net ih =>
    intro xs c hlen
    obtain ⟨p, q⟩ := cc
    have hc := wf (p, q) (by simp)
    have wf' : WF n net := fun c hc => wf c (by simp [hc])
    obtain ⟨ys, k, e, h1, h2⟩ := swapIf2_view sw inj hpos hlen hc.1 hc.2.1 hc.2.2
    obtain ⟨zs, d, e', h3, h4⟩ := ih wf' ys (c + k) (by rw [h1.length_eq]; exact hlen)
    refine ⟨zs, d, ?_, h1.trans h3, ?_⟩
    · simp only [runNet2]
      rw [e, pure_bind, e']
    · intro t k hk
      rw [h4 t k hk]
      exact boolNet_congr wf' (h2 t) k hk

/-- If every view is sorted, the cells are sorted. -/
theorem sorted_of_views {lt : α → α → Bool} (sw : StrictWeak lt) {pos : Nat → Nat} {n : Nat}
    {xs : List α} (h : ∀ t, BoolSorted 0 n (view lt pos xs t)) :
    ∀ i j a b, i < j → j < n → xs[pos i]? = some a → xs[pos j]? = some b → lt b a = false := by
  intro i j a b hij hj ha hb
  have := h a i j (by omega) (by omega) (by omega) (by rw [view_eq ha, sw.irrefl]; rfl)
  rw [view_eq hb] at this
  simpa using this

/-! ### Checking Boolean networks with truth tables

Wire `k` is a natural number whose bit `x` is the value of the wire for input number `x`. -/

/-- One comparator on truth tables. (Specification, no line of the source.) -/
def tabStep (l : List Nat) (p q : Nat) : List Nat :=
  (l.set p (l.getD p 0 &&& l.getD q 0)).set q (l.getD p 0 ||| l.getD q 0)

/-- A network on truth tables. (Specification, no line of the source.) -/
def tabNet : List (Nat × Nat) → List Nat → List Nat
  | [], l => l
  | (p, q) :: net, l => tabNet net (tabStep l p q)

/-- Every wire implies the next one. (Specification, no line of the source.) -/
def tabSorted : List Nat → Bool
  | a :: b :: l => Nat.beq (a ||| b) b && tabSorted (b :: l)
  | _ => true

theorem tabNet_spec {n : Nat} {net : List (Nat × Nat)} (wf : WF n net) (x : Nat) :
    ∀ (l : List Nat) (v : Nat → Bool), l.length = n → (∀ k, k < n → (l.getD k 0).testBit x = v k) →
      (tabNet net l).length = n ∧
      ∀ k, k < n → ((tabNet net l).getD k 0).testBit x = boolNet net v k := by
  induction net with
  | nil => intro l v hl h; exact ⟨hl, h⟩
  | cons c net ih =>
    intro l v hl h
    obtain ⟨p, q⟩ := c
    have hc := wf (p, q) (by simp)
    have wf' : WF n net := fun c hc => wf c (by simp [hc])
    refine ih wf' (tabStep l p q) (boolStep v p q) (by simp [tabStep, hl]) ?_
    intro k hk
    unfold tabStep boolStep
    rw [List.getD_eq_getElem?_getD, List.getElem?_set, List.getElem?_set]
    by_cases h1 : k = q
    · subst h1
      simp [hl, hk, ← h p hc.1, ← h k hk]
    · by_cases h2 : k = p
      · subst h2
        simp [hl, hk, h1, Ne.symm h1, ← h q hc.2.1, ← h k hk]
      · simp [h1, h2, Ne.symm h1, Ne.symm h2, ← h k hk]

theorem tabSorted_spec : ∀ (l : List Nat), tabSorted l = true → ∀ x k, k + 1 < l.length →
    (l.getD k 0).testBit x = true → (l.getD (k + 1) 0).testBit x = true
  | [], _, x, k, hk, _ => by simp at hk
  | [a], _, x, k, hk, _ => by simp at hk
  | a :: b :: l, h, x, k, hk, hb => by
    simp only [tabSorted, Bool.and_eq_true, Nat.beq_eq] at h
    cases k with
    | zero =>
      simp only [List.getD_cons_zero, List.getD_cons_succ] at hb ⊢
      rw [← h.1, Nat.testBit_or, hb]; rfl
    | succ k =>
      simp only [List.getD_cons_succ] at hb ⊢
      have := tabSorted_spec (b :: l) h.2 x k (by simpa using hk)
      simp only [List.getD_cons_succ] at this
      exact this hb

/-- The truth table of input wire `i` of `n`. (Specification, no line of the source.) -/
def tt : Nat → Nat → Nat
  | 0, _ => 0
  | n + 1, i => if i = n then (2 ^ 2 ^ n - 1) <<< 2 ^ n else tt n i ||| tt n i <<< 2 ^ n

theorem tt_lt (n i : Nat) : tt n i < 2 ^ 2 ^ n := by
  induction n with
  | zero => simp [tt]
  | succ n ih =>
    have h2 : 2 ^ (n + 1) = 2 ^ n + 2 ^ n := by rw [Nat.pow_succ]; omega
    have hp : 0 < 2 ^ 2 ^ n := Nat.two_pow_pos _
    simp only [tt, Nat.shiftLeft_eq]
    split
    · rw [h2, Nat.pow_add]
      exact Nat.mul_lt_mul_of_pos_right (by omega) hp
    · apply Nat.or_lt_two_pow
      · exact Nat.lt_of_lt_of_le ih (Nat.pow_le_pow_right (by omega) (by rw [h2]; exact Nat.le_add_left _ _))
      · rw [h2, Nat.pow_add]
        exact Nat.mul_lt_mul_of_pos_right ih hp

theorem tt_testBit : ∀ (n i x : Nat), i < n → x < 2 ^ n → (tt n i).testBit x = x.testBit i := by
  intro n
  induction n with
  | zero => intro i x hi; omega
  | succ n ih =>
    intro i x hi hx
    have h2 : 2 ^ (n + 1) = 2 ^ n + 2 ^ n := by rw [Nat.pow_succ]; omega
    simp only [tt]
    by_cases hin : i = n
    · subst hin
      rw [if_pos rfl, Nat.testBit_shiftLeft, Nat.testBit_two_pow_sub_one]
      by_cases hxn : x < 2 ^ i
      · rw [Nat.testBit_lt_two_pow hxn]
        simp; omega
      · have : x = 2 ^ i + (x - 2 ^ i) := by omega
        rw [this, Nat.testBit_two_pow_add_eq, Nat.testBit_lt_two_pow (by omega)]
        simp; omega
    · rw [if_neg hin, Nat.testBit_or, Nat.testBit_shiftLeft]
      by_cases hxn : x < 2 ^ n
      · rw [ih i x (by omega) hxn]
        have : ¬ x ≥ 2 ^ n := by omega
        simp [this]
      · have e : (tt n i).testBit x = false :=
          Nat.testBit_lt_two_pow (Nat.lt_of_lt_of_le (tt_lt n i)
            (Nat.pow_le_pow_right (by omega) (by omega)))
        rw [e, ih i (x - 2 ^ n) (by omega) (by omega)]
        have : x = 2 ^ n + (x - 2 ^ n) := by omega
        conv => rhs; rw [this]
        rw [Nat.testBit_two_pow_add_gt (by omega)]
        have : x ≥ 2 ^ n := by omega
        simp [this]

theorem encode (n : Nat) (v : Nat → Bool) : ∃ x, x < 2 ^ n ∧ ∀ i, i < n → x.testBit i = v i := by
  induction n with
  | zero => exact ⟨0, by simp, by intros; omega⟩
  | succ n ih =>
    obtain ⟨x, hx, h⟩ := ih
    have h2 : 2 ^ (n + 1) = 2 ^ n + 2 ^ n := by rw [Nat.pow_succ]; omega
    cases hv : v n
    · refine ⟨x, by omega, fun i hi => ?_⟩
      by_cases hin : i = n
      · subst hin; rw [hv, Nat.testBit_lt_two_pow hx]
      · exact h i (by omega)
    · refine ⟨2 ^ n + x, by omega, fun i hi => ?_⟩
      by_cases hin : i = n
      · subst hin; rw [hv, Nat.testBit_two_pow_add_eq, Nat.testBit_lt_two_pow hx]; rfl
      · rw [Nat.testBit_two_pow_add_gt (by omega)]; exact h i (by omega)

/-- A network whose truth tables come out sorted sorts every Boolean input. -/
theorem boolSorts_of_tab {n : Nat} {net : List (Nat × Nat)} (wf : WF n net)
    (h : tabSorted (tabNet net ((List.range n).map (tt n))) = true) (v : Nat → Bool) :
    BoolSorted 0 n (boolNet net v) := by
  obtain ⟨x, hx, hv⟩ := encode n v
  obtain ⟨hl, hs⟩ := tabNet_spec wf x ((List.range n).map (tt n)) v (by simp) (by
    intro k hk
    simp [List.getD_eq_getElem?_getD, hk, tt_testBit n k x hk hx, hv k hk])
  apply BoolSorted.of_adjacent
  intro k _ hk hvk
  rw [← hs k (by omega)] at hvk
  rw [← hs (k + 1) (by omega)]
  exact tabSorted_spec _ h x k (by omega) hvk

theorem net3_sorts (v : Nat → Bool) : BoolSorted 0 3 (boolNet net3 v) :=
  boolSorts_of_tab (by decide) (by decide +kernel) v
theorem net4_sorts (v : Nat → Bool) : BoolSorted 0 4 (boolNet net4 v) :=
  boolSorts_of_tab (by decide) (by decide +kernel) v
theorem net5_sorts (v : Nat → Bool) : BoolSorted 0 5 (boolNet net5 v) :=
  boolSorts_of_tab (by decide) (by decide +kernel) v
theorem net6_sorts (v : Nat → Bool) : BoolSorted 0 6 (boolNet net6 v) :=
  boolSorts_of_tab (by decide) (by decide +kernel) v
theorem net7_sorts (v : Nat → Bool) : BoolSorted 0 7 (boolNet net7 v) :=
  boolSorts_of_tab (by decide) (by decide +kernel) v
theorem net8_sorts (v : Nat → Bool) : BoolSorted 0 8 (boolNet net8 v) :=
  boolSorts_of_tab (by decide) (by decide +kernel) v
theorem net16_sorts (v : Nat → Bool) : BoolSorted 0 16 (boolNet net16 v) :=
  boolSorts_of_tab (by decide +kernel) (by decide +kernel) v
theorem net32Low_sorts (v : Nat → Bool) : BoolSorted 0 16 (boolNet net32Low v) :=
  boolSorts_of_tab (by decide +kernel) (by decide +kernel) v

/-! ### The 32-element network: two 16-element networks and a merge -/

theorem boolNet_shift (d : Nat) (net : List (Nat × Nat)) (v : Nat → Bool) :
    (∀ k, boolNet (net.map (fun c => (c.1 + d, c.2 + d))) v (k + d) = boolNet net (fun k => v (k + d)) k) ∧
    ∀ k, k < d → boolNet (net.map (fun c => (c.1 + d, c.2 + d))) v k = v k := by
  induction net generalizing v with
  | nil => exact ⟨fun _ => rfl, fun _ _ => rfl⟩
  | cons c net ih =>
    obtain ⟨p, q⟩ := c
    have hs : (fun k => boolStep v (p + d) (q + d) (k + d)) = boolStep (fun k => v (k + d)) p q := by
      funext k
      unfold boolStep
      simp
    constructor
    · intro k
      simp only [List.map_cons, boolNet]
      rw [(ih _).1, hs]
    · intro k hk
      simp only [List.map_cons, boolNet]
      rw [(ih _).2 k hk]
      unfold boolStep
      rw [if_neg (by omega), if_neg (by omega)]

/-- A table with bit `x` equal to `f x` for `x < N`. (Specification, no line of the source.) -/
def mkTab (f : Nat → Bool) : Nat → Nat
  | 0 => 0
  | N + 1 => mkTab f N ||| (if f N then 2 ^ N else 0)

theorem mkTab_testBit (f : Nat → Bool) : ∀ (N x : Nat), (mkTab f N).testBit x = (decide (x < N) && f x) := by
  intro N
  induction N with
  | zero => intro x; simp [mkTab]
  | succ N ih =>
    intro x
    simp only [mkTab, Nat.testBit_or, ih]
    have h : (if f N then 2 ^ N else 0 : Nat).testBit x = (decide (N = x) && f N) := by
      split
      · rename_i h; rw [Nat.testBit_two_pow, h]; simp
      · rename_i h; simp [h]
    rw [h]
    by_cases h1 : x < N
    · have h2 : ¬ N = x := by omega
      have h3 : x < N + 1 := by omega
      simp [h1, h2, h3]
    · by_cases h2 : N = x
      · subst h2; simp
      · have h3 : ¬ x < N + 1 := by omega
        simp [h1, h2, h3]

/-- Input number `17*a+b` of the merge has `a` set wires at the end of the first half and `b` at
the end of the second. (Specification, no line of the source.) -/
def mergeIn (k x : Nat) : Bool :=
  if k < 16 then decide (16 ≤ k + x / 17) else decide (32 ≤ k + x % 17)

theorem sorted_count {lo n : Nat} {v : Nat → Bool} (h : BoolSorted lo n v) :
    ∃ a, a ≤ n ∧ ∀ k, lo ≤ k → k < lo + n → v k = decide (lo + n ≤ k + a) := by
  induction n with
  | zero => exact ⟨0, Nat.le_refl _, by intros; omega⟩
  | succ n ih =>
    cases hv : v (lo + n)
    · refine ⟨0, by omega, fun k h1 h2 => ?_⟩
      have : ¬ lo + (n + 1) ≤ k + 0 := by omega
      simp only [this, decide_false]
      cases hk : v k
      · rfl
      · have := h k (lo + n) h1 (by omega) (by omega) hk
        rw [hv] at this; cases this
    · obtain ⟨a, ha, hk⟩ := ih (fun i j h1 h2 h3 => h i j h1 h2 (by omega))
      refine ⟨a + 1, by omega, fun k h1 h2 => ?_⟩
      by_cases he : k = lo + n
      · subst he; rw [hv]; simp; omega
      · rw [hk k h1 (by omega)]
        congr 1
        simp only [eq_iff_iff]
        omega

theorem net32Merge_sorts (v : Nat → Bool) (h1 : BoolSorted 0 16 v) (h2 : BoolSorted 16 16 v) :
    BoolSorted 0 32 (boolNet net32Merge v) := by
  have wf : WF 32 net32Merge := by decide +kernel
  have hc : tabSorted (tabNet net32Merge ((List.range 32).map (fun k => mkTab (mergeIn k) 289))) = true := by
    decide +kernel
  obtain ⟨a, ha, hva⟩ := sorted_count h1
  obtain ⟨b, hb, hvb⟩ := sorted_count h2
  obtain ⟨hl, hs⟩ := tabNet_spec wf (17 * a + b)
    ((List.range 32).map (fun k => mkTab (mergeIn k) 289)) v (by simp) (by
      intro k hk
      have hx : 17 * a + b < 289 := by omega
      have e1 : (17 * a + b) / 17 = a := by omega
      have e2 : (17 * a + b) % 17 = b := by omega
      simp only [List.getD_eq_getElem?_getD, List.getElem?_map, List.getElem?_range hk, Option.map_some,
        Option.getD_some, mkTab_testBit, hx, decide_true, Bool.true_and, mergeIn, e1, e2]
      split
      · rw [hva k (by omega) (by omega)]
      · rw [hvb k (by omega) (by omega)])
  apply BoolSorted.of_adjacent
  intro k _ hk hvk
  rw [← hs k (by omega)] at hvk
  rw [← hs (k + 1) (by omega)]
  exact tabSorted_spec _ hc _ k (by omega) hvk

theorem net32_sorts (v : Nat → Bool) : BoolSorted 0 32 (boolNet net32 v) := by
  have hhigh : net32High = net32Low.map (fun c => (c.1 + 16, c.2 + 16)) := by decide +kernel
  unfold net32
  rw [boolNet_append, boolNet_append]
  have hlow := net32Low_sorts v
  have wfl : WF 16 net32Low := by decide +kernel
  generalize boolNet net32Low v = w at *
  obtain ⟨s1, s2⟩ := boolNet_shift 16 net32Low w
  rw [← hhigh] at s1 s2
  apply net32Merge_sorts
  · intro i j h1 h2 h3 hi
    rw [s2 i (by omega)] at hi
    rw [s2 j (by omega)]
    exact hlow i j h1 h2 (by omega) hi
  · intro i j h1 h2 h3 hi
    have ei : i = (i - 16) + 16 := by omega
    have ej : j = (j - 16) + 16 := by omega
    rw [ei, s1] at hi
    rw [ej, s1]
    exact net32Low_sorts _ (i - 16) (j - 16) (by omega) (by omega) (by omega) hi

/-! ### The network sorts -/

/-- What a sorting function leaves behind. (Specification, no line of the source.) -/
structure SortedFrom (lt : α → α → Bool) (first last : Nat) (xs ys : List α) : Prop where
  rangePerm : RangePerm first last xs ys
  sorted : SortedRange lt ys first last

theorem runNet_sorts {lt : α → α → Bool} (sw : StrictWeak lt) {n first : Nat}
    {net : List (Nat × Nat)} (wf : WF n net) (hs : ∀ v, BoolSorted 0 n (boolNet net v))
    (xs : List α) (hlen : first + n ≤ xs.length) :
    ∃ ys, runNet lt first net xs = pure ys ∧ SortedFrom lt first (first + n) xs ys := by
  obtain ⟨ys, e, h1, h2⟩ := runNet_view sw (first := first) wf xs hlen
  refine ⟨ys, e, h1, ?_⟩
  have hv : ∀ t, BoolSorted 0 n (view lt (first + ·) ys t) := by
    intro t i j hi hij hj hvi
    rw [h2 t i (by omega)] at hvi
    rw [h2 t j (by omega)]
    exact hs _ i j hi hij hj hvi
  intro i j a b hi hij hj ha hb
  have ei : first + (i - first) = i := by omega
  have ej : first + (j - first) = j := by omega
  exact sorted_of_views sw hv (i - first) (j - first) a b (by omega) (by omega)
    (by simpa only [ei] using ha) (by simpa only [ej] using hb)

/-- **C02**: every fixed-size sort leaves its elements a sorted rearrangement and touches
nothing else. -/
theorem C02_networks {lt : α → α → Bool} (sw : StrictWeak lt) (first : Nat) (xs : List α) :
    ∀ nn ∈ [(3, net3), (4, net4), (5, net5), (6, net6), (7, net7), (8, net8), (16, net16), (32, net32)],
      first + nn.1 ≤ xs.length →
      ∃ ys, runNet lt first nn.2 xs = pure ys ∧ ys.length = xs.length ∧
        (∀ k, k < first ∨ first + nn.1 ≤ k → ys[k]? = xs[k]?) ∧
        (slice ys first (first + nn.1)).Perm (slice xs first (first + nn.1)) ∧
        SortedRange lt ys first (first + nn.1) := by
  have key : ∀ n net, WF n net → (∀ v, BoolSorted 0 n (boolNet net v)) → first + n ≤ xs.length →
      ∃ ys, runNet lt first net xs = pure ys ∧ ys.length = xs.length ∧
        (∀ k, k < first ∨ first + n ≤ k → ys[k]? = xs[k]?) ∧
        (slice ys first (first + n)).Perm (slice xs first (first + n)) ∧
        SortedRange lt ys first (first + n) := by
    intro n net wf hs hlen
    obtain ⟨ys, e, h1, h2⟩ := runNet_sorts sw wf hs xs hlen
    exact ⟨ys, e, h1.length_eq, h1.outside, h1.slice_perm (by omega), h2⟩
  intro nn hnn
  simp only [List.mem_cons, List.not_mem_nil, or_false] at hnn
  rcases hnn with rfl | rfl | rfl | rfl | rfl | rfl | rfl | rfl
  · exact key 3 net3 (by decide) net3_sorts
  · exact key 4 net4 (by decide) net4_sorts
  · exact key 5 net5 (by decide) net5_sorts
  · exact key 6 net6 (by decide) net6_sorts
  · exact key 7 net7 (by decide) net7_sorts
  · exact key 8 net8 (by decide) net8_sorts
  · exact key 16 net16 (by decide +kernel) net16_sorts
  · exact key 32 net32 (by decide +kernel) net32_sorts

/-- Three elements with two equivalent ones (ordered by the first component), inside a larger block. -/
example : ∃ ys, runNet (fun a b : Nat × Nat => decide (a.1 < b.1)) 1 net3
      [(9, 9), (2, 1), (1, 0), (2, 0), (0, 0)] = pure ys ∧
    SortedRange (fun a b : Nat × Nat => decide (a.1 < b.1)) ys 1 4 := by
  obtain ⟨ys, h, _, _, _, hs⟩ := C02_networks (strictWeak_nat.comap Prod.fst) 1
    [(9, 9), (2, 1), (1, 0), (2, 0), (0, 0)] (3, net3) (by simp) (by decide)
  exact ⟨ys, h, hs⟩

end Verif.Sort
