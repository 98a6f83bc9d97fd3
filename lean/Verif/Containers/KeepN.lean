import Verif.Base
import Mathlib.Data.List.Induction
import Mathlib.Data.List.TakeWhile

/-
`daw::keep_n`, include/daw/daw_keep_n.h.
-/

namespace Verif.Containers.KeepN
open Cxx
variable {α : Type}

/-- `keep_n_order`, daw_keep_n.h 20. -/
inductive Order where
  | ascending
  | descending
  deriving DecidableEq

/-- `keep_n_pred::operator( )`, daw_keep_n.h 35-51. -/
def pred (o : Order) (func : α → α → Bool) (a b : α) : Bool :=
  match o with
  | .ascending => func a b
  | .descending => !func a b

/-- The constructor, daw_keep_n.h 76-81. -/
def make (n : Nat) (d : α) : List α := List.replicate n d

/-- The loop that makes room, daw_keep_n.h 86-88 and 98-100: `k` is `m - n`. -/
def shiftLoop (n : Nat) : Nat → List α → Cxx (List α)
  | 0, s => pure s
  | k + 1, s => do
    let x ← rd s (n + k)
    let s ← wr s (n + (k + 1)) x
    shiftLoop n k s

/-- The loop of `insert`, daw_keep_n.h 84-92 and 96-104; `k` is the number of places left to look at. -/
def insertLoop (lt : α → α → Bool) (v : α) : Nat → Nat → List α → Cxx (List α)
  | 0, _, s => pure s
  | k + 1, n, s => do
    let x ← rd s n
    if lt v x then do
      let s ← shiftLoop n (s.length - 1 - n) s
      wr s n v
    else insertLoop lt v k (n + 1) s

/-- `insert`, daw_keep_n.h 83-105. -/
def insert (o : Order) (func : α → α → Bool) (s : List α) (v : α) : Cxx (List α) := insertLoop (pred o func) v s.length 0 s

/-- Inserting values one after the other. (Specification, no line of the source.) -/
def insertAll (o : Order) (func : α → α → Bool) : List α → List α → Cxx (List α)
  | s, [] => pure s
  | s, v :: vs => do
    let s ← insert o func s v
    insertAll o func s vs

/-- The order the values are kept in: `a` may stand before `b`. (Specification, no line of the source.) -/
def Before (o : Order) (func : α → α → Bool) (a b : α) : Prop :=
  match o with
  | .ascending => func b a = false
  | .descending => func a b = false

/-! ### Correctness -/

theorem shiftLoop_eq (b : List α) : ∀ (a : List α) (x z : α) (r : List α),
    shiftLoop a.length (b.length + 1) (a ++ x :: (b ++ z :: r)) = pure (a ++ x :: x :: (b ++ r)) := by
  induction b using List.reverseRecOn with
  | nil =>
    intro a x z r
    have e1 : rd (a ++ x :: z :: r) a.length = pure x := rd_some (by simp)
    simp only [List.length_nil, List.nil_append, shiftLoop, Nat.zero_add, Nat.add_zero]
    rw [e1]
    simp only [pure_bind]
    rw [wr_eq (by simp)]
    simp
  | append_singleton b y ih =>
    intro a x z r
    have e1 : rd (a ++ x :: (b ++ [y] ++ z :: r)) (a.length + (b.length + 1)) = pure y := rd_some (by
      rw [List.getElem?_append_right (by omega), show a.length + (b.length + 1) - a.length = b.length + 1 by omega]
      simp)
    rw [List.length_append, List.length_singleton, shiftLoop, e1]
    simp only [pure_bind]
    rw [wr_eq (by simp)]
    simp only [pure_bind]
    have e2 : (a ++ x :: (b ++ [y] ++ z :: r)).set (a.length + (b.length + 1 + 1)) y = a ++ x :: (b ++ y :: (y :: r)) := by
      rw [List.set_append_right _ _ (by omega), show a.length + (b.length + 1 + 1) - a.length = b.length + 1 + 1 by omega,
        List.set_cons_succ, List.append_assoc, List.set_append_right _ _ (by omega), show b.length + 1 - b.length = 1 by omega]
      rfl
    rw [e2, ih a x y (y :: r)]
    simp

/-- What one insertion does: the value goes before the first element it is to stand before, and the last element is dropped. -/
theorem insertLoop_eq (lt : α → α → Bool) (v : α) (b : List α) : ∀ (a : List α),
    insertLoop lt v b.length a.length (a ++ b) = pure (a ++ (b.takeWhile (fun x => !lt v x) ++
      (match b.dropWhile (fun x => !lt v x) with
        | [] => []
        | y :: ys => v :: (y :: ys).dropLast))) := by
  induction b with
  | nil => intro a; simp [insertLoop]
  | cons x b ih =>
    intro a
    have e1 : rd (a ++ x :: b) a.length = pure x := rd_some (by simp)
    rw [List.length_cons, insertLoop, e1]
    simp only [pure_bind]
    by_cases h : lt v x = true
    · rw [if_pos h, List.takeWhile_cons_of_neg (by simp [h]), List.dropWhile_cons_of_neg (by simp [h]), List.nil_append]
      simp only [List.length_append, List.length_cons, show a.length + (b.length + 1) - 1 - a.length = b.length by omega]
      rcases List.eq_nil_or_concat b with rfl | ⟨b', z, rfl⟩
      · simp only [List.length_nil, shiftLoop, pure_bind]
        rw [wr_eq (by simp)]
        simp
      · have := shiftLoop_eq b' a x z []
        simp only [List.concat_eq_append, List.length_append, List.length_singleton, List.append_nil] at this ⊢
        rw [this]
        simp only [pure_bind]
        rw [wr_eq (by simp)]
        rw [List.dropLast_cons_of_ne_nil (by simp), List.dropLast_concat]
        simp
    · have h' : lt v x = false := by simpa using h
      rw [if_neg h, List.takeWhile_cons_of_pos (by simp [h']), List.dropWhile_cons_of_pos (by simp [h'])]
      have := ih (a ++ [x])
      rw [List.length_append, List.length_singleton] at this
      rw [show a ++ x :: b = a ++ [x] ++ b by simp, this]
      simp

theorem before_trans {o : Order} {func : α → α → Bool} (h : StrictWeak func) {a b c : α} (h1 : Before o func a b)
    (h2 : Before o func b c) : Before o func a c := by
  cases o with
  | ascending => exact h.le_trans h1 h2
  | descending => exact h.le_trans h2 h1

theorem pred_true {o : Order} {func : α → α → Bool} (h : StrictWeak func) {a b : α} (hp : pred o func a b = true) :
    Before o func a b := by
  cases o with
  | ascending => exact h.le_of_lt hp
  | descending => simpa [pred, Before] using hp

theorem pred_false {o : Order} {func : α → α → Bool} (h : StrictWeak func) {a b : α} (hp : pred o func a b = false) :
    Before o func b a := by
  cases o with
  | ascending => exact hp
  | descending =>
    show func b a = false
    have : func a b = true := by simpa [pred] using hp
    exact h.le_of_lt this

/-- One insertion keeps the order and drops one value that may stand after all those kept. -/
theorem insert_ok (o : Order) {func : α → α → Bool} (h : StrictWeak func) (s : List α) (hs : s.Pairwise (Before o func)) (v : α)
    (hne : s ≠ []) :
    ∃ s' x, insert o func s v = pure s' ∧ s'.length = s.length ∧ s'.Pairwise (Before o func) ∧ (s' ++ [x]).Perm (v :: s) ∧
      (∀ y ∈ s', Before o func y x) ∧ ∀ b, (∀ y ∈ s, Before o func y b) → ∀ y ∈ s', Before o func y b := by
  have e := insertLoop_eq (pred o func) v s []
  simp only [List.nil_append, List.length_nil] at e
  unfold insert
  rw [e]
  have hsplit := List.takeWhile_append_dropWhile (p := fun x => !pred o func v x) (l := s)
  generalize ht : s.takeWhile (fun x => !pred o func v x) = t at *
  have hta : ∀ y ∈ t, Before o func y v := by
    intro y hy
    rw [← ht] at hy
    have := List.mem_takeWhile_imp hy
    exact pred_false h (by simpa using this)
  cases hd : s.dropWhile (fun x => !pred o func v x) with
  | nil =>
    rw [hd, List.append_nil] at hsplit
    subst hsplit
    refine ⟨t, v, by simp, rfl, hs, ?_, hta, fun b hb => hb⟩
    exact List.perm_append_comm
  | cons y ys =>
    rw [hd] at hsplit
    have hy : pred o func v y = true := by
      have := List.head_dropWhile_not (fun x => !pred o func v x) (l := s) (by rw [hd]; simp)
      simp only [hd, List.head_cons] at this
      simpa using this
    have hvy := pred_true h hy
    have hpw := hs
    rw [← hsplit, List.pairwise_append] at hpw
    obtain ⟨hp1, hp2, hp3⟩ := hpw
    have hva : ∀ z ∈ y :: ys, Before o func v z := by
      intro z hz
      rcases List.mem_cons.1 hz with rfl | hz
      · exact hvy
      · exact before_trans h hvy ((List.pairwise_cons.1 hp2).1 z hz)
    obtain ⟨zs, x, hzx⟩ : ∃ zs x, y :: ys = zs ++ [x] := by
      rcases List.eq_nil_or_concat (y :: ys) with hc | ⟨zs, x, hc⟩
      · cases hc
      · exact ⟨zs, x, by rw [hc, List.concat_eq_append]⟩
    refine ⟨t ++ v :: zs, x, ?_, ?_, ?_, ?_, ?_, ?_⟩
    · simp only
      rw [hzx, List.dropLast_concat]
    · rw [← hsplit, hzx]
      simp
    · rw [List.pairwise_append]
      refine ⟨hp1, ?_, ?_⟩
      · rw [List.pairwise_cons]
        refine ⟨fun z hz => hva z (by rw [hzx]; simp [hz]), ?_⟩
        rw [hzx, List.pairwise_append] at hp2
        exact hp2.1
      · intro a ha b hb
        rcases List.mem_cons.1 hb with rfl | hb
        · exact hta a ha
        · exact hp3 a ha b (by rw [hzx]; simp [hb])
    · rw [← hsplit, hzx]
      have : t ++ v :: zs ++ [x] = t ++ v :: (zs ++ [x]) := by simp
      rw [this]
      exact List.perm_middle
    · intro z hz
      rcases List.mem_append.1 hz with hz | hz
      · exact hp3 z hz x (by rw [hzx]; simp)
      · rcases List.mem_cons.1 hz with rfl | hz
        · exact hva x (by rw [hzx]; simp)
        · rw [hzx, List.pairwise_append] at hp2
          exact hp2.2.2 z hz x (by simp)
    · intro b hb z hz
      rcases List.mem_append.1 hz with hz | hz
      · exact hb z (by rw [← hsplit]; exact List.mem_append_left _ hz)
      · rcases List.mem_cons.1 hz with rfl | hz
        · exact before_trans h hvy (hb y (by rw [← hsplit]; simp))
        · exact hb z (by rw [← hsplit, hzx]; simp [hz])

/-- C47: after any values were inserted the object holds as many elements as it has places, in order; together with those
dropped they are the values inserted and the copies of the default value it began with, and each one kept may stand before each
one dropped. -/
theorem C47_keep (o : Order) {func : α → α → Bool} (h : StrictWeak func) (n : Nat) (d : α) (vs : List α) :
    ∃ s dropped, insertAll o func (make n d) vs = pure s ∧ s.length = n ∧ s.Pairwise (Before o func) ∧
      (s ++ dropped).Perm (List.replicate n d ++ vs) ∧ ∀ x ∈ s, ∀ y ∈ dropped, Before o func x y := by
  have key : ∀ (vs s : List α), s.Pairwise (Before o func) → ∃ s' dropped, insertAll o func s vs = pure s' ∧ s'.length = s.length ∧
      s'.Pairwise (Before o func) ∧ (s' ++ dropped).Perm (s ++ vs) ∧ (∀ x ∈ s', ∀ y ∈ dropped, Before o func x y) ∧
      ∀ b, (∀ y ∈ s, Before o func y b) → ∀ y ∈ s', Before o func y b := by
    intro vs
    induction vs with
    | nil => intro s hs; exact ⟨s, [], rfl, rfl, hs, List.Perm.refl _, fun _ _ _ hy => (by cases hy), fun b hb => hb⟩
    | cons v vs ih =>
      intro s hs
      by_cases hne : s = []
      · subst hne
        obtain ⟨s', dr, e, hl, hp, hperm, hb, _⟩ := ih [] List.Pairwise.nil
        have hnil : s' = [] := List.length_eq_zero_iff.1 hl
        subst hnil
        refine ⟨[], v :: dr, ?_, rfl, List.Pairwise.nil, ?_, fun _ hx => (by cases hx), fun _ _ _ hx => (by cases hx)⟩
        · simp only [insertAll]
          rw [show insert o func [] v = pure [] from rfl]
          exact e
        · simpa using hperm
      · obtain ⟨s1, x, e1, hl1, hp1, hperm1, hb1, hk1⟩ := insert_ok o h s hs v hne
        obtain ⟨s', dr, e, hl, hp, hperm, hb, hk⟩ := ih s1 hp1
        refine ⟨s', x :: dr, ?_, hl.trans hl1, hp, ?_, ?_, fun b hb => hk b (hk1 b hb)⟩
        · simp only [insertAll]
          rw [e1]
          exact e
        · have h1 : (s' ++ x :: dr).Perm (x :: (s' ++ dr)) := List.perm_middle
          refine h1.trans ((hperm.cons x).trans ?_)
          have h2 : (x :: (s1 ++ vs)).Perm ((s1 ++ [x]) ++ vs) := by
            rw [List.append_assoc]
            exact List.perm_middle.symm
          refine h2.trans ((hperm1.append_right vs).trans ?_)
          rw [List.cons_append]
          exact List.perm_middle.symm
        · intro a ha y hy
          rcases List.mem_cons.1 hy with rfl | hy
          · exact hk y hb1 a ha
          · exact hb a ha y hy
  obtain ⟨s, dr, e, hl, hp, hperm, hb, _⟩ := key vs (make n d) (by
    unfold make
    rw [List.pairwise_replicate]
    right
    cases o <;> exact h.irrefl d)
  exact ⟨s, dr, e, hl.trans (by simp [make]), hp, hperm, hb⟩

/-- Three values pass an object that keeps the two least, respectively greatest. -/
example : insertAll .ascending (fun a b : Nat => decide (a < b)) (make 2 9) [5, 3, 4] = pure [3, 4] ∧
    insertAll .descending (fun a b : Nat => decide (a < b)) (make 2 0) [5, 3, 4] = pure [5, 4] := ⟨rfl, rfl⟩

/-- C47, values seen, as far as it holds: if at least as many values were inserted as there are places, and all of them are to
stand strictly before the default value, then exactly values inserted are kept, and the default value plays no role.  Missing:
other default values and fewer insertions, see `C47_default_violated`. -/
theorem C47_best_partial (o : Order) {func : α → α → Bool} (h : StrictWeak func) (n : Nat) (d : α) (vs : List α)
    (hn : n ≤ vs.length) (hd : ∀ v ∈ vs, ¬ Before o func d v) :
    ∃ s dropped, insertAll o func (make n d) vs = pure s ∧ s.length = n ∧ s.Pairwise (Before o func) ∧ (s ++ dropped).Perm vs ∧
      ∀ x ∈ s, ∀ y ∈ dropped, Before o func x y := by
  classical
  obtain ⟨s, dr, e, hl, hp, hperm, hb⟩ := C47_keep o h n d vs
  -- no copy of the default value is kept
  have hdv : d ∉ vs := fun hc => hd d hc (by cases o <;> exact h.irrefl d)
  have hcnt : (s ++ dr).count d = n := by
    rw [hperm.count_eq, List.count_append, List.count_replicate_self, List.count_eq_zero_of_not_mem hdv, Nat.add_zero]
  have hnot : d ∉ s := by
    intro hc
    -- then no value inserted was dropped
    have hall : ∀ y ∈ dr, y = d := by
      intro y hy
      have hm : y ∈ List.replicate n d ++ vs := (hperm.mem_iff).1 (List.mem_append_right _ hy)
      rcases List.mem_append.1 hm with hm | hm
      · exact List.eq_of_mem_replicate hm
      · exact absurd (hb d hc y hy) (hd y hm)
    have h1 : dr.count d = dr.length := List.count_eq_length.2 (fun y hy => (hall y hy).symm)
    have h2 : (s ++ dr).length = n + vs.length := by rw [hperm.length_eq]; simp
    rw [List.length_append, hl] at h2
    rw [List.count_append, h1] at hcnt
    have h3 : 0 < s.count d := List.count_pos_iff.2 hc
    omega
  refine ⟨s, dr.filter (fun y => decide (y ≠ d)), e, hl, hp, ?_, fun x hx y hy => hb x hx y (List.mem_filter.1 hy).1⟩
  have hf := hperm.filter (fun y => decide (y ≠ d))
  rw [List.filter_append, List.filter_append] at hf
  have f1 : s.filter (fun y => decide (y ≠ d)) = s := List.filter_eq_self.2 (fun y hy => by
    simp only [decide_eq_true_eq]
    rintro rfl
    exact hnot hy)
  have f2 : vs.filter (fun y => decide (y ≠ d)) = vs := List.filter_eq_self.2 (fun y hy => by
    simp only [decide_eq_true_eq]
    rintro rfl
    exact hdv hy)
  have f3 : (List.replicate n d).filter (fun y => decide (y ≠ d)) = [] := List.filter_eq_nil_iff.2 (fun y hy => by
    rw [List.eq_of_mem_replicate hy]
    simp)
  rw [f1, f2, f3, List.nil_append] at hf
  exact hf

example : StrictWeak (fun a b : Nat => decide (a < b)) ∧ ∀ v ∈ [5, 3, 4], ¬ Before .ascending (fun a b : Nat => decide (a < b)) 9 v := by
  refine ⟨strictWeak_nat, ?_⟩
  simp [Before]

/-- C47 does not hold for every default value: with zero as default, no value is ever kept in ascending order. -/
theorem C47_default_violated (vs : List Nat) :
    insertAll .ascending (fun a b : Nat => decide (a < b)) (make 3 0) vs = pure [0, 0, 0] := by
  induction vs with
  | nil => rfl
  | cons v vs ih =>
    simp only [insertAll]
    have : insert .ascending (fun a b : Nat => decide (a < b)) (make 3 0) v = pure [0, 0, 0] := by
      simp [insert, insertLoop, make, pred, rd]
    rw [this]
    exact ih

end Verif.Containers.KeepN
