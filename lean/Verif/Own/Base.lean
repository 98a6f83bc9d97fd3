import Verif.Containers.Lists

/-
Sums over the variables of a program, for the conservation laws of the owning types.
-/

namespace Verif.Own
open Cxx

/-- The sum of `f` over `l`. (Specification, no line of the source.) -/
def tot {α : Type} (f : α → Nat) (l : List α) : Nat := (l.map f).sum

theorem tot_nil {α : Type} (f : α → Nat) : tot f [] = 0 := rfl

theorem tot_cons {α : Type} (f : α → Nat) (a : α) (l : List α) : tot f (a :: l) = f a + tot f l := by
  unfold tot; rw [List.map_cons, List.sum_cons]

theorem tot_append {α : Type} (f : α → Nat) (l m : List α) : tot f (l ++ m) = tot f l + tot f m := by
  induction l with
  | nil => rw [List.nil_append, tot_nil, Nat.zero_add]
  | cons a l ih => rw [List.cons_append, tot_cons, tot_cons, ih]; omega

theorem tot_snoc {α : Type} (f : α → Nat) (l : List α) (a : α) : tot f (l ++ [a]) = tot f l + f a := by
  rw [tot_append, tot_cons, tot_nil]; omega

theorem tot_set {α : Type} (f : α → Nat) (l : List α) (i : Nat) (a b : α) (h : l[i]? = some a) :
    tot f (l.set i b) + f a = tot f l + f b := by
  induction l generalizing i with
  | nil => simp at h
  | cons c l ih =>
    cases i with
    | zero =>
      rw [List.getElem?_cons_zero] at h
      injection h with h
      rw [List.set_cons_zero, tot_cons, tot_cons, h]; omega
    | succ i =>
      rw [List.getElem?_cons_succ] at h
      rw [List.set_cons_succ, tot_cons, tot_cons]
      have := ih i h
      omega

theorem tot_eq_zero {α : Type} (f : α → Nat) (l : List α) (h : ∀ a ∈ l, f a = 0) : tot f l = 0 := by
  induction l with
  | nil => rfl
  | cons a l ih =>
    rw [tot_cons, h a List.mem_cons_self, ih (fun b hb => h b (List.mem_cons_of_mem _ hb))]

theorem le_tot {α : Type} (f : α → Nat) (l : List α) (a : α) (h : a ∈ l) : f a ≤ tot f l := by
  induction l with
  | nil => simp at h
  | cons b l ih =>
    rw [tot_cons]
    rcases List.mem_cons.1 h with e | e
    · rw [e]; omega
    · have := ih e; omega

/-- One if the two are equal. (Specification, no line of the source.) -/
def ind (a b : Int) : Nat := if a = b then 1 else 0

theorem ind_self (a : Int) : ind a a = 1 := if_pos rfl
theorem ind_ne {a b : Int} (h : a ≠ b) : ind a b = 0 := if_neg h

/-- The live variable `i`; using a variable outside its lifetime is undefined.
(Rule of C++ or its library, no line of the source.) -/
def live {α : Type} (vars : List (Option α)) (i : Nat) : Cxx α := do
  match ← rd vars i with
  | none => ub
  | some a => pure a

theorem live_eq {α : Type} {vars : List (Option α)} {i : Nat} {a : α} (h : live vars i = pure a) : vars[i]? = some (some a) := by
  unfold live at h
  cases e : vars[i]? with
  | none =>
    rw [rd_oob (List.getElem?_eq_none_iff.1 e), ub_bind] at h
    exact absurd h (ub_ne_pure a)
  | some x =>
    rw [rd_some e, pure_bind] at h
    cases x with
    | none => exact absurd h (ub_ne_pure a)
    | some b => dsimp only at h; rw [pure_inj] at h; rw [h]

theorem live_of {α : Type} {vars : List (Option α)} {i : Nat} {a : α} (h : vars[i]? = some (some a)) : live vars i = pure a := by
  unfold live
  rw [rd_some h]; rfl

theorem lt_of_some {α : Type} {l : List α} {i : Nat} {a : α} (h : l[i]? = some a) : i < l.length := by
  rcases Nat.lt_or_ge i l.length with g | g
  · exact g
  · rw [List.getElem?_eq_none g] at h; cases h

end Verif.Own
