import Verif.Bits.MinMaxN
import Verif.Containers.Lists

/-
Tuples of integers, include/daw/daw_tuple_helper.h.  A tuple is the list of its components, each with its type.
-/

namespace Verif.Util.TupleHelper
open Verif Verif.Cxx Verif.Bits

/-- The types and values of a tuple. (Rule of C++ or its library, no line of the source.) -/
abbrev Tuple := List (IntTy × Int)

/-- The four operators. (Rule of C++ or its library, no line of the source.) -/
inductive Arith
  | add | sub | mul | div
  deriving DecidableEq

/-- The number an operator stands for; the quotient is rounded towards zero. (Rule of C++ or its library, no line of the source.) -/
def Arith.exact : Arith → Int → Int → Int
  | .add, x, y => x + y
  | .sub, x, y => x - y
  | .mul, x, y => x * y
  | .div, x, y => x.tdiv y

/-- The C++ expressions `x + y`, `x - y`, `x * y` and `x / y` for operands of types `t` and `u`: computed in the common type, undefined if
that is signed and does not have the result, and for the divisor zero. (Rule of C++ or its library, no line of the source.) -/
def Arith.eval (op : Arith) (t u : IntTy) (x y : Int) : Cxx Int :=
  let c := t.common u
  if op = .div ∧ c.conv y = 0 then ub
  else
    let r := op.exact (c.conv x) (c.conv y)
    if c.signed then (if c.Has r then pure r else ub) else pure (c.conv r)

/-- `operator( )` of `add_t`, `sub_t`, `mul_t` and `div_t`, daw_tuple_helper.h 227-277, for a result of type `s`: the value is
converted by the assignment. -/
def Arith.set (op : Arith) (s t u : IntTy) (x y : Int) : Cxx Int := do
  let r ← op.eval t u x y
  pure (s.conv r)

/-- `apply_tuple_tuple` with `apply_tuple`, daw_tuple_helper.h 150-166 and 201-208, for the operators of two tuples, 280-285, 301-306, 322-327
and 343-348: the components from left to right. -/
def tupleTuple (op : Arith) : Tuple → Tuple → Cxx Tuple
  | (t, x) :: as, (u, y) :: bs => do
    let r ← op.set t t u x y
    let rs ← tupleTuple op as bs
    pure ((t, r) :: rs)
  | _, _ => pure []

/-- `apply_tuple_value` with `apply_value`, daw_tuple_helper.h 168-183 and 219-225, for the operators of a tuple and a value, 294-299, 315-320,
336-341 and 357-362. -/
def tupleValue (op : Arith) (u : IntTy) (y : Int) : Tuple → Cxx Tuple
  | (t, x) :: as => do
    let r ← op.set t t u x y
    let rs ← tupleValue op u y as
    pure ((t, r) :: rs)
  | [] => pure []

/-- `apply_tuple_value2` with `apply_value2`, daw_tuple_helper.h 185-199 and 210-217, for the operators of a value and a tuple, 287-292, 308-313,
329-334 and 350-355. -/
def valueTuple (op : Arith) (u : IntTy) (y : Int) : Tuple → Cxx Tuple
  | (t, x) :: as => do
    let r ← op.set t u t y x
    let rs ← valueTuple op u y as
    pure ((t, r) :: rs)
  | [] => pure []

/-- `operator( )` of `min_t` and `max_t`, daw_tuple_helper.h 80-106: `daw::min` and `daw::max` of two values of the type of the result. -/
def pick (greatest : Bool) (t : IntTy) (a b : Int) : Int :=
  if greatest then (MinMaxN.max2 (t, a) (t, b)).2 else (MinMaxN.min2 (t, a) (t, b)).2

/-- `min` and `max` of two tuples, daw_tuple_helper.h 374-386. -/
def minMax (greatest : Bool) : Tuple → Tuple → Tuple
  | (t, x) :: as, (_, y) :: bs => (t, pick greatest t x y) :: minMax greatest as bs
  | _, _ => []

/-- The calls of `print_t::operator( )`, daw_tuple_helper.h 124-132, in `for_each`, 69-78 and 136-140, for components written as `vs`; the flag
is `m_is_first`. -/
def printLoop (first : Bool) : List String → String
  | [] => ""
  | v :: vs => (if first then "" else ",") ++ " " ++ v ++ printLoop false vs

/-- `operator<<`, daw_tuple_helper.h 365-372. -/
def print (vs : List String) : String := "{" ++ printLoop true vs ++ " }"

/-- `get_impl`, daw_tuple_helper.h 31-49, from the position `pos` on. -/
def getImpl {α : Type} (pos : Nat) (index : Nat) : List α → Cxx (Nat × α)
  | [] => abort
  | x :: xs => if index ≠ pos then getImpl (pos + 1) index xs else pure (pos, x)

/-- `get( tp, index )`, daw_tuple_helper.h 53-65: the alternative and what it refers to. -/
def get {α : Type} (tp : List α) (index : Nat) : Cxx (Nat × α) := getImpl 0 index tp

/-- `apply_at_impl` with `apply_func` and `apply_func_impl`, daw_tuple_helper.h 388-399 and 420-436, from the position `pos` on: the calls
made.  A component for which none of the functions can be called is passed over in silence. -/
def applyLoop {α : Type} (canCall : α → Bool) (pos index : Nat) : List α → List α
  | [] => []
  | x :: xs => (if pos = index then (if canCall x then [x] else []) else []) ++ applyLoop canCall (pos + 1) index xs

/-- `apply_at`, daw_tuple_helper.h 439-453.  The overload for temporary tuples, 455-460, does not compile. -/
def applyAt {α : Type} (canCall : α → Bool) (tp : List α) (index : Nat) : List α := applyLoop canCall 0 index tp

/-! ## Proofs -/

/-- The common type has both operands and the result, and the type of the component has the result; the divisor is not zero.
(Specification, no line of the source.) -/
def Fits (op : Arith) (s t u : IntTy) (x y : Int) : Prop :=
  (t.common u).Has x ∧ (t.common u).Has y ∧ (t.common u).Has (op.exact x y) ∧ s.Has (op.exact x y) ∧ (op = .div → y ≠ 0)

theorem set_fits {op : Arith} {s t u : IntTy} {x y : Int} (h : Fits op s t u x y) : op.set s t u x y = pure (op.exact x y) := by
  obtain ⟨h1, h2, h3, h4, h5⟩ := h
  have : op.eval t u x y = pure (op.exact x y) := by
    unfold Arith.eval
    simp only [IntTy.conv_of_has h1, IntTy.conv_of_has h2, IntTy.conv_of_has h3]
    rw [if_neg (fun hh => h5 hh.1 hh.2), if_pos h3]
    split <;> rfl
  unfold Arith.set
  rw [this, pure_bind, IntTy.conv_of_has h4]

theorem common_self_has {t : IntTy} {x : Int} (h : t.Has x) : (t.common t).Has x := (IntTy.common_has h h rfl).1

/-- C292, two tuples, as far as it holds: if the components have the same types and each type has the exact result, and no divisor is zero,
the components of the result are the exact results.  Missing: results the type does not have, see `C292_tuples_violated`. -/
theorem C292_tuples_partial (op : Arith) (as : List (IntTy × Int × Int))
    (h : ∀ a ∈ as, a.1.Has a.2.1 ∧ a.1.Has a.2.2 ∧ a.1.Has (op.exact a.2.1 a.2.2) ∧ (op = .div → a.2.2 ≠ 0)) :
    tupleTuple op (as.map fun a => (a.1, a.2.1)) (as.map fun a => (a.1, a.2.2)) = pure (as.map fun a => (a.1, op.exact a.2.1 a.2.2)) := by
  induction as with
  | nil => rfl
  | cons a as ih =>
    obtain ⟨t, x, y⟩ := a
    obtain ⟨h1, h2, h3, h4⟩ := h _ (List.mem_cons_self ..)
    simp only [List.map_cons]
    rw [tupleTuple, set_fits ⟨common_self_has h1, common_self_has h2, common_self_has h3, h3, h4⟩, pure_bind,
      ih fun b hb => h b (List.mem_cons_of_mem _ hb), pure_bind]

example : tupleTuple .sub [(.int, 5), (⟨8, true, by decide⟩, 100)] [(.int, 7), (⟨8, true, by decide⟩, -20)] =
    pure [(.int, -2), (⟨8, true, by decide⟩, 120)] :=
  C292_tuples_partial .sub [(.int, 5, 7), (⟨8, true, by decide⟩, 100, -20)] (by decide +kernel)

/-- C292, a tuple and a value, either way round, as far as it holds: if the types have the exact results and the operands are kept by the usual
conversions, the components are the exact results; the result has the types of the tuple.  Missing: see `C292_values_violated`. -/
theorem C292_values_partial (op : Arith) (u : IntTy) (y : Int) (tp : Tuple) :
    ((∀ a ∈ tp, Fits op a.1 a.1 u a.2 y) → tupleValue op u y tp = pure (tp.map fun a => (a.1, op.exact a.2 y))) ∧
    ((∀ a ∈ tp, Fits op a.1 u a.1 y a.2) → valueTuple op u y tp = pure (tp.map fun a => (a.1, op.exact y a.2))) := by
  constructor
  · intro h
    induction tp with
    | nil => rfl
    | cons a as ih =>
      obtain ⟨t, x⟩ := a
      simp only [List.map_cons]
      rw [tupleValue, set_fits (h _ (List.mem_cons_self ..)), pure_bind, ih fun b hb => h b (List.mem_cons_of_mem _ hb), pure_bind]
  · intro h
    induction tp with
    | nil => rfl
    | cons a as ih =>
      obtain ⟨t, x⟩ := a
      simp only [List.map_cons]
      rw [valueTuple, set_fits (h _ (List.mem_cons_self ..)), pure_bind, ih fun b hb => h b (List.mem_cons_of_mem _ hb), pure_bind]

example : valueTuple .div .int 7 [(.int, -2), (⟨64, true, by decide⟩, 3)] = pure [(.int, -3), (⟨64, true, by decide⟩, 2)] :=
  (C292_values_partial .div .int 7 [(.int, -2), (⟨64, true, by decide⟩, 3)]).2 (by unfold Fits; decide +kernel)

example : tupleValue .mul .int 7 [(.int, -2)] = pure [(.int, -14)] :=
  (C292_values_partial .mul .int 7 [(.int, -2)]).1 (by unfold Fits; decide +kernel)

/-- C292 does not hold for results a type does not have: a sum of bytes wraps around, the product of two 16 bit numbers without sign is
undefined, as the numbers are multiplied as `int`s, and so is the quotient of the lowest `int` and -1. -/
theorem C292_tuples_violated :
    tupleTuple .add [(⟨8, true, by decide⟩, 100)] [(⟨8, true, by decide⟩, 100)] = pure [(⟨8, true, by decide⟩, -56)] ∧
    tupleTuple .mul [(⟨16, false, by decide⟩, 65535)] [(⟨16, false, by decide⟩, 65535)] = ub ∧
    tupleTuple .div [(.int, -2147483648)] [(.int, -1)] = ub ∧
    tupleTuple .sub [(.uint, 1)] [(.uint, 2)] = pure [(.uint, 4294967295)] := by
  decide +kernel

/-- C292 does not hold for values without sign: a component -6 divided by 3u becomes 1431655763, and -6 as a value divided by a component
3u likewise. -/
theorem C292_values_violated :
    tupleValue .div .uint 3 [(.int, -6)] = pure [(.int, 1431655763)] ∧ valueTuple .div .int (-6) [(.uint, 3)] = pure [(.uint, 1431655763)] := by
  decide +kernel

theorem pick_eq (g : Bool) (t : IntTy) (a b : Int) (ha : t.Has a) (hb : t.Has b) : pick g t a b = if g then max a b else min a b := by
  have hr : MinMaxN.commonType t t = t := if_pos rfl
  unfold pick MinMaxN.max2 MinMaxN.min2
  simp only [hr, cppLt_of_same hb ha rfl]
  by_cases h : b < a
  · simp only [h, decide_true, Bool.not_true, Bool.false_eq_true, if_true, if_false, IntTy.conv_of_has ha, IntTy.conv_of_has hb]
    cases g
    · simp only [Bool.false_eq_true, if_false]; omega
    · simp only [if_true]; omega
  · simp only [h, decide_false, Bool.not_false, Bool.false_eq_true, if_true, if_false, IntTy.conv_of_has ha, IntTy.conv_of_has hb]
    cases g
    · simp only [Bool.false_eq_true, if_false]; omega
    · simp only [if_true]; omega

/-- C293, `min` and `max` of two tuples are those of the components. -/
theorem C293_min_max (g : Bool) (as : List (IntTy × Int × Int)) (h : ∀ a ∈ as, a.1.Has a.2.1 ∧ a.1.Has a.2.2) :
    minMax g (as.map fun a => (a.1, a.2.1)) (as.map fun a => (a.1, a.2.2)) =
      as.map fun a => (a.1, if g then max a.2.1 a.2.2 else min a.2.1 a.2.2) := by
  induction as with
  | nil => rfl
  | cons a as ih =>
    obtain ⟨h1, h2⟩ := h _ (List.mem_cons_self ..)
    simp only [List.map_cons]
    rw [minMax, pick_eq g a.1 a.2.1 a.2.2 h1 h2, ih fun b hb => h b (List.mem_cons_of_mem _ hb)]

example : minMax true [(.int, 3), (.int, -4)] [(.int, 2), (.int, 9)] = [(.int, 3), (.int, 9)] :=
  C293_min_max true [(.int, 3, 2), (.int, -4, 9)] (by decide)

theorem printLoop_false (vs : List String) : printLoop false vs = String.join (vs.map fun v => ", " ++ v) := by
  induction vs with
  | nil => rfl
  | cons v vs ih =>
    rw [printLoop, ih]
    simp only [List.map_cons, String.join_cons]
    rfl

/-- C293, the text of a tuple: the components between `{ ` and ` }`, with `, ` between two of them; `{ }` for the empty tuple. -/
theorem C293_print (v : String) (vs : List String) : print [] = "{ }" ∧ print (v :: vs) = "{ " ++ v ++ String.join (vs.map fun w => ", " ++ w) ++ " }" := by
  refine ⟨rfl, ?_⟩
  unfold print
  rw [printLoop, printLoop_false]
  simp [String.append_assoc]
  rfl

example : print ["1", "x", "2.5"] = "{ 1, x, 2.5 }" := (C293_print "1" ["x", "2.5"]).2

theorem getImpl_eq {α : Type} (tp : List α) : ∀ pos index, pos ≤ index →
    getImpl pos index tp = match tp[index - pos]? with | some x => pure (index, x) | none => abort := by
  induction tp with
  | nil => intro pos index h; simp [getImpl]
  | cons x xs ih =>
    intro pos index h
    rw [getImpl]
    by_cases he : index = pos
    · subst he
      simp
    · rw [if_pos he, ih (pos + 1) index (by omega), show index - pos = (index - (pos + 1)) + 1 by omega]
      simp

/-- C293, `get( tp, index )` gives the component with that index as the alternative with that index, and aborts if there is none. -/
theorem C293_get {α : Type} (tp : List α) (index : Nat) :
    (∀ h : index < tp.length, get tp index = pure (index, tp[index])) ∧ (tp.length ≤ index → get tp index = abort) := by
  unfold get
  rw [getImpl_eq tp 0 index (by omega)]
  constructor
  · intro h
    simp [h]
  · intro h
    rw [List.getElem?_eq_none (by omega)]

example : get ["a", "b"] 1 = pure (1, "b") ∧ get ["a", "b"] 2 = abort := ⟨(C293_get _ 1).1 (by decide), (C293_get _ 2).2 (by decide)⟩

theorem applyLoop_eq {α : Type} (c : α → Bool) (tp : List α) : ∀ pos index,
    applyLoop c pos index tp = if pos ≤ index then (tp[index - pos]?.toList.filter c) else [] := by
  induction tp with
  | nil => intro pos index; simp [applyLoop]
  | cons x xs ih =>
    intro pos index
    rw [applyLoop, ih]
    by_cases he : pos = index
    · subst he
      have h2 : ¬ pos + 1 ≤ pos := by omega
      cases hc : c x <;> simp [h2, hc]
    · rw [if_neg he]
      by_cases hl : pos ≤ index
      · rw [if_pos (by omega), if_pos hl, show index - pos = (index - (pos + 1)) + 1 by omega]
        simp
      · rw [if_neg (by omega), if_neg hl]
        rfl

/-- C293, `apply_at( tp, index, fs... )` calls once, with the component that has the index, if one of the functions takes it; otherwise, and if
there is no such component, nothing is called. -/
theorem C293_apply_at {α : Type} (canCall : α → Bool) (tp : List α) (index : Nat) :
    (∀ h : index < tp.length, canCall tp[index] = true → applyAt canCall tp index = [tp[index]]) ∧
    (∀ h : index < tp.length, canCall tp[index] = false → applyAt canCall tp index = []) ∧ (tp.length ≤ index → applyAt canCall tp index = []) := by
  unfold applyAt
  rw [applyLoop_eq, if_pos (by omega)]
  refine ⟨fun h hc => ?_, fun h hc => ?_, fun h => ?_⟩
  · simp [h, hc]
  · simp [h, hc]
  · rw [List.getElem?_eq_none (by omega)]
    rfl

example : applyAt (fun n : Nat => n != 5) [4, 5, 6] 2 = [6] ∧ applyAt (fun n : Nat => n != 5) [4, 5, 6] 1 = [] :=
  ⟨(C293_apply_at _ [4, 5, 6] 2).1 (by decide) rfl, (C293_apply_at _ [4, 5, 6] 1).2.1 (by decide) rfl⟩

end Verif.Util.TupleHelper
