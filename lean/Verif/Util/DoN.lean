import Verif.Base
import Verif.Containers.Lists

/-
Calling a function a number of times, include/daw/daw_do_n.h.  A call is a change of a state that may also throw or be undefined.
-/

namespace Verif.Util.DoN
open Verif Verif.Cxx

variable {σ : Type}

/-- `do_n( count, func, args... )`, daw_do_n.h 49-56. -/
def doN (f : σ → Cxx σ) : Nat → σ → Cxx σ
  | 0, s => pure s
  | count + 1, s => do
    let s' ← f s
    doN f count s'

/-- The loop of `do_n_arg( count, func )`, daw_do_n.h 58-67, from `n` on. -/
def doNArg (f : Nat → σ → Cxx σ) (count n : Nat) (s : σ) : Cxx σ :=
  if n < count then do
    let s' ← f n s
    doNArg f count (n + 1) s'
  else pure s
termination_by count - n

/-- The fold over `+` of calls, daw_do_n.h 26 and 36, `call0 + ( call1 + ( ... ) )`.  The order of the operands of `+` is unspecified: `leftFirst i`
tells whether the left operand of the `i`th sum is evaluated first. -/
def foldPlus (leftFirst : Nat → Bool) : Nat → List (σ → Cxx σ) → σ → Cxx σ
  | _, [], s => pure s
  | _, [c], s => c s
  | i, c :: d :: cs, s =>
    if leftFirst i then do
      let s' ← c s
      foldPlus leftFirst (i + 1) (d :: cs) s'
    else do
      let s' ← foldPlus leftFirst (i + 1) (d :: cs) s
      c s'

/-- `do_n<count>( func, args... )`, daw_do_n.h 21-28 and 41-47. -/
def doNStatic (leftFirst : Nat → Bool) (f : σ → Cxx σ) (count : Nat) (s : σ) : Cxx σ :=
  foldPlus leftFirst 0 ((List.range count).map fun _ => f) s

/-- `do_n_arg<count, by_n>( func )`, daw_do_n.h 30-38 and 69-77. -/
def doNArgStatic (leftFirst : Nat → Bool) (f : Nat → σ → Cxx σ) (count byN : Nat) (s : σ) : Cxx σ :=
  foldPlus leftFirst 0 ((List.range (count / byN)).map fun i => f (i * byN)) s

/-- A function that records its arguments. (Specification, no line of the source.) -/
def record (k : Nat) (log : List Nat) : Cxx (List Nat) := pure (log ++ [k])

/-- The values the step gives below the bound, in order. (Specification, no line of the source.) -/
def steps (count byN : Nat) : List Nat := (List.range count).filter fun k => k % byN = 0

/-! ## Proofs -/

theorem doN_foldlM (f : σ → Cxx σ) (l : List Nat) (s : σ) : doN f l.length s = l.foldlM (fun s _ => f s) s := by
  induction l generalizing s with
  | nil => rfl
  | cons a l ih =>
    simp only [List.length_cons, doN, List.foldlM_cons]
    congr 1
    funext s'
    exact ih s'

theorem C295_do_n (f : σ → Cxx σ) (count : Nat) (s : σ) : doN f count s = (List.range count).foldlM (fun s _ => f s) s := by
  have := doN_foldlM f (List.range count) s
  rwa [List.length_range] at this

example : doN (record 7) 3 [] = pure [7, 7, 7] := by decide +kernel

theorem doNArg_from (f : Nat → σ → Cxx σ) (count k n : Nat) (s : σ) (h : count = n + k) :
    doNArg f count n s = (List.range' n k).foldlM (fun s i => f i s) s := by
  induction k generalizing n s with
  | zero => rw [doNArg, if_neg (by omega)]; rfl
  | succ k ih =>
    rw [doNArg, if_pos (by omega), List.range'_succ, List.foldlM_cons]
    congr 1
    funext s'
    exact ih (n + 1) s' (by omega)

theorem C295_do_n_arg (f : Nat → σ → Cxx σ) (count : Nat) (s : σ) :
    doNArg f count 0 s = (List.range count).foldlM (fun s i => f i s) s := by
  rw [doNArg_from f count count 0 s (by omega), List.range_eq_range']

example : (List.range 3).foldlM (fun s i => record i s) [] = pure [0, 1, 2] := by decide +kernel

/-- Two functions whose calls commute: the order in the fold does not matter for copies of one function. -/
theorem foldPlus_same (ch : Nat → Bool) (f : σ → Cxx σ) (i n : Nat) (s : σ) :
    foldPlus ch i (List.replicate n f) s = doN f n s := by
  induction n generalizing i s with
  | zero => rfl
  | succ n ih =>
    cases n with
    | zero => simp [List.replicate, foldPlus, doN]
    | succ n =>
      have hc : ∀ m s, (doN f m s >>= f) = doN f (m + 1) s := by
        intro m
        induction m with
        | zero => intro s; simp [doN]
        | succ m ihm =>
          intro s
          simp only [doN, bind_assoc] at ihm ⊢
          congr 1
          funext s'
          exact ihm s'
      rw [show List.replicate (n + 1 + 1) f = f :: f :: List.replicate n f from rfl]
      simp only [foldPlus]
      have ih' := fun j s => ih j s
      rw [show List.replicate (n + 1) f = f :: List.replicate n f from rfl] at ih'
      by_cases h : ch i
      · rw [if_pos h]
        conv => rhs; rw [doN]
        congr 1
        funext s'
        exact ih' _ _
      · rw [if_neg h, ih', hc]

/-- Whatever order the compiler chooses, the function is called exactly `count` times. -/
theorem C295_static (ch : Nat → Bool) (f : σ → Cxx σ) (count : Nat) (s : σ) :
    doNStatic ch f count s = (List.range count).foldlM (fun s _ => f s) s := by
  rw [← C295_do_n, doNStatic, List.map_const', List.length_range, foldPlus_same]

example : doNStatic (fun _ => false) (record 7) 3 [] = pure [7, 7, 7] := by decide +kernel

theorem foldPlus_left (cs : List (σ → Cxx σ)) (i : Nat) (s : σ) :
    foldPlus (fun _ => true) i cs s = cs.foldlM (fun s c => c s) s := by
  induction cs generalizing i s with
  | nil => rfl
  | cons c cs ih =>
    cases cs with
    | nil => simp [foldPlus]
    | cons d cs =>
      rw [foldPlus, if_pos rfl, List.foldlM_cons]
      congr 1
      funext s'
      exact ih _ _

theorem steps_mul (byN m : Nat) (h : 0 < byN) : steps (m * byN) byN = (List.range m).map (· * byN) := by
  unfold steps
  induction m with
  | zero => simp
  | succ m ih =>
    rw [show (m + 1) * byN = m * byN + byN from by rw [Nat.succ_mul], List.range_add, List.filter_append, ih,
      List.range_succ, List.map_append]
    congr 1
    obtain ⟨b, rfl⟩ : ∃ b, byN = b + 1 := ⟨byN - 1, by omega⟩
    rw [List.range_succ_eq_map, List.map_cons, List.filter_cons]
    rw [if_pos (by simp)]
    have : ((List.map Nat.succ (List.range b)).map (m * (b + 1) + ·)).filter (fun k => decide (k % (b + 1) = 0)) = [] := by
      rw [List.filter_eq_nil_iff]
      intro k hk
      simp only [List.map_map, List.mem_map, List.mem_range, Function.comp] at hk
      obtain ⟨j, hj, rfl⟩ := hk
      rw [Nat.mul_comm, Nat.mul_add_mod, Nat.mod_eq_of_lt (by omega)]
      simp
    rw [this]
    simp

/-- If the bound is a multiple of the step and left operands are evaluated first, the function is called with 0, `byN`, 2 `byN`, ... below the bound in
order.  Missing: other bounds and orders, for which this is false. -/
theorem C295_static_arg_partial (f : Nat → σ → Cxx σ) (count byN : Nat) (h : 0 < byN) (hd : count % byN = 0) (s : σ) :
    doNArgStatic (fun _ => true) f count byN s = (steps count byN).foldlM (fun s k => f k s) s := by
  have hm : count / byN * byN = count := Nat.div_mul_cancel (Nat.dvd_of_mod_eq_zero hd)
  rw [doNArgStatic, foldPlus_left]
  conv => rhs; rw [← hm]
  rw [steps_mul _ _ h, List.foldlM_map, List.foldlM_map]

example : 0 < 3 ∧ 12 % 3 = 0 ∧ doNArgStatic (fun _ => true) record 12 3 [] = pure [0, 3, 6, 9] := by decide +kernel

theorem foldPlus_record (ch : Nat → Bool) (ks : List Nat) (i : Nat) (log : List Nat) :
    ∃ out, foldPlus ch i (ks.map record) log = pure (log ++ out) ∧ out.Perm ks := by
  induction ks generalizing i log with
  | nil => exact ⟨[], by simp [foldPlus], .refl _⟩
  | cons k ks ih =>
    cases ks with
    | nil => exact ⟨[k], by simp [foldPlus, record], .refl _⟩
    | cons d ks =>
      by_cases h : ch i
      · obtain ⟨out, ho, hp⟩ := ih (i + 1) (log ++ [k])
        refine ⟨k :: out, ?_, hp.cons k⟩
        simp only [List.map_cons, foldPlus, h, if_true, record, pure_bind] at ho ⊢
        rw [show (record d : List Nat → Cxx (List Nat)) = fun log => pure (log ++ [d]) from rfl] at *
        simpa [record] using ho
      · obtain ⟨out, ho, hp⟩ := ih (i + 1) log
        refine ⟨out ++ [k], ?_, ?_⟩
        · simp only [List.map_cons, foldPlus, h] at ho ⊢
          rw [if_neg (by simp), ho]
          simp [record]
        · exact (List.perm_append_comm.trans (hp.cons k))

/-- Whatever the order, the arguments are those of the multiples of the step up to the bound rounded down, each once. -/
theorem C295_arguments (ch : Nat → Bool) (count byN : Nat) :
    ∃ out, doNArgStatic ch record count byN [] = pure out ∧ out.Perm ((List.range (count / byN)).map (· * byN)) := by
  obtain ⟨out, ho, hp⟩ := foldPlus_record ch ((List.range (count / byN)).map (· * byN)) 0 []
  refine ⟨out, ?_, hp⟩
  rw [List.map_map] at ho
  simpa [doNArgStatic, Function.comp_def] using ho

example : doNArgStatic (fun i => i % 2 == 0) record 9 3 [] = pure [0, 6, 3] := by decide +kernel

/-- If the bound is no multiple of the step, the last value below the bound is never passed, whatever the order. -/
theorem C295_last_violated (ch : Nat → Bool) (count byN : Nat) (h : 0 < byN) (hd : count % byN ≠ 0) :
    count / byN * byN ∈ steps count byN ∧ ∃ out, doNArgStatic ch record count byN [] = pure out ∧ count / byN * byN ∉ out := by
  have hm := Nat.div_add_mod count byN
  rw [Nat.mul_comm] at hm
  refine ⟨by simp [steps]; omega, ?_⟩
  obtain ⟨out, ho, hp⟩ := C295_arguments ch count byN
  refine ⟨out, ho, ?_⟩
  rw [hp.mem_iff]
  intro hmem
  simp only [List.mem_map, List.mem_range] at hmem
  obtain ⟨j, hj, he⟩ := hmem
  have := Nat.eq_of_mul_eq_mul_right h he
  omega

example : 0 < 2 ∧ 5 % 2 ≠ 0 ∧ steps 5 2 = [0, 2, 4] ∧ doNArgStatic (fun _ => true) record 5 2 [] = pure [0, 2] := by decide +kernel

/-- A compiler that evaluates right operands first calls the function with the values in falling order. -/
theorem C295_order_violated : doNArgStatic (fun _ => false) record 3 1 [] = pure [2, 1, 0] ∧ steps 3 1 = [0, 1, 2] := by decide +kernel

end Verif.Util.DoN
