import Verif.Base
import Verif.Containers.Lists

/-
Objects constructed from parameters that are set one by one, include/daw/daw_piecewise_factory.h.
-/

namespace Verif.Util.Factory
open Verif Verif.Cxx

variable {A W : Type}

/-- What the `std::optional` of a parameter holds, daw_piecewise_factory.h 153-159: a value, or with late evaluation a function, given by
what its call does. -/
inductive Slot (W : Type)
  | val (w : W)
  | fn (r : Cxx W)

/-- How a value given to `set( index, value )` is seen by the overloads for a parameter, daw_piecewise_factory.h 120-133: it is converted to the
type of the parameter, or it is a function that returns this type, or neither. -/
inductive Seen (W : Type)
  | value (w : W)
  | call (r : Cxx W)
  | other

/-- The lambdas of `set_tuple`, daw_piecewise_factory.h 120-135: a function is called at once, and a value of another type is dropped. -/
def setter (old : Option (Slot W)) : Seen W → Cxx (Option (Slot W))
  | .value w => pure (some (.val w))
  | .call r => do
    let w ← r
    pure (some (.val w))
  | .other => pure old

/-- `set_tuple`, daw_piecewise_factory.h 100-136, from the parameter `n` on; `seen k` tells how the value is seen by parameter `k`. -/
def setTuple (seen : Nat → Seen W) (n index : Nat) : List (Option (Slot W)) → Cxx (List (Option (Slot W)))
  | [] => thrown
  | s :: ss =>
    if n ≠ index then do
      let ss' ← setTuple seen (n + 1) index ss
      pure (s :: ss')
    else do
      let s' ← setter s (seen n)
      pure (s' :: ss)

/-- `process_args` with `get_value` and `process_args_t`, daw_piecewise_factory.h 35-84: the `std::optional` is dereferenced without a
test, a function is called. -/
def processArg : Option (Slot W) → Cxx W
  | none => ub
  | some (.val w) => pure w
  | some (.fn r) => r

/-- `piecewise_applier_impl`, daw_piecewise_factory.h 86-98: the arguments of the constructor.  The order of the calls is that of the parameters
here, it is unspecified in C++. -/
def args : List (Option (Slot W)) → Cxx (List W)
  | [] => pure []
  | s :: ss => do
    let w ← processArg s
    let ws ← args ss
    pure (w :: ws)

/-- The values after they were moved out, `moved` is what a move leaves of one. (Rule of C++ or its library, no line of the source.) -/
def afterMove (moved : W → W) : Option (Slot W) → Option (Slot W)
  | some (.val w) => some (.val (moved w))
  | s => s

/-- The calls of a factory, daw_piecewise_factory.h 161-194 and 207-215: `set<N>( value )`, `set<N>( function )` of the late version, and
`set( index, value )`, where a value of type `A` is given. -/
inductive Op (A W : Type)
  | setN (n : Nat) (w : W)
  | setFn (n : Nat) (r : Cxx W)
  | setIdx (i : Nat) (a : A)

/-- One call, daw_piecewise_factory.h 179-194 and 212-215; `set<N>` with an `N` that is no parameter does not compile. -/
def step (see : Nat → A → Seen W) (ss : List (Option (Slot W))) : Op A W → Cxx (List (Option (Slot W)))
  | .setN n w => pure (ss.set n (some (.val w)))
  | .setFn n r => pure (ss.set n (some (.fn r)))
  | .setIdx i a => setTuple (fun k => see k a) 0 i ss

/-- A sequence of calls. (Rule of C++ or its library, no line of the source.) -/
def run (see : Nat → A → Seen W) (ss : List (Option (Slot W))) : List (Op A W) → Cxx (List (Option (Slot W)))
  | [] => pure ss
  | op :: ops => do
    let ss ← step see ss op
    run see ss ops

/-- `operator( )` on lvalues, daw_piecewise_factory.h 162-168. -/
def build (ss : List (Option (Slot W))) : Cxx (List W) := args ss

/-- `operator( )` on rvalues, daw_piecewise_factory.h 170-172: the values are moved out of the factory. -/
def buildMove (moved : W → W) (ss : List (Option (Slot W))) : Cxx (List W × List (Option (Slot W))) := do
  let ws ← args ss
  pure (ws, ss.map (afterMove moved))

/-- What one call gives to parameter `k`, as the value it has when the object is constructed. (Specification, no line of the source.) -/
def gives (see : Nat → A → Seen W) (k : Nat) : Op A W → Option (Cxx W)
  | .setN n w => if n = k then some (pure w) else none
  | .setFn n r => if n = k then some r else none
  | .setIdx i a => if i = k then (match see k a with
      | .value w => some (pure w)
      | .call r => some r
      | .other => none) else none

/-- What the last call that gives a value to parameter `k` gives. (Specification, no line of the source.) -/
def lastGiven (see : Nat → A → Seen W) (k : Nat) : List (Op A W) → Option (Cxx W)
  | [] => none
  | op :: ops => match lastGiven see k ops with
    | some r => some r
    | none => gives see k op

/-- The calls compile, name a parameter and give values that parameter accepts. (Specification, no line of the source.) -/
def Accepted (see : Nat → A → Seen W) (n : Nat) : Op A W → Prop
  | .setN k _ => k < n
  | .setFn k _ => k < n
  | .setIdx k a => k < n ∧ ∃ w, see k a = .value w ∨ see k a = .call (pure w)

theorem setTuple_oob (seen : Nat → Seen W) : ∀ (ss : List (Option (Slot W))) (n index : Nat), (index < n ∨ n + ss.length ≤ index) →
    setTuple seen n index ss = thrown := by
  intro ss
  induction ss with
  | nil => intro n i _; rfl
  | cons s ss ih =>
    intro n i h
    simp only [List.length_cons] at h
    simp only [setTuple]
    rw [if_pos (by omega), ih (n + 1) i (by omega)]
    rfl

theorem setTuple_in (seen : Nat → Seen W) : ∀ (ss : List (Option (Slot W))) (n k : Nat) (old : Option (Slot W)), ss[k]? = some old →
    setTuple seen n (n + k) ss = (do
      let s ← setter old (seen (n + k))
      pure (ss.set k s)) := by
  intro ss
  induction ss with
  | nil => intro n k old h; simp at h
  | cons s ss ih =>
    intro n k old h
    cases k with
    | zero =>
      simp only [List.getElem?_cons_zero, Option.some.injEq] at h
      simp [setTuple, h]
    | succ k =>
      simp only [List.getElem?_cons_succ] at h
      have := ih (n + 1) k old h
      rw [show n + 1 + k = n + (k + 1) by omega] at this
      simp only [setTuple]
      rw [if_pos (by omega), this]
      simp

theorem step_ok (see : Nat → A → Seen W) (ss : List (Option (Slot W))) (op : Op A W) (h : Accepted see ss.length op) :
    ∃ ss' : List (Option (Slot W)), step see ss op = pure ss' ∧ ss'.length = ss.length ∧ ∀ k : Nat, k < ss.length →
      match gives see k op with
      | some r => ∃ v : Slot W, ss'[k]? = some (some v) ∧ processArg (some v) = r
      | none => ss'[k]? = ss[k]? := by
  cases op with
  | setN n w =>
    refine ⟨_, rfl, by simp, fun k hk => ?_⟩
    simp only [gives]
    by_cases e : n = k
    · subst e; simp only [if_true]; exact ⟨.val w, by simp [hk], rfl⟩
    · simp [e]
  | setFn n r =>
    refine ⟨_, rfl, by simp, fun k hk => ?_⟩
    simp only [gives]
    by_cases e : n = k
    · subst e; simp only [if_true]; exact ⟨.fn r, by simp [hk], rfl⟩
    · simp [e]
  | setIdx i a =>
    obtain ⟨hi, w, hw⟩ := h
    have hs : setter (ss[i]'hi) (see i a) = pure (some (.val w)) := by
      rcases hw with hw | hw <;> rw [hw] <;> rfl
    refine ⟨ss.set i (some (.val w)), ?_, by simp, fun k hk => ?_⟩
    · have := setTuple_in (fun k => see k a) ss 0 i _ (List.getElem?_eq_getElem hi)
      simp only [Nat.zero_add] at this
      rw [step, this, hs]
      rfl
    · simp only [gives]
      by_cases e : i = k
      · subst e
        rw [if_pos rfl]
        rcases hw with hw | hw <;> rw [hw] <;> exact ⟨.val w, by simp [hk], rfl⟩
      · simp [e]

theorem run_holds (see : Nat → A → Seen W) : ∀ (ops : List (Op A W)) (ss : List (Option (Slot W))),
    (∀ op ∈ ops, Accepted see ss.length op) →
    ∃ ss' : List (Option (Slot W)), run see ss ops = pure ss' ∧ ss'.length = ss.length ∧ ∀ k : Nat, k < ss.length →
      match lastGiven see k ops with
      | some r => ∃ v : Slot W, ss'[k]? = some (some v) ∧ processArg (some v) = r
      | none => ss'[k]? = ss[k]? := by
  intro ops
  induction ops with
  | nil => intro ss _; exact ⟨ss, rfl, rfl, fun k _ => by simp [lastGiven]⟩
  | cons op ops ih =>
    intro ss h
    obtain ⟨s1, e1, l1, g1⟩ := step_ok see ss op (h op (by simp))
    obtain ⟨s2, e2, l2, g2⟩ := ih s1 (fun o ho => by rw [l1]; exact h o (by simp [ho]))
    refine ⟨s2, by simp [run, e1, e2], by omega, fun k hk => ?_⟩
    have := g2 k (by omega)
    simp only [lastGiven]
    cases hl : lastGiven see k ops with
    | some r => rw [hl] at this; exact this
    | none =>
      rw [hl] at this
      simp only at this ⊢
      have h1 := g1 k hk
      cases hg : gives see k op with
      | some r =>
        rw [hg] at h1
        obtain ⟨v, hv, hr⟩ := h1
        exact ⟨v, by rw [this, hv], hr⟩
      | none => rw [hg] at h1; simp only at h1 ⊢; rw [this, h1]

theorem args_of (ws : List W) : ∀ (ss : List (Option (Slot W))), ss.length = ws.length →
    (∀ (k : Nat) (s : Option (Slot W)) (w : W), ss[k]? = some s → ws[k]? = some w → processArg s = pure w) → args ss = pure ws := by
  induction ws with
  | nil => intro ss hl _; have : ss = [] := List.length_eq_zero_iff.1 (by simpa using hl); subst this; rfl
  | cons w ws ih =>
    intro ss hl h
    cases ss with
    | nil => simp at hl
    | cons s ss =>
      simp only [args]
      rw [h 0 s w rfl rfl, pure_bind, ih ss (by simpa using hl) (fun k s' w' h1 h2 => h (k + 1) s' w' (by simpa using h1) (by simpa using h2))]
      rfl

theorem args_inv : ∀ (ss : List (Option (Slot W))) (ws : List W), args ss = pure ws →
    ∀ (k : Nat) (s : Option (Slot W)), ss[k]? = some s → ∃ w : W, processArg s = pure w := by
  intro ss
  induction ss with
  | nil => intro ws _ k s h; simp at h
  | cons a ss ih =>
    intro ws h k s hk
    simp only [args] at h
    obtain ⟨w, hw, h⟩ := Cxx.bind_eq_pure.1 h
    obtain ⟨ws', hws, h⟩ := Cxx.bind_eq_pure.1 h
    cases k with
    | zero => simp only [List.getElem?_cons_zero, Option.some.injEq] at hk; subst hk; exact ⟨w, hw⟩
    | succ k => exact ih ws' hws k s (by simpa using hk)

/-- C288: a factory whose parameters were all given a value constructs its object from the last value given to each of them, by
position or by index, functions being called when the object is constructed; and it can be asked again.  Partial: see the findings. -/
theorem C288_build_partial (see : Nat → A → Seen W) (n : Nat) (ops : List (Op A W)) (ws : List W) (hn : ws.length = n)
    (h : ∀ op ∈ ops, Accepted see n op) (hw : ∀ (k : Nat) (w : W), ws[k]? = some w → lastGiven see k ops = some (pure w)) :
    ∃ ss : List (Option (Slot W)), run see (List.replicate n none) ops = pure ss ∧ build ss = pure ws ∧
      ∀ moved : W → W, ∃ ss' : List (Option (Slot W)), buildMove moved ss = pure (ws, ss') := by
  obtain ⟨ss, hs, hl, g⟩ := run_holds see ops (List.replicate n none) (by simpa using h)
  simp only [List.length_replicate] at hl g
  have hb : args ss = pure ws := by
    refine args_of ws ss (by omega) fun k s w h1 h2 => ?_
    have hk : k < n := by have := (List.getElem?_eq_some_iff.1 h2).1; omega
    have := g k hk
    rw [hw k w h2] at this
    obtain ⟨v, hv, hr⟩ := this
    rw [h1] at hv
    simp only [Option.some.injEq] at hv
    rw [hv, hr]
  exact ⟨ss, hs, hb, fun moved => ⟨ss.map (afterMove moved), by simp [buildMove, hb]⟩⟩

/-- Parameter 0 is an integer and takes integers, parameter 1 is a text and takes texts: the values given by index below.
(Specification, no line of the source.) -/
def seeEx (k : Nat) (a : Nat ⊕ String) : Seen (Nat ⊕ String) :=
  match k, a with
  | 0, .inl x => .value (.inl x)
  | 1, .inr s => .value (.inr s)
  | _, _ => .other

example : ∃ ss, run seeEx (List.replicate 2 none) [.setIdx 0 (.inl 4), .setN 0 (.inl 5), .setFn 1 (pure (.inr "a")), .setIdx 1 (.inr "b")] = pure ss ∧
    build ss = pure [.inl 5, .inr "b"] ∧ ∀ moved, ∃ ss', buildMove moved ss = pure ([.inl 5, .inr "b"], ss') := by
  refine C288_build_partial seeEx 2 _ _ rfl (fun op h => ?_) (fun k w h => ?_)
  · simp only [List.mem_cons, List.not_mem_nil, or_false] at h
    rcases h with rfl | rfl | rfl | rfl
    · exact ⟨by omega, .inl 4, Or.inl rfl⟩
    · exact Nat.zero_lt_succ _
    · exact Nat.lt_succ_self 1
    · exact ⟨by omega, .inr "b", Or.inl rfl⟩
  · match k, h with
    | 0, h => simp only [List.getElem?_cons_zero, Option.some.injEq] at h; subst h; rfl
    | 1, h => simp only [List.getElem?_cons_succ, List.getElem?_cons_zero, Option.some.injEq] at h; subst h; rfl

/-- C288: exactly the indices that name no parameter are refused, by an exception, whatever the value. -/
theorem C288_index (see : Nat → A → Seen W) (ss : List (Option (Slot W))) (i : Nat) (a : A)
    (hr : ∀ r : Cxx W, see i a = .call r → ∃ w : W, r = pure w) :
    step see ss (.setIdx i a) = thrown ↔ ss.length ≤ i := by
  constructor
  · intro h
    by_cases hi : i < ss.length
    · exfalso
      have := setTuple_in (fun k => see k a) ss 0 i _ (List.getElem?_eq_getElem hi)
      simp only [Nat.zero_add] at this
      rw [step, this] at h
      cases hs : see i a with
      | value w => rw [hs] at h; cases h
      | call r => obtain ⟨w, hw⟩ := hr r hs; rw [hs, hw] at h; cases h
      | other => rw [hs] at h; cases h
    · omega
  · intro h
    exact setTuple_oob _ ss 0 i (Or.inr (by omega))

example : step seeEx [none, none] (.setIdx 2 (.inl 1)) = (thrown : Cxx _) :=
  (C288_index seeEx _ 2 (.inl 1) (by intro r h; cases h)).2 (by simp)

/-- C288: if calls that name parameters leave one of them without a value, constructing the object is undefined or does not get to it:
it never gives an object. -/
theorem C288_missing (see : Nat → A → Seen W) (n : Nat) (ops : List (Op A W)) (h : ∀ op ∈ ops, Accepted see n op) (k : Nat) (hk : k < n)
    (hm : lastGiven see k ops = none) : ∃ ss : List (Option (Slot W)), run see (List.replicate n none) ops = pure ss ∧
      ∀ ws : List W, build ss ≠ pure ws := by
  obtain ⟨ss, hs, hl, g⟩ := run_holds see ops (List.replicate n none) (by simpa using h)
  refine ⟨ss, hs, fun ws hw => ?_⟩
  have := g k (by simpa using hk)
  rw [hm] at this
  simp only [List.getElem?_replicate, hk, if_true] at this
  obtain ⟨w, e⟩ := args_inv ss ws hw k none this
  exact Cxx.ub_ne_pure w e

example : ∃ ss, run seeEx (List.replicate 2 none) [.setIdx 0 (.inl 4)] = pure ss ∧ ∀ ws, build ss ≠ pure ws :=
  C288_missing seeEx 2 _ (by intro op h; simp only [List.mem_cons, List.not_mem_nil, or_false] at h; subst h; exact ⟨by omega, .inl 4, Or.inl rfl⟩)
    1 (by omega) rfl

/-- C288, finding: a factory with a parameter and no value set is undefined when asked, though `process_args_t` has a case that would
throw. -/
theorem C288_unset_violated (n : Nat) : build (List.replicate (n + 1) (none : Option (Slot W))) = ub := rfl

/-- C288, finding: a value of a type that the parameter does not take is dropped by `set( index, value )` without an error, so that the
parameter keeps what it had, or remains unset and the factory is undefined. -/
theorem C288_dropped_violated (see : Nat → A → Seen W) (ss : List (Option (Slot W))) (i : Nat) (a : A) (hi : i < ss.length)
    (h : see i a = .other) : step see ss (.setIdx i a) = pure ss := by
  have := setTuple_in (fun k => see k a) ss 0 i _ (List.getElem?_eq_getElem hi)
  simp only [Nat.zero_add] at this
  rw [step, this, h]
  simp [setter]

example : step seeEx [some (.val (.inl 1)), none] (.setIdx 1 (.inl 7)) = pure [some (.val (.inl 1)), none] :=
  C288_dropped_violated seeEx _ 1 (.inl 7) (by simp) rfl

/-- C288, finding: a factory asked as an rvalue is left with moved from values, from which it constructs another object when asked again. -/
theorem C288_moved_violated (moved : W → W) (ws : List W) (ss : List (Option (Slot W)))
    (h : ss = ws.map fun w => some (Slot.val w)) :
    ∃ ss' : List (Option (Slot W)), buildMove moved ss = pure (ws, ss') ∧ build ss' = pure (ws.map moved) := by
  subst h
  have hb : ∀ vs : List W, args (vs.map fun w => some (Slot.val w)) = pure vs := by
    intro vs
    induction vs with
    | nil => rfl
    | cons v vs ih => simp [args, processArg, ih]
  refine ⟨_, by simp only [buildMove, hb]; rfl, ?_⟩
  have : ((ws.map fun w => some (Slot.val w)).map (afterMove moved)) = (ws.map moved).map fun w => some (Slot.val w) := by
    simp [afterMove]
  rw [this]
  exact hb _

example : ∃ ss', buildMove (fun _ => "") [some (.val "a")] = pure (["a"], ss') ∧ build ss' = pure [""] :=
  C288_moved_violated (fun _ => "") ["a"] _ rfl

end Verif.Util.Factory
