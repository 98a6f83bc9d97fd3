import Verif.Base

/-
Running functions on an object while it is there, `RunIfValid` of include/daw/daw_utility.h, with any number of calls at a time and owners that come and go.
-/

namespace Verif.RunIfValid
open Verif Verif.Cxx

/-- How far a call of `RunIfValid::operator( )` is, daw_utility.h 342-349: before the `lock`, in the function with the pointer it got, or at its end with the result. -/
inductive Pc
  | start
  | inside
  | done (r : Bool)
  deriving DecidableEq

/-- The owners outside of the calls, the calls, and the number of times the object was destroyed.  (`m_link` refers to it, daw_utility.h 337.) -/
structure St where
  owners : Nat
  calls : List Pc
  destroyed : Nat
  deriving DecidableEq

/-- The count of the owners: those outside and the pointers `s_ptr` of the calls inside (daw_utility.h 343). -/
def St.strong (s : St) : Nat := s.owners + s.calls.count .inside

/-- What may come next: an owner is copied or given up, a call begins, looks for the object, uses it, shares it with the outside or ends.  (Specification, no line of the source.) -/
inductive Act
  | copy
  | drop
  | call
  | lock (i : Nat)
  | use (i : Nat)
  | share (i : Nat)
  | finish (i : Nat)
  deriving DecidableEq

/-- `lock` of a `std::weak_ptr`: a pointer to the object if the count is positive. (Rule of C++ or its library, no line of the source.) -/
def lockOk (s : St) : Bool := decide (0 < s.strong)

/-- Giving up a pointer: if it was the last, the object is destroyed. (Rule of C++ or its library, no line of the source.) -/
def St.released (s : St) : St := if s.strong = 0 then { s with destroyed := s.destroyed + 1 } else s

/-- One step, of the calls as in daw_utility.h 342-349 and of everything else.  Nothing for `none` happens: the thread is not there yet.  Using the object after it was destroyed is
undefined.  Simplified: the function does not reset the pointer it is given. -/
def step (s : St) : Act → Option (Cxx St)
  | .copy => if 0 < s.owners then some (pure { s with owners := s.owners + 1 }) else none
  | .drop => if 0 < s.owners then some (pure (St.released { s with owners := s.owners - 1 })) else none
  | .call => some (pure { s with calls := s.calls ++ [.start] })
  | .lock i =>
    if s.calls[i]? = some .start then
      some (pure { s with calls := s.calls.set i (if lockOk s then .inside else .done false) })
    else none
  | .use i => if s.calls[i]? = some .inside then (if s.destroyed = 0 then some (pure s) else some ub) else none
  | .share i => if s.calls[i]? = some .inside then some (pure { s with owners := s.owners + 1 }) else none
  | .finish i => if s.calls[i]? = some .inside then some (pure (St.released { s with calls := s.calls.set i (.done true) })) else none

/-- A schedule; what cannot happen is left out. (Specification, no line of the source.) -/
def run (s : St) : List Act → Cxx St
  | [] => pure s
  | a :: as =>
    match step s a with
    | none => run s as
    | some m => do
      let s ← m
      run s as

/-- The object is destroyed once if nobody has it, and else not. (Specification, no line of the source.) -/
def Good (s : St) : Prop := s.destroyed = if s.strong = 0 then 1 else 0

theorem count_set {l : List Pc} : ∀ {i : Nat} {a : Pc} (b : Pc), l[i]? = some a →
    (l.set i b).count .inside + (if a = .inside then 1 else 0) = l.count .inside + (if b = .inside then 1 else 0) := by
  induction l with
  | nil => intro i a b h; simp at h
  | cons x l ih =>
    intro i a b h
    cases i with
    | zero =>
      have hx : x = a := by simpa using h
      subst hx
      simp only [List.set_cons_zero, List.count_cons, beq_iff_eq]
      omega
    | succ i =>
      have := ih b (show l[i]? = some a by simpa using h)
      simp only [List.set_cons_succ, List.count_cons]
      omega

theorem released_good {s : St} (h : s.destroyed = 0) : Good s.released := by
  unfold St.released Good
  by_cases hs : s.strong = 0
  · rw [if_pos hs]
    show s.destroyed + 1 = if s.strong = 0 then 1 else 0
    rw [if_pos hs, h]
  · rw [if_neg hs, if_neg hs, h]

theorem inside_strong {s : St} {i : Nat} (h : s.calls[i]? = some .inside) : 0 < s.strong := by
  have h1 : Pc.inside ∈ s.calls := List.mem_of_getElem? h
  have h2 := List.count_pos_iff.2 h1
  unfold St.strong
  omega

theorem alive_of {s : St} (hg : Good s) (h : 0 < s.strong) : s.destroyed = 0 := by
  unfold Good at hg
  rwa [if_neg (by omega)] at hg

theorem good_of_alive {s : St} (h : s.destroyed = 0) (h' : 0 < s.strong) : Good s := by
  unfold Good
  rw [if_neg (by omega), h]

theorem step_good {s : St} (hg : Good s) (a : Act) : step s a = none ∨ ∃ s', step s a = some (pure s') ∧ Good s' := by
  cases a with
  | copy =>
    by_cases h : 0 < s.owners
    · refine .inr ⟨_, if_pos h, good_of_alive ?_ ?_⟩
      · exact alive_of (s := s) hg (by unfold St.strong; omega)
      · show 0 < s.owners + 1 + _
        omega
    · exact .inl (if_neg h)
  | drop =>
    by_cases h : 0 < s.owners
    · exact .inr ⟨_, if_pos h, released_good (s := { s with owners := s.owners - 1 }) (alive_of (s := s) hg (by unfold St.strong; omega))⟩
    · exact .inl (if_neg h)
  | call =>
    refine .inr ⟨_, rfl, ?_⟩
    unfold Good St.strong at hg ⊢
    simp only [List.count_append, List.count_singleton]
    exact hg
  | lock i =>
    by_cases h : s.calls[i]? = some .start
    · refine .inr ⟨_, if_pos h, ?_⟩
      by_cases hs : 0 < s.strong
      · rw [show lockOk s = true from decide_eq_true hs]
        have hc := count_set Pc.inside h
        simp at hc
        refine good_of_alive (alive_of (s := s) hg hs) ?_
        show 0 < s.owners + (s.calls.set i .inside).count .inside
        omega
      · rw [show lockOk s = false from decide_eq_false hs]
        have hc := count_set (Pc.done false) h
        simp at hc
        show s.destroyed = if s.owners + (s.calls.set i (.done false)).count .inside = 0 then 1 else 0
        rw [hc]
        exact hg
    · exact .inl (if_neg h)
  | use i =>
    by_cases h : s.calls[i]? = some .inside
    · refine .inr ⟨s, ?_, hg⟩
      show (if s.calls[i]? = some .inside then (if s.destroyed = 0 then some (pure s) else some ub) else none) = _
      rw [if_pos h, if_pos (alive_of hg (inside_strong h))]
    · exact .inl (if_neg h)
  | share i =>
    by_cases h : s.calls[i]? = some .inside
    · refine .inr ⟨_, if_pos h, good_of_alive (alive_of (s := s) hg (inside_strong h)) ?_⟩
      show 0 < s.owners + 1 + _
      omega
    · exact .inl (if_neg h)
  | finish i =>
    by_cases h : s.calls[i]? = some .inside
    · exact .inr ⟨_, if_pos h, released_good (s := { s with calls := s.calls.set i (.done true) }) (alive_of (s := s) hg (inside_strong h))⟩
    · exact .inl (if_neg h)

/-- **C368.**  Whatever calls run at a time and whenever owners are copied and given up: no function uses the object after it was destroyed, the object stays while a function runs on it,
and it is destroyed exactly once, when the last owner and the last call have given it up. -/
theorem C368_alive (as : List Act) (s : St) (h0 : s.destroyed = 0) (hs : 0 < s.strong) :
    ∃ s', run s as = pure s' ∧ (0 < s'.owners ∨ Pc.inside ∈ s'.calls → s'.destroyed = 0) ∧ (s'.owners = 0 → Pc.inside ∉ s'.calls → s'.destroyed = 1) := by
  have key : ∀ (as : List Act) (s : St), Good s → ∃ s', run s as = pure s' ∧ Good s' := by
    intro as
    induction as with
    | nil => intro s hg; exact ⟨s, rfl, hg⟩
    | cons a as ih =>
      intro s hg
      rcases step_good hg a with h | ⟨s1, h, hg1⟩
      · obtain ⟨s', h', hg'⟩ := ih s hg
        exact ⟨s', by unfold run; rw [h]; exact h', hg'⟩
      · obtain ⟨s', h', hg'⟩ := ih s1 hg1
        exact ⟨s', by unfold run; rw [h]; exact h', hg'⟩
  obtain ⟨s', h', hg'⟩ := key as s (good_of_alive h0 hs)
  refine ⟨s', h', fun h => alive_of hg' ?_, fun h1 h2 => ?_⟩
  · unfold St.strong
    rcases h with h | h
    · omega
    · have := List.count_pos_iff.2 h
      omega
  · unfold Good at hg'
    rwa [if_pos (by unfold St.strong; rw [h1, List.count_eq_zero.2 h2])] at hg'

/-- Two calls; the owner is given up while the first is inside, the second comes too late or not. -/
example : run ⟨1, [], 0⟩ [.call, .call, .lock 0, .drop, .use 0, .lock 1, .finish 0, .use 1, .finish 1, .call, .lock 2] =
    pure ⟨0, [.done true, .done true, .done false], 1⟩ := rfl

/-- **C368.**  A call that looks for the object gets it, and its function runs, just if the object has not been destroyed; otherwise its result is `false` at once.  A call whose function ran
has the result `true`. -/
theorem C368_result (s : St) (i : Nat) (h : s.calls[i]? = some .start) (hg : s.destroyed = if s.strong = 0 then 1 else 0) :
    ∃ s', run s [.lock i] = pure s' ∧ s'.destroyed = s.destroyed ∧ s'.owners = s.owners ∧
      (s.destroyed = 0 → s'.calls[i]? = some .inside ∧ ∃ s'', run s' [.use i, .finish i] = pure s'' ∧ s''.calls[i]? = some (.done true)) ∧
      (s.destroyed ≠ 0 → s'.calls[i]? = some (.done false)) := by
  have hl : i < s.calls.length := (List.getElem?_eq_some_iff.1 h).1
  have hset : ∀ p : Pc, (s.calls.set i p)[i]? = some p := fun p => by rw [List.getElem?_set, if_pos rfl, if_pos hl]
  refine ⟨{ s with calls := s.calls.set i (if lockOk s then .inside else .done false) }, ?_, rfl, rfl, fun h0 => ?_, fun h0 => ?_⟩
  · have : step s (.lock i) = some (pure { s with calls := s.calls.set i (if lockOk s then .inside else .done false) }) := if_pos h
    unfold run
    rw [this]
    rfl
  · have hs : 0 < s.strong := by
      rcases Nat.eq_zero_or_pos s.strong with hz | hz
      · rw [if_pos hz] at hg; omega
      · exact hz
    rw [show lockOk s = true from decide_eq_true hs]
    have hin : (s.calls.set i (if true = true then Pc.inside else .done false))[i]? = some .inside := hset _
    refine ⟨hin, ?_⟩
    refine ⟨St.released { s with calls := (s.calls.set i .inside).set i (.done true) }, ?_, ?_⟩
    · have e1 : step { s with calls := s.calls.set i (if true = true then Pc.inside else .done false) } (.use i) =
          some (pure { s with calls := s.calls.set i (if true = true then Pc.inside else .done false) }) := by
        show (if (s.calls.set i .inside)[i]? = some Pc.inside then (if s.destroyed = 0 then some (pure { s with calls := s.calls.set i .inside }) else some ub) else none) = _
        rw [if_pos (hset _), if_pos h0]
        rfl
      have e2 : step { s with calls := s.calls.set i (if true = true then Pc.inside else .done false) } (.finish i) =
          some (pure (St.released { s with calls := (s.calls.set i .inside).set i (.done true) })) := if_pos (hset _)
      unfold run
      rw [e1]
      show run _ [Act.finish i] = _
      unfold run
      rw [e2]
      rfl
    · unfold St.released
      have : ((s.calls.set i Pc.inside).set i (.done true))[i]? = some (.done true) := by
        rw [List.getElem?_set, if_pos rfl, if_pos (by rw [List.length_set]; exact hl)]
      split <;> exact this
  · have hs : ¬ 0 < s.strong := by
      intro hz
      rw [if_neg (by omega)] at hg
      exact h0 hg
    rw [show lockOk s = false from decide_eq_false hs]
    exact hset _

example := C368_result ⟨1, [.start], 0⟩ 0 rfl rfl
example := C368_result ⟨0, [.start], 1⟩ 0 rfl rfl

/-- **C368.**  Once the object is destroyed no call that looks for it afterwards runs its function, whatever else happens. -/
theorem C368_dead (as : List Act) : ∀ (s s' : St), s.owners = 0 → Pc.inside ∉ s.calls → run s as = pure s' →
    Pc.inside ∉ s'.calls ∧ s'.owners = 0 ∧ ∀ i : Nat, s'.calls[i]? = some (Pc.done true) → s.calls[i]? = some (Pc.done true) := by
  induction as with
  | nil =>
    intro s s' h1 h2 h
    cases Cxx.pure_inj.1 h
    exact ⟨h2, h1, fun _ h => h⟩
  | cons a as ih =>
    intro s s' h1 h2 h
    have hni : ∀ i : Nat, s.calls[i]? ≠ some Pc.inside := fun i hi => h2 (List.mem_of_getElem? hi)
    have stay : step s a = none → Pc.inside ∉ s'.calls ∧ s'.owners = 0 ∧ ∀ i : Nat, s'.calls[i]? = some (Pc.done true) → s.calls[i]? = some (Pc.done true) := by
      intro hn
      unfold run at h
      rw [hn] at h
      exact ih s s' h1 h2 h
    cases a with
    | copy => exact stay (if_neg (by omega))
    | drop => exact stay (if_neg (by omega))
    | use i => exact stay (if_neg (hni i))
    | share i => exact stay (if_neg (hni i))
    | finish i => exact stay (if_neg (hni i))
    | call =>
      obtain ⟨r1, r2, r3⟩ := ih { s with calls := s.calls ++ [.start] } s' h1 (by simpa using h2) h
      refine ⟨r1, r2, fun i hi => ?_⟩
      have := r3 i hi
      rcases Nat.lt_trichotomy i s.calls.length with hl | hl | hl
      · rwa [List.getElem?_append_left hl] at this
      · subst hl
        simp at this
      · rw [List.getElem?_eq_none (by rw [List.length_append, List.length_singleton]; omega)] at this
        cases this
    | lock i =>
      by_cases hi : s.calls[i]? = some .start
      · have hs : ¬ 0 < s.strong := by
          unfold St.strong
          rw [h1, List.count_eq_zero.2 h2]
          omega
        have e : step s (.lock i) = some (pure { s with calls := s.calls.set i (.done false) }) := by
          show (if s.calls[i]? = some .start then some (pure { s with calls := s.calls.set i (if lockOk s then .inside else .done false) }) else none) = _
          rw [if_pos hi, show lockOk s = false from decide_eq_false hs]
          rfl
        unfold run at h
        rw [e] at h
        obtain ⟨r1, r2, r3⟩ := ih { s with calls := s.calls.set i (.done false) } s' h1 (by
          intro hm
          rcases List.mem_or_eq_of_mem_set hm with hm | hm
          · exact h2 hm
          · cases hm) h
        refine ⟨r1, r2, fun k hk => ?_⟩
        have := r3 k hk
        have this : (s.calls.set i (.done false))[k]? = some (.done true) := this
        rw [List.getElem?_set] at this
        split at this
        · split at this
          · cases this
          · cases this
        · exact this
      · exact stay (if_neg hi)

example : run ⟨0, [.start, .done true], 1⟩ [.lock 0, .call, .use 1, .lock 2] = pure ⟨0, [.done false, .done true, .done false], 1⟩ := rfl

end Verif.RunIfValid
