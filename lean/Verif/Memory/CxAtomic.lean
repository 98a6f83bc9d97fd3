import Verif.Base
import Verif.Containers.Lists

/-
`daw::atomic`, include/daw/daw_cx_atomic.h, for integral types of `w` bits: at run time with any number of threads, and at compile time.
-/

namespace Verif.Memory.CxAtomic
open Cxx

/-- The members of `atomic` that read or change it, daw_cx_atomic.h 55-357, on the atomics of a list; the weak compare and exchange is told
whether it fails for no reason. -/
inductive Op (w : Nat) where
  | load (a : Nat)
  | store (a : Nat) (v : BitVec w)
  | exchange (a : Nat) (v : BitVec w)
  | strong (a : Nat) (expected desired : BitVec w)
  | weak (a : Nat) (expected desired : BitVec w) (spurious : Bool)
  | fetchAdd (a : Nat) (v : BitVec w)
  | fetchSub (a : Nat) (v : BitVec w)
  | addAssign (a : Nat) (v : BitVec w)
  | subAssign (a : Nat) (v : BitVec w)
  | preInc (a : Nat)
  | postInc (a : Nat)
  | preDec (a : Nat)
  | postDec (a : Nat)
  | fetchAnd (a : Nat) (v : BitVec w)
  | fetchOr (a : Nat) (v : BitVec w)
  | fetchXor (a : Nat) (v : BitVec w)
  | andAssign (a : Nat) (v : BitVec w)
  | orAssign (a : Nat) (v : BitVec w)
  | xorAssign (a : Nat) (v : BitVec w)
  | assign (dst src : Nat)
  deriving DecidableEq

/-- What a call gives: nothing, a value, or whether it succeeded and what `expected` is afterwards.
(Rule of C++ or its library, no line of the source.) -/
inductive Res (w : Nat) where
  | none
  | val (v : BitVec w)
  | cmp (ok : Bool) (expected : BitVec w)
  deriving DecidableEq

/-- The values of the atomics. (Specification, no line of the source.) -/
abbrev Mem (w : Nat) := List (BitVec w)

/-- The value of an atomic. (Rule of C++ or its library, no line of the source.) -/
def get {w : Nat} (m : Mem w) (a : Nat) : BitVec w := m.getD a 0

/-- At run time: a call of `std::atomic_ref`, which is indivisible and wraps, daw_cx_atomic.h 80-357; the assignment of atomics is done at
once here, which is what a single thread sees. The memory order is the sequentially consistent one that the members have by default. -/
def atomicRef {w : Nat} (m : Mem w) : Op w → Res w × Mem w
  | .load a => (.val (get m a), m)
  | .store a v => (.none, m.set a v)
  | .exchange a v => (.val (get m a), m.set a v)
  | .strong a e d => if get m a = e then (.cmp true e, m.set a d) else (.cmp false (get m a), m)
  | .weak a e d sp => if get m a = e ∧ sp = false then (.cmp true e, m.set a d) else (.cmp false (get m a), m)
  | .fetchAdd a v => (.val (get m a), m.set a (get m a + v))
  | .fetchSub a v => (.val (get m a), m.set a (get m a - v))
  | .addAssign a v => (.val (get m a + v), m.set a (get m a + v))
  | .subAssign a v => (.val (get m a - v), m.set a (get m a - v))
  | .preInc a => (.val (get m a + 1), m.set a (get m a + 1))
  | .postInc a => (.val (get m a), m.set a (get m a + 1))
  | .preDec a => (.val (get m a - 1), m.set a (get m a - 1))
  | .postDec a => (.val (get m a), m.set a (get m a - 1))
  | .fetchAnd a v => (.val (get m a), m.set a (get m a &&& v))
  | .fetchOr a v => (.val (get m a), m.set a (get m a ||| v))
  | .fetchXor a v => (.val (get m a), m.set a (get m a ^^^ v))
  | .andAssign a v => (.val (get m a &&& v), m.set a (get m a &&& v))
  | .orAssign a v => (.val (get m a ||| v), m.set a (get m a ||| v))
  | .xorAssign a v => (.val (get m a ^^^ v), m.set a (get m a ^^^ v))
  | .assign d s => (.none, m.set d (get m s))

/-- A thread: what it still does, the value of an assignment between `load` and `store`, daw_cx_atomic.h 66-71, and what its calls gave. -/
structure Thread (w : Nat) where
  todo : List (Op w)
  pending : Option (Nat × Nat × BitVec w)
  out : List (Res w)
  deriving DecidableEq

/-- The values of all atomics, `m_value` of daw_cx_atomic.h 46, and the threads. -/
structure State (w : Nat) where
  mem : Mem w
  threads : List (Thread w)
  deriving DecidableEq

/-- One indivisible step of a thread: an assignment of atomics other than to itself takes two, `rhs.load( )` and `store`,
daw_cx_atomic.h 66-78; all other calls take one, daw_cx_atomic.h 80-357. -/
def stepThread {w : Nat} (m : Mem w) (t : Thread w) : Mem w × Thread w :=
  match t.pending with
  | some (d, _, v) => (m.set d v, { t with pending := none, out := t.out ++ [.none] })
  | none =>
    match t.todo with
    | [] => (m, t)
    | .assign d s :: rest =>
      if d ≠ s then (m, { t with todo := rest, pending := some (d, s, get m s) })
      else (m, { t with todo := rest, out := t.out ++ [.none] })
    | op :: rest => ((atomicRef m op).2, { t with todo := rest, out := t.out ++ [(atomicRef m op).1] })

/-- The step of the thread with an index. (Rule of C++ or its library, no line of the source.) -/
def step {w : Nat} (s : State w) (i : Nat) : State w :=
  match s.threads[i]? with
  | none => s
  | some t => ⟨(stepThread s.mem t).1, s.threads.set i (stepThread s.mem t).2⟩

/-- An execution: the threads take steps in any order. (Rule of C++ or its library, no line of the source.) -/
def run {w : Nat} (s : State w) (sched : List Nat) : State w := sched.foldl step s

/-- Threads with programs and nothing done. (Specification, no line of the source.) -/
def start {w : Nat} (m : Mem w) (progs : List (List (Op w))) : State w := ⟨m, progs.map fun p => ⟨p, none, []⟩⟩

/-- All threads are done. (Specification, no line of the source.) -/
def Done {w : Nat} (s : State w) : Prop := ∀ t ∈ s.threads, t.todo = [] ∧ t.pending = none

/-! ## Sums -/

/-- What an operation adds to the atomic `a`; `none` if it may do something else to it. (Specification, no line of the source.) -/
def delta {w : Nat} (a : Nat) : Op w → Option (BitVec w)
  | .load _ => some 0
  | .fetchAdd b v => some (if b = a then v else 0)
  | .addAssign b v => some (if b = a then v else 0)
  | .fetchSub b v => some (if b = a then -v else 0)
  | .subAssign b v => some (if b = a then -v else 0)
  | .preInc b => some (if b = a then 1 else 0)
  | .postInc b => some (if b = a then 1 else 0)
  | .preDec b => some (if b = a then -1 else 0)
  | .postDec b => some (if b = a then -1 else 0)
  | _ => none

/-- The sum of what a program adds to the atomic. (Specification, no line of the source.) -/
def total {w : Nat} (a : Nat) (p : List (Op w)) : BitVec w := (p.map fun o => (delta a o).getD 0).sum

/-- The sum over all programs. (Specification, no line of the source.) -/
def totals {w : Nat} (a : Nat) (ps : List (List (Op w))) : BitVec w := (ps.map (total a)).sum

theorem sum_set {w : Nat} (f : Thread w → BitVec w) :
    ∀ (l : List (Thread w)) (i : Nat) (t u : Thread w), l[i]? = some t → ((l.set i u).map f).sum + f t = (l.map f).sum + f u
  | [], i, t, u, h => by simp at h
  | x :: xs, 0, t, u, h => by
    simp only [List.getElem?_cons_zero, Option.some.injEq] at h
    subst h
    simp only [List.set_cons_zero, List.map_cons, List.sum_cons]
    rw [BitVec.add_comm (f u), BitVec.add_assoc, BitVec.add_comm (f u), ← BitVec.add_assoc, BitVec.add_comm _ (f x)]
  | x :: xs, i + 1, t, u, h => by
    simp only [List.getElem?_cons_succ] at h
    have ih := sum_set f xs i t u h
    simp only [List.set_cons_succ, List.map_cons, List.sum_cons]
    rw [BitVec.add_assoc, ih, ← BitVec.add_assoc]

theorem get_set {w : Nat} (m : Mem w) (a b : Nat) (v : BitVec w) (ha : a < m.length) : get (m.set b v) a = if b = a then v else get m a := by
  unfold get
  rw [List.getD_eq_getElem?_getD, List.getD_eq_getElem?_getD, List.getElem?_set]
  by_cases h : b = a
  · subst h
    simp [ha]
  · simp [h]

theorem atomicRef_length {w : Nat} (m : Mem w) (op : Op w) : (atomicRef m op).2.length = m.length := by
  cases op <;> simp only [atomicRef, List.length_set] <;> split <;> simp

/-- An operation that adds does add. -/
theorem atomicRef_delta {w : Nat} (m : Mem w) (a : Nat) (ha : a < m.length) (op : Op w) (d : BitVec w) (h : delta a op = some d) :
    get (atomicRef m op).2 a = get m a + d := by
  cases op <;> simp only [delta, Option.some.injEq, reduceCtorEq] at h <;> subst h <;> simp only [atomicRef, get_set _ _ _ _ ha] <;>
    first
    | (split <;> rename_i hb <;> first | (subst hb; first | rfl | exact BitVec.sub_eq_add_neg _ _) | exact (BitVec.add_zero _).symm)
    | exact (BitVec.add_zero _).symm

/-- The invariant of an execution of threads that only add: the value and what is still to be added. -/
theorem step_sum {w : Nat} (a : Nat) (s : State w) (i : Nat) (ha : a < s.mem.length)
    (hp : ∀ t ∈ s.threads, t.pending = none ∧ ∀ o ∈ t.todo, delta a o ≠ none) :
    a < (step s i).mem.length ∧ (∀ t ∈ (step s i).threads, t.pending = none ∧ ∀ o ∈ t.todo, delta a o ≠ none) ∧
      get (step s i).mem a + totals a ((step s i).threads.map Thread.todo) = get s.mem a + totals a (s.threads.map Thread.todo) := by
  unfold step
  cases ht : s.threads[i]? with
  | none => exact ⟨ha, hp, rfl⟩
  | some t =>
    obtain ⟨hn, hd⟩ := hp t (List.mem_of_getElem? ht)
    obtain ⟨todo, pend, out⟩ := t
    simp only at hn hd
    subst hn
    cases todo with
    | nil =>
      have hset : s.threads.set i ⟨[], none, out⟩ = s.threads := by
        obtain ⟨hi, he⟩ := List.getElem?_eq_some_iff.mp ht
        rw [← he]
        exact List.set_getElem_self hi
      simp only [stepThread, hset]
      exact ⟨ha, hp, trivial⟩
    | cons op rest =>
      have hop := hd op (by simp)
      obtain ⟨d, hdd⟩ := Option.ne_none_iff_exists'.mp hop
      have hstep : stepThread s.mem ⟨op :: rest, none, out⟩ =
          ((atomicRef s.mem op).2, ⟨rest, none, out ++ [(atomicRef s.mem op).1]⟩) := by
        cases op <;> first | rfl | (simp [delta] at hdd)
      simp only [hstep]
      refine ⟨by rw [atomicRef_length]; exact ha, ?_, ?_⟩
      · intro u hu
        rcases List.mem_or_eq_of_mem_set hu with h | h
        · exact hp u h
        · subst h
          exact ⟨rfl, fun o ho => hd o (by simp [ho])⟩
      · rw [atomicRef_delta s.mem a ha op d hdd]
        have hs := sum_set (fun t => total a t.todo) s.threads i _ ⟨rest, none, out ++ [(atomicRef s.mem op).1]⟩ ht
        simp only [totals, List.map_map]
        have htot : total a (op :: rest) = d + total a rest := by
          simp [total, hdd]
        simp only [htot] at hs
        have hs2 : ((s.threads.set i ⟨rest, none, out ++ [(atomicRef s.mem op).1]⟩).map (total a ∘ Thread.todo)).sum + d =
            (s.threads.map (total a ∘ Thread.todo)).sum := by
          have : ∀ x y z d : BitVec w, x + (d + z) = y + z → x + d = y := by
            intro x y z d h
            rw [← BitVec.add_assoc] at h
            exact BitVec.add_right_inj _ |>.mp (by rw [BitVec.add_comm z, BitVec.add_comm z]; exact h)
          exact this _ _ _ _ hs
        rw [← hs2, BitVec.add_assoc, BitVec.add_comm d]

theorem run_sum {w : Nat} (a : Nat) (s : State w) (sched : List Nat) (ha : a < s.mem.length)
    (hp : ∀ t ∈ s.threads, t.pending = none ∧ ∀ o ∈ t.todo, delta a o ≠ none) :
    get (run s sched).mem a + totals a ((run s sched).threads.map Thread.todo) = get s.mem a + totals a (s.threads.map Thread.todo) := by
  induction sched generalizing s with
  | nil => rfl
  | cons i rest ih =>
    obtain ⟨h1, h2, h3⟩ := step_sum a s i ha hp
    exact (ih (step s i) h1 h2).trans h3

/-- No addition is lost: whatever the threads add to an atomic in whatever order, its value in the end is the one in the beginning and the sum of
all of them. -/
theorem C268_no_lost_update {w : Nat} (m : Mem w) (progs : List (List (Op w))) (a : Nat) (ha : a < m.length)
    (hp : ∀ p ∈ progs, ∀ o ∈ p, delta a o ≠ none) (sched : List Nat) (hd : Done (run (start m progs) sched)) :
    get (run (start m progs) sched).mem a = get m a + totals a progs := by
  have h := run_sum a (start m progs) sched ha (by
    intro t ht
    simp only [start, List.mem_map] at ht
    obtain ⟨p, hpm, rfl⟩ := ht
    exact ⟨rfl, hp p hpm⟩)
  have h0 : ∀ l : List (Thread w), (∀ t ∈ l, t.todo = []) → totals a (l.map Thread.todo) = 0 := by
    intro l hl
    induction l with
    | nil => rfl
    | cons t ts ih =>
      have h1 := ih fun u hu => hl u (by simp [hu])
      simp only [totals, List.map_cons, List.sum_cons] at h1 ⊢
      rw [h1, hl t (by simp)]
      simp [total]
  rw [h0 _ fun t ht => (hd t ht).1, show ∀ x : BitVec w, x + 0 = x from fun x => BitVec.add_zero x] at h
  rw [h]
  simp [start, List.map_map, Function.comp_def]

example : get (run (start [5#8] [[.fetchAdd 0 3, .preInc 0], [.subAssign 0 4, .postInc 0]]) [0, 1, 1, 0]).mem 0 = 6#8 := by
  rw [C268_no_lost_update [5#8] [[.fetchAdd 0 3, .preInc 0], [.subAssign 0 4, .postInc 0]] 0 (by decide) (by decide) [0, 1, 1, 0] (by
    unfold Done; decide)]
  decide

/-! ## Exchange -/

/-- The argument of an exchange. (Specification, no line of the source.) -/
def given {w : Nat} : Op w → List (BitVec w)
  | .exchange _ v => [v]
  | _ => []

/-- The value that a call gave. (Specification, no line of the source.) -/
def taken {w : Nat} : Res w → List (BitVec w)
  | .val v => [v]
  | _ => []

/-- All values that are in the atomic, still to be given by threads, or taken by them. (Specification, no line of the source.) -/
def around {w : Nat} (s : State w) : List (BitVec w) :=
  get s.mem 0 :: s.threads.flatMap fun t => t.todo.flatMap given ++ t.out.flatMap taken

theorem flatMap_set_perm {A B : Type} (f : A → List B) (x y : List B) :
    ∀ (l : List A) (i : Nat) (t u : A), l[i]? = some t → (x ++ f u).Perm (y ++ f t) →
      (x ++ (l.set i u).flatMap f).Perm (y ++ l.flatMap f)
  | [], i, t, u, h, _ => by simp at h
  | a :: as, 0, t, u, h, hp => by
    simp only [List.getElem?_cons_zero, Option.some.injEq] at h
    subst h
    simp only [List.set_cons_zero, List.flatMap_cons]
    rw [← List.append_assoc, ← List.append_assoc]
    exact hp.append_right _
  | a :: as, i + 1, t, u, h, hp => by
    simp only [List.getElem?_cons_succ] at h
    have ih := flatMap_set_perm f x y as i t u h hp
    simp only [List.set_cons_succ, List.flatMap_cons]
    refine (List.perm_append_comm_assoc _ _ _).trans ?_
    refine List.Perm.trans ?_ (List.perm_append_comm_assoc _ _ _)
    exact ih.append_left _

theorem step_around {w : Nat} (s : State w) (i : Nat) (ha : 0 < s.mem.length)
    (hp : ∀ t ∈ s.threads, t.pending = none ∧ ∀ o ∈ t.todo, ∃ v, o = .exchange 0 v) :
    0 < (step s i).mem.length ∧ (∀ t ∈ (step s i).threads, t.pending = none ∧ ∀ o ∈ t.todo, ∃ v, o = .exchange 0 v) ∧
      (around (step s i)).Perm (around s) := by
  unfold step
  cases ht : s.threads[i]? with
  | none => exact ⟨ha, hp, List.Perm.refl _⟩
  | some t =>
    obtain ⟨hn, hd⟩ := hp t (List.mem_of_getElem? ht)
    obtain ⟨todo, pend, out⟩ := t
    simp only at hn hd
    subst hn
    cases todo with
    | nil =>
      have hset : s.threads.set i ⟨[], none, out⟩ = s.threads := by
        obtain ⟨hi, he⟩ := List.getElem?_eq_some_iff.mp ht
        rw [← he]
        exact List.set_getElem_self hi
      simp only [stepThread, hset]
      exact ⟨ha, hp, List.Perm.refl _⟩
    | cons op rest =>
      obtain ⟨v, rfl⟩ := hd op (by simp)
      have hstep : stepThread s.mem ⟨.exchange 0 v :: rest, none, out⟩ =
          (s.mem.set 0 v, ⟨rest, none, out ++ [.val (get s.mem 0)]⟩) := rfl
      simp only [hstep]
      refine ⟨by simpa using ha, ?_, ?_⟩
      · intro u hu
        rcases List.mem_or_eq_of_mem_set hu with h | h
        · exact hp u h
        · subst h
          exact ⟨rfl, fun o ho => hd o (by simp [ho])⟩
      · unfold around
        simp only [get_set _ _ _ _ ha, if_true]
        have := flatMap_set_perm (fun t : Thread w => t.todo.flatMap given ++ t.out.flatMap taken) [v] [get s.mem 0] s.threads i _
          ⟨rest, none, out ++ [.val (get s.mem 0)]⟩ ht (by
            simp only [List.flatMap_cons, given, List.flatMap_append, List.flatMap_nil, taken, List.append_nil]
            show (v :: (rest.flatMap given ++ (out.flatMap taken ++ [get s.mem 0]))).Perm
              (get s.mem 0 :: ([v] ++ rest.flatMap given ++ out.flatMap taken))
            rw [← List.append_assoc]
            refine (List.perm_append_comm (l₁ := v :: (rest.flatMap given ++ out.flatMap taken)) (l₂ := [get s.mem 0])).trans ?_
            simp)
        exact this

/-- Values are handed on without loss or copy: what threads took by `exchange` and what the atomic has in the end are, in some order, what it had in
the beginning and what they gave. -/
theorem C269_exchange {w : Nat} (m : Mem w) (progs : List (List (BitVec w))) (ha : 0 < m.length) (sched : List Nat)
    (hd : Done (run (start m (progs.map fun p => p.map (Op.exchange 0))) sched)) :
    (get (run (start m (progs.map fun p => p.map (Op.exchange 0))) sched).mem 0 ::
      ((run (start m (progs.map fun p => p.map (Op.exchange 0))) sched).threads.flatMap fun t => t.out.flatMap taken)).Perm
      (get m 0 :: progs.flatten) := by
  have key : ∀ (sched : List Nat) (s : State w), 0 < s.mem.length →
      (∀ t ∈ s.threads, t.pending = none ∧ ∀ o ∈ t.todo, ∃ v, o = .exchange 0 v) → (around (run s sched)).Perm (around s) := by
    intro sched
    induction sched with
    | nil => intro s _ _; exact List.Perm.refl _
    | cons i rest ih =>
      intro s h1 h2
      obtain ⟨g1, g2, g3⟩ := step_around s i h1 h2
      exact (ih (step s i) g1 g2).trans g3
  have h := key sched (start m (progs.map fun p => p.map (Op.exchange 0))) ha (by
    intro t ht
    simp only [start, List.mem_map] at ht
    obtain ⟨_, ⟨p, _, rfl⟩, rfl⟩ := ht
    refine ⟨rfl, fun o ho => ?_⟩
    simp only [List.mem_map] at ho
    obtain ⟨v, _, rfl⟩ := ho
    exact ⟨v, rfl⟩)
  have hl : around (run (start m (progs.map fun p => p.map (Op.exchange 0))) sched) =
      get (run (start m (progs.map fun p => p.map (Op.exchange 0))) sched).mem 0 ::
      ((run (start m (progs.map fun p => p.map (Op.exchange 0))) sched).threads.flatMap fun t => t.out.flatMap taken) := by
    unfold around
    congr 1
    have hcong : ∀ l : List (Thread w), (∀ t ∈ l, t.todo = []) →
        (l.flatMap fun t => t.todo.flatMap given ++ t.out.flatMap taken) = l.flatMap fun t => t.out.flatMap taken := by
      intro l hl
      induction l with
      | nil => rfl
      | cons t ts ih =>
        rw [List.flatMap_cons, List.flatMap_cons, ih fun u hu => hl u (by simp [hu]), hl t (by simp)]
        rfl
    exact hcong _ fun t ht => (hd t ht).1
  have hr : around (start m (progs.map fun p => p.map (Op.exchange 0))) = get m 0 :: progs.flatten := by
    unfold around start
    simp only [List.map_map]
    congr 1
    clear h hl hd
    induction progs with
    | nil => rfl
    | cons p ps ih =>
      simp only [List.map_cons, List.flatMap_cons, List.flatten_cons, List.flatMap_nil, List.append_nil, Function.comp]
      congr 1
      induction p with
      | nil => rfl
      | cons v vs ihv => simp only [List.map_cons, List.flatMap_cons, given, List.singleton_append] at ihv ⊢; rw [ihv]
  rw [hl, hr] at h
  exact h

example : Done (run (start [9#8] ([[1#8, 2], [3]].map fun p => p.map (Op.exchange 0))) [0, 1, 0]) := by
  unfold Done
  decide

/-! ## Assignment -/

/-- The value that an assignment of atomics writes is one that the other one had when the assignment was under way. -/
theorem C270_assign_partial {w : Nat} (m : Mem w) (progs : List (List (Op w))) (sched : List Nat) (t : Thread w) (d src : Nat)
    (v : BitVec w) (ht : t ∈ (run (start m progs) sched).threads) (hp : t.pending = some (d, src, v)) :
    ∃ n, n < sched.length ∧ get (run (start m progs) (sched.take n)).mem src = v := by
  obtain ⟨xs, rfl⟩ : ∃ xs : List Nat, sched = xs.reverse := ⟨sched.reverse, by simp⟩
  induction xs generalizing t with
  | nil =>
    simp only [List.reverse_nil] at ht
    simp only [run, List.foldl_nil, start, List.mem_map] at ht
    obtain ⟨p, _, rfl⟩ := ht
    simp at hp
  | cons i ys ih =>
    simp only [List.reverse_cons] at ht ⊢
    generalize ys.reverse = xs at ht ih ⊢
    have hrun : run (start m progs) (xs ++ [i]) = step (run (start m progs) xs) i := by simp [run]
    have hearlier : ∀ u ∈ (run (start m progs) xs).threads, u.pending = some (d, src, v) →
        ∃ n, n < (xs ++ [i]).length ∧ get (run (start m progs) ((xs ++ [i]).take n)).mem src = v := by
      intro u hu hup
      obtain ⟨n, hn, h⟩ := ih u hup hu
      refine ⟨n, by simp; omega, ?_⟩
      rw [List.take_append_of_le_length (by omega)]
      exact h
    rw [hrun] at ht
    unfold step at ht
    cases hi : (run (start m progs) xs).threads[i]? with
    | none =>
      rw [hi] at ht
      exact hearlier t ht hp
    | some u =>
      rw [hi] at ht
      rcases List.mem_or_eq_of_mem_set ht with h | h
      · exact hearlier t h hp
      · subst h
        obtain ⟨todo, pend, out⟩ := u
        cases pend with
        | some p => obtain ⟨a, b, c⟩ := p; simp [stepThread] at hp
        | none =>
          cases todo with
          | nil => simp [stepThread] at hp
          | cons op rest =>
            cases op with
            | assign a b =>
              simp only [stepThread] at hp
              split at hp
              · simp only [Option.some.injEq, Prod.mk.injEq] at hp
                obtain ⟨_, rfl, rfl⟩ := hp
                exact ⟨xs.length, by simp, by simp⟩
              · simp at hp
            | _ => simp [stepThread] at hp

example : (run (start [0#8, 7] [[.assign 0 1], [.store 1 1]]) [0, 1, 0]).mem = [7, 1] := by decide

/-- The step with indivisible assignments. (Specification, no line of the source.) -/
def stepWhole {w : Nat} (s : State w) (i : Nat) : State w :=
  match s.threads[i]? with
  | none => s
  | some t =>
    match t.todo with
    | [] => s
    | op :: rest => ⟨(atomicRef s.mem op).2, s.threads.set i { t with todo := rest }⟩

/-- Whether all threads are done, as a list of programs that are left. (Specification, no line of the source.) -/
def Finished {w : Nat} (s : State w) : Prop := s.threads.all (fun t => t.todo.isEmpty) = true

instance {w : Nat} (s : State w) : Decidable (Finished s) := by unfold Finished; infer_instance

/-- The states of the two threads of the next theorem with indivisible assignments. (Specification, no line of the source.) -/
def wholeStates : List (State 8) :=
  let th (p q : List (Op 8)) : List (Thread 8) := [⟨p, none, []⟩, ⟨q, none, []⟩]
  [⟨[3, 0], th [.assign 0 1] [.store 1 1, .store 0 5]⟩, ⟨[0, 0], th [] [.store 1 1, .store 0 5]⟩, ⟨[0, 1], th [] [.store 0 5]⟩,
   ⟨[3, 1], th [.assign 0 1] [.store 0 5]⟩, ⟨[1, 1], th [] [.store 0 5]⟩, ⟨[5, 1], th [.assign 0 1] []⟩, ⟨[5, 1], th [] []⟩,
   ⟨[1, 1], th [] []⟩]

/-- An assignment of atomics is not indivisible: one thread assigns the second to the first, another stores one and then five to the second and the first.
In the end the first can be as the second was before, which no order of indivisible operations gives. -/
theorem C270_assign_violated :
    (∃ sched, Done (run (start [3#8, 0] [[.assign 0 1], [.store 1 1, .store 0 5]]) sched) ∧
      (run (start [3#8, 0] [[.assign 0 1], [.store 1 1, .store 0 5]]) sched).mem = [0, 1]) ∧
    ∀ sched : List Nat, ¬ (Finished (sched.foldl stepWhole (start [3#8, 0] [[.assign 0 1], [.store 1 1, .store 0 5]])) ∧
      (sched.foldl stepWhole (start [3#8, 0] [[.assign 0 1], [.store 1 1, .store 0 5]])).mem = [0, 1]) := by
  refine ⟨⟨[0, 1, 1, 0], by unfold Done; decide, by decide⟩, ?_⟩
  have key : ∀ (sched : List Nat) (s : State 8), s ∈ wholeStates → sched.foldl stepWhole s ∈ wholeStates := by
    intro sched
    induction sched with
    | nil => intro s hs; exact hs
    | cons i rest ih =>
      intro s hs
      apply ih
      match i with
      | 0 => exact (by decide : ∀ s ∈ wholeStates, stepWhole s 0 ∈ wholeStates) s hs
      | 1 => exact (by decide : ∀ s ∈ wholeStates, stepWhole s 1 ∈ wholeStates) s hs
      | n + 2 =>
        have hl : s.threads.length = 2 := (by decide : ∀ s ∈ wholeStates, s.threads.length = 2) s hs
        have : stepWhole s (n + 2) = s := by
          unfold stepWhole
          rw [List.getElem?_eq_none (by omega)]
        rw [this]
        exact hs
  intro sched h
  have hm := key sched _ (by decide : start [3#8, 0] [[.assign 0 1], [.store 1 1, .store 0 5]] ∈ wholeStates)
  exact (by decide : ∀ s ∈ wholeStates, s.mem ≠ [0, 1]  ∨ ¬ Finished s) _ hm |>.elim (fun g => g h.2) (fun g => g h.1)

/-! ## Compile time -/

/-- Signed values: whether a result fits. (Rule of C++ or its library, no line of the source.) -/
def fits (w : Nat) (x : Int) : Bool := decide (-(2 : Int) ^ (w - 1) ≤ x) && decide (x < (2 : Int) ^ (w - 1))

/-- `+=`, `-=`, `++` and `--` of an integral variable: types narrower than `int` are computed as `int` and wrap, unsigned ones wrap, and a signed sum that
does not fit is undefined. (Rule of C++ or its library, no line of the source.) -/
def arith {w : Nat} (signed : Bool) (exact : Int) (wrapped : BitVec w) : Cxx (BitVec w) :=
  if signed && decide (32 ≤ w) && !fits w exact then ub else pure wrapped

/-- At compile time: the `if consteval` branches, daw_cx_atomic.h 83-85, 93-95, 106-107, 127-133, 143-149, 160-166, 176-182, 193-197, 207-211,
220-221, 230-231, 241-242, 252-253, 263-264, 274-275, 286-290, 301-305, 316-320, 330-331, 341-342, 352-353; the assignments 66-78. -/
def constEval {w : Nat} (signed : Bool) (m : Mem w) : Op w → Cxx (Res w × Mem w)
  | .load a => pure (.val (get m a), m)
  | .store a v => pure (.none, m.set a v)
  | .exchange a v => pure (.val (get m a), m.set a v)
  | .strong a e d => if get m a = e then pure (.cmp true e, m.set a d) else pure (.cmp false (get m a), m)
  | .weak a e d _ => if get m a = e then pure (.cmp true e, m.set a d) else pure (.cmp false (get m a), m)
  | .fetchAdd a v => do
    let r ← arith signed ((get m a).toInt + v.toInt) (get m a + v)
    pure (.val (get m a), m.set a r)
  | .fetchSub a v => do
    let r ← arith signed ((get m a).toInt - v.toInt) (get m a - v)
    pure (.val (get m a), m.set a r)
  | .addAssign a v => do
    let r ← arith signed ((get m a).toInt + v.toInt) (get m a + v)
    pure (.val r, m.set a r)
  | .subAssign a v => do
    let r ← arith signed ((get m a).toInt - v.toInt) (get m a - v)
    pure (.val r, m.set a r)
  | .preInc a => do
    let r ← arith signed ((get m a).toInt + 1) (get m a + 1)
    pure (.val r, m.set a r)
  | .postInc a => do
    let r ← arith signed ((get m a).toInt + 1) (get m a + 1)
    pure (.val (get m a), m.set a r)
  | .preDec a => do
    let r ← arith signed ((get m a).toInt - 1) (get m a - 1)
    pure (.val r, m.set a r)
  | .postDec a => do
    let r ← arith signed ((get m a).toInt - 1) (get m a - 1)
    pure (.val (get m a), m.set a r)
  | .fetchAnd a v => pure (.val (get m a), m.set a (get m a &&& v))
  | .fetchOr a v => pure (.val (get m a), m.set a (get m a ||| v))
  | .fetchXor a v => pure (.val (get m a), m.set a (get m a ^^^ v))
  | .andAssign a v => pure (.val (get m a &&& v), m.set a (get m a &&& v))
  | .orAssign a v => pure (.val (get m a ||| v), m.set a (get m a ||| v))
  | .xorAssign a v => pure (.val (get m a ^^^ v), m.set a (get m a ^^^ v))
  | .assign d s => if d ≠ s then pure (.none, m.set d (get m s)) else pure (.none, m)

/-- A program at compile time: what its calls give and the values in the end. (Specification, no line of the source.) -/
def constEvalAll {w : Nat} (signed : Bool) (m : Mem w) : List (Op w) → Cxx (List (Res w) × Mem w)
  | [] => pure ([], m)
  | op :: rest => do
    let r ← constEval signed m op
    let q ← constEvalAll signed r.2 rest
    pure (r.1 :: q.1, q.2)

/-- The same at run time in a single thread. (Specification, no line of the source.) -/
def runAll {w : Nat} (m : Mem w) : List (Op w) → List (Res w) × Mem w
  | [] => ([], m)
  | op :: rest => ((atomicRef m op).1 :: (runAll (atomicRef m op).2 rest).1, (runAll (atomicRef m op).2 rest).2)

/-- A weak compare and exchange that does not fail for no reason. (Specification, no line of the source.) -/
def NotSpurious {w : Nat} : Op w → Prop
  | .weak _ _ _ sp => sp = false
  | _ => True

theorem set_get_self {w : Nat} (m : Mem w) (a : Nat) : m.set a (get m a) = m := by
  unfold get
  by_cases h : a < m.length
  · rw [List.getD_eq_getElem?_getD, List.getElem?_eq_getElem h]
    exact List.set_getElem_self h
  · exact List.set_eq_of_length_le (by omega)

theorem arith_pure {w : Nat} {signed : Bool} {x : Int} {v r : BitVec w} (h : arith signed x v = pure r) : r = v := by
  unfold arith at h
  split at h
  · exact absurd h (ub_ne_pure _)
  · exact (Cxx.pure_inj.mp h).symm

theorem arith_def {w : Nat} {signed : Bool} (hs : signed = false ∨ w < 32) (x : Int) (v : BitVec w) : arith signed x v = pure v := by
  unfold arith
  rw [if_neg]
  rcases hs with h | h
  · simp [h]
  · have : ¬ 32 ≤ w := by omega
    simp [this]

theorem constEval_pure {w : Nat} {signed : Bool} {m : Mem w} {op : Op w} (hn : NotSpurious op) {r : Res w × Mem w}
    (h : constEval signed m op = pure r) : r = atomicRef m op := by
  cases op with
  | weak a e d sp =>
    simp only [NotSpurious] at hn
    subst hn
    simp only [constEval, atomicRef, and_true] at h ⊢
    split at h <;> rename_i hc
    · rw [if_pos hc]; exact (Cxx.pure_inj.mp h).symm
    · rw [if_neg hc]; exact (Cxx.pure_inj.mp h).symm
  | strong a e d =>
    simp only [constEval, atomicRef] at h ⊢
    split at h <;> rename_i hc
    · rw [if_pos hc]; exact (Cxx.pure_inj.mp h).symm
    · rw [if_neg hc]; exact (Cxx.pure_inj.mp h).symm
  | assign d s =>
    simp only [constEval, atomicRef] at h ⊢
    split at h <;> rename_i hc
    · exact (Cxx.pure_inj.mp h).symm
    · have hds : d = s := Classical.not_not.mp hc
      subst hds
      rw [set_get_self]
      exact (Cxx.pure_inj.mp h).symm
  | _ =>
    simp only [constEval, atomicRef] at h ⊢
    first
    | exact (Cxx.pure_inj.mp h).symm
    | (obtain ⟨x, hx, hr⟩ := bind_eq_pure.mp h
       rw [arith_pure hx] at hr
       exact (Cxx.pure_inj.mp hr).symm)

/-- What a program gives at compile time is what it gives at run time. -/
theorem C271_compile_time {w : Nat} (signed : Bool) (m : Mem w) (ops : List (Op w)) (hn : ∀ o ∈ ops, NotSpurious o)
    (r : List (Res w) × Mem w) (h : constEvalAll signed m ops = pure r) : runAll m ops = r := by
  induction ops generalizing m r with
  | nil => exact Cxx.pure_inj.mp h
  | cons op rest ih =>
    simp only [constEvalAll] at h
    obtain ⟨x, hx, h2⟩ := bind_eq_pure.mp h
    obtain ⟨q, hq, h3⟩ := bind_eq_pure.mp h2
    have hxe := constEval_pure (hn op (by simp)) hx
    have := ih x.2 (fun o ho => hn o (by simp [ho])) q hq
    rw [← Cxx.pure_inj.mp h3, ← this, hxe]
    rfl

/-- For unsigned types and those narrower than `int` every program can be evaluated at compile time. -/
theorem C271_defined_partial {w : Nat} (signed : Bool) (hs : signed = false ∨ w < 32) (m : Mem w) (ops : List (Op w))
    (hn : ∀ o ∈ ops, NotSpurious o) : constEvalAll signed m ops = pure (runAll m ops) := by
  have one : ∀ (m : Mem w) (op : Op w), ∃ r, constEval signed m op = pure r := by
    intro m op
    cases op <;> simp only [constEval, arith_def hs] <;> first | exact ⟨_, rfl⟩ | (split <;> exact ⟨_, rfl⟩)
  have all : ∀ (ops : List (Op w)) (m : Mem w), ∃ r, constEvalAll signed m ops = pure r := by
    intro ops
    induction ops with
    | nil => intro m; exact ⟨_, rfl⟩
    | cons op rest ih =>
      intro m
      obtain ⟨x, hx⟩ := one m op
      obtain ⟨q, hq⟩ := ih x.2
      refine ⟨(x.1 :: q.1, q.2), ?_⟩
      simp only [constEvalAll, hx]
      show (do let q ← constEvalAll signed x.2 rest; pure (x.1 :: q.1, q.2)) = _
      rw [hq]
      rfl
  obtain ⟨r, hr⟩ := all ops m
  rw [hr, C271_compile_time signed m ops hn r hr]

example : constEvalAll true [100#8, 0] [.fetchAdd 0 100, .assign 1 0, .strong 1 200 3, .postDec 1] =
    pure ([.val 100, .none, .cmp true 200, .val 3], [200, 2]) := by decide +kernel

/-- A signed counter of 32 bits wraps at run time and has no value at compile time. -/
theorem C271_defined_violated :
    runAll [0x7fffffff#32] [.preInc 0] = ([.val 0x80000000], [0x80000000]) ∧
      constEvalAll true [0x7fffffff#32] [.preInc 0] = ub := by
  constructor <;> decide +kernel

/-- At run time a weak compare and exchange may fail where it succeeds at compile time. -/
theorem C271_weak_finding :
    constEvalAll true [1#32] [.weak 0 1 2 true] = pure ([.cmp true 1], [2]) ∧ runAll [1#32] [.weak 0 1 2 true] = ([.cmp false 1], [1]) := by
  constructor <;> decide +kernel

end Verif.Memory.CxAtomic
