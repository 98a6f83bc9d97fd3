import Verif.Base
import Verif.Containers.Lists

/-
Reading whole files, include/daw/daw_read_file.h, and owners of C files, include/daw/deprecated/daw_cfile.h.
-/

namespace Verif.Util.Files
open Verif Verif.Cxx

/-! ## Reading whole files -/

/-- What the system does for a file: the result of `std::filesystem::file_size`, whether the file may be opened, the bytes it has when it is
read, the number of files the process may have open, and the largest size of a string. (Rule of C++ or its library, no line of the source.) -/
structure Sys where
  size : Option Nat
  readable : Bool
  content : List UInt8
  limit : Nat
  maxSize : Nat

/-- `read_file<CharT>( path )`, daw_read_file.h 25-60, for characters of `k` bytes: the bytes of the string, and the number of open files after it,
if there were `handles` before.  `fread` fills the buffer of `fsize` characters and returns the number of whole ones. -/
def readFile (k : Nat) (sys : Sys) (handles : Nat) : Option (List UInt8) × Nat :=
  match sys.size with
  | none => (none, handles)
  | some fsize =>
    if fsize = 0 then (some [], handles)
    else if sys.maxSize < fsize then (none, handles)
    else if ¬ (sys.readable = true ∧ handles < sys.limit) then (none, handles)
    else
      let got := sys.content.take (fsize * k)
      let numRead := got.length / k
      if numRead ≠ fsize / k then (none, handles + 1)
      else (some (got ++ List.replicate (fsize * k - got.length) 0), handles + 1)

/-- `read_file( path, terminate_on_read_file_error )`, daw_read_file.h 66-74. -/
def readFileOrEnd (sys : Sys) (handles : Nat) : Cxx (List UInt8 × Nat) :=
  match readFile 1 sys handles with
  | (none, _) => abort
  | (some s, h) => pure (s, h)

/-- The number of open files after `n` calls. (Specification, no line of the source.) -/
def after (sys : Sys) : Nat → Nat
  | 0 => 0
  | n + 1 => (readFile 1 sys (after sys n)).2

/-- A file that does not change while it is read gives its bytes.  Missing: other characters than bytes and any number of calls, for which this is
false. -/
theorem C300_content_partial (sys : Sys) (handles : Nat) (hs : sys.size = some sys.content.length) (hr : sys.readable = true)
    (hl : handles < sys.limit) (hm : sys.content.length ≤ sys.maxSize) :
    (readFile 1 sys handles).1 = some sys.content ∧ ∃ h, readFileOrEnd sys handles = pure (sys.content, h) := by
  have h1 : (readFile 1 sys handles).1 = some sys.content := by
    unfold readFile
    rw [hs]
    dsimp only
    by_cases h0 : sys.content.length = 0
    · rw [if_pos h0, List.length_eq_zero_iff.1 h0]
    · rw [if_neg h0, if_neg (by omega), if_neg (by simp [hr, hl]), if_neg (by simp)]
      simp
  refine ⟨h1, (readFile 1 sys handles).2, ?_⟩
  unfold readFileOrEnd
  rcases hx : readFile 1 sys handles with ⟨_ | s, h⟩
  · rw [hx] at h1; cases h1
  · rw [hx] at h1
    obtain rfl : s = sys.content := by simpa using h1
    rfl

/-- A file of three bytes. (Specification, no line of the source.) -/
def three : Sys := { size := some 3, readable := true, content := [1, 2, 3], limit := 20, maxSize := 1000 }

example : three.size = some three.content.length ∧ three.readable = true ∧ 4 < three.limit ∧ three.content.length ≤ three.maxSize := by decide

/-- A file whose size is not known or that cannot be opened gives no string, and the function that must return one ends the program. -/
theorem C300_refused (sys : Sys) (handles fsize : Nat)
    (h : sys.size = none ∨ (sys.size = some fsize ∧ fsize ≠ 0 ∧ (sys.readable = false ∨ sys.limit ≤ handles ∨ sys.maxSize < fsize))) :
    (readFile 1 sys handles).1 = none ∧ readFileOrEnd sys handles = abort := by
  have h1 : (readFile 1 sys handles) = (none, handles) := by
    unfold readFile
    rcases h with h | ⟨h, h0, hx⟩
    · rw [h]
    · rw [h]
      dsimp only
      rw [if_neg h0]
      by_cases hm : sys.maxSize < fsize
      · rw [if_pos hm]
      · rw [if_neg hm, if_pos]
        rintro ⟨hr, hl⟩
        rcases hx with hx | hx | hx
        · rw [hx] at hr; cases hr
        · omega
        · exact hm hx
  refine ⟨by rw [h1], ?_⟩
  unfold readFileOrEnd
  rw [h1]

example : readFileOrEnd { three with readable := false } 0 = abort := (C300_refused _ 0 3 (.inr ⟨rfl, by decide, .inl rfl⟩)).2

/-- If the file became shorter, there is no string rather than a wrong one; if it became longer, the string has the first bytes. -/
theorem C300_changed (sys : Sys) (handles fsize : Nat) (hs : sys.size = some fsize) (s : List UInt8)
    (h : (readFile 1 sys handles).1 = some s) : s = sys.content.take fsize ∧ s.length = fsize := by
  unfold readFile at h
  rw [hs] at h
  dsimp only at h
  by_cases h0 : fsize = 0
  · rw [if_pos h0] at h
    obtain rfl : [] = s := by simpa using h
    simp [h0]
  · rw [if_neg h0] at h
    split at h
    · cases h
    · split at h
      · cases h
      · split at h
        · cases h
        · rename_i hn
          simp only [Nat.mul_one, Nat.div_one, ne_eq, Decidable.not_not] at hn
          simp only [Option.some.injEq, Nat.mul_one] at h
          rw [hn, Nat.sub_self, List.replicate_zero, List.append_nil] at h
          rw [← h]
          exact ⟨rfl, hn⟩

example : three.size = some 3 ∧ (readFile 1 three 0).1 = some [1, 2, 3] := by decide

/-- With characters of two bytes the string is twice as long as the file, its second half is zeros. -/
theorem C300_wide_violated : ∃ sys : Sys, sys.size = some sys.content.length ∧ (readFile 2 sys 0).1 ≠ some sys.content ∧
    (readFile 2 sys 0).1 = some (sys.content ++ [0, 0, 0, 0]) :=
  ⟨{ size := some 4, readable := true, content := [1, 2, 3, 4], limit := 20, maxSize := 1000 }, by decide⟩

theorem after_min (sys : Sys) (hs : sys.size = some sys.content.length) (hr : sys.readable = true) (hp : sys.content ≠ [])
    (hm : sys.content.length ≤ sys.maxSize) (n : Nat) : after sys n = min n sys.limit := by
  have hl := List.length_pos_iff.2 hp
  induction n with
  | zero => simp [after]
  | succ n ih =>
    rw [after, ih]
    unfold readFile
    rw [hs]
    dsimp only
    rw [if_neg (by omega), if_neg (by omega)]
    by_cases h : n < sys.limit
    · rw [if_neg (by simp [hr]; omega), if_neg (by simp)]
      dsimp only
      omega
    · rw [if_pos (by simp; omega)]
      dsimp only
      omega

/-- The file is never closed: after as many calls as the process may have files open, a readable file is not read any more. -/
theorem C300_leak_violated (sys : Sys) (hs : sys.size = some sys.content.length) (hr : sys.readable = true) (hp : sys.content ≠ [])
    (hm : sys.content.length ≤ sys.maxSize) (n : Nat) (hn : sys.limit ≤ n) : (readFile 1 sys (after sys n)).1 = none := by
  have hl := List.length_pos_iff.2 hp
  rw [after_min sys hs hr hp hm]
  unfold readFile
  rw [hs]
  dsimp only
  rw [if_neg (by omega), if_neg (by omega), if_pos (by simp; omega)]

example : three.content ≠ [] ∧ three.limit ≤ 20 := by decide

/-! ## Owners of C files -/

/-- The owners, each with its `FILE *`, daw_cfile.h 17-19, the files closed and those released to the user. -/
structure Owners where
  /-- The member `ptr` of each `CFile`, daw_cfile.h 19. -/
  ptrs : List (Option Nat)
  /-- The files for which `fclose` was called, daw_cfile.h 58. -/
  closed : List Nat
  /-- The files returned by `release`, daw_cfile.h 45-47. -/
  released : List Nat

/-- What a program does with owners, daw_cfile.h 26-64. -/
inductive Op
  | make (f : Nat)
  | moveMake (i : Nat)
  | assign (i j : Nat)
  | release (i : Nat)
  | reset (i f : Nat)
  | close (i : Nat)

/-- `close`, daw_cfile.h 56-60, also `reset( )`, 62-64, and the destructor, 37-39.  Closing a file twice is undefined.  An index without an
owner does nothing here and below. -/
def close (o : Owners) (i : Nat) : Cxx Owners :=
  match o.ptrs[i]? with
  | some (some f) => if f ∈ o.closed then ub else pure { o with ptrs := o.ptrs.set i none, closed := f :: o.closed }
  | _ => pure o

/-- `release`, daw_cfile.h 45-47: the pointer and the owners after it. -/
def release (o : Owners) (i : Nat) : Option Nat × Owners :=
  match o.ptrs[i]? with
  | some p => (p, { o with ptrs := o.ptrs.set i none })
  | none => (none, o)

/-- `reset( f )`, daw_cfile.h 49-54. -/
def reset (o : Owners) (i : Nat) (f : Option Nat) : Cxx Owners := do
  let o' ← close o i
  pure { o' with ptrs := o'.ptrs.set i f }

/-- The operations, daw_cfile.h 26-64.  `CFile( CFile && )`, 29-30, takes the pointer; `operator=( CFile && )`, 32-35, is `reset( release( ) )` on
the object itself. -/
def step (o : Owners) : Op → Cxx Owners
  | .make f => pure { o with ptrs := o.ptrs ++ [some f] }
  | .moveMake i =>
    let r := release o i
    pure { r.2 with ptrs := r.2.ptrs ++ [r.1] }
  | .assign i _ =>
    let r := release o i
    reset r.2 i r.1
  | .release i =>
    let r := release o i
    pure { r.2 with released := r.1.toList ++ r.2.released }
  | .reset i f => if i < o.ptrs.length then reset o i (some f) else pure o
  | .close i => close o i

/-- A program, daw_cfile.h 17-65. -/
def run (o : Owners) (ops : List Op) : Cxx Owners := ops.foldlM step o

/-- The files the operation gives to an owner that exists. (Specification, no line of the source.) -/
def given : List Op → List Nat
  | [] => []
  | .make f :: ops => f :: given ops
  | .reset _ f :: ops => f :: given ops
  | _ :: ops => given ops

/-- How often a file is held, closed and released. (Specification, no line of the source.) -/
def uses (o : Owners) (f : Nat) : Nat := o.ptrs.count (some f) + o.closed.count f + o.released.count f

theorem count_set {l : List (Option Nat)} {i : Nat} {p q : Option Nat} (h : l[i]? = some p) (x : Option Nat) :
    (l.set i q).count x + (if p = x then 1 else 0) = l.count x + (if q = x then 1 else 0) := by
  obtain ⟨hi, hp⟩ := List.getElem?_eq_some_iff.1 h
  rw [List.count_set hi, hp]
  have : (if p = x then 1 else 0) ≤ l.count x := by
    split
    · rename_i hx
      exact List.count_pos_iff.2 (hx ▸ List.mem_of_getElem? h)
    · omega
  simp only [beq_iff_eq]
  omega

theorem close_spec (o : Owners) (i : Nat) (h : ∀ f, uses o f ≤ 1) :
    ∃ o', close o i = pure o' ∧ (∀ f, uses o' f = uses o f) ∧ o'.ptrs = o.ptrs.set i none ∧ o'.released = o.released := by
  unfold close
  cases hg : o.ptrs[i]? with
  | none =>
    refine ⟨o, rfl, fun _ => rfl, ?_, rfl⟩
    rw [List.set_eq_of_length_le (by simpa using hg)]
  | some p =>
    cases p with
    | none =>
      refine ⟨o, rfl, fun _ => rfl, ?_, rfl⟩
      obtain ⟨hi, hp⟩ := List.getElem?_eq_some_iff.1 hg
      apply List.ext_getElem (by simp)
      intro j h1 h2
      rw [List.getElem_set]
      split
      · rename_i hj; subst hj; exact hp
      · rfl
    | some f =>
      have hc : f ∉ o.closed := by
        intro hm
        have h1 := List.count_pos_iff.2 hm
        have h2 := List.count_pos_iff.2 (List.mem_of_getElem? hg)
        have := h f
        unfold uses at this
        omega
      simp only [if_neg hc]
      refine ⟨_, rfl, ?_, rfl, rfl⟩
      intro g
      have := count_set (q := none) hg (some g)
      unfold uses
      simp only [List.count_cons, beq_iff_eq, Option.some.injEq, reduceCtorEq, if_false, Nat.add_zero] at this ⊢
      omega

theorem step_spec (o : Owners) (op : Op) (h : ∀ f, uses o f + (given [op]).count f ≤ 1) :
    ∃ o', step o op = pure o' ∧ ∀ f, uses o' f ≤ uses o f + (given [op]).count f ∧
      ((∀ i f, op = .reset i f → i < o.ptrs.length) → uses o' f = uses o f + (given [op]).count f) := by
  have h1 : ∀ f, uses o f ≤ 1 := fun f => by have := h f; omega
  cases op with
  | make f =>
    refine ⟨_, rfl, fun g => ?_⟩
    have : uses { o with ptrs := o.ptrs ++ [some f] } g = uses o g + (given [.make f]).count g := by
      simp only [uses, given, List.count_append, List.count_cons, List.count_nil, beq_iff_eq, Option.some.injEq]
      omega
    exact ⟨by omega, fun _ => this⟩
  | moveMake i =>
    refine ⟨_, rfl, fun g => ?_⟩
    have : uses { (release o i).2 with ptrs := (release o i).2.ptrs ++ [(release o i).1] } g = uses o g := by
      unfold release
      cases hg : o.ptrs[i]? with
      | none => simp [uses]
      | some p =>
        have hc := count_set (q := none) hg (some g)
        simp only [uses, List.count_append, List.count_cons, List.count_nil, beq_iff_eq, reduceCtorEq, if_false, Nat.add_zero] at hc ⊢
        omega
    simp [given, this]
  | assign i j =>
    have hsame : release o i = (((release o i).1), (release o i).2) := rfl
    have key : ∃ o', reset (release o i).2 i (release o i).1 = pure o' ∧ ∀ g, uses o' g = uses o g := by
      unfold release
      cases hg : o.ptrs[i]? with
      | none =>
        refine ⟨{ o with ptrs := o.ptrs.set i none }, ?_, fun g => ?_⟩
        · simp [reset, close, hg]
        · rw [List.set_eq_of_length_le (by simpa using hg)]
      | some p =>
        obtain ⟨hi, hp⟩ := List.getElem?_eq_some_iff.1 hg
        refine ⟨{ o with ptrs := (o.ptrs.set i none).set i p }, ?_, fun g => ?_⟩
        · simp [reset, close, List.getElem?_set_self hi]
        · have : (o.ptrs.set i none).set i p = o.ptrs := by
            rw [List.set_set, ← hp, List.set_getElem_self]
          rw [this]
    obtain ⟨o', ho, hu⟩ := key
    exact ⟨o', ho, fun g => by simp [given, hu]⟩
  | release i =>
    refine ⟨_, rfl, fun g => ?_⟩
    have : uses { (release o i).2 with released := (release o i).1.toList ++ (release o i).2.released } g = uses o g := by
      unfold release
      cases hg : o.ptrs[i]? with
      | none => simp [uses]
      | some p =>
        have hc := count_set (q := none) hg (some g)
        cases p with
        | none => simp only [uses, reduceCtorEq, if_false, Nat.add_zero, Option.toList, List.nil_append] at hc ⊢; omega
        | some f =>
          simp only [uses, reduceCtorEq, if_false, Nat.add_zero, Option.toList, List.cons_append, List.nil_append, List.count_cons, beq_iff_eq,
            Option.some.injEq] at hc ⊢
          omega
    simp [given, this]
  | reset i f =>
    simp only [step]
    by_cases hi : i < o.ptrs.length
    · rw [if_pos hi]
      obtain ⟨o1, ho1, hu, hp, hr⟩ := close_spec o i h1
      refine ⟨{ o1 with ptrs := o1.ptrs.set i (some f) }, by rw [reset, ho1, pure_bind], fun g => ?_⟩
      have hg : o1.ptrs[i]? = some none := by rw [hp, List.getElem?_set_self hi]
      have hc := count_set (q := some f) hg (some g)
      have hu' := hu g
      have : uses { o1 with ptrs := o1.ptrs.set i (some f) } g = uses o g + (given [.reset i f]).count g := by
        simp only [uses, given, List.count_cons, List.count_nil, beq_iff_eq, Option.some.injEq, reduceCtorEq, if_false, Nat.add_zero] at hc hu' ⊢
        omega
      exact ⟨by omega, fun _ => this⟩
    · rw [if_neg hi]
      exact ⟨o, rfl, fun g => ⟨by omega, fun hx => absurd (hx i f rfl) hi⟩⟩
  | close i =>
    obtain ⟨o1, ho1, hu, _, _⟩ := close_spec o i h1
    exact ⟨o1, ho1, fun g => by simp [given, hu]⟩

theorem given_cons (op : Op) (ops : List Op) : given (op :: ops) = given [op] ++ given ops := by
  cases op <;> rfl

theorem run_spec (o : Owners) (ops : List Op) (h : ∀ f, uses o f + (given ops).count f ≤ 1) :
    ∃ o', run o ops = pure o' ∧ ∀ f, uses o' f ≤ uses o f + (given ops).count f := by
  induction ops generalizing o with
  | nil => exact ⟨o, rfl, fun f => by simp [given]⟩
  | cons op ops ih =>
    simp only [given_cons op ops, List.count_append] at h ⊢
    obtain ⟨o1, h1, hu⟩ := step_spec o op (fun f => by have := h f; omega)
    obtain ⟨o2, h2, hv⟩ := ih o1 (fun f => by have := h f; have := (hu f).1; omega)
    refine ⟨o2, ?_, fun f => by have := (hu f).1; have := hv f; omega⟩
    rw [run, List.foldlM_cons, h1, pure_bind]
    exact h2

/-- Whatever a program does, if no file is given twice then every file is closed at most once, and only while nobody else holds it.  Missing: that
assignment moves the file, which is false. -/
theorem C301_once_partial (ops : List Op) (h : (given ops).Nodup) :
    ∃ o, run ⟨[], [], []⟩ ops = pure o ∧ o.closed.Nodup ∧ (∀ f, some f ∈ o.ptrs → f ∉ o.closed ∧ f ∉ o.released) ∧
      ∀ f ∈ o.closed, f ∉ o.released := by
  have hc : ∀ f, uses ⟨[], [], []⟩ f + (given ops).count f ≤ 1 := by
    intro f
    have := List.nodup_iff_count.1 h f
    simpa [uses] using this
  obtain ⟨o, ho, hu⟩ := run_spec _ ops hc
  have hu' : ∀ f, uses o f ≤ 1 := fun f => by have := hu f; have := hc f; omega
  refine ⟨o, ho, ?_, ?_, ?_⟩
  · rw [List.nodup_iff_count]
    intro f
    have := hu' f
    unfold uses at this
    omega
  · intro f hf
    have h1 := List.count_pos_iff.2 hf
    have h2 := hu' f
    unfold uses at h2
    refine ⟨fun hm => ?_, fun hm => ?_⟩ <;> have := List.count_pos_iff.2 hm <;> omega
  · intro f hf hm
    have h1 := List.count_pos_iff.2 hf
    have h3 := List.count_pos_iff.2 hm
    have h2 := hu' f
    unfold uses at h2
    omega

example : (given [.make 5, .moveMake 0, .reset 0 6, .assign 1 0, .close 1]).Nodup := by decide

/-- No file is lost: as long as `reset` is called on owners that exist, every file given is held, closed or released, exactly once. -/
theorem C301_kept (o : Owners) (op : Op) (h : ∀ f, uses o f + (given [op]).count f ≤ 1) (hr : ∀ i f, op = .reset i f → i < o.ptrs.length) :
    ∃ o', step o op = pure o' ∧ ∀ f, uses o' f = uses o f + (given [op]).count f := by
  obtain ⟨o', ho, hu⟩ := step_spec o op h
  exact ⟨o', ho, fun f => (hu f).2 hr⟩

example : ∀ f, uses ⟨[some 5], [], []⟩ f + (given [.reset 0 6]).count f ≤ 1 := by
  intro f
  simp only [uses, given, List.count_cons, List.count_nil, beq_iff_eq, Option.some.injEq]
  split <;> split <;> omega

/-- The destructor closes what the owner holds. -/
theorem C301_destructor (o : Owners) (i f : Nat) (h : ∀ f, uses o f ≤ 1) (hf : o.ptrs[i]? = some (some f)) :
    ∃ o', step o (.close i) = pure o' ∧ f ∈ o'.closed ∧ o'.ptrs[i]? = some none := by
  obtain ⟨o', ho, _, hp, _⟩ := close_spec o i h
  obtain ⟨hi, _⟩ := List.getElem?_eq_some_iff.1 hf
  refine ⟨o', ho, ?_, by rw [hp, List.getElem?_set_self hi]⟩
  unfold close at ho
  rw [hf] at ho
  dsimp only at ho
  split at ho
  · exact absurd ho (ub_ne_pure _)
  · rw [pure_inj] at ho
    rw [← ho]
    simp

example : (⟨[some 5], [], []⟩ : Owners).ptrs[0]? = some (some 5) := rfl

/-- Assignment from another owner does nothing: the target keeps its file and the source too. -/
theorem C301_assign_violated (o : Owners) (i j : Nat) (hi : i < o.ptrs.length) : step o (.assign i j) = pure o := by
  simp only [step, release, List.getElem?_eq_getElem hi]
  simp [reset, close, List.getElem?_set_self hi, List.set_set, List.set_getElem_self]

example : (⟨[none, some 5], [], []⟩ : Owners).ptrs.length = 2 ∧ step ⟨[none, some 5], [], []⟩ (.assign 0 1) = pure ⟨[none, some 5], [], []⟩ :=
  ⟨rfl, C301_assign_violated _ _ _ (by decide)⟩

end Verif.Util.Files
