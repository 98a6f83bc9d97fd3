import Verif.Base
import Verif.Containers.Lists

/-
Pipelines of functions, include/daw/pipelines/pipeline.h, and the stages in include/daw/pipelines/foreach.h, predicates.h, sample.h, maybe.h and elements.h.
-/

namespace Verif.Pipe.Compose
open Verif Verif.Cxx

/-! ## Pipelines -/

/-- A stage given to `pipeline`: what it does when called with a range, and what it returns when it can be called without arguments. (Specification, no line of the source.) -/
structure Stage (α : Type) where
  call : α → Cxx α
  made : Option (α → Cxx α)

/-- `invoke_if_needed`, pipelines/pipeline.h 28-35: what can be called without arguments is called, once. -/
def invokeIfNeeded {α : Type} (s : Stage α) : α → Cxx α :=
  match s.made with
  | some f => f
  | none => s.call

/-- `make_tpfns`, pipelines/pipeline.h 92-100. -/
def makeFns {α : Type} (stages : List (Stage α)) : List (α → Cxx α) := stages.map invokeIfNeeded

/-- `pimpl::pipeline<Idx>`, pipelines/pipeline.h 37-48.  An index that is not there does not compile, here `abort`. -/
def runTo {α : Type} (fns : List (α → Cxx α)) : Nat → α → Cxx α
  | 0, r =>
    match fns[0]? with
    | some f => f r
    | none => abort
  | idx + 1, r => do
    let param ← runTo fns idx r
    match fns[idx + 1]? with
    | some f => f param
    | none => abort

/-- `pipeline( r, fns... )`, pipelines/pipeline.h 104-109, after `fix_range`. -/
def pipeline {α : Type} (r : α) (stages : List (Stage α)) : Cxx α := runTo (makeFns stages) (stages.length - 1) r

/-- The callable that `pipeline( fns... )` returns, pipelines/pipeline.h 111-129.  It cannot be called without arguments. -/
def composed {α : Type} (stages : List (Stage α)) : Stage α := ⟨fun r => runTo (makeFns stages) (stages.length - 1) r, none⟩

/-- `fix_range` of an array of characters, pipelines/pipeline.h 50-59: const ones lose their last character, others keep all. -/
def fixRange (isConst : Bool) (arr : List Char) : List Char := if isConst then arr.take (arr.length - 1) else arr

/-! ### Proofs -/

theorem runTo_take {α : Type} (fns : List (α → Cxx α)) (idx : Nat) (h : idx < fns.length) (r : α) :
    runTo fns idx r = (fns.take (idx + 1)).foldlM (fun x f => f x) r := by
  induction idx with
  | zero =>
    cases fns with
    | nil => simp at h
    | cons f fns => simp [runTo]
  | succ idx ih =>
    rw [List.take_add_one, List.getElem?_eq_getElem h, Option.toList_some, List.foldlM_append, ← ih (by omega)]
    simp only [runTo, List.getElem?_eq_getElem h, List.foldlM_cons, List.foldlM_nil, bind_pure]

theorem pipeline_fold {α : Type} (r : α) (stages : List (Stage α)) (h : stages ≠ []) :
    runTo (makeFns stages) (stages.length - 1) r = stages.foldlM (fun x s => invokeIfNeeded s x) r := by
  have hl : 0 < stages.length := List.length_pos_iff.2 h
  rw [runTo_take _ _ (by simp [makeFns]; omega), List.take_of_length_le (by simp [makeFns]; omega)]
  simp [makeFns, List.foldlM_map]

/-- **C317.**  A pipeline calls each stage with what the stage before returned, from the first to the last, and returns what the last returns; the first exception ends it.
The callable that `pipeline` makes of stages alone does the same. -/
theorem C317_in_order {α : Type} (r : α) (stages : List (Stage α)) (h : stages ≠ []) (hm : ∀ s ∈ stages, s.made = none) :
    pipeline r stages = stages.foldlM (fun x s => s.call x) r ∧ (composed stages).call r = stages.foldlM (fun x s => s.call x) r := by
  have key : ∀ (ss : List (Stage α)), (∀ s ∈ ss, s.made = none) → ∀ r : α,
      ss.foldlM (fun x s => invokeIfNeeded s x) r = ss.foldlM (fun x s => s.call x) r := by
    intro ss
    induction ss with
    | nil => intro _ r; rfl
    | cons s ss ih =>
      intro hm r
      simp only [List.foldlM_cons]
      rw [show invokeIfNeeded s = s.call by unfold invokeIfNeeded; rw [hm s (by simp)]]
      congr 1
      funext x
      exact ih (fun t ht => hm t (by simp [ht])) x
  constructor
  · exact (pipeline_fold r stages h).trans (key stages hm r)
  · exact (pipeline_fold r stages h).trans (key stages hm r)

example : pipeline 3 [⟨fun x : Nat => pure (x + 1), none⟩, ⟨fun x => if x = 4 then pure 10 else thrown, none⟩] = pure 10 := by decide +kernel

/-- **C317.**  Pipelines may be nested: a stage that is a pipeline does the same as its stages in its place, whatever comes before and after. -/
theorem C317_nested {α : Type} (r : α) (as bs cs : List (Stage α)) (h : bs ≠ []) : pipeline r (as ++ composed bs :: cs) = pipeline r (as ++ bs ++ cs) := by
  unfold pipeline
  rw [pipeline_fold r _ (by simp), pipeline_fold r _ (by simp [h])]
  simp only [List.foldlM_append, List.foldlM_cons]
  rw [bind_assoc]
  congr 1
  funext x
  rw [show invokeIfNeeded (composed bs) = fun r => runTo (makeFns bs) (bs.length - 1) r from rfl]
  dsimp only
  rw [pipeline_fold x bs h]

example := C317_nested 3 [] [⟨fun x : Nat => pure (x + 1), none⟩] [⟨fun x => if x = 4 then pure 10 else thrown, none⟩] (by simp)

/-- **C317** (finding).  A stage that can also be called without arguments, as a lambda with a pack of parameters, is not used: what it returns without arguments is. -/
theorem C317_nullary_violated {α : Type} (r : α) (f g : α → Cxx α) : pipeline r [⟨f, some g⟩] = g r := rfl

/-- **C317.**  Literals are passed as their text.  Missing: other arrays of characters, for which it is false. -/
theorem C317_literal_partial (text : List Char) : fixRange true (text ++ ['\x00']) = text := by
  unfold fixRange
  rw [if_pos rfl]
  simp

/-- **C317** (finding).  A const array of characters loses its last one even if it does not end in zero, and one that is not const keeps its zero. -/
theorem C317_array_violated (text : List Char) (c : Char) :
    fixRange true (text ++ [c]) = text ∧ fixRange false (text ++ ['\x00']) = text ++ ['\x00'] := by
  constructor
  · unfold fixRange
    rw [if_pos rfl]
    simp
  · rfl

/-! ## Stages that call a function for each element -/

/-- `ForEach_t::operator( )`, pipelines/foreach.h 22-31, of a function with state that may change the elements; the same for `ForEachApply_t`, 36-50. -/
def forEach {σ α : Type} (f : σ → α → σ × α) : σ → List α → σ × List α
  | s, [] => (s, [])
  | s, x :: xs =>
    let p := f s x
    let q := forEach f p.1 xs
    (q.1, p.2 :: q.2)

/-- The loop of `ForEachIndexed`, pipelines/foreach.h 68-70, with `left` rounds left: the function gets `r[n]`. -/
def indexedLoop {σ α : Type} (f : σ → α → σ × α) : Nat → Nat → σ → List α → Cxx (σ × List α)
  | 0, _, s, r => pure (s, r)
  | left + 1, n, s, r => do
    let x ← rd r n
    let r' ← wr r n (f s x).2
    indexedLoop f left (n + 1) (f s x).1 r'

/-- `ForEachIndexed`, pipelines/foreach.h 64-73. -/
def forEachIndexed {σ α : Type} (f : σ → α → σ × α) (s : σ) (r : List α) : Cxx (σ × List α) := indexedLoop f r.length 0 s r

/-- `is_one_of_t`, pipelines/predicates.h 19-27: a fold to the right with `or`. -/
def isOneOf {α : Type} [DecidableEq α] (haystack : List α) (needle : α) : Bool := haystack.foldr (fun h b => decide (needle = h) || b) false

/-- `not_fn_t`, pipelines/predicates.h 29-37. -/
def notFn {α : Type} (f : α → Bool) (x : α) : Bool := !f x

/-- The elements that a loop over `maybe_view` visits, pipelines/maybe.h 33-53: from the pointer to one after it, or from null to null. -/
def maybeView {α : Type} (mem : List α) (p : Option Nat) : Cxx (List α) :=
  match p with
  | none => pure []
  | some a => do
    let x ← rd mem a
    pure [x]

theorem indexedLoop_eq {σ α : Type} (f : σ → α → σ × α) (s : σ) (done rest : List α) :
    indexedLoop f rest.length done.length s (done ++ rest) = pure ((forEach f s rest).1, done ++ (forEach f s rest).2) := by
  induction rest generalizing s done with
  | nil => simp [indexedLoop, forEach]
  | cons x rest ih =>
    simp only [List.length_cons, indexedLoop]
    rw [rd_eq (by simp : done.length < (done ++ x :: rest).length), pure_bind, wr_eq (by simp : done.length < (done ++ x :: rest).length), pure_bind]
    have h1 : (done ++ x :: rest)[done.length]'(by simp) = x := by simp
    have h2 : (done ++ x :: rest).set done.length (f s x).2 = (done ++ [(f s x).2]) ++ rest := by
      rw [List.set_append_right _ _ (Nat.le_refl _)]
      simp
    rw [h1, h2]
    have := ih (f s x).1 (done ++ [(f s x).2])
    rw [show (done ++ [(f s x).2]).length = done.length + 1 by simp] at this
    rw [this]
    simp [forEach]

/-- **C318.**  `ForEach` and `ForEachIndexed` call the function once for each element, from the first to the last, and return the elements as the function left them.
Missing: that `ForEachIndexed` passes the index, which is false. -/
theorem C318_each_partial {σ α : Type} (f : σ → α → σ × α) (g : σ → α → σ) (s : σ) (r : List α) (hf : ∀ s x, (f s x).1 = g s x) :
    (forEach f s r).1 = r.foldl g s ∧ (forEach f s r).2.length = r.length ∧
      (∀ i (h : i < r.length) (h' : i < (forEach f s r).2.length), (forEach f s r).2[i] = (f ((r.take i).foldl g s) r[i]).2) ∧
      forEachIndexed f s r = pure (forEach f s r) := by
  refine ⟨?_, ?_, ?_, ?_⟩
  · induction r generalizing s with
    | nil => rfl
    | cons x r ih => simp only [forEach, List.foldl_cons]; rw [ih, hf]
  · induction r generalizing s with
    | nil => rfl
    | cons x r ih => simp only [forEach, List.length_cons]; rw [ih]
  · induction r generalizing s with
    | nil => intro i h; simp at h
    | cons x r ih =>
      intro i h h'
      cases i with
      | zero => rfl
      | succ i =>
        simp only [forEach, List.getElem_cons_succ, List.take_succ_cons, List.foldl_cons]
        rw [ih, hf]
  · exact indexedLoop_eq f s [] r

example : forEach (fun (log : List Nat) (x : Nat) => (log ++ [x], x * 2)) [] [1, 2] = ([1, 2], [2, 4]) := rfl

/-- **C318** (finding).  `ForEachIndexed` tells its function nothing about the index: what it logs for equal elements is the same at every index. -/
theorem C318_index_violated {α : Type} (show_ : α → List Nat) (x : α) (n : Nat) :
    forEachIndexed (fun (log : List (List Nat)) (y : α) => (log ++ [show_ y], y)) [] (List.replicate n x) = pure (List.replicate n (show_ x), List.replicate n x) := by
  rw [show forEachIndexed (fun (log : List (List Nat)) (y : α) => (log ++ [show_ y], y)) [] (List.replicate n x) = _ from indexedLoop_eq _ [] [] _]
  have key : ∀ (n : Nat) (log : List (List Nat)), forEach (fun (log : List (List Nat)) (y : α) => (log ++ [show_ y], y)) log (List.replicate n x) =
      (log ++ List.replicate n (show_ x), List.replicate n x) := by
    intro n
    induction n with
    | zero => intro log; simp [forEach]
    | succ n ih => intro log; simp [List.replicate_succ, forEach, ih]
  rw [key]
  rfl

/-- **C318.**  `IsOneOf` is true exactly for the values given, of which there may be none, and `Not( IsOneOf )` for all others. -/
theorem C318_one_of {α : Type} [DecidableEq α] (haystack : List α) (needle : α) :
    (isOneOf haystack needle = true ↔ needle ∈ haystack) ∧ (notFn (isOneOf haystack) needle = true ↔ needle ∉ haystack) := by
  have : isOneOf haystack needle = true ↔ needle ∈ haystack := by
    unfold isOneOf
    induction haystack with
    | nil => simp
    | cons h hs ih => simp [ih]
  exact ⟨this, by rw [notFn, Bool.not_eq_true', ← Bool.not_eq_true, this]⟩

example := (C318_one_of [3, 4, 5] 4).1.2 (by decide)

/-- **C318.**  A `maybe_view` of nothing has no elements, one of an object has it as its only element. -/
theorem C318_maybe {α : Type} (mem : List α) (a : Nat) (h : a < mem.length) : maybeView mem none = pure [] ∧ maybeView mem (some a) = pure [mem[a]] := by
  constructor
  · rfl
  · simp only [maybeView]
    rw [rd_eq h]
    rfl

example : maybeView [4, 5] (some 1) = pure [5] := (C318_maybe [4, 5] 1 (by decide)).2

/-! ## Samples -/

/-- The loop of the constructor of `filter_view` and of its increment, pipelines/filter.h 63-65 and 107-109, with the function of `Sample`, pipelines/sample.h 38-43: the state
of the engine and the elements that are left. -/
def skip {σ α : Type} (draw : σ → Nat × σ) (keep : Nat) : σ → List α → σ × List α
  | s, [] => (s, [])
  | s, x :: xs => if (draw s).1 ≤ keep then ((draw s).2, x :: xs) else skip draw keep (draw s).2 xs

theorem skip_length {σ α : Type} (draw : σ → Nat × σ) (keep : Nat) (s : σ) (xs : List α) : (skip draw keep s xs).2.length ≤ xs.length := by
  induction xs generalizing s with
  | nil => simp [skip]
  | cons x xs ih =>
    simp only [skip]
    split
    · simp
    · exact Nat.le_trans (ih _) (by simp)

/-- A loop over a `filter_view`, pipelines/filter.h 76-111, which is at an element it lets through or at the end. -/
def iterate {σ α : Type} (draw : σ → Nat × σ) (keep : Nat) : σ → List α → List α
  | _, [] => []
  | s, x :: xs => x :: iterate draw keep (skip draw keep s xs).1 (skip draw keep s xs).2
termination_by _ xs => xs.length
decreasing_by
  have := skip_length draw keep s xs
  simp only [List.length_cons]
  omega

/-- `Sample_t::operator( )`, pipelines/sample.h 27-44, and a loop over what it returns.  `draw` is the distribution from 1 to the sample size on the engine, `max` the largest
value of its type; each call starts with a copy of the engine. -/
def sample {σ α : Type} (draw : σ → Nat × σ) (max keep size : Nat) (engine : σ) (r : List α) : Cxx (List α) :=
  if keep < size then
    if size ≤ max then
      let view := skip draw keep engine r
      pure (iterate draw keep view.1 view.2)
    else abort
  else abort

/-- The elements at which the draw is among the ones to keep, one draw for each element. (Specification, no line of the source.) -/
def chosen {σ α : Type} (draw : σ → Nat × σ) (keep : Nat) : σ → List α → List α
  | _, [] => []
  | s, x :: xs => if (draw s).1 ≤ keep then x :: chosen draw keep (draw s).2 xs else chosen draw keep (draw s).2 xs

theorem iterate_skip {σ α : Type} (draw : σ → Nat × σ) (keep : Nat) (s : σ) (xs : List α) :
    iterate draw keep (skip draw keep s xs).1 (skip draw keep s xs).2 = chosen draw keep s xs := by
  induction xs generalizing s with
  | nil => simp [skip, iterate, chosen]
  | cons x xs ih =>
    simp only [skip, chosen]
    by_cases h : (draw s).1 ≤ keep
    · rw [if_pos h, if_pos h, iterate, ih]
    · rw [if_neg h, if_neg h, ih]

/-- **C318.**  A sample has the elements in order for which a number of at most `keep` is drawn, one number for each element whatever its value; so samples of two ranges of the same
length have the same places.  Missing: keeping as many as the sample size, for which it is false that all elements are kept. -/
theorem C318_sample_partial {σ α β : Type} (draw : σ → Nat × σ) (max keep size : Nat) (engine : σ) (r : List α) (f : α → β) (hk : keep < size) (hm : size ≤ max) :
    sample draw max keep size engine r = pure (chosen draw keep engine r) ∧ (chosen draw keep engine r).Sublist r ∧
      sample draw max keep size engine (r.map f) = pure ((chosen draw keep engine r).map f) := by
  have h1 : ∀ {γ : Type} (r : List γ), sample draw max keep size engine r = pure (chosen draw keep engine r) := by
    intro γ r
    unfold sample
    rw [if_pos hk, if_pos hm]
    dsimp only
    rw [iterate_skip]
  refine ⟨h1 r, ?_, ?_⟩
  · clear h1
    induction r generalizing engine with
    | nil => simp [chosen]
    | cons x r ih =>
      simp only [chosen]
      split
      · exact (ih _).cons_cons x
      · exact (ih _).cons x
  · rw [h1]
    congr 1
    clear h1
    induction r generalizing engine with
    | nil => simp [chosen]
    | cons x r ih =>
      simp only [chosen, List.map_cons]
      split
      · rw [ih]; rfl
      · exact ih _

example : sample (fun s : Nat => (s % 3 + 1, s + 1)) 100 1 3 0 ['a', 'b', 'c', 'd'] = pure ['a', 'd'] := by
  rw [(C318_sample_partial _ 100 1 3 0 ['a', 'b', 'c', 'd'] (fun c => c) (by decide) (by decide)).1]
  rfl

/-- **C318** (finding).  Keeping all, `Sample( n, n )`, ends the program. -/
theorem C318_sample_all_violated {σ α : Type} (draw : σ → Nat × σ) (max size : Nat) (engine : σ) (r : List α) : sample draw max size size engine r = abort := by
  unfold sample
  rw [if_neg (Nat.lt_irrefl _)]

/-! ## Elements of tuples -/

/-- Where the rows are that a range gives: in the range itself, if it owns them; outside of the pipeline; or in a local variable of a call of `pimpl::pipeline` that has
returned. (Rule of C++ or its library, no line of the source.) -/
inductive Place
  | own
  | outside
  | gone
  deriving DecidableEq

/-- A range of rows. (Specification, no line of the source.) -/
structure Rows where
  rows : List (List Nat)
  place : Place
  deriving DecidableEq

/-- Stages: `Elements<Indices...>`, pipelines/elements.h 390-400, and one that makes a range that owns its rows and gives them by value, such as a container and a `Map` of it to tuples, which owns the container, pipelines/map.h; `Elements` compiles for no
container of tuples itself, see C326. (Specification, no line of the source.) -/
inductive Step
  | elements (indices : List Nat)
  | collect
  deriving DecidableEq

/-- `raw_get`, pipelines/elements.h 231-237; an index that is not in the tuple does not compile, here `abort`. -/
def pick (indices : List Nat) (row : List Nat) : Cxx (List Nat) :=
  match indices.mapM fun i => row[i]? with
  | some out => pure out
  | none => abort

/-- The rows of a range, which can be read unless they are gone. (Rule of C++ or its library, no line of the source.) -/
def readRows (r : Rows) : Cxx (List (List Nat)) := if r.place = .gone then ub else pure r.rows

/-- One stage in its call of `pimpl::pipeline`, pipelines/pipeline.h 41-47: the range it is called with is a local variable, which is gone afterwards.  `elements_view` has iterators
only, pipelines/elements.h 376-379, so its rows are in that variable if that owns them.  Here the elements are taken when the view is made, and whether they are there is kept in
`place`. -/
def stepStage (r : Rows) : Step → Cxx Rows
  | .elements indices => do
    let out ← r.rows.mapM (pick indices)
    pure ⟨out, match r.place with | .own => .gone | p => p⟩
  | .collect => do
    let xs ← readRows r
    pure ⟨xs, .own⟩

/-- A pipeline on an lvalue, pipelines/pipeline.h 104-109, and reading the result. -/
def pipeRows (rows : List (List Nat)) (steps : List Step) : Cxx (List (List Nat)) := do
  let r ← steps.foldlM stepStage ⟨rows, .outside⟩
  readRows r

/-- What the pipeline should give. (Specification, no line of the source.) -/
def pipeSpec (rows : List (List Nat)) : List Step → Cxx (List (List Nat))
  | [] => pure rows
  | .elements indices :: steps => do
    let out ← rows.mapM (pick indices)
    pipeSpec out steps
  | .collect :: steps => pipeSpec rows steps

/-- No `Elements` comes after a stage that makes an owning range. (Specification, no line of the source.) -/
def Late : List Step → Prop
  | [] => True
  | .elements _ :: steps => Late steps
  | .collect :: steps => ∀ s ∈ steps, s = .collect

theorem collects (rows : List (List Nat)) (steps : List Step) (h : ∀ s ∈ steps, s = .collect) :
    (steps.foldlM stepStage ⟨rows, .own⟩ >>= readRows) = pure rows ∧ pipeSpec rows steps = pure rows := by
  induction steps with
  | nil => exact ⟨rfl, rfl⟩
  | cons s steps ih =>
    obtain rfl := h s (by simp)
    exact ih fun t ht => h t (by simp [ht])

/-- **C319.**  A pipeline picks the elements with the indices given, in their order and as often as they are given, of each row in order, through any number of stages, as long as no
range that owns its rows is made before a stage that picks.  Missing: owning ranges before such stages, for which it is false. -/
theorem C319_elements_partial (rows : List (List Nat)) (steps : List Step) (h : Late steps) : pipeRows rows steps = pipeSpec rows steps := by
  unfold pipeRows
  induction steps generalizing rows with
  | nil => rfl
  | cons s steps ih =>
    cases s with
    | elements indices =>
      simp only [List.foldlM_cons, stepStage, pipeSpec, bind_assoc, pure_bind]
      congr 1
      funext out
      exact ih out h
    | collect =>
      have := collects rows steps h
      simp only [List.foldlM_cons, stepStage, pipeSpec, readRows, reduceCtorEq, if_false, pure_bind]
      exact this.1.trans this.2.symm

example : pipeRows [[1, 2, 3], [4, 5, 6]] [.elements [2, 0, 2], .elements [1, 0], .collect] = pure [[1, 3], [4, 6]] := by decide +kernel

theorem mapM_row (row : List Nat) (is : List Nat) : ∀ out, is.mapM (fun i => row[i]?) = some out ↔
    out.length = is.length ∧ ∀ (j : Nat) (i : Nat), is[j]? = some i → ∃ a, row[i]? = some a ∧ out[j]? = some a := by
  induction is with
  | nil => intro out; simp [List.mapM_nil, eq_comm]
  | cons i is ih =>
    intro out
    rw [List.mapM_cons]
    constructor
    · intro h
      obtain ⟨a, ha, h1⟩ := Option.bind_eq_some_iff.1 h
      obtain ⟨o, ho, h2⟩ := Option.bind_eq_some_iff.1 h1
      cases h2
      obtain ⟨hl, hj⟩ := (ih o).1 ho
      refine ⟨by simp [hl], fun j k hk => ?_⟩
      cases j with
      | zero => simp at hk; subst hk; exact ⟨a, ha, rfl⟩
      | succ j => exact hj j k hk
    · rintro ⟨hl, hj⟩
      cases out with
      | nil => simp at hl
      | cons a o =>
        obtain ⟨b, hb, hb2⟩ := hj 0 i rfl
        simp at hb2
        subst hb2
        have ho := (ih o).2 ⟨by simpa using hl, fun j k hk => hj (j + 1) k hk⟩
        rw [hb, ho]
        rfl

/-- **C319.**  One `Elements` stage on rows that stay compiles exactly if every row has the indices given; its result has as many rows, and the element `j` of each is the one with index `Is[j]` of the
row. -/
theorem C319_indices_partial (rows out : List (List Nat)) (is : List Nat) : pipeRows rows [.elements is] = pure out ↔
    out.length = rows.length ∧ ∀ (k : Nat) (row : List Nat), rows[k]? = some row → ∃ o, out[k]? = some o ∧ o.length = is.length ∧
      ∀ (j : Nat) (i : Nat), is[j]? = some i → ∃ a, row[i]? = some a ∧ o[j]? = some a := by
  have hpick : ∀ row o, pick is row = pure o ↔ is.mapM (fun i => row[i]?) = some o := fun row o => by
    unfold pick
    cases h : is.mapM (fun i => row[i]?) with
    | none => simp [abort_ne_pure]
    | some x => simp [Cxx.pure_inj]
  have hm : ∀ (rows : List (List Nat)) (out : List (List Nat)), rows.mapM (pick is) = pure out ↔
      out.length = rows.length ∧ ∀ (k : Nat) (row : List Nat), rows[k]? = some row → ∃ o, out[k]? = some o ∧ pick is row = pure o := by
    intro rows
    induction rows with
    | nil =>
      intro out
      rw [List.mapM_nil, Cxx.pure_inj]
      simp [eq_comm]
    | cons r rows ih =>
      intro out
      rw [List.mapM_cons, Cxx.bind_eq_pure]
      constructor
      · rintro ⟨o, h1, h2⟩
        obtain ⟨os, h3, h4⟩ := Cxx.bind_eq_pure.1 h2
        obtain rfl := Cxx.pure_inj.1 h4
        obtain ⟨hl, hk⟩ := (ih os).1 h3
        refine ⟨by simp [hl], fun k row hr => ?_⟩
        cases k with
        | zero => simp at hr; subst hr; exact ⟨o, rfl, h1⟩
        | succ k => exact hk k row hr
      · rintro ⟨hl, hk⟩
        cases out with
        | nil => simp at hl
        | cons o os =>
          obtain ⟨o', ho, hp⟩ := hk 0 r rfl
          simp at ho
          subst ho
          exact ⟨o, hp, Cxx.bind_eq_pure.2 ⟨os, (ih os).2 ⟨by simpa using hl, fun k row hr => hk (k + 1) row hr⟩, rfl⟩⟩
  have hpipe : pipeRows rows [.elements is] = rows.mapM (pick is) := by
    simp only [pipeRows, List.foldlM_cons, List.foldlM_nil, stepStage, readRows, bind_assoc, pure_bind, reduceCtorEq, if_false, bind_pure]
  rw [hpipe, hm]
  simp only [hpick, mapM_row]

example : pipeRows [[1, 2, 3], [4, 5, 6]] [.elements [2, 0]] = pure [[3, 1], [6, 4]] := by decide +kernel

/-- **C319** (finding).  After a stage that makes an owning range, such as `To<std::vector>` and `Map` to tuples, the result of `Elements` refers to a vector that is gone: reading it is
undefined whatever comes next. -/
theorem C319_container_violated (rows : List (List Nat)) (indices : List Nat) (out : List (List Nat)) (h : rows.mapM (pick indices) = pure out) :
    pipeRows rows [.collect, .elements indices] = ub ∧ pipeRows rows [.collect, .elements indices, .collect] = ub := by
  constructor
  · simp only [pipeRows, List.foldlM_cons, List.foldlM_nil, stepStage, readRows, reduceCtorEq, if_false, pure_bind, h]
    rfl
  · simp only [pipeRows, List.foldlM_cons, List.foldlM_nil, stepStage, readRows, reduceCtorEq, if_false, pure_bind, h]
    rfl

example : [[1, 2], [3, 4]].mapM (pick [1]) = pure [[2], [4]] := by decide +kernel

end Verif.Pipe.Compose
