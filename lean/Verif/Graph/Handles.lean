import Verif.Graph.Model

/-
The nodes `graph_t` hands out, `graph_node_t` and `const_graph_node_t`, include/daw/daw_graph.h 158-338: a pointer to the graph and an
id.  They are kept while graphs change.  The graphs of a program are numbered; none is destroyed or moved, since a handle has the
address.  The debug checks are on.
-/

namespace Verif.Graph.Handles
open Cxx

variable {τ : Type}

/-- The graphs of a program, by number. (Model of memory, no line of the source.) -/
abbrev World (τ : Type) := Nat → Graph τ

/-- A node as handed out: `m_graph`, by the number of the graph, and `m_node_id`, daw_graph.h 167-168 and 248-249. -/
structure Handle where
  graph : Option Nat
  id : Nat
  deriving DecidableEq

/-- The default constructors, daw_graph.h 171 and 252, with 33. -/
def Handle.new : Handle := ⟨none, noId⟩

/-- `get_node` of graph `i`, daw_graph.h 388-396. -/
def getNode (w : World τ) (i id : Nat) : Cxx Handle := do
  check (w i) id
  pure ⟨some i, id⟩

/-- `empty`, daw_graph.h 185-187 and 266-268. -/
def Handle.empty (h : Handle) : Bool := h.graph.isNone || !(h.id != noId)

/-- `operator bool`, daw_graph.h 189-191 and 270-272. -/
def Handle.toBool (h : Handle) : Bool := h.graph.isSome && h.id != noId

/-- The node read by `value`, `incoming_edges` and `outgoing_edges`, daw_graph.h 193-209 and 274-308. -/
def Handle.read (w : World τ) (h : Handle) : Cxx (Node τ) :=
  match h.graph with
  | none => abort
  | some i => if h.id = noId then abort else node (w i) h.id

/-- `value` read, daw_graph.h 193-197 and 280-284. -/
def Handle.value (w : World τ) (h : Handle) : Cxx τ := do
  let n ← h.read w
  pure n.value

/-- `value( ) = v`, daw_graph.h 274-278. -/
def Handle.assign (w : World τ) (h : Handle) (v : τ) : Cxx (World τ) := do
  let _ ← h.read w
  match h.graph with
  | none => abort
  | some i => pure fun j => if j = i then upd (w j) h.id (fun n => { n with value := v }) else w j

/-- `operator<`, daw_graph.h 227-234 and 326-333. -/
def Handle.lt (a b : Handle) : Cxx Bool := if a.graph = b.graph then pure (decide (a.id < b.id)) else abort

/-- What a program does: a call of graph `i`, or a value assigned through a handle.  daw_graph.h 274-278 and 344-545. -/
inductive WOp (τ : Type) where
  | call (i : Nat) (o : Op τ)
  | assign (h : Handle) (v : τ)

/-- One of them, daw_graph.h 274-278 and 356-463. -/
def wstep (w : World τ) : WOp τ → Cxx (World τ)
  | .call i o => do
    let (g, _) ← step (w i) o
    pure fun j => if j = i then g else w j
  | .assign h v => h.assign w v

/-- A program, daw_graph.h 274-278 and 356-463. -/
def wrun (w : World τ) : List (WOp τ) → Cxx (World τ)
  | [] => pure w
  | o :: os => do
    let w ← wstep w o
    wrun w os

/-- All graphs as default constructed, daw_graph.h 354. -/
def start : World τ := fun _ => Graph.empty

/-! ### What is kept -/

/-- Ids given so far are less than `cur_id`. (Invariant, no line of the source.) -/
structure Old (g : Graph τ) : Prop where
  bound : g.cur ≤ noId
  old : ∀ x, (g.nodes x).isSome → x < g.cur

/-- The values of the nodes. (Specification, no line of the source.) -/
def val (g : Graph τ) (x : Nat) : Option τ := (g.nodes x).map Node.value

theorem val_some (g : Graph τ) (x : Nat) : (val g x).isSome = (g.nodes x).isSome := by simp [val]

/-- The ids and the values are the same. (Specification, no line of the source.) -/
def Alike (g g' : Graph τ) : Prop := g'.cur = g.cur ∧ ∀ x, val g' x = val g x

theorem Alike.refl (g : Graph τ) : Alike g g := ⟨rfl, fun _ => rfl⟩

theorem Alike.trans {a b c : Graph τ} (h : Alike a b) (h' : Alike b c) : Alike a c :=
  ⟨h'.1.trans h.1, fun x => (h'.2 x).trans (h.2 x)⟩

theorem upd_alike (g : Graph τ) (id : Nat) (f : Node τ → Node τ) (hf : ∀ n, (f n).value = n.value) : Alike g (upd g id f) := by
  refine ⟨rfl, fun x => ?_⟩
  unfold val upd
  by_cases h : x = id
  · simp only [h, if_true]
    cases g.nodes id <;> simp [hf]
  · simp only [h, if_false]

theorem Alike.upd {g g' : Graph τ} (h : Alike g g') {id : Nat} {f : Node τ → Node τ} (hf : ∀ n, (f n).value = n.value) :
    Alike g (upd g' id f) := h.trans (upd_alike g' id f hf)

theorem dropOut_alike (id : Nat) (ns : List Nat) : ∀ g g' : Graph τ, dropOut id ns g = pure g' → Alike g g' := by
  induction ns with
  | nil => intro g g' h; rw [dropOut, pure_inj] at h; subst h; exact .refl _
  | cons n ns ih =>
    intro g g' h
    rw [dropOut] at h
    obtain ⟨_, _, h⟩ := bind_eq_pure.1 h
    exact (upd_alike g n (delOut id) (fun _ => rfl)).trans (ih _ _ h)

theorem dropInc_alike (id : Nat) (ns : List Nat) : ∀ g g' : Graph τ, dropInc id ns g = pure g' → Alike g g' := by
  induction ns with
  | nil => intro g g' h; rw [dropInc, pure_inj] at h; subst h; exact .refl _
  | cons n ns ih =>
    intro g g' h
    rw [dropInc] at h
    obtain ⟨_, _, h⟩ := bind_eq_pure.1 h
    exact (upd_alike g n (delInc id) (fun _ => rfl)).trans (ih _ _ h)

theorem Old.alike {g g' : Graph τ} (h : Old g) (ha : Alike g g') : Old g' :=
  ⟨by rw [ha.1]; exact h.bound, fun x hx => by rw [ha.1]; exact h.old x (by rw [← val_some, ← ha.2, val_some]; exact hx)⟩

/-- A call names this node to be removed. (Specification, no line of the source.) -/
def removes (x : Nat) : Op τ → Bool
  | .removeNode id => id == x
  | _ => false

theorem step_old {g g' : Graph τ} {o : Op τ} {r : Option Nat} (h : Old g) (hs : step g o = pure (g', r)) :
    Old g' ∧ g.cur ≤ g'.cur ∧ ∀ x, x < g.cur → val g' x = if removes x o then none else val g x := by
  have alike : Alike g g' → (∀ x, removes x o = false) →
      Old g' ∧ g.cur ≤ g'.cur ∧ ∀ x, x < g.cur → val g' x = if removes x o then none else val g x := by
    intro ha hr
    exact ⟨h.alike ha, Nat.le_of_eq ha.1.symm, fun x _ => by rw [hr x, ha.2]; rfl⟩
  cases o with
  | addNode v =>
    rw [step] at hs
    obtain ⟨⟨g1, id⟩, h1, h2⟩ := bind_eq_pure.1 hs
    have h2 := pure_inj.1 h2
    injection h2 with h2 _
    subst h2
    unfold addNode at h1
    have hb := h.bound
    have hnone : g.nodes g.cur = none := by
      cases hc : g.nodes g.cur with
      | none => rfl
      | some n => exact absurd (h.old g.cur (by rw [hc]; rfl)) (Nat.lt_irrefl _)
    simp only [hnone, Option.isSome_none, Bool.false_eq_true, if_false] at h1
    split at h1
    · exact absurd h1 (abort_ne_pure _)
    · rename_i hne
      have h1 := pure_inj.1 h1
      injection h1 with h1 _
      subst h1
      have hm : (g.cur + 1) % 2 ^ 64 = g.cur + 1 := Nat.mod_eq_of_lt (by unfold noId at *; omega)
      rw [hm]
      refine ⟨⟨?_, ?_⟩, ?_, ?_⟩
      · show g.cur + 1 ≤ noId
        omega
      · intro x hx
        show x < g.cur + 1
        by_cases hxc : x = g.cur
        · omega
        · simp only [hxc, if_false] at hx
          have := h.old x hx
          omega
      · show g.cur ≤ g.cur + 1
        omega
      · intro x hx
        have : x ≠ g.cur := by omega
        simp [val, this, removes]
  | removeNode id =>
    rw [step] at hs
    obtain ⟨g1, h1, h2⟩ := bind_eq_pure.1 hs
    have h2 := pure_inj.1 h2
    injection h2 with h2 _
    subst h2
    unfold removeNode at h1
    obtain ⟨n, _, h1⟩ := bind_eq_pure.1 h1
    obtain ⟨ga, ha, h1⟩ := bind_eq_pure.1 h1
    obtain ⟨m, _, h1⟩ := bind_eq_pure.1 h1
    obtain ⟨gb, hb, h1⟩ := bind_eq_pure.1 h1
    have h1 := pure_inj.1 h1
    subst h1
    have hk := (dropOut_alike _ _ _ _ ha).trans (dropInc_alike _ _ _ _ hb)
    have ho := h.alike hk
    refine ⟨⟨ho.bound, ?_⟩, Nat.le_of_eq hk.1.symm, ?_⟩
    · intro x hx
      by_cases hxi : x = id
      · simp [hxi] at hx
      · simp only [hxi, if_false] at hx
        exact ho.old x hx
    · intro x _
      by_cases hxi : x = id
      · simp [val, removes, hxi]
      · have : (id == x) = false := by simpa using fun e => hxi e.symm
        simp only [val, removes, hxi, if_false, this]
        exact hk.2 x
  | addDirected s t =>
    rw [step] at hs
    obtain ⟨g1, h1, h2⟩ := bind_eq_pure.1 hs
    have h2 := pure_inj.1 h2
    injection h2 with h2 _
    subst h2
    unfold addDirected at h1
    obtain ⟨_, _, h1⟩ := bind_eq_pure.1 h1
    obtain ⟨_, _, h1⟩ := bind_eq_pure.1 h1
    have h1 := pure_inj.1 h1
    subst h1
    refine alike ?_ (fun _ => rfl)
    refine Alike.upd ?_ (hf := ?_) <;> try exact fun _ => rfl
    refine Alike.upd ?_ (hf := ?_) <;> try exact fun _ => rfl
    exact .refl g
  | addUndirected a b =>
    rw [step] at hs
    obtain ⟨g1, h1, h2⟩ := bind_eq_pure.1 hs
    have h2 := pure_inj.1 h2
    injection h2 with h2 _
    subst h2
    unfold addUndirected at h1
    obtain ⟨_, _, h1⟩ := bind_eq_pure.1 h1
    obtain ⟨_, _, h1⟩ := bind_eq_pure.1 h1
    have h1 := pure_inj.1 h1
    subst h1
    refine alike ?_ (fun _ => rfl)
    refine Alike.upd ?_ (hf := ?_) <;> try exact fun _ => rfl
    refine Alike.upd ?_ (hf := ?_) <;> try exact fun _ => rfl
    refine Alike.upd ?_ (hf := ?_) <;> try exact fun _ => rfl
    refine Alike.upd ?_ (hf := ?_) <;> try exact fun _ => rfl
    exact .refl g
  | removeDirected s t =>
    rw [step] at hs
    obtain ⟨g1, h1, h2⟩ := bind_eq_pure.1 hs
    have h2 := pure_inj.1 h2
    injection h2 with h2 _
    subst h2
    unfold removeDirected at h1
    obtain ⟨_, _, h1⟩ := bind_eq_pure.1 h1
    obtain ⟨_, _, h1⟩ := bind_eq_pure.1 h1
    have h1 := pure_inj.1 h1
    subst h1
    refine alike ?_ (fun _ => rfl)
    refine Alike.upd ?_ (hf := ?_) <;> try exact fun _ => rfl
    refine Alike.upd ?_ (hf := ?_) <;> try exact fun _ => rfl
    exact .refl g
  | removeEdges a b =>
    rw [step] at hs
    obtain ⟨g1, h1, h2⟩ := bind_eq_pure.1 hs
    have h2 := pure_inj.1 h2
    injection h2 with h2 _
    subst h2
    unfold removeEdges at h1
    obtain ⟨_, _, h1⟩ := bind_eq_pure.1 h1
    obtain ⟨_, _, h1⟩ := bind_eq_pure.1 h1
    have h1 := pure_inj.1 h1
    subst h1
    refine alike ?_ (fun _ => rfl)
    refine Alike.upd ?_ (hf := ?_) <;> try exact fun _ => rfl
    refine Alike.upd ?_ (hf := ?_) <;> try exact fun _ => rfl
    refine Alike.upd ?_ (hf := ?_) <;> try exact fun _ => rfl
    refine Alike.upd ?_ (hf := ?_) <;> try exact fun _ => rfl
    exact .refl g
  | size =>
    rw [step, pure_inj] at hs
    injection hs with hs _
    subst hs
    exact alike (.refl _) (fun _ => rfl)
  | hasNode id =>
    rw [step] at hs
    obtain ⟨_, _, h2⟩ := bind_eq_pure.1 hs
    have h2 := pure_inj.1 h2
    injection h2 with h2 _
    subst h2
    exact alike (.refl _) (fun _ => rfl)

/-- What the value of node `x` of graph `i`, at first `v`, is after one of the things a program does; nothing if the node was removed.
(Specification, no line of the source.) -/
def after1 (i x : Nat) (v : Option τ) : WOp τ → Option τ
  | .call j o => if j = i ∧ removes x o then none else v
  | .assign h u => if h = ⟨some i, x⟩ then some u else v

/-- The same after a program. (Specification, no line of the source.) -/
def after (i x : Nat) (v : Option τ) (os : List (WOp τ)) : Option τ := os.foldl (after1 i x) v

theorem assign_eq {w w' : World τ} {h : Handle} {v : τ} (hs : h.assign w v = pure w') :
    ∃ i, h.graph = some i ∧ ((w i).nodes h.id).isSome ∧
      w' = fun j => if j = i then upd (w j) h.id (fun n => { n with value := v }) else w j := by
  obtain ⟨g, id⟩ := h
  unfold Handle.assign at hs
  obtain ⟨n, hn, hs⟩ := bind_eq_pure.1 hs
  cases g with
  | none => exact absurd hs (abort_ne_pure _)
  | some i =>
    refine ⟨i, rfl, ?_, (pure_inj.1 hs).symm⟩
    unfold Handle.read at hn
    simp only at hn
    split at hn
    · exact absurd hn (abort_ne_pure _)
    · unfold node at hn
      obtain ⟨_, _, hn⟩ := bind_eq_pure.1 hn
      cases hc : (w i).nodes id with
      | none => rw [hc] at hn; cases hn
      | some m => rfl

theorem wstep_old {w w' : World τ} {o : WOp τ} (h : ∀ i, Old (w i)) (hs : wstep w o = pure w') :
    (∀ i, Old (w' i)) ∧ ∀ i x, x < (w i).cur → x < (w' i).cur ∧ val (w' i) x = after1 i x (val (w i) x) o := by
  cases o with
  | call k o =>
    rw [wstep] at hs
    obtain ⟨⟨g, r⟩, h1, h2⟩ := bind_eq_pure.1 hs
    have h2 := pure_inj.1 h2
    subst h2
    obtain ⟨ho, hc, hv⟩ := step_old (h k) h1
    constructor
    · intro i
      by_cases hi : i = k
      · simp only [hi, if_true]; exact ho
      · simp only [hi, if_false]; exact h i
    · intro i x hx
      by_cases hi : i = k
      · subst hi
        simp only [if_true, after1, true_and]
        exact ⟨by omega, hv x hx⟩
      · have hi' : k ≠ i := fun e => hi e.symm
        simp only [hi, hi', if_false, after1, false_and]
        exact ⟨hx, trivial⟩
  | assign hd v =>
    rw [wstep] at hs
    obtain ⟨k, hk, hin, rfl⟩ := assign_eq hs
    obtain ⟨g, id⟩ := hd
    simp only at hk hin
    subst hk
    constructor
    · intro i
      by_cases hi : i = k
      · subst hi
        simp only [if_true]
        refine ⟨(h i).bound, fun x hx => (h i).old x ?_⟩
        unfold upd at hx
        by_cases hxi : x = id
        · simpa [hxi] using hx
        · simpa [hxi] using hx
      · simp only [hi, if_false]; exact h i
    · intro i x hx
      by_cases hi : i = k
      · subst hi
        simp only [if_true]
        refine ⟨hx, ?_⟩
        by_cases hxi : x = id
        · subst hxi
          obtain ⟨n, hn⟩ := Option.isSome_iff_exists.1 hin
          simp [val, upd, after1, hn]
        · have : id ≠ x := fun e => hxi e.symm
          simp [val, upd, after1, hxi, this]
      · have hi' : k ≠ i := fun e => hi e.symm
        simp only [hi, if_false]
        refine ⟨hx, ?_⟩
        simp [after1, hi']

theorem wrun_old (os : List (WOp τ)) : ∀ {w w' : World τ}, (∀ i, Old (w i)) → wrun w os = pure w' →
    (∀ i, Old (w' i)) ∧ ∀ i x, x < (w i).cur → x < (w' i).cur ∧ val (w' i) x = after i x (val (w i) x) os := by
  induction os with
  | nil =>
    intro w w' h hs
    rw [wrun, pure_inj] at hs
    subst hs
    exact ⟨h, fun i x hx => ⟨hx, rfl⟩⟩
  | cons o os ih =>
    intro w w' h hs
    rw [wrun] at hs
    obtain ⟨w1, h1, h2⟩ := bind_eq_pure.1 hs
    obtain ⟨ho, hv⟩ := wstep_old h h1
    obtain ⟨ho', hv'⟩ := ih ho h2
    refine ⟨ho', fun i x hx => ?_⟩
    obtain ⟨a, b⟩ := hv i x hx
    obtain ⟨c, d⟩ := hv' i x a
    exact ⟨c, by rw [d, b]; rfl⟩

theorem start_old (i : Nat) : Old (start i : Graph τ) := ⟨Nat.zero_le _, fun x hx => by simp [start, Graph.empty] at hx⟩

theorem value_eq (w : World τ) (i x : Nat) :
    (⟨some i, x⟩ : Handle).value w = if x = noId then abort else match val (w i) x with
      | some v => pure v
      | none => abort := by
  unfold Handle.value Handle.read
  simp only
  by_cases hx : x = noId
  · rw [if_pos hx, if_pos hx]; rfl
  · rw [if_neg hx, if_neg hx]
    unfold node check hasNode val
    rw [if_neg hx]
    cases (w i).nodes x <;> rfl

theorem getNode_eq {w : World τ} {i x : Nat} {h : Handle} (hg : getNode w i x = pure h) :
    h = ⟨some i, x⟩ ∧ x ≠ noId ∧ ((w i).nodes x).isSome := by
  unfold getNode at hg
  obtain ⟨_, h1, h2⟩ := bind_eq_pure.1 hg
  refine ⟨(pure_inj.1 h2).symm, ?_⟩
  unfold check hasNode at h1
  by_cases hx : x = noId
  · rw [if_pos hx] at h1; cases h1
  · rw [if_neg hx] at h1
    refine ⟨hx, ?_⟩
    cases hc : (w i).nodes x with
    | none => rw [hc] at h1; cases h1
    | some n => rfl

/-- **C373.**  A node handed out stays that node: whatever a program does with its graphs and through its handles afterwards, the value read
through the handle is the one last assigned to this node, at first that which it had; if the node was removed the program is ended,
also if nodes were added since.  It is never the value of another node. -/
theorem C373_value (os os' : List (WOp τ)) (w w' : World τ) (i x : Nat) (h : Handle) (v : τ) (hw : wrun start os = pure w)
    (hg : getNode w i x = pure h) (hv : h.value w = pure v) (hw' : wrun w os' = pure w') :
    h.value w' = match after i x (some v) os' with
      | some u => pure u
      | none => abort := by
  obtain ⟨rfl, hx, hin⟩ := getNode_eq hg
  obtain ⟨ho, -⟩ := wrun_old os start_old hw
  obtain ⟨-, h2⟩ := wrun_old os' ho hw'
  rw [value_eq, if_neg hx] at hv
  rw [value_eq, if_neg hx, (h2 i x ((ho i).old x hin)).2]
  cases hc : val (w i) x with
  | none => rw [hc] at hv; exact absurd hv (abort_ne_pure _)
  | some u => rw [hc] at hv; rw [pure_inj.1 hv]

example : ∃ w w' : World Nat, ∃ h, wrun start [.call 0 (.addNode 5), .call 1 (.addNode 6), .call 0 (.addNode 7)] = pure w ∧
    getNode w 0 1 = pure h ∧ h.value w = pure 7 ∧
    wrun w [.assign ⟨some 0, 0⟩ 8, .assign h 9, .call 1 (.removeNode 0), .call 0 (.removeNode 0), .call 0 (.addNode 4)] = pure w' ∧
    h.value w' = pure 9 := ⟨_, _, _, rfl, rfl, rfl, rfl, rfl⟩

/-- C373: a handle made of nothing, or of no id, ends the program when it is read, and tells so before. -/
theorem C373_new (w : World τ) (i x : Nat) : Handle.new.value w = abort ∧ (⟨some i, noId⟩ : Handle).value w = abort ∧
    (⟨none, x⟩ : Handle).value w = abort ∧ Handle.new.empty = true ∧ (⟨some i, noId⟩ : Handle).empty = true ∧
    (⟨none, x⟩ : Handle).empty = true := by
  refine ⟨rfl, ?_, rfl, rfl, ?_, rfl⟩
  · rw [value_eq, if_pos rfl]
  · simp [Handle.empty]

/-- C373: `empty` and the conversion to `bool` are opposites and do not change while a graph does: a handle of a removed node is still
not empty, although reading it ends the program. -/
theorem C373_removed_finding (os os' : List (WOp τ)) (w w' : World τ) (i x : Nat) (h : Handle) (v : τ) (hw : wrun start os = pure w)
    (hg : getNode w i x = pure h) (hv : h.value w = pure v) (hw' : wrun w (os' ++ [.call i (.removeNode x)]) = pure w') :
    h.toBool = true ∧ h.empty = false ∧ h.value w' = abort := by
  have hr := C373_value os _ w w' i x h v hw hg hv hw'
  obtain ⟨rfl, hx, -⟩ := getNode_eq hg
  refine ⟨by simp [Handle.toBool, hx], by simp [Handle.empty, hx], ?_⟩
  rw [hr, after, List.foldl_append]
  simp [after1, removes]

example : ∃ w w' : World Nat, ∃ h, wrun start [.call 0 (.addNode 5), .call 0 (.addNode 7)] = pure w ∧
    getNode w 0 1 = pure h ∧ h.value w = pure 7 ∧ wrun w ([.assign h 9] ++ [.call 0 (.removeNode 1)]) = pure w' :=
  ⟨_, _, _, rfl, rfl, rfl, rfl⟩

/-- C373: the nodes of a graph are in the order in which they were added: a handle that was there before a node was added is less than
the one of that node and not less than itself; handles of different graphs cannot be compared. -/
theorem C373_order (os : List (WOp τ)) (w : World τ) (i x y : Nat) (h k : Handle) (v : τ) (g : Graph τ) (hw : wrun start os = pure w)
    (hg : getNode w i x = pure h) (ha : addNode (w i) v = pure (g, y)) (hk : getNode (fun j => if j = i then g else w j) i y = pure k) :
    h.lt k = pure true ∧ k.lt h = pure false ∧ h.lt h = pure false ∧ ∀ j z, j ≠ i → h.lt ⟨some j, z⟩ = abort := by
  obtain ⟨rfl, hx, hin⟩ := getNode_eq hg
  obtain ⟨rfl, -, -⟩ := getNode_eq hk
  obtain ⟨ho, -⟩ := wrun_old os start_old hw
  have hlt := (ho i).old x hin
  have hy : y = (w i).cur := by
    unfold addNode at ha
    simp only at ha
    split at ha
    · exact absurd ha (abort_ne_pure _)
    · split at ha <;> (have ha := pure_inj.1 ha; injection ha with _ ha; exact ha.symm)
  subst hy
  refine ⟨?_, ?_, ?_, fun j z hj => ?_⟩
  · rw [Handle.lt, if_pos rfl, decide_eq_true hlt]
  · rw [Handle.lt, if_pos rfl, decide_eq_false (by simp only; omega)]
  · rw [Handle.lt, if_pos rfl, decide_eq_false (Nat.lt_irrefl x)]
  · rw [Handle.lt, if_neg (by simpa using fun e => hj e.symm)]

example : ∃ w : World Nat, ∃ h k g, wrun start [.call 0 (.addNode 5), .call 0 (.removeNode 0), .call 0 (.addNode 6)] = pure w ∧
    getNode w 0 1 = pure h ∧ addNode (w 0) 8 = pure (g, 2) ∧ getNode (fun j => if j = 0 then g else w j) 0 2 = pure k :=
  ⟨_, _, _, _, rfl, rfl, rfl, rfl⟩

end Verif.Graph.Handles
