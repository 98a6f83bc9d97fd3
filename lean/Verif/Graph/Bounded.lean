import Verif.Containers.BoundedHashMap
import Verif.Containers.BoundedHashSet
import Mathlib.Data.List.Perm.Subperm
import Mathlib.Data.Nat.Prime.Basic

/-
`daw::bounded_graph_t`, include/daw/deprecated/daw_bounded_graph.h, on the models of `bounded_hash_map` and `bounded_hash_set_t`, with
the debug checks on.  `hash` is the hash function of the graph's nodes, `cap` is `MaxVerticesPerNode`: the capacity of the map of nodes
and of the sets of edges.  Node ids hash to themselves (lines 56-58).
-/

namespace Verif.Graph.Bounded
open Cxx Containers Containers.Probe

variable {τ : Type}

/-- `node_impl_t`, daw_bounded_graph.h 101-116. -/
structure Node (τ : Type) where
  id : Nat
  value : τ
  inc : BoundedHashSet.Table Nat
  out : BoundedHashSet.Table Nat
  deriving DecidableEq

/-- `bounded_graph_t`, daw_bounded_graph.h 385-387. -/
structure BGraph (τ : Type) where
  cur : Nat
  nodes : BoundedHashMap.Table Nat (Node τ)
  deriving DecidableEq

/-- `NO_ID`, daw_bounded_graph.h 36. -/
def noId : Nat := 2 ^ 64 - 1

/-- The default constructor, daw_bounded_graph.h 385-390. -/
def new (τ : Type) (cap : Nat) : BGraph τ := ⟨0, BoundedHashMap.make Nat (Node τ) cap⟩

/-- `dbg_precondition_check`. (Rule of C++ or its library, no line of the source.) -/
def check (b : Bool) : Cxx Unit := if b then pure () else abort

/-- `node_id_t::value`, daw_bounded_graph.h 40-43. -/
def idValue (id : Nat) : Cxx Nat := do
  check (id != noId)
  pure id

/-- `add_node`, daw_bounded_graph.h 392-403, with the constructor of lines 121-126. -/
def addNode (hash : Nat → Nat) (cap : Nat) (g : BGraph τ) (v : τ) : Cxx (BGraph τ × Nat) := do
  let id := g.cur
  check (id != noId)
  let nodes ← BoundedHashMap.insert hash cap g.nodes id ⟨id, v, BoundedHashSet.make Nat cap, BoundedHashSet.make Nat cap⟩
  pure (⟨(g.cur + 1) % 2 ^ 64, nodes⟩, id)

/-- `has_node`, daw_bounded_graph.h 405-407. -/
def hasNode (hash : Nat → Nat) (cap : Nat) (g : BGraph τ) (id : Nat) : Cxx Bool := do
  let v ← idValue id
  BoundedHashMap.exists' hash cap g.nodes v

/-- `get_raw_node`, daw_bounded_graph.h 409-423: the place of the node.  (An item without value, excluded by the check, is not
modelled.) -/
def rawNode (hash : Nat → Nat) (cap : Nat) (g : BGraph τ) (id : Nat) : Cxx Nat := do
  let b ← hasNode hash cap g id
  check b
  let v ← idValue id
  BoundedHashMap.find hash cap g.nodes v

/-- The node at a place. (Reading through a reference of lines 409-423 of daw_bounded_graph.h.) -/
def nodeAt (g : BGraph τ) (i : Nat) : Cxx (Node τ) := do
  match ← rd g.nodes i with
  | some (_, n) => pure n
  | none => ub

/-- A change through a reference to a node. (Calls through references of lines 409-423 of daw_bounded_graph.h.) -/
def modify (g : BGraph τ) (i : Nat) (f : Node τ → Cxx (Node τ)) : Cxx (BGraph τ) := do
  match ← rd g.nodes i with
  | some (k, n) => do
    let n ← f n
    let nodes ← wr g.nodes i (some (k, n))
    pure { g with nodes := nodes }
  | none => ub

/-- `outgoing_edges( ).insert`, daw_bounded_graph.h 154-156. -/
def outInsert (cap y : Nat) (n : Node τ) : Cxx (Node τ) := do
  let (t, _) ← BoundedHashSet.insert id cap n.out y
  pure { n with out := t }

/-- `incoming_edges( ).insert`, daw_bounded_graph.h 146-148. -/
def incInsert (cap y : Nat) (n : Node τ) : Cxx (Node τ) := do
  let (t, _) ← BoundedHashSet.insert id cap n.inc y
  pure { n with inc := t }

/-- `outgoing_edges( ).erase`, daw_bounded_graph.h 154-156. -/
def outErase (cap y : Nat) (n : Node τ) : Cxx (Node τ) := do
  let (t, _) ← BoundedHashSet.erase id cap n.out y
  pure { n with out := t }

/-- `incoming_edges( ).erase`, daw_bounded_graph.h 146-148. -/
def incErase (cap y : Nat) (n : Node τ) : Cxx (Node τ) := do
  let (t, _) ← BoundedHashSet.erase id cap n.inc y
  pure { n with inc := t }

/-- Two checks and two references, daw_bounded_graph.h 440-444, 451-455, 477-481 and 487-491. -/
def two (hash : Nat → Nat) (cap : Nat) (g : BGraph τ) (a b : Nat) : Cxx (Nat × Nat) := do
  let h ← hasNode hash cap g a
  check h
  let h ← hasNode hash cap g b
  check h
  let i ← rawNode hash cap g a
  let j ← rawNode hash cap g b
  pure (i, j)

/-- `add_directed_edge`, daw_bounded_graph.h 439-448. -/
def addDirected (hash : Nat → Nat) (cap : Nat) (g : BGraph τ) (a b : Nat) : Cxx (BGraph τ) := do
  let (i, j) ← two hash cap g a b
  let g ← modify g i (outInsert cap b)
  modify g j (incInsert cap a)

/-- `add_undirected_edge`, daw_bounded_graph.h 450-461. -/
def addUndirected (hash : Nat → Nat) (cap : Nat) (g : BGraph τ) (a b : Nat) : Cxx (BGraph τ) := do
  let (i, j) ← two hash cap g a b
  let g ← modify g i (outInsert cap b)
  let g ← modify g i (incInsert cap b)
  let g ← modify g j (outInsert cap a)
  modify g j (incInsert cap a)

/-- `remove_directed_edge`, daw_bounded_graph.h 476-484. -/
def removeDirected (hash : Nat → Nat) (cap : Nat) (g : BGraph τ) (a b : Nat) : Cxx (BGraph τ) := do
  let (i, j) ← two hash cap g a b
  let g ← modify g i (outErase cap b)
  modify g j (incErase cap a)

/-- `remove_edges`, daw_bounded_graph.h 486-496. -/
def removeEdges (hash : Nat → Nat) (cap : Nat) (g : BGraph τ) (a b : Nat) : Cxx (BGraph τ) := do
  let (i, j) ← two hash cap g a b
  let g ← modify g i (outErase cap b)
  let g ← modify g i (incErase cap b)
  let g ← modify g j (outErase cap a)
  modify g j (incErase cap a)

/-- A loop of `remove_node` over a set of edges of the node at place `i`, daw_bounded_graph.h 467-472; `pick` is the set and `drop`
what is done with the node at the other end.  The iterators are those of a set that may change. -/
def sweep (hash : Nat → Nat) (cap : Nat) (pick : Node τ → BoundedHashSet.Table Nat) (drop : Node τ → Cxx (Node τ)) (i : Nat)
    (g : BGraph τ) (pos : Nat) : Cxx (BGraph τ) := do
  if pos = cap then pure g
  else do
    let n ← nodeAt g i
    let o ← rd (pick n) pos
    match o with
    | none => ub
    | some k => do
      let h ← hasNode hash cap g k
      check h
      let j ← rawNode hash cap g k
      let g ← modify g j drop
      let n ← nodeAt g i
      let pos ← BoundedHashSet.skip cap 1 (pick n) (pos + 1)
      sweep hash cap pick drop i g pos
  partial_fixpoint

/-- `remove_node`, daw_bounded_graph.h 463-474. -/
def removeNode (hash : Nat → Nat) (cap : Nat) (g : BGraph τ) (id : Nat) : Cxx (BGraph τ) := do
  let h ← hasNode hash cap g id
  check h
  let i ← rawNode hash cap g id
  let n ← nodeAt g i
  let pos ← BoundedHashSet.firstFrom cap n.inc 0
  let g ← sweep hash cap Node.inc (outErase cap id) i g pos
  let n ← nodeAt g i
  let pos ← BoundedHashSet.firstFrom cap n.out 0
  let g ← sweep hash cap Node.out (incErase cap id) i g pos
  let v ← idValue id
  let nodes ← BoundedHashMap.erase hash cap g.nodes v
  pure { g with nodes := nodes }

/-- `get_node( id ).value( )`, daw_bounded_graph.h 425-433 and 305-315. -/
def value (hash : Nat → Nat) (cap : Nat) (g : BGraph τ) (id : Nat) : Cxx τ := do
  let h ← hasNode hash cap g id
  check h
  let i ← rawNode hash cap g id
  let n ← nodeAt g i
  pure n.value

/-- `get_node( id ).outgoing_edges( ).exists( y )`, daw_bounded_graph.h 425-433 and 329-339. -/
def outHas (hash : Nat → Nat) (cap : Nat) (g : BGraph τ) (x y : Nat) : Cxx Bool := do
  let h ← hasNode hash cap g x
  check h
  let i ← rawNode hash cap g x
  let n ← nodeAt g i
  BoundedHashSet.exists' id cap n.out y

/-- `get_node( id ).incoming_edges( ).exists( y )`, daw_bounded_graph.h 425-433 and 317-327. -/
def incHas (hash : Nat → Nat) (cap : Nat) (g : BGraph τ) (x y : Nat) : Cxx Bool := do
  let h ← hasNode hash cap g x
  check h
  let i ← rawNode hash cap g x
  let n ← nodeAt g i
  BoundedHashSet.exists' id cap n.inc y

/-- Calls that do not remove nodes. (Members of `bounded_graph_t`, deprecated/daw_bounded_graph.h 392-496.) -/
inductive Op (τ : Type) where
  | addNode (v : τ)
  | addDirected (x y : Nat)
  | addUndirected (x y : Nat)
  | removeDirected (x y : Nat)
  | removeEdges (x y : Nat)
  | hasNode (x : Nat)
  | size
  | value (x : Nat)
  | outHas (x y : Nat)
  | incHas (x y : Nat)

/-- Results. (Members of `bounded_graph_t`, deprecated/daw_bounded_graph.h 392-496.) -/
inductive Res (τ : Type) where
  | done
  | node (x : Nat)
  | is (b : Bool)
  | number (n : Nat)
  | value (v : τ)
  deriving DecidableEq

/-- A call, daw_bounded_graph.h 392-461 and 476-496. -/
def step (hash : Nat → Nat) (cap : Nat) (g : BGraph τ) : Op τ → Cxx (BGraph τ × Res τ)
  | .addNode v => do
    let (g, x) ← addNode hash cap g v
    pure (g, .node x)
  | .addDirected x y => do
    let g ← addDirected hash cap g x y
    pure (g, .done)
  | .addUndirected x y => do
    let g ← addUndirected hash cap g x y
    pure (g, .done)
  | .removeDirected x y => do
    let g ← removeDirected hash cap g x y
    pure (g, .done)
  | .removeEdges x y => do
    let g ← removeEdges hash cap g x y
    pure (g, .done)
  | .hasNode x => do
    let b ← hasNode hash cap g x
    pure (g, .is b)
  | .size => pure (g, .number (BoundedHashMap.size g.nodes))
  | .value x => do
    let v ← value hash cap g x
    pure (g, .value v)
  | .outHas x y => do
    let b ← outHas hash cap g x y
    pure (g, .is b)
  | .incHas x y => do
    let b ← incHas hash cap g x y
    pure (g, .is b)

/-- A history of calls. (Members of `bounded_graph_t`, deprecated/daw_bounded_graph.h 392-496.) -/
def run (hash : Nat → Nat) (cap : Nat) (g : BGraph τ) : List (Op τ) → Cxx (BGraph τ × List (Res τ))
  | [] => pure (g, [])
  | o :: os => do
    let (g, r) ← step hash cap g o
    let (g, rs) ← run hash cap g os
    pure (g, r :: rs)

/-! ### The mathematical graph -/

/-- A graph whose nodes are `0` to `vals.length - 1`, with values and directed edges. (Specification, no line of the source.) -/
structure Abs (τ : Type) where
  vals : List τ
  E : Nat → Nat → Bool

/-- What a call does that is not allowed or for which there is no room. (Specification, no line of the source.) -/
inductive Fail where
  | ends
  | full
  deriving DecidableEq

/-- A call on the mathematical graph. (Specification, no line of the source.) -/
def Abs.step (cap : Nat) (a : Abs τ) : Op τ → Except Fail (Abs τ × Res τ)
  | .addNode v => if a.vals.length < cap then .ok (⟨a.vals ++ [v], a.E⟩, .node a.vals.length) else .error .full
  | .addDirected x y =>
    if x < a.vals.length ∧ y < a.vals.length then
      .ok (⟨a.vals, fun p q => a.E p q || (p == x && q == y)⟩, .done)
    else .error .ends
  | .addUndirected x y =>
    if x < a.vals.length ∧ y < a.vals.length then
      .ok (⟨a.vals, fun p q => a.E p q || (p == x && q == y) || (p == y && q == x)⟩, .done)
    else .error .ends
  | .removeDirected x y =>
    if x < a.vals.length ∧ y < a.vals.length then
      .ok (⟨a.vals, fun p q => a.E p q && !(p == x && q == y)⟩, .done)
    else .error .ends
  | .removeEdges x y =>
    if x < a.vals.length ∧ y < a.vals.length then
      .ok (⟨a.vals, fun p q => a.E p q && !(p == x && q == y) && !(p == y && q == x)⟩, .done)
    else .error .ends
  | .hasNode x => if x = 2 ^ 64 - 1 then .error .ends else .ok (a, .is (decide (x < a.vals.length)))
  | .size => .ok (a, .number a.vals.length)
  | .value x =>
    match a.vals[x]? with
    | some v => .ok (a, .value v)
    | none => .error .ends
  | .outHas x y => if x < a.vals.length then .ok (a, .is (a.E x y)) else .error .ends
  | .incHas x y => if x < a.vals.length then .ok (a, .is (a.E y x)) else .error .ends

/-- A history on the mathematical graph. (Specification, no line of the source.) -/
def Abs.run (cap : Nat) (a : Abs τ) : List (Op τ) → Except Fail (Abs τ × List (Res τ))
  | [] => .ok (a, [])
  | o :: os =>
    match a.step cap o with
    | .error e => .error e
    | .ok (a, r) =>
      match Abs.run cap a os with
      | .error e => .error e
      | .ok (a, rs) => .ok (a, r :: rs)

/-- The outcome of the program for a failure. (Specification, no line of the source.) -/
def Fail.outcome {α : Type} : Fail → Cxx α
  | .ends => abort
  | .full => ub

/-! ### Nodes -/

/-- The map of nodes holds the nodes of `f`. (Specification, no line of the source.) -/
structure Sees (hash : Nat → Nat) (cap : Nat) (t : BoundedHashMap.Table Nat (Node τ)) (f : Nat → Option (Node τ)) : Prop where
  inv : BoundedHashMap.Inv hash cap t
  mem : ∀ x n, (x, n) ∈ entries cap t ↔ f x = some n

/-- The place of a node. (Specification, no line of the source.) -/
def At (cap : Nat) (t : BoundedHashMap.Table Nat (Node τ)) (x i : Nat) : Prop := i < cap ∧ ∃ n, t[i]? = some (some (x, n))

theorem Sees.at {hash : Nat → Nat} {cap : Nat} {t : BoundedHashMap.Table Nat (Node τ)} {f : Nat → Option (Node τ)}
    (h : Sees hash cap t f) {x i : Nat} (ha : At cap t x i) : ∃ n, t[i]? = some (some (x, n)) ∧ f x = some n := by
  obtain ⟨hi, n, hn⟩ := ha
  exact ⟨n, hn, (h.mem x n).1 (mem_entries.2 ⟨i, hi, hn⟩)⟩

theorem lookup_eq {hash : Nat → Nat} {cap : Nat} {t : BoundedHashMap.Table Nat (Node τ)} {f : Nat → Option (Node τ)}
    (h : Sees hash cap t f) (x : Nat) : (entries cap t).lookup x = f x := by
  cases hf : f x with
  | some n => exact BoundedHashMap.lookup_of_mem h.inv.ch.nodup ((h.mem x n).2 hf)
  | none =>
    refine BoundedHashMap.lookup_none fun e he hc => ?_
    subst hc
    have := (h.mem e.1 e.2).1 he
    rw [hf] at this; cases this

theorem Sees.find {hash : Nat → Nat} {cap : Nat} {t : BoundedHashMap.Table Nat (Node τ)} {f : Nat → Option (Node τ)}
    (h : Sees hash cap t f) (x : Nat) :
    BoundedHashMap.exists' hash cap t x = pure (f x).isSome ∧
    ((f x).isSome → ∃ i, BoundedHashMap.find hash cap t x = pure i ∧ At cap t x i ∧
      EndsAt Prod.fst (homeOf hash cap) cap t x i) := by
  have hl := lookup_eq h x
  unfold BoundedHashMap.exists' BoundedHashMap.find
  rcases BoundedHashMap.find_mem h.inv (List.Perm.refl _) x with ⟨i, v, l, e, hi, ho, hk, _, _, _, hends⟩ | ⟨i, e, hi, ho, hk, _⟩ | ⟨e, hk, _⟩
  · rw [hl] at hk
    rw [e, hk]
    simp only [pure_bind]
    rw [rd_some ho]
    exact ⟨rfl, fun _ => ⟨i, rfl, ⟨hi, v, ho⟩, hends⟩⟩
  · rw [hl] at hk
    rw [e, hk]
    simp only [pure_bind]
    rw [rd_some ho]
    exact ⟨rfl, fun hc => by cases hc⟩
  · rw [hl] at hk
    rw [e, hk]
    exact ⟨rfl, fun hc => by cases hc⟩

/-- A function with one value changed. (Specification, no line of the source.) -/
def upd (f : Nat → Option (Node τ)) (x : Nat) (n : Node τ) : Nat → Option (Node τ) := fun y => if y = x then some n else f y

theorem Sees.set {hash : Nat → Nat} {cap : Nat} {t : BoundedHashMap.Table Nat (Node τ)} {f : Nat → Option (Node τ)}
    (h : Sees hash cap t f) {x i : Nat} (ha : At cap t x i) (n' : Node τ) :
    Sees hash cap (t.set i (some (x, n'))) (upd f x n') ∧ (∀ y j, At cap t y j → At cap (t.set i (some (x, n'))) y j) := by
  obtain ⟨n, hn, hf⟩ := h.at ha
  have hlen := h.inv.len
  obtain ⟨-, hfind⟩ := h.find x
  obtain ⟨i', -, ⟨hi', n2, ho⟩, hends⟩ := hfind (by rw [hf]; rfl)
  have hii : i' = i := (h.inv.ch.unique hi' ha.1 ho hn rfl)
  subst hii
  refine ⟨⟨BoundedHashMap.set_inv h.inv hends, fun y m => ?_⟩, ?_⟩
  · rw [mem_entries]
    unfold upd
    constructor
    · rintro ⟨k, hk, hke⟩
      by_cases hki : k = i'
      · subst hki
        rw [List.getElem?_set_self (by omega)] at hke
        injection hke with hke; injection hke with hke; injection hke with h1 h2
        rw [if_pos h1.symm, h2]
      · rw [List.getElem?_set_ne (by omega)] at hke
        have hne : y ≠ x := by
          rintro rfl
          exact hki (h.inv.ch.unique hk hi' hke hn rfl)
        rw [if_neg hne]
        exact (h.mem y m).1 (mem_entries.2 ⟨k, hk, hke⟩)
    · intro hu
      by_cases hyx : y = x
      · rw [if_pos hyx] at hu
        injection hu with hu
        exact ⟨i', hi', by rw [List.getElem?_set_self (by omega), hyx, hu]⟩
      · rw [if_neg hyx] at hu
        obtain ⟨k, hk, hke⟩ := mem_entries.1 ((h.mem y m).2 hu)
        refine ⟨k, hk, ?_⟩
        rw [List.getElem?_set_ne]
        · exact hke
        · rintro rfl
          rw [hn] at hke
          injection hke with hke; injection hke with hke; injection hke with h1 _
          exact hyx h1.symm
  · rintro y j ⟨hj, m, hm⟩
    refine ⟨hj, ?_⟩
    by_cases hji : j = i'
    · subst hji
      rw [hn] at hm
      injection hm with hm; injection hm with hm; injection hm with h1 _
      subst h1
      exact ⟨n', by rw [List.getElem?_set_self (by omega)]⟩
    · exact ⟨m, by rw [List.getElem?_set_ne (by omega)]; exact hm⟩

theorem Sees.modify {hash : Nat → Nat} {cap : Nat} {g : BGraph τ} {f : Nat → Option (Node τ)} (h : Sees hash cap g.nodes f) {x i : Nat}
    (ha : At cap g.nodes x i) {n n' : Node τ} (hf : f x = some n) {c : Node τ → Cxx (Node τ)} (hc : c n = pure n') :
    ∃ t, modify g i c = pure { g with nodes := t } ∧ Sees hash cap t (upd f x n') ∧ (∀ y j, At cap g.nodes y j → At cap t y j) := by
  obtain ⟨m, hm, hf'⟩ := h.at ha
  rw [hf] at hf'
  injection hf' with hf'
  subst hf'
  obtain ⟨h1, h2⟩ := h.set ha n'
  refine ⟨g.nodes.set i (some (x, n')), ?_, h1, h2⟩
  have hlen := h.inv.len
  have hi := ha.1
  unfold Bounded.modify
  rw [rd_some hm]
  simp only [pure_bind]
  rw [hc]
  simp only [pure_bind]
  rw [wr_eq (by omega)]
  rfl

theorem Sees.nodeAt {hash : Nat → Nat} {cap : Nat} {g : BGraph τ} {f : Nat → Option (Node τ)} (h : Sees hash cap g.nodes f) {x i : Nat}
    (ha : At cap g.nodes x i) {n : Node τ} (hf : f x = some n) : nodeAt g i = pure n := by
  obtain ⟨m, hm, hf'⟩ := h.at ha
  rw [hf] at hf'
  injection hf' with hf'
  subst hf'
  unfold Bounded.nodeAt
  rw [rd_some hm]
  rfl

theorem Sees.has {hash : Nat → Nat} {cap : Nat} {g : BGraph τ} {f : Nat → Option (Node τ)} (h : Sees hash cap g.nodes f) (x : Nat) :
    hasNode hash cap g x = if x = noId then abort else pure (f x).isSome := by
  unfold hasNode idValue check
  by_cases hx : x = noId
  · simp only [hx, bne_self_eq_false, Bool.false_eq_true, if_false, if_true]
    rfl
  · rw [if_pos (by simpa using hx), if_neg hx]
    simp only [pure_bind]
    exact (h.find x).1

theorem Sees.raw {hash : Nat → Nat} {cap : Nat} {g : BGraph τ} {f : Nat → Option (Node τ)} (h : Sees hash cap g.nodes f) {x : Nat}
    (hx : x ≠ noId) (hf : (f x).isSome) : ∃ i, rawNode hash cap g x = pure i ∧ At cap g.nodes x i := by
  obtain ⟨i, e, ha, _⟩ := (h.find x).2 hf
  refine ⟨i, ?_, ha⟩
  unfold rawNode idValue check
  rw [h.has, if_neg hx, hf]
  simp only [pure_bind, if_true]
  rw [if_pos (by simpa using hx)]
  simp only [pure_bind]
  exact e

/-- The check and the reference at the beginning of most members. -/
theorem Sees.get {hash : Nat → Nat} {cap : Nat} {g : BGraph τ} {f : Nat → Option (Node τ)} (h : Sees hash cap g.nodes f) (x : Nat)
    {α : Type} (c : Nat → Cxx α) :
    (x ≠ noId → (f x).isSome → ∃ i, At cap g.nodes x i ∧
      (hasNode hash cap g x >>= fun b => check b >>= fun _ => rawNode hash cap g x >>= c) = c i) ∧
    ((f x).isSome = false → (hasNode hash cap g x >>= fun b => check b >>= fun _ => rawNode hash cap g x >>= c) = abort) := by
  constructor
  · intro hx hf
    obtain ⟨i, e, ha⟩ := h.raw hx hf
    refine ⟨i, ha, ?_⟩
    rw [h.has, if_neg hx, hf, e]
    rfl
  · intro hf
    rw [h.has, hf]
    by_cases hx : x = noId
    · rw [if_pos hx]; rfl
    · rw [if_neg hx]; rfl

theorem Sees.two {hash : Nat → Nat} {cap : Nat} {g : BGraph τ} {f : Nat → Option (Node τ)} (h : Sees hash cap g.nodes f) (x y : Nat) :
    (x ≠ noId → y ≠ noId → (f x).isSome → (f y).isSome → ∃ i j, At cap g.nodes x i ∧ At cap g.nodes y j ∧
      two hash cap g x y = pure (i, j)) ∧
    ((f x).isSome = false ∨ (f y).isSome = false → two hash cap g x y = abort) := by
  constructor
  · intro hx hy hfx hfy
    obtain ⟨i, ei, hi⟩ := h.raw hx hfx
    obtain ⟨j, ej, hj⟩ := h.raw hy hfy
    refine ⟨i, j, hi, hj, ?_⟩
    unfold Bounded.two
    rw [h.has, h.has, if_neg hx, if_neg hy, hfx, hfy, ei, ej]
    rfl
  · intro hc
    unfold Bounded.two
    rw [h.has, h.has]
    by_cases hx : x = noId
    · rw [if_pos hx]; rfl
    · rw [if_neg hx]
      by_cases hfx : (f x).isSome
      · have hfy : (f y).isSome = false := by
          rcases hc with hc | hc
          · rw [hfx] at hc; cases hc
          · exact hc
        rw [hfx, hfy]
        by_cases hy : y = noId
        · rw [if_pos hy]; rfl
        · rw [if_neg hy]; rfl
      · rw [Bool.not_eq_true] at hfx
        rw [hfx]; rfl

/-! ### Edges -/

/-- The capacity is such that the numbers less than it are looked for at different places: it is not a multiple of 59.
(Specification, no line of the source.) -/
def Spread (cap : Nat) : Prop := cap % 59 ≠ 0 ∧ cap < 2 ^ 58

theorem prime59 : Nat.Prime 59 := by decide

theorem home_small {cap y : Nat} (hc : cap < 2 ^ 58) (hy : y < cap) :
    homeOf (κ := Nat) id cap y = (2 ^ 64 - 83 - 59 * y) % cap := by
  have h1 : (y * 18446744073709551557 + 18446744073709551533) % 2 ^ 64 = 2 ^ 64 - 83 - 59 * y := by omega
  simp only [homeOf, id_eq]
  rw [h1]

theorem Spread.inj {cap : Nat} (h : Spread cap) {y z : Nat} (hy : y < cap) (hz : z < cap)
    (he : homeOf (κ := Nat) id cap y = homeOf id cap z) : y = z := by
  rw [home_small h.2 hy, home_small h.2 hz] at he
  have hco : Nat.Coprime cap 59 := by
    rw [Nat.coprime_comm]
    exact (Nat.Prime.coprime_iff_not_dvd prime59).2 fun hd => h.1 (Nat.mod_eq_zero_of_dvd hd)
  have h2 := h.2
  have key : ∀ y z : Nat, y < z → z < cap → (2 ^ 64 - 83 - 59 * y) % cap = (2 ^ 64 - 83 - 59 * z) % cap → False := by
    intro y z hyz hz he
    have hd : cap ∣ (2 ^ 64 - 83 - 59 * y) - (2 ^ 64 - 83 - 59 * z) := Nat.dvd_of_mod_eq_zero (Nat.sub_mod_eq_zero_of_mod_eq he)
    rw [show (2 ^ 64 - 83 - 59 * y) - (2 ^ 64 - 83 - 59 * z) = 59 * (z - y) by omega] at hd
    have := Nat.le_of_dvd (by omega) (hco.dvd_of_dvd_mul_left hd)
    omega
  rcases Nat.lt_trichotomy y z with hlt | heq | hgt
  · exact (key y z hlt hz he).elim
  · exact heq
  · exact (key z y hgt hy he.symm).elim

/-- The set holds the numbers `P`, and if the capacity is right, each of them at its own place.
(Specification, no line of the source.) -/
structure SetIs (cap : Nat) (t : BoundedHashSet.Table Nat) (P : Nat → Bool) : Prop where
  inv : BoundedHashSet.Inv id cap t
  mem : ∀ y, y ∈ entries cap t ↔ P y = true
  home : Spread cap → ∀ (i : Nat) (y : Nat), t[i]? = some (some y) → i = homeOf id cap y

/-- If every number is at its own place, a search ends at once. -/
theorem SetIs.at_home {cap : Nat} {t : BoundedHashSet.Table Nat} {P : Nat → Bool} (h : SetIs cap t P) (hs : Spread cap)
    (hP : ∀ y, P y = true → y < cap) {x : Nat} (hx : x < cap) :
    BoundedHashSet.findIdx id cap t x = pure (some (homeOf id cap x)) ∧
    (t[homeOf (κ := Nat) id cap x]? = some none ∨ t[homeOf (κ := Nat) id cap x]? = some (some x)) := by
  have hh := homeOf_lt (κ := Nat) id (show 0 < cap by omega) x
  have hl := h.inv.len
  have h0 : (homeOf (κ := Nat) id cap x + 0) % cap = homeOf id cap x := by rw [Nat.add_zero, Nat.mod_eq_of_lt hh]
  obtain ⟨o, ho⟩ : ∃ o, t[homeOf (κ := Nat) id cap x]? = some o := ⟨_, List.getElem?_eq_getElem (by omega)⟩
  have hc : o = none ∨ o = some x := by
    cases o with
    | none => exact Or.inl rfl
    | some z =>
      have hz : z < cap := hP z ((h.mem z).1 (mem_entries.2 ⟨_, hh, ho⟩))
      have hq : homeOf (κ := Nat) id cap z = homeOf id cap x := (h.home hs (homeOf (κ := Nat) id cap x) z ho).symm
      have hzx : z = x := hs.inj hz hx hq
      exact Or.inr (congrArg some hzx)
  refine ⟨?_, by rcases hc with rfl | rfl <;> simp [ho]⟩
  have := BoundedHashSet.findIdx_at id cap t (by omega) x 0 (by omega) o (by rw [h0]; exact ho)
    (by rcases hc with rfl | rfl <;> simp [stopAt]) (fun j hj => by omega)
  rw [h0] at this
  exact this

/-- Then erasing does what it should. -/
theorem SetIs.erase {cap : Nat} {t : BoundedHashSet.Table Nat} {P : Nat → Bool} (h : SetIs cap t P) (hs : Spread cap)
    (hP : ∀ y, P y = true → y < cap) {x : Nat} (hx : x < cap) :
    ∃ t' i, BoundedHashSet.erase id cap t x = pure (t', i) ∧ SetIs cap t' (fun y => P y && !(y == x)) := by
  obtain ⟨e, hat⟩ := h.at_home hs hP hx
  have hh := homeOf_lt (κ := Nat) id (show 0 < cap by omega) x
  have hl := h.inv.len
  have hget : ∀ (i y : Nat), (t.set (homeOf id cap x) none)[i]? = some (some y) ↔ t[i]? = some (some y) ∧ y ≠ x := by
    intro i y
    by_cases hi : homeOf (κ := Nat) id cap x = i
    · subst hi
      rw [List.getElem?_set_self (by omega)]
      constructor
      · intro hc; injection hc with hc; cases hc
      · rintro ⟨h1, h2⟩
        rcases hat with h3 | h3
        · rw [h3] at h1; injection h1 with h1; cases h1
        · rw [h3] at h1; injection h1 with h1; injection h1 with h1; exact absurd h1.symm h2
    · rw [List.getElem?_set_ne hi]
      constructor
      · intro h1
        refine ⟨h1, ?_⟩
        rintro rfl
        exact hi (h.home hs i y h1).symm
      · exact And.left
  refine ⟨t.set (homeOf id cap x) none, some (homeOf id cap x), ?_, ⟨⟨h.inv.ch.pos, ?_, h.inv.ch.hlt, ?_⟩, ?_⟩, ?_, ?_⟩
  · unfold BoundedHashSet.erase
    rw [e]
    simp only [pure_bind]
    rw [wr_eq (by omega)]
    rfl
  · rw [List.length_set]; omega
  · intro i y hi hy
    have := h.home hs i y ((hget i y).1 hy).1
    refine ⟨0, by omega, ?_, fun j hj => by omega⟩
    rw [Nat.add_zero, Nat.mod_eq_of_lt (homeOf_lt (κ := Nat) id (by omega) _)]
    exact this
  · rw [List.length_set]; omega
  · intro y
    rw [Bool.and_eq_true, Bool.not_eq_true', beq_eq_false_iff_ne, ← h.mem, mem_entries, mem_entries]
    constructor
    · rintro ⟨i, hi, hy⟩
      exact ⟨⟨i, hi, ((hget i y).1 hy).1⟩, ((hget i y).1 hy).2⟩
    · rintro ⟨⟨i, hi, hy⟩, hne⟩
      exact ⟨i, hi, (hget i y).2 ⟨hy, hne⟩⟩
  · intro _ i y hy
    exact h.home hs i y ((hget i y).1 hy).1

theorem SetIs.has {cap : Nat} {t : BoundedHashSet.Table Nat} {P : Nat → Bool} (h : SetIs cap t P) (y : Nat) :
    BoundedHashSet.exists' id cap t y = pure (P y) := by
  have hm := h.mem y
  unfold BoundedHashSet.exists'
  rcases BoundedHashSet.find_mem h.inv (List.Perm.refl _) y with ⟨i, l, e, hi, ho, hx, _⟩ | ⟨i, e, hi, ho, hx, _⟩ | ⟨e, hx, _⟩
  · rw [e]; simp only [pure_bind]; rw [rd_some ho, hm.1 hx]; rfl
  · have : P y = false := by rw [Bool.eq_false_iff]; exact fun hc => hx (hm.2 hc)
    rw [e]; simp only [pure_bind]; rw [rd_some ho, this]; rfl
  · have : P y = false := by rw [Bool.eq_false_iff]; exact fun hc => hx (hm.2 hc)
    rw [e, this]; rfl

theorem SetIs.insert {cap : Nat} {t : BoundedHashSet.Table Nat} {P : Nat → Bool} (h : SetIs cap t P) {len : Nat} (hlen : len ≤ cap)
    (hP : ∀ y, P y = true → y < len) {x : Nat} (hx : x < len) :
    ∃ t' i, BoundedHashSet.insert id cap t x = pure (t', i) ∧ SetIs cap t' (fun y => P y || y == x) := by
  have hl := h.inv.len
  unfold BoundedHashSet.insert
  rcases BoundedHashSet.find_mem h.inv (List.Perm.refl _) x with ⟨i, l, e, hi, ho, hm, _⟩ | ⟨i, e, hi, ho, hm, _, hp, hinv⟩ | ⟨e, hm, hf⟩
  · refine ⟨t, i, ?_, h.inv, fun y => ?_, h.home⟩
    · rw [e]; simp only [pure_bind]; rw [rd_some ho]; rfl
    · rw [h.mem, Bool.or_eq_true, beq_iff_eq]
      constructor
      · exact Or.inl
      · rintro (h' | rfl)
        · exact h'
        · exact (h.mem y).1 hm
  · refine ⟨t.set i (some x), i, ?_, hinv, fun y => ?_, fun hs j y hy => ?_⟩
    · rw [e]; simp only [pure_bind]; rw [rd_some ho]; simp only [pure_bind, Option.isNone_none, if_true]
      rw [wr_eq (by omega)]; rfl
    · rw [hp.mem_iff, List.mem_cons, h.mem, Bool.or_eq_true, beq_iff_eq]
      exact or_comm
    · by_cases hj : i = j
      · subst hj
        rw [List.getElem?_set_self (by omega)] at hy
        injection hy with hy; injection hy with hy
        subst hy
        have := (h.at_home hs (fun y hy => Nat.lt_of_lt_of_le (hP y hy) hlen) (x := x) (by omega)).1
        rw [e] at this
        have := Cxx.pure_inj.mp this
        injection this
      · rw [List.getElem?_set_ne hj] at hy
        exact h.home hs j y hy
  · exfalso
    have hnd : (x :: entries cap t).Nodup := by
      have := h.inv.ch.nodup
      rw [List.map_id] at this
      exact List.nodup_cons.2 ⟨hm, this⟩
    have hsub : (x :: entries cap t) ⊆ List.range len := by
      intro y hy
      rw [List.mem_range]
      rcases List.mem_cons.1 hy with rfl | hy
      · exact hx
      · exact hP y ((h.mem y).1 hy)
    have := (List.subperm_of_subset hnd hsub).length_le
    rw [List.length_cons, List.length_range] at this
    omega

/-- The node is the node `x` of the graph. (Specification, no line of the source.) -/
structure NodeIs (cap : Nat) (a : Abs τ) (x : Nat) (n : Node τ) : Prop where
  id : n.id = x
  value : a.vals[x]? = some n.value
  out : SetIs cap n.out (fun y => a.E x y)
  inc : SetIs cap n.inc (fun y => a.E y x)

/-- The graph of the program is this mathematical graph. (Specification, no line of the source.) -/
structure Is (hash : Nat → Nat) (cap : Nat) (g : BGraph τ) (a : Abs τ) : Prop where
  cur : g.cur = a.vals.length
  room : a.vals.length ≤ cap
  nodes : ∃ f, Sees hash cap g.nodes f ∧ (∀ x, (f x).isSome = decide (x < a.vals.length)) ∧ ∀ x n, f x = some n → NodeIs cap a x n
  ends : ∀ x y, a.E x y = true → x < a.vals.length ∧ y < a.vals.length

/-- A graph without nodes. (Specification, no line of the source.) -/
def Abs.empty (τ : Type) : Abs τ := ⟨[], fun _ _ => false⟩

theorem new_is (hash : Nat → Nat) (cap : Nat) (hc : 0 < cap) : Is hash cap (new τ cap) (Abs.empty τ) where
  cur := rfl
  room := Nat.zero_le _
  nodes := by
    obtain ⟨h1, h2⟩ := BoundedHashMap.inv_make Nat (Node τ) hash cap hc
    refine ⟨fun _ => none, ⟨h1, fun x n => ?_⟩, fun x => by simp [Abs.empty], fun x n h => by cases h⟩
    show (x, n) ∈ entries cap (BoundedHashMap.make Nat (Node τ) cap) ↔ _
    rw [h2]
    simp
  ends := by intro x y h; cases h

theorem Is.size {hash : Nat → Nat} {cap : Nat} {g : BGraph τ} {a : Abs τ} (h : Is hash cap g a) :
    (entries cap g.nodes).length = a.vals.length := by
  obtain ⟨f, hs, hd, _⟩ := h.nodes
  have h1 : ((entries cap g.nodes).map Prod.fst).Perm (List.range a.vals.length) := by
    rw [List.perm_ext_iff_of_nodup hs.inv.ch.nodup List.nodup_range]
    intro x
    rw [List.mem_range, List.mem_map]
    constructor
    · rintro ⟨⟨y, n⟩, hm, rfl⟩
      have := hd y
      rw [(hs.mem y n).1 hm] at this
      exact of_decide_eq_true this.symm
    · intro hx
      have := hd x
      rw [decide_eq_true hx] at this
      obtain ⟨n, hn⟩ := Option.isSome_iff_exists.1 this
      exact ⟨(x, n), (hs.mem x n).2 hn, rfl⟩
  have := h1.length_eq
  rwa [List.length_map, List.length_range] at this

theorem out_ok {cap : Nat} {n : Node τ} {P : Nat → Bool} (h : SetIs cap n.out P) {len : Nat} (hlen : len ≤ cap)
    (hP : ∀ y, P y = true → y < len) {y : Nat} (hy : y < len) :
    ∃ t, outInsert cap y n = pure { n with out := t } ∧ SetIs cap t (fun z => P z || z == y) := by
  obtain ⟨t, i, e, hs⟩ := h.insert hlen hP hy
  exact ⟨t, by unfold outInsert; rw [e]; rfl, hs⟩

theorem inc_ok {cap : Nat} {n : Node τ} {P : Nat → Bool} (h : SetIs cap n.inc P) {len : Nat} (hlen : len ≤ cap)
    (hP : ∀ y, P y = true → y < len) {y : Nat} (hy : y < len) :
    ∃ t, incInsert cap y n = pure { n with inc := t } ∧ SetIs cap t (fun z => P z || z == y) := by
  obtain ⟨t, i, e, hs⟩ := h.insert hlen hP hy
  exact ⟨t, by unfold incInsert; rw [e]; rfl, hs⟩

/-- What the nodes look like when the two sides of the edges are not the same: `O` are the outgoing and `I` the incoming edges.
(Specification, no line of the source.) -/
def Sides (hash : Nat → Nat) (cap : Nat) (t : BoundedHashMap.Table Nat (Node τ)) (vals : List τ) (O I : Nat → Nat → Bool) : Prop :=
  ∃ f, Sees hash cap t f ∧ (∀ x, (f x).isSome = decide (x < vals.length)) ∧
    ∀ x n, f x = some n → n.id = x ∧ vals[x]? = some n.value ∧ SetIs cap n.out (O x) ∧ SetIs cap n.inc (fun y => I y x)

theorem Sides.out {hash : Nat → Nat} {cap : Nat} {g : BGraph τ} {vals : List τ} {O I : Nat → Nat → Bool}
    (h : Sides hash cap g.nodes vals O I) (hlen : vals.length ≤ cap) (hO : ∀ x y, O x y = true → y < vals.length) {x y i : Nat}
    (hx : x < vals.length) (hy : y < vals.length) (ha : At cap g.nodes x i) :
    ∃ t, modify g i (outInsert cap y) = pure { g with nodes := t } ∧
      Sides hash cap t vals (fun p q => O p q || (p == x && q == y)) I ∧ ∀ z j, At cap g.nodes z j → At cap t z j := by
  obtain ⟨f, hs, hd, hn⟩ := h
  obtain ⟨n, hf⟩ := Option.isSome_iff_exists.1 ((hd x).trans (decide_eq_true hx))
  obtain ⟨h1, h2, h3, h4⟩ := hn x n hf
  obtain ⟨u, e, hu⟩ := out_ok h3 hlen (hO x) hy
  obtain ⟨t, e2, hs2, hat⟩ := hs.modify ha hf e
  refine ⟨t, e2, ⟨_, hs2, fun z => ?_, fun z m hm => ?_⟩, hat⟩
  · unfold upd
    by_cases hz : z = x
    · rw [if_pos hz, hz, decide_eq_true hx]; rfl
    · rw [if_neg hz]; exact hd z
  · unfold upd at hm
    by_cases hz : z = x
    · rw [if_pos hz] at hm
      injection hm with hm
      subst hm hz
      refine ⟨h1, h2, ?_, h4⟩
      simpa using hu
    · rw [if_neg hz] at hm
      obtain ⟨k1, k2, k3, k4⟩ := hn z m hm
      refine ⟨k1, k2, ?_, k4⟩
      have : (z == x) = false := by simpa using hz
      simpa [this] using k3

theorem Sides.inc {hash : Nat → Nat} {cap : Nat} {g : BGraph τ} {vals : List τ} {O I : Nat → Nat → Bool}
    (h : Sides hash cap g.nodes vals O I) (hlen : vals.length ≤ cap) (hI : ∀ x y, I x y = true → x < vals.length) {x y i : Nat}
    (hx : x < vals.length) (hy : y < vals.length) (ha : At cap g.nodes x i) :
    ∃ t, modify g i (incInsert cap y) = pure { g with nodes := t } ∧
      Sides hash cap t vals O (fun p q => I p q || (p == y && q == x)) ∧ ∀ z j, At cap g.nodes z j → At cap t z j := by
  obtain ⟨f, hs, hd, hn⟩ := h
  obtain ⟨n, hf⟩ := Option.isSome_iff_exists.1 ((hd x).trans (decide_eq_true hx))
  obtain ⟨h1, h2, h3, h4⟩ := hn x n hf
  obtain ⟨u, e, hu⟩ := inc_ok h4 hlen (fun y => hI y x) hy
  obtain ⟨t, e2, hs2, hat⟩ := hs.modify ha hf e
  refine ⟨t, e2, ⟨_, hs2, fun z => ?_, fun z m hm => ?_⟩, hat⟩
  · unfold upd
    by_cases hz : z = x
    · rw [if_pos hz, hz, decide_eq_true hx]; rfl
    · rw [if_neg hz]; exact hd z
  · unfold upd at hm
    by_cases hz : z = x
    · rw [if_pos hz] at hm
      injection hm with hm
      subst hm hz
      refine ⟨h1, h2, h3, ?_⟩
      simpa using hu
    · rw [if_neg hz] at hm
      obtain ⟨k1, k2, k3, k4⟩ := hn z m hm
      refine ⟨k1, k2, k3, ?_⟩
      have : (z == x) = false := by simpa using hz
      simpa [this] using k4

theorem Sides.dropOut {hash : Nat → Nat} {cap : Nat} (hsp : Spread cap) {g : BGraph τ} {vals : List τ} {O I : Nat → Nat → Bool}
    (h : Sides hash cap g.nodes vals O I) (hlen : vals.length ≤ cap) (hO : ∀ x y, O x y = true → y < vals.length) {x y i : Nat}
    (hx : x < vals.length) (hy : y < vals.length) (ha : At cap g.nodes x i) :
    ∃ t, modify g i (outErase cap y) = pure { g with nodes := t } ∧
      Sides hash cap t vals (fun p q => O p q && !(p == x && q == y)) I ∧ ∀ z j, At cap g.nodes z j → At cap t z j := by
  obtain ⟨f, hs, hd, hn⟩ := h
  obtain ⟨n, hf⟩ := Option.isSome_iff_exists.1 ((hd x).trans (decide_eq_true hx))
  obtain ⟨h1, h2, h3, h4⟩ := hn x n hf
  obtain ⟨u, _, e, hu⟩ := SetIs.erase h3 hsp (fun y hy => Nat.lt_of_lt_of_le (hO x y hy) hlen) (x := y) (by omega)
  obtain ⟨t, e2, hs2, hat⟩ := hs.modify ha hf (c := outErase cap y) (n' := { n with out := u }) (by unfold outErase; rw [e]; rfl)
  refine ⟨t, e2, ⟨_, hs2, fun z => ?_, fun z m hm => ?_⟩, hat⟩
  · unfold upd
    by_cases hz : z = x
    · rw [if_pos hz, hz, decide_eq_true hx]; rfl
    · rw [if_neg hz]; exact hd z
  · unfold upd at hm
    by_cases hz : z = x
    · rw [if_pos hz] at hm
      injection hm with hm
      subst hm hz
      refine ⟨h1, h2, ?_, h4⟩
      simpa using hu
    · rw [if_neg hz] at hm
      obtain ⟨k1, k2, k3, k4⟩ := hn z m hm
      refine ⟨k1, k2, ?_, k4⟩
      have : (z == x) = false := by simpa using hz
      simpa [this] using k3

theorem Sides.dropInc {hash : Nat → Nat} {cap : Nat} (hsp : Spread cap) {g : BGraph τ} {vals : List τ} {O I : Nat → Nat → Bool}
    (h : Sides hash cap g.nodes vals O I) (hlen : vals.length ≤ cap) (hI : ∀ x y, I x y = true → x < vals.length) {x y i : Nat}
    (hx : x < vals.length) (hy : y < vals.length) (ha : At cap g.nodes x i) :
    ∃ t, modify g i (incErase cap y) = pure { g with nodes := t } ∧
      Sides hash cap t vals O (fun p q => I p q && !(p == y && q == x)) ∧ ∀ z j, At cap g.nodes z j → At cap t z j := by
  obtain ⟨f, hs, hd, hn⟩ := h
  obtain ⟨n, hf⟩ := Option.isSome_iff_exists.1 ((hd x).trans (decide_eq_true hx))
  obtain ⟨h1, h2, h3, h4⟩ := hn x n hf
  obtain ⟨u, _, e, hu⟩ := SetIs.erase h4 hsp (fun y hy => Nat.lt_of_lt_of_le (hI y x hy) hlen) (x := y) (by omega)
  obtain ⟨t, e2, hs2, hat⟩ := hs.modify ha hf (c := incErase cap y) (n' := { n with inc := u }) (by unfold incErase; rw [e]; rfl)
  refine ⟨t, e2, ⟨_, hs2, fun z => ?_, fun z m hm => ?_⟩, hat⟩
  · unfold upd
    by_cases hz : z = x
    · rw [if_pos hz, hz, decide_eq_true hx]; rfl
    · rw [if_neg hz]; exact hd z
  · unfold upd at hm
    by_cases hz : z = x
    · rw [if_pos hz] at hm
      injection hm with hm
      subst hm hz
      refine ⟨h1, h2, h3, ?_⟩
      simpa using hu
    · rw [if_neg hz] at hm
      obtain ⟨k1, k2, k3, k4⟩ := hn z m hm
      refine ⟨k1, k2, k3, ?_⟩
      have : (z == x) = false := by simpa using hz
      simpa [this] using k4

theorem Is.sides {hash : Nat → Nat} {cap : Nat} {g : BGraph τ} {a : Abs τ} (h : Is hash cap g a) :
    Sides hash cap g.nodes a.vals a.E a.E := by
  obtain ⟨f, hs, hd, hn⟩ := h.nodes
  exact ⟨f, hs, hd, fun x n hf => ⟨(hn x n hf).id, (hn x n hf).value, (hn x n hf).out, (hn x n hf).inc⟩⟩

theorem Sides.is {hash : Nat → Nat} {cap : Nat} {g : BGraph τ} {vals : List τ} {E O I : Nat → Nat → Bool} (h : Sides hash cap g.nodes vals O I)
    (hcur : g.cur = vals.length) (hlen : vals.length ≤ cap) (hO : ∀ x y, O x y = E x y) (hI : ∀ x y, I x y = E x y)
    (hE : ∀ x y, E x y = true → x < vals.length ∧ y < vals.length) : Is hash cap g ⟨vals, E⟩ := by
  have hO : O = E := funext fun x => funext fun y => hO x y
  have hI : I = E := funext fun x => funext fun y => hI x y
  subst hO hI
  obtain ⟨f, hs, hd, hn⟩ := h
  exact ⟨hcur, hlen, ⟨f, hs, hd, fun x n hf => ⟨(hn x n hf).1, (hn x n hf).2.1, (hn x n hf).2.2.1, (hn x n hf).2.2.2⟩⟩, hE⟩

theorem add_ok {hash : Nat → Nat} {cap : Nat} (hcap : cap < noId) {g : BGraph τ} {a : Abs τ} (h : Is hash cap g a) (v : τ) :
    (a.vals.length < cap → ∃ g', addNode hash cap g v = pure (g', a.vals.length) ∧ Is hash cap g' ⟨a.vals ++ [v], a.E⟩) ∧
    (a.vals.length = cap → addNode hash cap g v = ub) := by
  obtain ⟨f, hs, hd, hn⟩ := h.nodes
  have hroom := h.room
  have hsz := h.size
  have hlen := hs.inv.len
  have hf : f a.vals.length = none := by
    have := hd a.vals.length
    rw [decide_eq_false (by omega)] at this
    rwa [Option.isSome_eq_false_iff, Option.isNone_iff_eq_none] at this
  have hck : check (a.vals.length != noId) = pure () := by
    unfold check
    rw [if_pos (by simp; omega)]
  constructor
  · intro hlt
    unfold addNode BoundedHashMap.insert BoundedHashMap.place
    rw [h.cur]
    dsimp only
    rcases BoundedHashMap.find_mem hs.inv (List.Perm.refl _) a.vals.length with ⟨i, w, l, e, hi, ho, hl, _⟩ | ⟨i, e, hi, ho, hl, _, hset, hends⟩ | ⟨e, _, hfull⟩
    · rw [lookup_eq hs, hf] at hl; cases hl
    · refine ⟨⟨a.vals.length + 1, g.nodes.set i (some (a.vals.length, ⟨a.vals.length, v, BoundedHashSet.make Nat cap, BoundedHashSet.make Nat cap⟩))⟩, ?_, ?_⟩
      · rw [e]
        simp only [pure_bind]
        rw [hck]
        simp only [pure_bind]
        rw [wr_eq (by omega)]
        simp only [pure_bind]
        rw [Nat.mod_eq_of_lt (by unfold noId at hcap; omega)]
      · refine ⟨by simp, by simp; omega, ⟨upd f a.vals.length ⟨a.vals.length, v, BoundedHashSet.make Nat cap, BoundedHashSet.make Nat cap⟩, ⟨BoundedHashMap.set_inv hs.inv hends, fun x n => ?_⟩, fun x => ?_, fun x n hx => ?_⟩, ?_⟩
        · rw [(hset _).mem_iff, List.mem_cons, hs.mem]
          unfold upd
          by_cases hx : x = a.vals.length
          · subst hx
            rw [if_pos rfl, hf]
            constructor
            · rintro (h' | h')
              · injection h' with _ h'; rw [h']
              · cases h'
            · intro h'
              injection h' with h'
              exact Or.inl (by rw [h'])
          · rw [if_neg hx]
            constructor
            · rintro (h' | h')
              · injection h' with h' _; exact absurd h' hx
              · exact h'
            · exact Or.inr
        · unfold upd
          rw [List.length_append, List.length_singleton]
          by_cases hx : x = a.vals.length
          · rw [if_pos hx, hx, decide_eq_true (by omega)]; rfl
          · rw [if_neg hx, hd x, decide_eq_decide]
            omega
        · unfold upd at hx
          by_cases hxl : x = a.vals.length
          · rw [if_pos hxl] at hx
            injection hx with hx
            subst hx hxl
            obtain ⟨k1, k2⟩ := BoundedHashSet.inv_make Nat id cap (by omega)
            have hE : ∀ y, a.E a.vals.length y = false := fun y => by
              rw [Bool.eq_false_iff]; intro hc; exact absurd (h.ends _ _ hc).1 (Nat.lt_irrefl _)
            have hE' : ∀ y, a.E y a.vals.length = false := fun y => by
              rw [Bool.eq_false_iff]; intro hc; exact absurd (h.ends _ _ hc).2 (Nat.lt_irrefl _)
            have hnone : ∀ i y : Nat, (BoundedHashSet.make Nat cap)[i]? ≠ some (some y) := fun i y hc => by
              unfold BoundedHashSet.make at hc
              rw [List.getElem?_replicate] at hc
              split at hc
              · injection hc with hc; cases hc
              · cases hc
            refine ⟨rfl, by simp, ⟨k1, fun y => ?_, fun _ i y hy => absurd hy (hnone i y)⟩,
              ⟨k1, fun y => ?_, fun _ i y hy => absurd hy (hnone i y)⟩⟩
            · show y ∈ entries cap (BoundedHashSet.make Nat cap) ↔ _
              rw [k2]; simp [hE]
            · show y ∈ entries cap (BoundedHashSet.make Nat cap) ↔ _
              rw [k2]; simp [hE']
          · rw [if_neg hxl] at hx
            obtain ⟨k1, k2, k3, k4⟩ := hn x n hx
            refine ⟨k1, ?_, k3, k4⟩
            show (a.vals ++ [v])[x]? = _
            rw [List.getElem?_append_left (List.getElem?_eq_some_iff.1 k2).1]
            exact k2
        · intro x y hxy
          have := h.ends x y hxy
          rw [List.length_append, List.length_singleton]
          omega
    · omega
  · intro hfull
    unfold addNode BoundedHashMap.insert BoundedHashMap.place
    rw [h.cur]
    dsimp only
    rw [hck]
    simp only [pure_bind]
    rcases BoundedHashMap.find_mem hs.inv (List.Perm.refl _) a.vals.length with ⟨i, w, l, e, hi, ho, hl, _⟩ | ⟨i, e, hi, ho, hl, hlt, _⟩ | ⟨e, _, _⟩
    · rw [lookup_eq hs, hf] at hl; cases hl
    · omega
    · rw [e]; rfl

/-- Does the call remove edges? (Specification, no line of the source.) -/
def Op.removes : Op τ → Bool
  | .removeDirected .. => true
  | .removeEdges .. => true
  | _ => false

/-- A call does what it does on the mathematical graph. -/
theorem step_ok {hash : Nat → Nat} {cap : Nat} (hcap : cap < noId) {g : BGraph τ} {a : Abs τ} (h : Is hash cap g a) (o : Op τ)
    (ho : o.removes = true → Spread cap) :
    match a.step cap o with
    | .ok (a', r) => ∃ g', step hash cap g o = pure (g', r) ∧ Is hash cap g' a'
    | .error e => step hash cap g o = e.outcome := by
  obtain ⟨f, hs, hd, hn⟩ := h.nodes
  have hroom := h.room
  have hid : ∀ x, x < a.vals.length → x ≠ noId := fun x hx => by omega
  have hno : ∀ x, ¬ x < a.vals.length → (f x).isSome = false := fun x hx => by rw [hd, decide_eq_false hx]
  have hyes : ∀ x, x < a.vals.length → (f x).isSome = true := fun x hx => by rw [hd, decide_eq_true hx]
  cases o with
  | addNode v =>
    obtain ⟨h1, h2⟩ := add_ok hcap h v
    simp only [Abs.step]
    by_cases hlt : a.vals.length < cap
    · rw [if_pos hlt]
      obtain ⟨g', e, hi⟩ := h1 hlt
      exact ⟨g', by simp only [step]; rw [e]; rfl, hi⟩
    · rw [if_neg hlt]
      show step hash cap g (.addNode v) = ub
      simp only [step]
      rw [h2 (by omega)]
      rfl
  | addDirected x y =>
    simp only [Abs.step]
    by_cases hxy : x < a.vals.length ∧ y < a.vals.length
    · rw [if_pos hxy]
      obtain ⟨hx, hy⟩ := hxy
      obtain ⟨i, j, hi, hj, e⟩ := (hs.two x y).1 (hid x hx) (hid y hy) (hyes x hx) (hyes y hy)
      obtain ⟨t1, e1, s1, a1⟩ := h.sides.out hroom (fun p q hpq => (h.ends p q hpq).2) hx hy hi
      obtain ⟨t2, e2, s2, a2⟩ := Sides.inc (g := { g with nodes := t1 }) s1 hroom (fun p q hpq => (h.ends p q hpq).1) hy hx (a1 y j hj)
      refine ⟨{ g with nodes := t2 }, ?_, ?_⟩
      · simp only [step]
        unfold addDirected
        rw [e]
        simp only [pure_bind]
        rw [e1]
        simp only [pure_bind]
        rw [e2]
        rfl
      · refine Sides.is (g := { g with nodes := t2 }) s2 h.cur hroom (fun _ _ => rfl) (fun _ _ => rfl) ?_
        intro p q hpq
        rcases Bool.or_eq_true _ _ ▸ hpq with hpq | hpq
        · exact h.ends p q hpq
        · rw [Bool.and_eq_true, beq_iff_eq, beq_iff_eq] at hpq
          rw [hpq.1, hpq.2]; exact ⟨hx, hy⟩
    · rw [if_neg hxy]
      show step hash cap g (.addDirected x y) = abort
      simp only [step]
      unfold addDirected
      rw [(hs.two x y).2 (by
        by_cases hx : x < a.vals.length
        · exact Or.inr (hno y fun hy => hxy ⟨hx, hy⟩)
        · exact Or.inl (hno x hx))]
      rfl
  | addUndirected x y =>
    simp only [Abs.step]
    by_cases hxy : x < a.vals.length ∧ y < a.vals.length
    · rw [if_pos hxy]
      obtain ⟨hx, hy⟩ := hxy
      have or_ends : ∀ (E : Nat → Nat → Bool) (x y : Nat), x < a.vals.length → y < a.vals.length →
          (∀ p q, E p q = true → p < a.vals.length ∧ q < a.vals.length) →
          ∀ p q, (E p q || (p == x && q == y)) = true → p < a.vals.length ∧ q < a.vals.length := by
        intro E x y hx hy hE p q hpq
        rcases Bool.or_eq_true _ _ ▸ hpq with hpq | hpq
        · exact hE p q hpq
        · rw [Bool.and_eq_true, beq_iff_eq, beq_iff_eq] at hpq
          rw [hpq.1, hpq.2]; exact ⟨hx, hy⟩
      obtain ⟨i, j, hi, hj, e⟩ := (hs.two x y).1 (hid x hx) (hid y hy) (hyes x hx) (hyes y hy)
      obtain ⟨t1, e1, s1, a1⟩ := h.sides.out hroom (fun p q hpq => (h.ends p q hpq).2) hx hy hi
      obtain ⟨t2, e2, s2, a2⟩ := Sides.inc (g := { g with nodes := t1 }) s1 hroom (fun p q hpq => (h.ends p q hpq).1) hx hy (a1 x i hi)
      obtain ⟨t3, e3, s3, a3⟩ := Sides.out (g := { g with nodes := t2 }) s2 hroom (fun p q hpq => (or_ends _ x y hx hy h.ends p q hpq).2) hy hx
        (a2 y j (a1 y j hj))
      obtain ⟨t4, e4, s4, a4⟩ := Sides.inc (g := { g with nodes := t3 }) s3 hroom (fun p q hpq => (or_ends _ y x hy hx h.ends p q hpq).1) hy hx
        (a3 y j (a2 y j (a1 y j hj)))
      refine ⟨{ g with nodes := t4 }, ?_, ?_⟩
      · simp only [step]
        unfold addUndirected
        rw [e]
        simp only [pure_bind]
        rw [e1]
        simp only [pure_bind]
        rw [e2]
        simp only [pure_bind]
        rw [e3]
        simp only [pure_bind]
        rw [e4]
        rfl
      · refine Sides.is (g := { g with nodes := t4 }) s4 h.cur hroom (fun _ _ => rfl) (fun p q => ?_)
          (or_ends _ y x hy hx (or_ends _ x y hx hy h.ends))
        show (a.E p q || (p == y && q == x) || (p == x && q == y)) = (a.E p q || (p == x && q == y) || (p == y && q == x))
        rw [Bool.or_assoc, Bool.or_assoc, Bool.or_comm (p == y && q == x)]
    · rw [if_neg hxy]
      show step hash cap g (.addUndirected x y) = abort
      simp only [step]
      unfold addUndirected
      rw [(hs.two x y).2 (by
        by_cases hx : x < a.vals.length
        · exact Or.inr (hno y fun hy => hxy ⟨hx, hy⟩)
        · exact Or.inl (hno x hx))]
      rfl
  | removeDirected x y =>
    have hsp := ho rfl
    simp only [Abs.step]
    by_cases hxy : x < a.vals.length ∧ y < a.vals.length
    · rw [if_pos hxy]
      obtain ⟨hx, hy⟩ := hxy
      obtain ⟨i, j, hi, hj, e⟩ := (hs.two x y).1 (hid x hx) (hid y hy) (hyes x hx) (hyes y hy)
      obtain ⟨t1, e1, s1, a1⟩ := h.sides.dropOut hsp hroom (fun p q hpq => (h.ends p q hpq).2) hx hy hi
      obtain ⟨t2, e2, s2, a2⟩ := Sides.dropInc hsp (g := { g with nodes := t1 }) s1 hroom (fun p q hpq => (h.ends p q hpq).1) hy hx (a1 y j hj)
      refine ⟨{ g with nodes := t2 }, ?_, ?_⟩
      · simp only [step]
        unfold removeDirected
        rw [e]
        simp only [pure_bind]
        rw [e1]
        simp only [pure_bind]
        rw [e2]
        rfl
      · refine Sides.is (g := { g with nodes := t2 }) s2 h.cur hroom (fun _ _ => rfl) (fun _ _ => rfl) ?_
        intro p q hpq
        exact h.ends p q (Bool.and_eq_true _ _ ▸ hpq).1
    · rw [if_neg hxy]
      show step hash cap g (.removeDirected x y) = abort
      simp only [step]
      unfold removeDirected
      rw [(hs.two x y).2 (by
        by_cases hx : x < a.vals.length
        · exact Or.inr (hno y fun hy => hxy ⟨hx, hy⟩)
        · exact Or.inl (hno x hx))]
      rfl
  | removeEdges x y =>
    have hsp := ho rfl
    simp only [Abs.step]
    by_cases hxy : x < a.vals.length ∧ y < a.vals.length
    · rw [if_pos hxy]
      obtain ⟨hx, hy⟩ := hxy
      have sub : ∀ (E : Nat → Nat → Bool) (x y : Nat), (∀ p q, E p q = true → p < a.vals.length ∧ q < a.vals.length) →
          ∀ p q, (E p q && !(p == x && q == y)) = true → p < a.vals.length ∧ q < a.vals.length :=
        fun E x y hE p q hpq => hE p q (Bool.and_eq_true _ _ ▸ hpq).1
      obtain ⟨i, j, hi, hj, e⟩ := (hs.two x y).1 (hid x hx) (hid y hy) (hyes x hx) (hyes y hy)
      obtain ⟨t1, e1, s1, a1⟩ := h.sides.dropOut hsp hroom (fun p q hpq => (h.ends p q hpq).2) hx hy hi
      obtain ⟨t2, e2, s2, a2⟩ := Sides.dropInc hsp (g := { g with nodes := t1 }) s1 hroom (fun p q hpq => (h.ends p q hpq).1) hx hy (a1 x i hi)
      obtain ⟨t3, e3, s3, a3⟩ := Sides.dropOut hsp (g := { g with nodes := t2 }) s2 hroom (fun p q hpq => (sub _ x y h.ends p q hpq).2) hy hx
        (a2 y j (a1 y j hj))
      obtain ⟨t4, e4, s4, a4⟩ := Sides.dropInc hsp (g := { g with nodes := t3 }) s3 hroom (fun p q hpq => (sub _ y x h.ends p q hpq).1) hy hx
        (a3 y j (a2 y j (a1 y j hj)))
      refine ⟨{ g with nodes := t4 }, ?_, ?_⟩
      · simp only [step]
        unfold removeEdges
        rw [e]
        simp only [pure_bind]
        rw [e1]
        simp only [pure_bind]
        rw [e2]
        simp only [pure_bind]
        rw [e3]
        simp only [pure_bind]
        rw [e4]
        rfl
      · refine Sides.is (g := { g with nodes := t4 }) s4 h.cur hroom (fun _ _ => rfl) (fun p q => ?_)
          (sub _ y x (sub _ x y h.ends))
        show (a.E p q && !(p == y && q == x) && !(p == x && q == y)) = (a.E p q && !(p == x && q == y) && !(p == y && q == x))
        rw [Bool.and_assoc, Bool.and_assoc, Bool.and_comm (!(p == y && q == x))]
    · rw [if_neg hxy]
      show step hash cap g (.removeEdges x y) = abort
      simp only [step]
      unfold removeEdges
      rw [(hs.two x y).2 (by
        by_cases hx : x < a.vals.length
        · exact Or.inr (hno y fun hy => hxy ⟨hx, hy⟩)
        · exact Or.inl (hno x hx))]
      rfl
  | hasNode x =>
    simp only [Abs.step]
    by_cases hx : x = noId
    · rw [if_pos (show x = 2 ^ 64 - 1 from hx)]
      show step hash cap g (.hasNode x) = abort
      simp only [step]
      rw [hs.has, if_pos hx]
      rfl
    · rw [if_neg (show ¬x = 2 ^ 64 - 1 from hx)]
      refine ⟨g, ?_, h⟩
      simp only [step]
      rw [hs.has, if_neg hx, hd]
      rfl
  | size =>
    refine ⟨g, ?_, h⟩
    simp only [step]
    rw [BoundedHashMap.size_eq hs.inv, h.size]
  | value x =>
    simp only [Abs.step]
    by_cases hx : x < a.vals.length
    · rw [List.getElem?_eq_getElem hx]
      refine ⟨g, ?_, h⟩
      obtain ⟨n, hf⟩ := Option.isSome_iff_exists.1 (hyes x hx)
      have hv := (hn x n hf).value
      rw [List.getElem?_eq_getElem hx] at hv
      injection hv with hv
      obtain ⟨i, ha, e⟩ := (hs.get x (fun i => nodeAt g i >>= fun n => pure n.value)).1 (hid x hx) (hyes x hx)
      simp only [step]
      unfold Bounded.value
      rw [e, hs.nodeAt ha hf, hv]
      rfl
    · rw [List.getElem?_eq_none (by omega)]
      show step hash cap g (.value x) = abort
      simp only [step]
      unfold Bounded.value
      rw [(hs.get x (fun i => nodeAt g i >>= fun n => pure n.value)).2 (hno x hx)]
      rfl
  | outHas x y =>
    simp only [Abs.step]
    by_cases hx : x < a.vals.length
    · rw [if_pos hx]
      refine ⟨g, ?_, h⟩
      obtain ⟨n, hf⟩ := Option.isSome_iff_exists.1 (hyes x hx)
      obtain ⟨i, ha, e⟩ := (hs.get x (fun i => nodeAt g i >>= fun n => BoundedHashSet.exists' id cap n.out y)).1 (hid x hx) (hyes x hx)
      simp only [step]
      unfold outHas
      rw [e, hs.nodeAt ha hf]
      simp only [pure_bind]
      rw [(hn x n hf).out.has]
      rfl
    · rw [if_neg hx]
      show step hash cap g (.outHas x y) = abort
      simp only [step]
      unfold outHas
      rw [(hs.get x _).2 (hno x hx)]
      rfl
  | incHas x y =>
    simp only [Abs.step]
    by_cases hx : x < a.vals.length
    · rw [if_pos hx]
      refine ⟨g, ?_, h⟩
      obtain ⟨n, hf⟩ := Option.isSome_iff_exists.1 (hyes x hx)
      obtain ⟨i, ha, e⟩ := (hs.get x (fun i => nodeAt g i >>= fun n => BoundedHashSet.exists' id cap n.inc y)).1 (hid x hx) (hyes x hx)
      simp only [step]
      unfold incHas
      rw [e, hs.nodeAt ha hf]
      simp only [pure_bind]
      rw [(hn x n hf).inc.has]
      rfl
    · rw [if_neg hx]
      show step hash cap g (.incHas x y) = abort
      simp only [step]
      unfold incHas
      rw [(hs.get x _).2 (hno x hx)]
      rfl

theorem run_ok {hash : Nat → Nat} {cap : Nat} (hcap : cap < noId) (os : List (Op τ)) (ho : ∀ o, o ∈ os → o.removes = true → Spread cap) : ∀ (g : BGraph τ) (a : Abs τ), Is hash cap g a →
    match Abs.run cap a os with
    | .ok (a', rs) => ∃ g', run hash cap g os = pure (g', rs) ∧ Is hash cap g' a'
    | .error e => run hash cap g os = e.outcome := by
  induction os with
  | nil => intro g a h; exact ⟨g, rfl, h⟩
  | cons o os ih =>
    intro g a h
    have h1 := step_ok hcap h o (ho o (by simp))
    replace ih := ih fun o' ho' => ho o' (by simp [ho'])
    simp only [Abs.run]
    cases hr : a.step cap o with
    | error e =>
      rw [hr] at h1
      simp only at h1 ⊢
      simp only [run]
      rw [h1]
      cases e <;> rfl
    | ok p =>
      obtain ⟨a1, r⟩ := p
      rw [hr] at h1
      simp only at h1 ⊢
      obtain ⟨g1, e1, i1⟩ := h1
      have h2 := ih g1 a1 i1
      cases hr2 : Abs.run cap a1 os with
      | error e =>
        rw [hr2] at h2
        simp only at h2 ⊢
        simp only [run]
        rw [e1]
        simp only [pure_bind]
        rw [h2]
        cases e <;> rfl
      | ok p =>
        obtain ⟨a2, rs⟩ := p
        rw [hr2] at h2
        simp only at h2 ⊢
        obtain ⟨g2, e2, i2⟩ := h2
        refine ⟨g2, ?_, i2⟩
        simp only [run]
        rw [e1]
        simp only [pure_bind]
        rw [e2]
        rfl

/-- C204, as far as it holds: on a new graph of positive capacity, for every hash function, any history of calls that do not remove
nodes has the results of the same history on a mathematical graph: ids are given out in order, both sides of every edge are recorded,
and the sets of edges never run full.  A call with the id of no node ends the program; one node too many is undefined.  Edges are only
removed if the capacity is not a multiple of 59.  Missing: other removals, see `C204_remove_node_violated` and
`C204_remove_edge_violated`. -/
theorem C204_history_partial (hash : Nat → Nat) (cap : Nat) (hc : 0 < cap) (hcap : cap < noId) (os : List (Op τ))
    (ho : (∀ o, o ∈ os → o.removes = false) ∨ (cap % 59 ≠ 0 ∧ cap < 2 ^ 58)) :
    match Abs.run cap (Abs.empty τ) os with
    | .ok (_, rs) => ∃ g, run hash cap (new τ cap) os = pure (g, rs)
    | .error .ends => run hash cap (new τ cap) os = abort
    | .error .full => run hash cap (new τ cap) os = ub := by
  have h := run_ok (τ := τ) hcap os (fun o hm hr => by
    rcases ho with ho | ho
    · rw [ho o hm] at hr; cases hr
    · exact ho) (new τ cap) (Abs.empty τ) (new_is hash cap hc)
  cases hr : Abs.run cap (Abs.empty τ) os with
  | error e =>
    rw [hr] at h
    cases e <;> exact h
  | ok p =>
    rw [hr] at h
    obtain ⟨g, e, _⟩ := h
    exact ⟨g, e⟩

/-- Edges in both directions and to itself. -/
example : ((Abs.run 3 (Abs.empty Nat) [.addNode 5, .addNode 6, .addDirected 0 1, .addUndirected 1 1, .outHas 0 1, .incHas 0 1, .incHas 1 1,
    .size, .value 1, .addNode 7, .hasNode 3]).toOption.map Prod.snd) =
    some [.node 0, .node 1, .done, .done, .is true, .is false, .is true, .number 2, .value 6, .node 2, .is false] := by decide +kernel
example : ((Abs.run 3 (Abs.empty Nat) [.addNode 5, .addNode 6, .addDirected 0 1, .addDirected 0 0, .removeDirected 0 1, .outHas 0 1, .outHas 0 0,
    .removeEdges 0 0, .incHas 0 0]).toOption.map Prod.snd) =
    some [.node 0, .node 1, .done, .done, .done, .is false, .is true, .done, .is false] := by decide +kernel
example : ((Abs.run 1 (Abs.empty Nat) [.addNode 5, .addNode 6]).toOption.map Prod.snd) = none := by decide +kernel

/-! ### Removals -/

/-- The sets of the node have the size of the capacity. (Specification, no line of the source.) -/
def Sized (cap : Nat) (n : Node τ) : Prop := n.inc.length = cap ∧ n.out.length = cap

theorem erase_total {cap : Nat} (hc : 0 < cap) {t : BoundedHashSet.Table Nat} (hl : t.length = cap) (x : Nat) :
    ∃ t' i, BoundedHashSet.erase id cap t x = pure (t', i) ∧ t'.length = cap := by
  have hsc : scaleHash x cap = pure (homeOf id cap x) := by unfold scaleHash; rw [if_neg (by omega)]; rfl
  unfold BoundedHashSet.erase BoundedHashSet.findIdx
  rcases findIndex_spec (stopAt id x) t cap (id x) (by omega) (homeOf id cap x) hsc (homeOf_lt id hc x) with ⟨k, o, _, e, _⟩ | ⟨e, _⟩
  · rw [e]
    simp only [pure_bind]
    have := Nat.mod_lt (homeOf (κ := Nat) id cap x + k) hc
    rw [wr_eq (by omega)]
    exact ⟨_, _, rfl, by rw [List.length_set]; exact hl⟩
  · rw [e]
    exact ⟨t, none, rfl, hl⟩

/-- A loop over a set that is not empty ends by reading past the set. -/
theorem sweep_ub {hash : Nat → Nat} {cap : Nat} {pick : Node τ → BoundedHashSet.Table Nat} {drop : Node τ → Cxx (Node τ)}
    (hdrop : ∀ n, Sized cap n → ∃ n', drop n = pure n' ∧ pick n' = pick n ∧ Sized cap n') {x i : Nat} {T : BoundedHashSet.Table Nat}
    (hT : T.length = cap) {f0 : Nat → Bool} (hk : ∀ (p k : Nat), T[p]? = some (some k) → k ≠ noId ∧ f0 k = true) :
    ∀ (d : Nat) (g : BGraph τ) (f : Nat → Option (Node τ)) (n : Node τ) (pos : Nat), cap - pos = d → Sees hash cap g.nodes f →
      (∀ y, (f y).isSome = f0 y) → (∀ y m, f y = some m → Sized cap m) → At cap g.nodes x i → f x = some n → pick n = T →
      (∃ k, T[pos]? = some (some k)) → sweep hash cap pick drop i g pos = ub := by
  intro d
  induction d using Nat.strongRecOn with
  | _ d ih =>
    intro g f n pos hd hs hdom hsz ha hf hp ⟨k, hpos⟩
    have hlt : pos < cap := by rw [← hT]; exact (List.getElem?_eq_some_iff.1 hpos).1
    obtain ⟨hk1, hk2⟩ := hk pos k hpos
    have hfk : (f k).isSome := by rw [hdom]; exact hk2
    obtain ⟨j, ej, hj⟩ := hs.raw hk1 hfk
    obtain ⟨m, hm⟩ := Option.isSome_iff_exists.1 hfk
    obtain ⟨m', em, hpm, hsm⟩ := hdrop m (hsz k m hm)
    obtain ⟨t, et, hs2, hat⟩ := hs.modify hj hm em
    obtain ⟨n2, hf2, hp2⟩ : ∃ n2, upd f k m' x = some n2 ∧ pick n2 = T := by
      unfold upd
      by_cases hxk : x = k
      · subst hxk
        rw [if_pos rfl]
        rw [hm] at hf; injection hf with hf; subst hf
        exact ⟨m', rfl, by rw [hpm, hp]⟩
      · rw [if_neg hxk]; exact ⟨n, hf, hp⟩
    rw [sweep, if_neg (by omega), hs.nodeAt ha hf]
    simp only [pure_bind]
    rw [hp, rd_some hpos]
    simp only [pure_bind]
    rw [hs.has, if_neg hk1, hfk]
    simp only [pure_bind]
    rw [show check true = pure () from rfl]
    simp only [pure_bind]
    rw [ej]
    simp only [pure_bind]
    rw [et]
    simp only [pure_bind]
    rw [Sees.nodeAt (g := { g with nodes := t }) hs2 (hat x i ha) hf2]
    simp only [pure_bind]
    rw [hp2]
    by_cases hno : ∀ p : Nat, pos + 1 ≤ p → p < cap → T[p]? = some none
    · rw [BoundedHashSet.skip_off hT _ (pos + 1) rfl hno]
      rfl
    · obtain ⟨q, e, h1, h2, h3, h4⟩ := BoundedHashSet.firstFrom_eq hT (pos + 1) (by omega)
      have hq : q < cap := by
        by_cases hq : q < cap
        · exact hq
        · exact absurd (fun p h5 h6 => h4 p h5 (by omega)) hno
      rw [BoundedHashSet.skip_to hq (h3 hq) _ (pos + 1) rfl h1 h4]
      simp only [pure_bind]
      refine ih (cap - q) (by omega) { g with nodes := t } (upd f k m') n2 q rfl hs2 (fun y => ?_) (fun y r hr => ?_) (hat x i ha) hf2 hp2 (h3 hq)
      · unfold upd
        by_cases hy : y = k
        · rw [if_pos hy, hy, hk2]; rfl
        · rw [if_neg hy]; exact hdom y
      · unfold upd at hr
        by_cases hy : y = k
        · rw [if_pos hy] at hr; injection hr with hr; subst hr; exact hsm
        · rw [if_neg hy] at hr; exact hsz y r hr

/-- C204 does not hold for `remove_node`: in whatever graph, removing a node that has an edge, in or out, is undefined behaviour, for
every hash function and every capacity. -/
theorem C204_remove_node_violated (hash : Nat → Nat) (cap : Nat) (hc : 0 < cap) (hcap : cap < noId) (os : List (Op τ))
    (ho : (∀ o, o ∈ os → o.removes = false) ∨ (cap % 59 ≠ 0 ∧ cap < 2 ^ 58)) (a : Abs τ) (rs : List (Res τ))
    (hr : Abs.run cap (Abs.empty τ) os = .ok (a, rs)) (x y : Nat) (he : a.E x y = true ∨ a.E y x = true) :
    ∃ g, run hash cap (new τ cap) os = pure (g, rs) ∧ removeNode hash cap g x = ub := by
  have h := run_ok (τ := τ) hcap os (fun o hm hr => by
    rcases ho with ho | ho
    · rw [ho o hm] at hr; cases hr
    · exact ho) (new τ cap) (Abs.empty τ) (new_is hash cap hc)
  rw [hr] at h
  obtain ⟨g, e, hi⟩ := h
  refine ⟨g, e, ?_⟩
  obtain ⟨f, hs, hd, hn⟩ := hi.nodes
  have hroom := hi.room
  have hx : x < a.vals.length := by
    rcases he with he | he
    · exact (hi.ends _ _ he).1
    · exact (hi.ends _ _ he).2
  have hfx : (f x).isSome := by rw [hd, decide_eq_true hx]
  have hxn : x ≠ noId := by omega
  obtain ⟨n, hfn⟩ := Option.isSome_iff_exists.1 hfx
  obtain ⟨i, ei, ha⟩ := hs.raw hxn hfx
  obtain ⟨-, -, hout, hinc⟩ := hn x n hfn
  have hsz : ∀ y m, f y = some m → Sized cap m := fun y m hm => ⟨(hn y m hm).inc.inv.len, (hn y m hm).out.inv.len⟩
  have hk : ∀ (P : Nat → Bool) (T : BoundedHashSet.Table Nat), SetIs cap T P → (∀ k, P k = true → k < a.vals.length) →
      ∀ (p k : Nat), T[p]? = some (some k) → k ≠ noId ∧ (f k).isSome = true := by
    intro P T hT hP p k hp
    have hpc : p < cap := by rw [← hT.inv.len]; exact (List.getElem?_eq_some_iff.1 hp).1
    have := hP k ((hT.mem k).1 (mem_entries.2 ⟨p, hpc, hp⟩))
    exact ⟨by omega, by rw [hd, decide_eq_true this]⟩
  have hstart : ∀ (P : Nat → Bool) (T : BoundedHashSet.Table Nat), SetIs cap T P → (∃ z, P z = true) →
      ∃ p, BoundedHashSet.firstFrom cap T 0 = pure p ∧ ∃ k, T[p]? = some (some k) := by
    intro P T hT ⟨z, hz⟩
    obtain ⟨p, e1, _, h2, h3, h4⟩ := BoundedHashSet.firstFrom_eq hT.inv.len 0 (Nat.zero_le _)
    obtain ⟨q, hq, hqz⟩ := mem_entries.1 ((hT.mem z).2 hz)
    refine ⟨p, e1, h3 ?_⟩
    by_cases hpc : p < cap
    · exact hpc
    · have := h4 q (Nat.zero_le _) (by omega)
      rw [hqz] at this; injection this with this; cases this
  have hdropI : ∀ m : Node τ, Sized cap m → ∃ m', outErase cap x m = pure m' ∧ m'.inc = m.inc ∧ Sized cap m' := by
    rintro m ⟨h1, h2⟩
    obtain ⟨t', r, e, h3⟩ := erase_total hc h2 x
    exact ⟨{ m with out := t' }, by unfold outErase; rw [e]; rfl, rfl, h1, h3⟩
  have hdropO : ∀ m : Node τ, Sized cap m → ∃ m', incErase cap x m = pure m' ∧ m'.out = m.out ∧ Sized cap m' := by
    rintro m ⟨h1, h2⟩
    obtain ⟨t', r, e, h3⟩ := erase_total hc h1 x
    exact ⟨{ m with inc := t' }, by unfold incErase; rw [e]; rfl, rfl, h3, h2⟩
  unfold removeNode
  rw [hs.has, if_neg hxn, hfx]
  simp only [pure_bind]
  rw [show check true = pure () from rfl]
  simp only [pure_bind]
  rw [ei]
  simp only [pure_bind]
  rw [hs.nodeAt ha hfn]
  simp only [pure_bind]
  by_cases hin : ∃ z, a.E z x = true
  · obtain ⟨p, e1, hp⟩ := hstart _ _ hinc hin
    rw [e1]
    simp only [pure_bind]
    rw [sweep_ub (T := n.inc) hdropI hinc.inv.len (hk _ _ hinc fun k hk => (hi.ends _ _ hk).1) _ g f n p rfl hs (fun _ => rfl) hsz ha hfn rfl hp]
    rfl
  · have hp : ∃ p, BoundedHashSet.firstFrom cap n.inc 0 = pure p ∧ p = cap := by
      obtain ⟨p, e1, _, h2, h3, h4⟩ := BoundedHashSet.firstFrom_eq hinc.inv.len 0 (Nat.zero_le _)
      refine ⟨p, e1, ?_⟩
      by_cases hpc : p < cap
      · obtain ⟨k, hk⟩ := h3 hpc
        exact absurd ⟨k, (hinc.mem k).1 (mem_entries.2 ⟨p, hpc, hk⟩)⟩ hin
      · omega
    obtain ⟨p, e1, rfl⟩ := hp
    rw [e1]
    simp only [pure_bind]
    rw [sweep, if_pos rfl]
    simp only [pure_bind]
    rw [hs.nodeAt ha hfn]
    simp only [pure_bind]
    have hout' : ∃ z, a.E x z = true := by
      rcases he with he | he
      · exact ⟨y, he⟩
      · exact absurd ⟨y, he⟩ hin
    obtain ⟨q, e2, hq⟩ := hstart _ _ hout hout'
    rw [e2]
    simp only [pure_bind]
    rw [sweep_ub (T := n.out) hdropO hout.inv.len (hk _ _ hout fun k hk => (hi.ends _ _ hk).2) _ g f n q rfl hs (fun _ => rfl) hsz ha hfn rfl hq]
    rfl

/-- Two nodes and an edge are enough. -/
example : ∃ (a : Abs Nat) (rs : List (Res Nat)), Abs.run 2 (Abs.empty Nat) [.addNode 5, .addNode 6, .addDirected 0 1] = .ok (a, rs) ∧ a.E 0 1 = true :=
  ⟨⟨[5, 6], fun p q => false || (p == 0 && q == 1)⟩, [.node 0, .node 1, .done], rfl, rfl⟩

/-- C204 does not hold for the removal of edges if the capacity is a multiple of 59, here 59 itself: removing the edge from node 0 to
node 0 also makes the edge to node 1 disappear on one of its two sides. -/
theorem C204_remove_edge_violated :
    (∃ g, run id 59 (new Unit 59) [.addNode (), .addNode (), .addDirected 0 0, .addDirected 0 1, .outHas 0 1, .removeDirected 0 0, .outHas 0 1, .incHas 1 0] =
      pure (g, [.node 0, .node 1, .done, .done, .is true, .done, .is false, .is true])) ∧
    (Abs.run 59 (Abs.empty Unit) [.addNode (), .addNode (), .addDirected 0 0, .addDirected 0 1, .outHas 0 1, .removeDirected 0 0, .outHas 0 1, .incHas 1 0]).toOption.map Prod.snd =
      some [.node 0, .node 1, .done, .done, .is true, .done, .is true, .is true] := by
  refine ⟨?_, by decide +kernel⟩
  have h : (do
      let (_, rs) ← run id 59 (new Unit 59) [.addNode (), .addNode (), .addDirected 0 0, .addDirected 0 1, .outHas 0 1, .removeDirected 0 0, .outHas 0 1, .incHas 1 0]
      pure rs : Cxx (List (Res Unit))) = pure [.node 0, .node 1, .done, .done, .is true, .done, .is false, .is true] := by decide +kernel
  obtain ⟨⟨g, rs⟩, h1, h2⟩ := Cxx.bind_eq_pure.mp h
  exact ⟨g, by rw [h1, ← Cxx.pure_inj.mp h2]⟩

/-! ### Comparison of nodes -/

/-- A node as handed out: `m_graph`, by its address, and `m_node_id`, daw_bounded_graph.h 184-185 and 270-271. -/
structure Proxy where
  graph : Option Nat
  id : Nat
  deriving DecidableEq

/-- `operator==`, daw_bounded_graph.h 237-243 and 341-347. -/
def Proxy.eq (a b : Proxy) : Bool := a.id == b.id || a.graph == b.graph

/-- `operator!=`, daw_bounded_graph.h 245-251 and 349-355. -/
def Proxy.ne (a b : Proxy) : Bool := a.id != b.id || a.graph != b.graph

/-- `operator<`, daw_bounded_graph.h 253-260 and 357-364. -/
def Proxy.lt (a b : Proxy) : Cxx Bool := do
  check (a.graph == b.graph)
  pure (decide (a.id < b.id))

/-- `operator bool`, daw_bounded_graph.h 215-217 and 301-303. -/
def Proxy.toBool (a : Proxy) : Bool := a.graph.isSome && a.id != noId

/-- `empty`, daw_bounded_graph.h 211-213 and 297-299. -/
def Proxy.empty (a : Proxy) : Bool := a.graph.isNone || !(a.id != noId)

/-- C205, as far as it holds: `!=` tells exactly whether two nodes are different; the same node compares `==`; nodes with different
ids of different graphs do not; `<` orders the nodes of one graph and ends the program for nodes of two graphs; `empty` is the
opposite of the conversion to `bool`.  Missing: `==`, see `C205_equal_violated`. -/
theorem C205_compare_partial (a b : Proxy) :
    (a.ne b = true ↔ a ≠ b) ∧ a.eq a = true ∧ (a.eq b = true ↔ a.id = b.id ∨ a.graph = b.graph) ∧
    (a.lt b = if a.graph = b.graph then pure (decide (a.id < b.id)) else abort) ∧
    (a.graph = b.graph → a ≠ b → (a.lt b = pure true ∧ b.lt a = pure false) ∨ (a.lt b = pure false ∧ b.lt a = pure true)) ∧
    a.empty = !a.toBool := by
  obtain ⟨ga, ia⟩ := a
  obtain ⟨gb, ib⟩ := b
  have hlt : ∀ (g g' : Option Nat) (i j : Nat), Proxy.lt ⟨g, i⟩ ⟨g', j⟩ = if g = g' then pure (decide (i < j)) else abort := by
    intro g g' i j
    unfold Proxy.lt check
    by_cases h : g = g'
    · simp only [h, beq_self_eq_true, if_true, pure_bind]
    · simp only [h, if_false, beq_eq_false_iff_ne.2 h, Bool.false_eq_true]
      rfl
  refine ⟨?_, ?_, ?_, hlt _ _ _ _, ?_, ?_⟩
  · simp only [Proxy.ne, Bool.or_eq_true, bne_iff_ne, ne_eq, Proxy.mk.injEq, not_and_or]
    exact or_comm
  · simp [Proxy.eq]
  · simp [Proxy.eq]
  · rintro hg hne
    simp only at hg
    subst hg
    rw [hlt, hlt, if_pos rfl, if_pos rfl]
    have : ia ≠ ib := fun h => hne (by rw [h])
    rcases Nat.lt_or_gt_of_ne this with h | h
    · exact Or.inl ⟨by rw [decide_eq_true h], by rw [decide_eq_false (by omega)]⟩
    · exact Or.inr ⟨by rw [decide_eq_false (by omega)], by rw [decide_eq_true h]⟩
  · simp only [Proxy.empty, Proxy.toBool]
    cases ga <;> simp

/-- C205 does not hold for `==`: any two different nodes of one graph are both `==` and `!=`, and so are nodes of different graphs
with one id. -/
theorem C205_equal_violated (a b : Proxy) (hne : a ≠ b) (h : a.graph = b.graph ∨ a.id = b.id) : a.eq b = true ∧ a.ne b = true := by
  refine ⟨?_, (C205_compare_partial a b).1.2 hne⟩
  rw [(C205_compare_partial a b).2.2.1]
  exact h.symm

example : (⟨some 1, 0⟩ : Proxy) ≠ ⟨some 1, 1⟩ := by decide

/-! ### Searching for nodes -/

/-- `result.push_back( id )` into a `bounded_vector_t` of capacity `cap`, daw_bounded_graph.h 505 and 544; a write past the array is
undefined behaviour. -/
def push (cap : Nat) (ids : List Nat) (x : Nat) : Cxx (List Nat) := if ids.length < cap then pure (ids ++ [x]) else ub

/-- The items a loop over the nodes meets, daw_bounded_graph.h 503 and 531; that the functions called do not change the map is
used to split the loop from its body. -/
def items (cap : Nat) (g : BGraph τ) : Cxx (List (Option (Nat × Node τ))) := do
  let first ← BoundedHashMap.firstFrom cap g.nodes 0
  BoundedHashMap.walk cap g.nodes first

/-- `find_by_value`, daw_bounded_graph.h 498-509. -/
def findByValue (cap : Nat) (g : BGraph τ) (compare : τ → τ → Bool) (v : τ) : Cxx (List Nat) := do
  let os ← items cap g
  os.foldlM (fun ids o => match o with
    | none => ub
    | some (_, n) => if compare n.value v then push cap ids n.id else pure ids) []

/-- `find` with the constant `visit`, daw_bounded_graph.h 525-547; `pred` is the predicate for the node with an id. -/
def findNodes (hash : Nat → Nat) (cap : Nat) (g : BGraph τ) (pred : Nat → Cxx Bool) : Cxx (List Nat) := do
  let os ← items cap g
  os.foldlM (fun ids o => match o with
    | none => ub
    | some (_, n) => do
      let h ← hasNode hash cap g n.id
      check h
      let b ← pred n.id
      if b then push cap ids n.id else pure ids) []

/-- `find_roots`, daw_bounded_graph.h 549-554, with `incoming_edges` of lines 225-229. -/
def findRoots (hash : Nat → Nat) (cap : Nat) (g : BGraph τ) : Cxx (List Nat) :=
  findNodes hash cap g fun x => do
    check (x != noId)
    let i ← rawNode hash cap g x
    let n ← nodeAt g i
    pure (BoundedHashSet.empty n.inc)

/-- `find_leaves`, daw_bounded_graph.h 556-561, with `outgoing_edges` of lines 231-235. -/
def findLeaves (hash : Nat → Nat) (cap : Nat) (g : BGraph τ) : Cxx (List Nat) :=
  findNodes hash cap g fun x => do
    check (x != noId)
    let i ← rawNode hash cap g x
    let n ← nodeAt g i
    pure (BoundedHashSet.empty n.out)

theorem items_eq {hash : Nat → Nat} {cap : Nat} {g : BGraph τ} {f : Nat → Option (Node τ)} (h : Sees hash cap g.nodes f) :
    items cap g = pure ((entries cap g.nodes).map some) := by
  obtain ⟨first, e3, h3, h4, h5, h6⟩ := BoundedHashMap.firstFrom_eq h.inv.len 0 (Nat.zero_le _)
  unfold items
  rw [e3]
  simp only [pure_bind]
  rw [BoundedHashMap.walk_eq h.inv.len _ first rfl h4 h5, ← BoundedHashMap.filterMap_skip h3 h4 h.inv.len h6]
  rfl

/-- A loop that keeps the ids with a property. -/
theorem keep_eq {cap : Nat} {body : List Nat → Option (Nat × Node τ) → Cxx (List Nat)} {q : Nat → Bool} (es : List (Nat × Node τ))
    (hb : ∀ e, e ∈ es → ∀ ids : List Nat, ids.length < cap → body ids (some e) = pure (if q e.1 then ids ++ [e.1] else ids)) :
    ∀ ids : List Nat, ids.length + es.length ≤ cap →
      (es.map some).foldlM body ids = pure (ids ++ (es.map Prod.fst).filter q) := by
  induction es with
  | nil => intro ids _; simp
  | cons e es ih =>
    intro ids hl
    rw [List.length_cons] at hl
    rw [List.map_cons, List.foldlM_cons, hb e (by simp) ids (by omega)]
    simp only [pure_bind]
    rw [ih (fun e' he' => hb e' (by simp [he']))]
    · rw [List.map_cons, List.filter_cons]
      by_cases hq : q e.1
      · simp [hq]
      · simp [hq]
    · by_cases hq : q e.1
      · simp [hq]; omega
      · simp [hq]; omega

theorem entries_le {hash : Nat → Nat} {cap : Nat} {g : BGraph τ} {a : Abs τ} (h : Is hash cap g a) : (entries cap g.nodes).length ≤ cap := by
  rw [h.size]; exact h.room

theorem set_empty {cap : Nat} {t : BoundedHashSet.Table Nat} {P : Nat → Bool} (h : SetIs cap t P) :
    BoundedHashSet.empty t = decide (∀ y, y ∈ entries cap t → False) := by
  unfold BoundedHashSet.empty
  rw [Bool.eq_iff_iff, beq_iff_eq, decide_eq_true_iff]
  constructor
  · intro he y hy
    obtain ⟨i, hi, ho⟩ := mem_entries.1 hy
    have hlt := (List.getElem?_eq_some_iff.1 ho).1
    have := List.findIdx_eq_length.1 he (some y) (List.mem_of_getElem? ho)
    cases this
  · intro hall
    refine List.findIdx_eq_length.2 fun o ho => ?_
    cases o with
    | none => rfl
    | some y =>
      obtain ⟨i, hi, hy⟩ := List.mem_iff_getElem.1 ho
      exact (hall y (mem_entries.2 ⟨i, by rw [← h.inv.len]; exact hi, by rw [List.getElem?_eq_getElem hi, hy]⟩)).elim

theorem ids_filter {hash : Nat → Nat} {cap : Nat} {g : BGraph τ} {a : Abs τ} (h : Is hash cap g a) (q : Nat → Bool) :
    (((entries cap g.nodes).map Prod.fst).filter q).Nodup ∧
    ∀ x, x ∈ ((entries cap g.nodes).map Prod.fst).filter q ↔ x < a.vals.length ∧ q x = true := by
  obtain ⟨f, hs, hd, _⟩ := h.nodes
  refine ⟨hs.inv.ch.nodup.filter _, fun x => ?_⟩
  rw [List.mem_filter, List.mem_map]
  refine and_congr_left fun _ => ?_
  constructor
  · rintro ⟨⟨y, n⟩, hm, rfl⟩
    have := hd y
    rw [(hs.mem y n).1 hm] at this
    exact of_decide_eq_true this.symm
  · intro hx
    have := hd x
    rw [decide_eq_true hx] at this
    obtain ⟨n, hn⟩ := Option.isSome_iff_exists.1 this
    exact ⟨(x, n), (hs.mem x n).2 hn, rfl⟩

/-- The search with a predicate that looks at one of the sets. -/
theorem find_sets {hash : Nat → Nat} {cap : Nat} (hcap : cap < noId) {g : BGraph τ} {a : Abs τ} (h : Is hash cap g a)
    (pick : Node τ → BoundedHashSet.Table Nat) (P : Nat → Nat → Bool)
    (hpick : ∀ x n, NodeIs cap a x n → SetIs cap (pick n) (P x)) :
    ∃ l, findNodes hash cap g (fun x => do
        check (x != noId)
        let i ← rawNode hash cap g x
        let n ← nodeAt g i
        pure (BoundedHashSet.empty (pick n))) = pure l ∧ l.Nodup ∧ ∀ x, x ∈ l ↔ x < a.vals.length ∧ ∀ y, P x y = false := by
  classical
  obtain ⟨f, hs, hd, hn⟩ := h.nodes
  have hroom := h.room
  obtain ⟨k1, k2⟩ := ids_filter h (fun x => decide (∀ y, P x y = false))
  refine ⟨((entries cap g.nodes).map Prod.fst).filter (fun x => decide (∀ y, P x y = false)), ?_, k1, fun x => ?_⟩
  · unfold findNodes
    rw [items_eq hs]
    simp only [pure_bind]
    rw [keep_eq (cap := cap) (q := fun x => decide (∀ y, P x y = false)) (entries cap g.nodes) ?_ [] (by simpa using entries_le h), List.nil_append]
    rintro ⟨x, n⟩ hm ids hl
    have hf := (hs.mem x n).1 hm
    have hid := (hn x n hf).id
    have hx : x < a.vals.length := by
      have := hd x
      rw [hf] at this
      exact of_decide_eq_true this.symm
    have hxn : x ≠ noId := by omega
    obtain ⟨i, ei, ha⟩ := hs.raw hxn (by rw [hf]; rfl)
    have hset := hpick x n (hn x n hf)
    simp only
    rw [hid, hs.has, if_neg hxn, hf, show check (x != noId) = pure () by unfold check; rw [if_pos (by simpa using hxn)]]
    simp only [Option.isSome_some, pure_bind]
    rw [show check true = pure () from rfl, ei]
    simp only [pure_bind]
    rw [hs.nodeAt ha hf]
    simp only [pure_bind]
    have hemp : BoundedHashSet.empty (pick n) = decide (∀ y, P x y = false) := by
      rw [set_empty hset, decide_eq_decide]
      refine forall_congr' fun y => ?_
      rw [hset.mem y]
      cases P x y <;> simp
    rw [hemp]
    by_cases hq : ∀ y, P x y = false
    · simp only [decide_eq_true hq, if_true, push, if_pos hl]
    · simp only [decide_eq_false hq, Bool.false_eq_true, if_false]
  · rw [k2, decide_eq_true_iff]

/-- C206: after any history of calls that do not remove nodes, `find_roots`, `find_leaves` and `find_by_value` return, each once, the
ids of the nodes without incoming edges, of those without outgoing edges and of those whose value compares equal; the result always
has room for them. -/
theorem C206_find (hash : Nat → Nat) (cap : Nat) (hc : 0 < cap) (hcap : cap < noId) (os : List (Op τ))
    (ho : (∀ o, o ∈ os → o.removes = false) ∨ (cap % 59 ≠ 0 ∧ cap < 2 ^ 58)) (a : Abs τ) (rs : List (Res τ))
    (hr : Abs.run cap (Abs.empty τ) os = .ok (a, rs)) (compare : τ → τ → Bool) (v : τ) :
    ∃ (g : BGraph τ) (roots leaves found : List Nat), run hash cap (new τ cap) os = pure (g, rs) ∧
      findRoots hash cap g = pure roots ∧ findLeaves hash cap g = pure leaves ∧ findByValue cap g compare v = pure found ∧
      (roots.Nodup ∧ ∀ x, x ∈ roots ↔ x < a.vals.length ∧ ∀ y, a.E y x = false) ∧
      (leaves.Nodup ∧ ∀ x, x ∈ leaves ↔ x < a.vals.length ∧ ∀ y, a.E x y = false) ∧
      (found.Nodup ∧ ∀ x, x ∈ found ↔ ∃ w, a.vals[x]? = some w ∧ compare w v = true) := by
  have h := run_ok (τ := τ) hcap os (fun o hm hr => by
    rcases ho with ho | ho
    · rw [ho o hm] at hr; cases hr
    · exact ho) (new τ cap) (Abs.empty τ) (new_is hash cap hc)
  rw [hr] at h
  obtain ⟨g, e, hi⟩ := h
  obtain ⟨l1, e1, n1, m1⟩ := find_sets hcap hi Node.inc (fun x y => a.E y x) (fun x n hn => hn.inc)
  obtain ⟨l2, e2, n2, m2⟩ := find_sets hcap hi Node.out a.E (fun x n hn => hn.out)
  obtain ⟨f, hs, hd, hn⟩ := hi.nodes
  obtain ⟨k1, k2⟩ := ids_filter hi (fun x => (a.vals[x]?.map fun w => compare w v).getD false)
  refine ⟨g, l1, l2, _, e, e1, e2, ?_, ⟨n1, m1⟩, ⟨n2, m2⟩, k1, fun x => ?_⟩
  · unfold findByValue
    rw [items_eq hs]
    simp only [pure_bind]
    rw [keep_eq (cap := cap) (q := fun x => (a.vals[x]?.map fun w => compare w v).getD false) (entries cap g.nodes) ?_ []
      (by simpa using entries_le hi), List.nil_append]
    rintro ⟨x, n⟩ hm ids hl
    have hni := hn x n ((hs.mem x n).1 hm)
    simp only
    rw [hni.id, hni.value]
    simp only [Option.map_some, Option.getD_some]
    by_cases hq : compare n.value v
    · rw [if_pos hq, if_pos hq]; unfold push; rw [if_pos hl]
    · rw [if_neg hq, if_neg hq]
  · rw [k2]
    constructor
    · rintro ⟨hx, hq⟩
      rw [List.getElem?_eq_getElem hx] at hq ⊢
      exact ⟨_, rfl, hq⟩
    · rintro ⟨w, hw, hq⟩
      refine ⟨(List.getElem?_eq_some_iff.1 hw).1, ?_⟩
      rw [hw]; exact hq

/-- A path of three nodes. -/
example : ∃ (a : Abs Nat) (rs : List (Res Nat)), Abs.run 3 (Abs.empty Nat) [.addNode 5, .addNode 6, .addNode 5, .addDirected 0 1, .addDirected 1 2] = .ok (a, rs) ∧
    a.vals = [5, 6, 5] ∧ a.E 1 2 = true :=
  ⟨⟨[5, 6, 5], fun p q => false || (p == 0 && q == 1) || (p == 1 && q == 2)⟩, [.node 0, .node 1, .node 2, .done, .done], rfl, rfl, rfl⟩

end Verif.Graph.Bounded
