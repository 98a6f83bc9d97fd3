import Verif.Base

/-
`daw::graph_t`, include/daw/daw_graph.h.  A `node_id_t` is its number.  `m_nodes`, an unordered map, is a partial function together
with the list of its keys in the order of iteration; the sets of edges, unordered sets, are lists in the order of iteration.  Where
a new key or a new element appears in that order is not specified by the standard; the model puts it first, and no theorem depends
on it.  The debug checks are on: a call that names a node that is not there aborts.
-/

namespace Verif.Graph
open Cxx

/-- `node_impl_t`, daw_graph.h 81-137; the id is the key of the map. -/
structure Node (τ : Type) where
  /-- `m_value` -/
  value : τ
  /-- `m_incoming_edges` -/
  inc : List Nat
  /-- `m_outgoing_edges` -/
  out : List Nat

/-- `graph_t`, daw_graph.h 350-351. -/
structure Graph (τ : Type) where
  /-- `cur_id` -/
  cur : Nat
  /-- the keys of `m_nodes` -/
  keys : List Nat
  /-- `m_nodes` -/
  nodes : Nat → Option (Node τ)

/-- `NO_ID`, daw_graph.h 32. -/
def noId : Nat := 2 ^ 64 - 1

variable {τ : Type}

/-- The default constructor, daw_graph.h 350-354. -/
def empty : Graph τ := ⟨0, [], fun _ => none⟩

/-- `std::unordered_set::insert`. (Rule of C++ or its library, no line of the source.) -/
def sinsert (x : Nat) (l : List Nat) : List Nat := if x ∈ l then l else x :: l

/-- `has_node`, daw_graph.h 368-370, with the check of `node_id_t::value`, 35-38. -/
def hasNode (g : Graph τ) (id : Nat) : Cxx Bool := if id = noId then abort else pure (g.nodes id).isSome

/-- `dbg_precondition_check( has_node( id ) )`, daw_graph.h 375 and others. -/
def check (g : Graph τ) (id : Nat) : Cxx Unit := do
  let b ← hasNode g id
  if b then pure () else abort

/-- `get_raw_node`, daw_graph.h 374-386, and reading a node through `get_node`, 388-396. -/
def node (g : Graph τ) (id : Nat) : Cxx (Node τ) := do
  check g id
  match g.nodes id with
  | some n => pure n
  | none => ub

/-- Changing a node of the map in place. (Rule of C++ or its library, no line of the source.) -/
def upd (g : Graph τ) (id : Nat) (f : Node τ → Node τ) : Graph τ :=
  { g with nodes := fun x => if x = id then (g.nodes x).map f else g.nodes x }

/-- `outgoing_edges( ).insert( x )`, daw_graph.h 413, 424, 426. -/
def addOut (x : Nat) (n : Node τ) : Node τ := { n with out := sinsert x n.out }

/-- `incoming_edges( ).insert( x )`, daw_graph.h 414, 425, 427. -/
def addInc (x : Nat) (n : Node τ) : Node τ := { n with inc := sinsert x n.inc }

/-- `outgoing_edges( ).erase( x )`, daw_graph.h 435, 449, 459, 461. -/
def delOut (x : Nat) (n : Node τ) : Node τ := { n with out := n.out.erase x }

/-- `incoming_edges( ).erase( x )`, daw_graph.h 438, 450, 460, 462. -/
def delInc (x : Nat) (n : Node τ) : Node τ := { n with inc := n.inc.erase x }

/-- `add_node`, daw_graph.h 356-366, with the check of the constructor, 99. -/
def addNode (g : Graph τ) (v : τ) : Cxx (Graph τ × Nat) :=
  let id := g.cur
  let cur := (g.cur + 1) % 2 ^ 64
  if id = noId then abort
  else if (g.nodes id).isSome then pure (⟨cur, g.keys, g.nodes⟩, id)
  else pure (⟨cur, id :: g.keys, fun x => if x = id then some ⟨v, [], []⟩ else g.nodes x⟩, id)

/-- `add_directed_edge`, daw_graph.h 406-415. -/
def addDirected (g : Graph τ) (s t : Nat) : Cxx (Graph τ) := do
  check g s
  check g t
  let g := upd g s (addOut t)
  pure (upd g t (addInc s))

/-- `add_undirected_edge`, daw_graph.h 417-428. -/
def addUndirected (g : Graph τ) (a b : Nat) : Cxx (Graph τ) := do
  check g a
  check g b
  let g := upd g a (addOut b)
  let g := upd g a (addInc b)
  let g := upd g b (addOut a)
  pure (upd g b (addInc a))

/-- The first loop of `remove_node`, daw_graph.h 434-436; the set iterated over is not changed by it. -/
def dropOut (id : Nat) : List Nat → Graph τ → Cxx (Graph τ)
  | [], g => pure g
  | n :: ns, g => do
    check g n
    dropOut id ns (upd g n (delOut id))

/-- The second loop of `remove_node`, daw_graph.h 437-439; the set iterated over is not changed by it. -/
def dropInc (id : Nat) : List Nat → Graph τ → Cxx (Graph τ)
  | [], g => pure g
  | n :: ns, g => do
    check g n
    dropInc id ns (upd g n (delInc id))

/-- `remove_node`, daw_graph.h 430-441. -/
def removeNode (g : Graph τ) (id : Nat) : Cxx (Graph τ) := do
  let n ← node g id
  let g ← dropOut id n.inc g
  let n ← node g id
  let g ← dropInc id n.out g
  pure ⟨g.cur, g.keys.erase id, fun x => if x = id then none else g.nodes x⟩

/-- `remove_directed_edge`, daw_graph.h 443-451. -/
def removeDirected (g : Graph τ) (s t : Nat) : Cxx (Graph τ) := do
  check g s
  check g t
  let g := upd g s (delOut t)
  pure (upd g t (delInc s))

/-- `remove_edges`, daw_graph.h 453-463. -/
def removeEdges (g : Graph τ) (a b : Nat) : Cxx (Graph τ) := do
  check g a
  check g b
  let g := upd g a (delOut b)
  let g := upd g a (delInc b)
  let g := upd g b (delOut a)
  pure (upd g b (delInc a))

/-- `size`, daw_graph.h 398-400. -/
def size (g : Graph τ) : Nat := g.keys.length

/-- `visit` collecting the ids, daw_graph.h 491-503, and `find`, 525-532. -/
def findNodes (g : Graph τ) (p : Node τ → Bool) : List Nat → Cxx (List Nat)
  | [] => pure []
  | k :: ks => do
    let n ← node g k
    let r ← findNodes g p ks
    pure (if p n then k :: r else r)

/-- `find_roots`, daw_graph.h 534-538. -/
def findRoots (g : Graph τ) : Cxx (List Nat) := findNodes g (fun n => n.inc.isEmpty) g.keys

/-- `find_leaves`, daw_graph.h 540-544. -/
def findLeaves (g : Graph τ) : Cxx (List Nat) := findNodes g (fun n => n.out.isEmpty) g.keys

/-- `find_by_value`, daw_graph.h 465-475. -/
def findByValue (g : Graph τ) (eq : τ → Bool) : Cxx (List Nat) := findNodes g (fun n => eq n.value) g.keys

/-- A node proxy: which graph it points to and which id, daw_graph.h 167-168 and 248-249. -/
structure Proxy where
  /-- `m_graph`, as a number for the address -/
  graph : Nat
  /-- `m_node_id` -/
  id : Nat
  deriving DecidableEq

/-- `operator==` of the proxies, daw_graph.h 211-217 and 310-316. -/
def Proxy.eq (l r : Proxy) : Bool := l.id == r.id || l.graph == r.graph

/-- `operator!=` of the proxies, daw_graph.h 219-225 and 318-324. -/
def Proxy.ne (l r : Proxy) : Bool := l.id != r.id || l.graph != r.graph

/-! ### Histories -/

/-- Calls. (Members of `graph_t`, daw_graph.h 344-545.) -/
inductive Op (τ : Type) where
  | addNode (v : τ)
  | removeNode (id : Nat)
  | addDirected (s t : Nat)
  | addUndirected (a b : Nat)
  | removeDirected (s t : Nat)
  | removeEdges (a b : Nat)
  | size
  | hasNode (id : Nat)

/-- A call and the number it returns, if any; a truth value is 0 or 1.  daw_graph.h 356-463. -/
def step (g : Graph τ) : Op τ → Cxx (Graph τ × Option Nat)
  | .addNode v => do
    let (g, id) ← addNode g v
    pure (g, some id)
  | .removeNode id => do
    let g ← removeNode g id
    pure (g, none)
  | .addDirected s t => do
    let g ← addDirected g s t
    pure (g, none)
  | .addUndirected a b => do
    let g ← addUndirected g a b
    pure (g, none)
  | .removeDirected s t => do
    let g ← removeDirected g s t
    pure (g, none)
  | .removeEdges a b => do
    let g ← removeEdges g a b
    pure (g, none)
  | .size => pure (g, some (size g))
  | .hasNode id => do
    let b ← hasNode g id
    pure (g, some (if b then 1 else 0))

/-- A history of calls, daw_graph.h 356-463. -/
def run (g : Graph τ) : List (Op τ) → Cxx (Graph τ × List (Option Nat))
  | [] => pure (g, [])
  | o :: os => do
    let (g, r) ← step g o
    let (g, rs) ← run g os
    pure (g, r :: rs)

end Verif.Graph
