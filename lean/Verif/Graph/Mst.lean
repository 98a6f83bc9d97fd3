import Verif.Graph.Walk
import Mathlib.Combinatorics.SimpleGraph.Acyclic

/-
`mst`, include/daw/daw_graph_algorithm.h 196-227.  The comparison is not used by the code.
-/

namespace Verif.Graph
open Cxx

variable {τ : Type}

/-- The loop for one root, daw_graph_algorithm.h 206-225; the stack is written with its back first. -/
def mstLoop (g : Graph τ) (path : List (Option Nat × Nat)) (visited : List Nat) : Cxx (Graph τ) :=
  match path with
  | [] => pure g
  | (p, x) :: ps =>
    if visited.contains x then
      match p with
      | none => abort
      | some p => do
        let g ← removeDirected g p x
        mstLoop g ps visited
    else do
      let n ← node g x
      mstLoop g ((n.out.map (fun c => (some x, c))).reverse ++ ps) (x :: visited)
partial_fixpoint

/-- The loop over the roots, daw_graph_algorithm.h 200-226. -/
def mstRoots : List Nat → Graph τ → Cxx (Graph τ)
  | [], g => pure g
  | r :: rs, g => do
    let g ← mstLoop g [(none, r)] []
    mstRoots rs g

/-- `mst`, daw_graph_algorithm.h 196-227. -/
def mst (g : Graph τ) : Cxx (Graph τ) := do
  let roots ← findRoots g
  mstRoots roots g

/-- What the loop does, step by step. (Specification, no line of the source.) -/
inductive MTrace : Graph τ → List (Option Nat × Nat) → List Nat → Graph τ → Prop
  | nil (g : Graph τ) (vis : List Nat) : MTrace g [] vis g
  | again (g g' g'' : Graph τ) (p x : Nat) (ps : List (Option Nat × Nat)) (vis : List Nat) (hx : x ∈ vis)
    (e : removeDirected g p x = pure g') (h : MTrace g' ps vis g'') : MTrace g ((some p, x) :: ps) vis g''
  | first (g g' : Graph τ) (p : Option Nat) (x : Nat) (ps : List (Option Nat × Nat)) (vis : List Nat) (hx : x ∉ vis) (n : Node τ)
    (hn : g.nodes x = some n) (h : MTrace g ((n.out.map (fun c => (some x, c))).reverse ++ ps) (x :: vis) g') : MTrace g ((p, x) :: ps) vis g'

/-- The value of a node. (Specification, no line of the source.) -/
def valueOf (g : Graph τ) (x : Nat) : Option τ := (g.nodes x).map Node.value

theorem remove_ok {g : Graph τ} (hg : Consistent g) {s t : Nat} (hs : s ∈ g.keys) (ht : t ∈ g.keys) :
    ∃ g', removeDirected g s t = pure g' ∧ Consistent g' ∧ g'.keys = g.keys ∧ (∀ x, valueOf g' x = valueOf g x) ∧
      ∀ a b, Edge g' a b ↔ Edge g a b ∧ ¬ (a = s ∧ b = t) := by
  refine ⟨upd (upd g s (delOut t)) t (delInc s), ?_, ?_, rfl, ?_, ?_⟩
  · unfold removeDirected
    rw [hg.check hs]
    simp only [pure_bind]
    rw [hg.check ht]
    rfl
  · -- the nodes of the new graph
    have hnode : ∀ x, (upd (upd g s (delOut t)) t (delInc s)).nodes x =
        (g.nodes x).map (fun n => ⟨n.value, if x = t then n.inc.erase s else n.inc, if x = s then n.out.erase t else n.out⟩) := by
      intro x
      simp only [upd]
      cases g.nodes x with
      | none => by_cases h1 : x = t <;> by_cases h2 : x = s <;> simp [h1, h2]
      | some n => by_cases h1 : x = t <;> by_cases h2 : x = s <;> simp [h1, h2, delInc, delOut] <;> split <;> simp_all
    have hsome : ∀ x n, (upd (upd g s (delOut t)) t (delInc s)).nodes x = some n → ∃ m, g.nodes x = some m ∧
        n.inc = (if x = t then m.inc.erase s else m.inc) ∧ n.out = (if x = s then m.out.erase t else m.out) := by
      intro x n h
      rw [hnode, Option.map_eq_some_iff] at h
      obtain ⟨m, hm, rfl⟩ := h
      exact ⟨m, hm, rfl, rfl⟩
    refine ⟨hg.nodup, fun x => ?_, hg.ids, fun x n h => ?_, fun x y n m hx hy => ?_, fun x n hx y hy => ?_⟩
    · show x ∈ g.keys ↔ _
      rw [hg.here, hnode]
      constructor
      · rintro ⟨n, hn⟩
        rw [hn]
        exact ⟨_, rfl⟩
      · rintro ⟨n, hn⟩
        rw [Option.map_eq_some_iff] at hn
        obtain ⟨m, hm, _⟩ := hn
        exact ⟨m, hm⟩
    · obtain ⟨m, hm, h1, h2⟩ := hsome x n h
      obtain ⟨d1, d2⟩ := hg.lists x m hm
      rw [h1, h2]
      constructor
      · split
        · exact d1.erase t
        · exact d1
      · split
        · exact d2.erase s
        · exact d2
    · obtain ⟨n', hn', _, o1⟩ := hsome x n hx
      obtain ⟨m', hm', i1, _⟩ := hsome y m hy
      have hb := hg.both x y n' m' hn' hm'
      rw [o1, i1]
      have e1 := (hg.lists x n' hn').1
      have e2 := (hg.lists y m' hm').2
      split <;> split
      · rename_i h1 h2
        subst h1; subst h2
        rw [e1.mem_erase_iff, e2.mem_erase_iff]
        simp
      · rename_i h1 h2
        rw [e1.mem_erase_iff, hb]
        simp [h2]
      · rename_i h1 h2
        rw [e2.mem_erase_iff, hb]
        simp [h1]
      · exact hb
    · obtain ⟨m, hm, h1, h2⟩ := hsome x n hx
      rw [h1, h2] at hy
      refine hg.ends x m hm y ?_
      rcases hy with hy | hy
      · left
        split at hy
        · exact List.mem_of_mem_erase hy
        · exact hy
      · right
        split at hy
        · exact List.mem_of_mem_erase hy
        · exact hy
  · intro x
    simp only [valueOf, upd]
    cases g.nodes x with
    | none => by_cases h1 : x = t <;> by_cases h2 : x = s <;> simp [h1, h2]
    | some n => by_cases h1 : x = t <;> by_cases h2 : x = s <;> simp [h1, h2, delInc, delOut] <;> split <;> simp_all
  · intro a b
    have key : ∀ n, g.nodes a = some n → ∃ n', (upd (upd g s (delOut t)) t (delInc s)).nodes a = some n' ∧
        n'.out = if a = s then n.out.erase t else n.out := by
      intro n hn
      simp only [upd]
      rw [hn]
      by_cases h1 : a = t
      · by_cases h2 : a = s
        · exact ⟨delInc s (delOut t n), by rw [if_pos h1, if_pos h2]; rfl, by rw [if_pos h2]; rfl⟩
        · exact ⟨delInc s n, by rw [if_pos h1, if_neg h2]; rfl, by rw [if_neg h2]; rfl⟩
      · by_cases h2 : a = s
        · exact ⟨delOut t n, by rw [if_neg h1, if_pos h2]; rfl, by rw [if_pos h2]; rfl⟩
        · exact ⟨n, by rw [if_neg h1, if_neg h2], by rw [if_neg h2]⟩
    constructor
    · rintro ⟨n', hn', hb⟩
      have ha : a ∈ g.keys := by
        rw [hg.here]
        simp only [upd] at hn'
        cases h : g.nodes a with
        | some n => exact ⟨n, rfl⟩
        | none => rw [h] at hn'; exfalso; revert hn'; split <;> split <;> simp
      obtain ⟨n, hn⟩ := (hg.here a).1 ha
      obtain ⟨n'', hn'', ho⟩ := key n hn
      rw [hn'] at hn''
      injection hn'' with hn''
      subst hn''
      rw [ho] at hb
      split at hb
      · rename_i h
        rw [(hg.lists a n hn).1.mem_erase_iff] at hb
        exact ⟨⟨n, hn, hb.2⟩, fun hc => hb.1 hc.2⟩
      · rename_i h
        exact ⟨⟨n, hn, hb⟩, fun hc => h hc.1⟩
    · rintro ⟨⟨n, hn, hb⟩, hne⟩
      obtain ⟨n', hn', ho⟩ := key n hn
      refine ⟨n', hn', ?_⟩
      rw [ho]
      split
      · rename_i h
        rw [(hg.lists a n hn).1.mem_erase_iff]
        exact ⟨fun hc => hne ⟨h, hc⟩, hb⟩
      · exact hb

/-- The edges that stay. (Specification, no line of the source.) -/
def Kept (g : Graph τ) (path : List (Option Nat × Nat)) (vis : List Nat) (p c : Nat) : Prop := p ∈ vis ∧ Edge g p c ∧ (some p, c) ∉ path

/-- The state of the loop for the root `r`; `g0` is the graph at its beginning. (Specification, no line of the source.) -/
structure M (g0 : Graph τ) (r : Nat) (g : Graph τ) (path : List (Option Nat × Nat)) (vis : List Nat) : Prop where
  cons : Consistent g
  keys : g.keys = g0.keys
  values : ∀ x, valueOf g x = valueOf g0 x
  sub : ∀ a b, Edge g a b → Edge g0 a b
  other : ∀ a b, a ∉ vis → Edge g0 a b → Edge g a b
  nodup : path.Nodup
  start : (path = [(none, r)] ∧ vis = []) ∨ ((∀ p x, (p, x) ∈ path → ∃ q, p = some q ∧ q ∈ vis ∧ Edge g q x) ∧ r ∈ vis)
  reached : ∀ x ∈ vis, Relation.ReflTransGen (Edge g0) r x
  closed : ∀ v ∈ vis, ∀ c, Edge g0 v c → c ∈ vis ∨ (some v, c) ∈ path
  kept : ∀ p c, Kept g path vis p c → c ∈ vis
  one : ∀ c ∈ vis, c ≠ r → ∃ p, Kept g path vis p c ∧ ∀ q, Kept g path vis q c → q = p
  tree : ∀ c ∈ vis, Relation.ReflTransGen (Kept g path vis) r c

theorem M.again {g0 g : Graph τ} {r p x : Nat} {ps : List (Option Nat × Nat)} {vis : List Nat} (h : M g0 r g ((some p, x) :: ps) vis)
    (hx : x ∈ vis) : ∃ g', removeDirected g p x = pure g' ∧ M g0 r g' ps vis := by
  have hs : (∀ p' x', (p', x') ∈ (some p, x) :: ps → ∃ q, p' = some q ∧ q ∈ vis ∧ Edge g q x') ∧ r ∈ vis := by
    rcases h.start with ⟨h1, _⟩ | h1
    · simp at h1
    · exact h1
  obtain ⟨q, hq, hqv, hE⟩ := hs.1 (some p) x (by simp)
  injection hq with hq
  subst hq
  obtain ⟨k1, k2⟩ := h.cons.edge_keys hE
  obtain ⟨g', e, c1, c2, c3, c4⟩ := remove_ok h.cons k1 k2
  have hnd := h.nodup
  rw [List.nodup_cons] at hnd
  have hkept : ∀ a c, Kept g' ps vis a c ↔ Kept g ((some p, x) :: ps) vis a c := by
    intro a c
    unfold Kept
    rw [c4]
    simp only [List.mem_cons, Prod.mk.injEq, Option.some.injEq]
    tauto
  have hk : Kept g' ps vis = Kept g ((some p, x) :: ps) vis := by
    funext a c
    exact propext (hkept a c)
  refine ⟨g', e, c1, c2.trans h.keys, fun y => (c3 y).trans (h.values y), fun a b hab => h.sub a b ((c4 a b).1 hab).1, ?_, hnd.2, ?_, h.reached, ?_,
    ?_, ?_, ?_⟩
  · intro a b ha hab
    rw [c4]
    refine ⟨h.other a b ha hab, ?_⟩
    rintro ⟨rfl, _⟩
    exact ha hqv
  · right
    refine ⟨fun p' x' hm => ?_, hs.2⟩
    obtain ⟨q, hq, hqv', hE'⟩ := hs.1 p' x' (List.mem_cons_of_mem _ hm)
    refine ⟨q, hq, hqv', ?_⟩
    rw [c4]
    refine ⟨hE', ?_⟩
    rintro ⟨rfl, rfl⟩
    subst hq
    exact hnd.1 hm
  · intro v hv c hvc
    rcases h.closed v hv c hvc with hc | hc
    · exact Or.inl hc
    · rw [List.mem_cons] at hc
      rcases hc with hc | hc
      · injection hc with _ hc
        subst hc
        exact Or.inl hx
      · exact Or.inr hc
  · rw [hk]; exact h.kept
  · rw [hk]; exact h.one
  · rw [hk]; exact h.tree

theorem M.first {g0 g : Graph τ} {r x : Nat} {p : Option Nat} {ps : List (Option Nat × Nat)} {vis : List Nat} (h : M g0 r g ((p, x) :: ps) vis)
    (hr : ∀ q, ¬ Edge g0 q r) (hx : x ∉ vis) {n : Node τ} (hn : g.nodes x = some n) :
    M g0 r g ((n.out.map (fun c => (some x, c))).reverse ++ ps) (x :: vis) := by
  have hmem : ∀ a c, (a, c) ∈ (n.out.map (fun c => (some x, c))).reverse ++ ps ↔ (a = some x ∧ Edge g x c) ∨ (a, c) ∈ ps := by
    intro a c
    rw [List.mem_append, List.mem_reverse, List.mem_map, edge_iff hn]
    constructor
    · rintro (⟨d, hd, e⟩ | hm)
      · injection e with e1 e2
        subst e2
        exact Or.inl ⟨e1.symm, hd⟩
      · exact Or.inr hm
    · rintro (⟨rfl, hd⟩ | hm)
      · exact Or.inl ⟨c, hd, rfl⟩
      · exact Or.inr hm
  have hnd := h.nodup
  rw [List.nodup_cons] at hnd
  -- entries of the rest come from visited nodes
  have hps : ∀ a c, (a, c) ∈ ps → ∃ q, a = some q ∧ q ∈ vis ∧ Edge g q c := by
    intro a c hm
    rcases h.start with ⟨h1, _⟩ | h1
    · injection h1 with _ h1
      subst h1
      simp at hm
    · exact h1.1 a c (List.mem_cons_of_mem _ hm)
  have hxr : Relation.ReflTransGen (Edge g0) r x := by
    rcases h.start with ⟨h1, _⟩ | h1
    · injection h1 with h1 _
      injection h1 with _ h1
      subst h1
      exact Relation.ReflTransGen.refl
    · obtain ⟨q, _, hq, hE⟩ := h1.1 p x (by simp)
      exact (h.reached q hq).tail (h.sub q x hE)
  have hkept : ∀ a c, Kept g ((n.out.map (fun c => (some x, c))).reverse ++ ps) (x :: vis) a c ↔
      Kept g ((p, x) :: ps) vis a c ∨ (p = some a ∧ a ∈ vis ∧ c = x) := by
    intro a c
    unfold Kept
    rw [hmem, List.mem_cons, List.mem_cons]
    constructor
    · rintro ⟨ha, hE, hm⟩
      rw [not_or] at hm
      have hax : a ≠ x := by
        rintro rfl
        exact hm.1 ⟨rfl, hE⟩
      have hav : a ∈ vis := ha.resolve_left hax
      by_cases hpc : (some a, c) = (p, x)
      · injection hpc with h1 h2
        exact Or.inr ⟨h1.symm, hav, h2⟩
      · exact Or.inl ⟨hav, hE, not_or.2 ⟨hpc, hm.2⟩⟩
    · rintro (⟨hav, hE, hm⟩ | ⟨rfl, hav, rfl⟩)
      · rw [not_or] at hm
        refine ⟨Or.inr hav, hE, not_or.2 ⟨?_, hm.2⟩⟩
        rintro ⟨e, _⟩
        injection e with e
        subst e
        exact hx hav
      · rcases h.start with ⟨h1, _⟩ | h1
        · injection h1 with h1 _
          injection h1 with h1 _
          exact absurd h1 (by simp)
        · obtain ⟨q, hq, hqv, hE⟩ := h1.1 (some a) c (by simp)
          injection hq with hq
          subst hq
          refine ⟨Or.inr hav, hE, not_or.2 ⟨?_, hnd.1⟩⟩
          rintro ⟨e, _⟩
          injection e with e
          subst e
          exact hx hav
  refine ⟨h.cons, h.keys, h.values, h.sub, ?_, ?_, Or.inr ⟨?_, ?_⟩, ?_, ?_, ?_, ?_, ?_⟩
  · intro a b ha hab
    rw [List.mem_cons, not_or] at ha
    exact h.other a b ha.2 hab
  · rw [List.nodup_append]
    refine ⟨?_, hnd.2, ?_⟩
    · rw [List.nodup_reverse]
      refine List.Nodup.map (fun a b e => ?_) (h.cons.lists x n hn).1
      injection e
    · intro a ha b hb hab
      subst hab
      obtain ⟨a1, a2⟩ := a
      rw [List.mem_reverse, List.mem_map] at ha
      obtain ⟨d, _, e⟩ := ha
      injection e with e1 e2
      obtain ⟨q, hq, hqv, _⟩ := hps a1 a2 hb
      rw [← e1] at hq
      injection hq with hq
      subst hq
      exact hx hqv
  · intro a c hm
    rw [hmem] at hm
    rcases hm with ⟨rfl, hE⟩ | hm
    · exact ⟨x, rfl, by simp, hE⟩
    · obtain ⟨q, hq, hqv, hE⟩ := hps a c hm
      exact ⟨q, hq, List.mem_cons_of_mem _ hqv, hE⟩
  · rcases h.start with ⟨h1, _⟩ | h1
    · injection h1 with h1 _
      injection h1 with _ h1
      simp [h1]
    · exact List.mem_cons_of_mem _ h1.2
  · intro y hy
    rcases List.mem_cons.1 hy with rfl | hy
    · exact hxr
    · exact h.reached y hy
  · intro v hv c hvc
    rw [hmem, List.mem_cons]
    rcases List.mem_cons.1 hv with rfl | hv
    · exact Or.inr (Or.inl ⟨rfl, h.other v c hx hvc⟩)
    · rcases h.closed v hv c hvc with hc | hc
      · exact Or.inl (Or.inr hc)
      · rcases List.mem_cons.1 hc with hc | hc
        · injection hc with _ hc
          exact Or.inl (Or.inl hc)
        · exact Or.inr (Or.inr hc)
  · intro a c hk
    rcases (hkept a c).1 hk with hk | ⟨_, _, rfl⟩
    · exact List.mem_cons_of_mem _ (h.kept a c hk)
    · simp
  · intro c hc hcr
    by_cases hcx : c = x
    · subst hcx
      -- the new node hangs from the node that pushed it
      rcases h.start with ⟨h1, _⟩ | h1
      · injection h1 with h1 _
        injection h1 with _ h1
        exact absurd h1 hcr
      · obtain ⟨q, hq, hqv, hE⟩ := h1.1 p c (by simp)
        refine ⟨q, (hkept q c).2 (Or.inr ⟨hq, hqv, rfl⟩), fun q' hk => ?_⟩
        rcases (hkept q' c).1 hk with hk | ⟨hk, _, _⟩
        · exact absurd (h.kept q' c hk) hx
        · rw [hq] at hk
          injection hk with hk
          exact hk.symm
    · have hcv : c ∈ vis := (List.mem_cons.1 hc).resolve_left hcx
      obtain ⟨q, hq, hu⟩ := h.one c hcv hcr
      refine ⟨q, (hkept q c).2 (Or.inl hq), fun q' hk => ?_⟩
      rcases (hkept q' c).1 hk with hk | ⟨_, _, hk⟩
      · exact hu q' hk
      · exact absurd hk hcx
  · have hmono : ∀ c, Relation.ReflTransGen (Kept g ((p, x) :: ps) vis) r c →
        Relation.ReflTransGen (Kept g ((n.out.map (fun c => (some x, c))).reverse ++ ps) (x :: vis)) r c :=
      fun c hc => Relation.ReflTransGen.mono (fun a b hab => (hkept a b).2 (Or.inl hab)) _ _ hc
    intro c hc
    rcases List.mem_cons.1 hc with rfl | hc
    · rcases h.start with ⟨h1, _⟩ | h1
      · injection h1 with h1 _
        injection h1 with _ h1
        subst h1
        exact Relation.ReflTransGen.refl
      · obtain ⟨q, hq, hqv, hE⟩ := h1.1 p c (by simp)
        exact (hmono q (h.tree q hqv)).tail ((hkept q c).2 (Or.inr ⟨hq, hqv, rfl⟩))
    · exact hmono c (h.tree c hc)

/-- The loop ends. -/
theorem mstLoop_ok {g0 : Graph τ} {r : Nat} (hr : ∀ q, ¬ Edge g0 q r) (hrk : r ∈ g0.keys) (u : Nat) :
    ∀ (v : Nat) (g : Graph τ) (path : List (Option Nat × Nat)) (vis : List Nat), M g0 r g path vis →
    (g.keys.filter (fun k => !vis.contains k)).length = u → path.length = v →
    ∃ g' vis', mstLoop g path vis = pure g' ∧ MTrace g path vis g' ∧ M g0 r g' [] vis' := by
  induction u using Nat.strongRecOn with
  | _ u ihu =>
    intro v
    induction v using Nat.strongRecOn with
    | _ v ihv =>
      intro g path vis h hu hv
      cases path with
      | nil =>
        rw [mstLoop]
        exact ⟨g, vis, rfl, .nil g vis, h⟩
      | cons e ps =>
        obtain ⟨p, x⟩ := e
        rw [mstLoop.eq_def]
        simp only []
        by_cases hx : x ∈ vis
        · rw [if_pos (by simpa using hx)]
          have hp : ∃ q, p = some q := by
            rcases h.start with ⟨_, h1⟩ | h1
            · subst h1
              simp at hx
            · obtain ⟨q, hq, _⟩ := h1.1 p x (by simp)
              exact ⟨q, hq⟩
          obtain ⟨q, rfl⟩ := hp
          obtain ⟨g', e, h'⟩ := h.again hx
          simp only []
          rw [e]
          simp only [pure_bind]
          obtain ⟨g'', vis', e2, t2, h2⟩ := ihv ps.length (by simp at hv; omega) g' ps vis h' (by rw [h'.keys, ← h.keys]; exact hu) rfl
          exact ⟨g'', vis', e2, .again g g' g'' q x ps vis hx e t2, h2⟩
        · rw [if_neg (by simpa using hx)]
          have hxk : x ∈ g.keys := by
            rcases h.start with ⟨h1, _⟩ | h1
            · injection h1 with h1 _
              injection h1 with _ h1
              rw [h1, h.keys]
              exact hrk
            · obtain ⟨q, _, _, hE⟩ := h1.1 p x (by simp)
              exact (h.cons.edge_keys hE).2
          obtain ⟨n, hn, hnode⟩ := h.cons.node hxk
          rw [hnode]
          simp only [pure_bind]
          have h' := h.first hr hx hn
          obtain ⟨g'', vis', e2, t2, h2⟩ := ihu (g.keys.filter (fun k => !(x :: vis).contains k)).length (by
            rw [← hu]
            have hsub : g.keys.filter (fun k => !(x :: vis).contains k) =
                (g.keys.filter (fun k => !vis.contains k)).filter (fun k => !(k == x)) := by
              rw [List.filter_filter]
              congr 1
              funext k
              rw [List.contains_cons, Bool.not_or]
            rw [hsub]
            apply List.length_filter_lt_length_iff_exists.2
            refine ⟨x, ?_, by simp⟩
            rw [List.mem_filter]
            exact ⟨hxk, by simpa using hx⟩) _ g _ (x :: vis) h' rfl rfl
          exact ⟨g'', vis', e2, .first g g'' p x ps vis hx n hn t2, h2⟩

/-- From `r` the nodes of `S` are reached, and each of them other than `r` by one edge. (Specification, no line of the source.) -/
structure Tree (g : Graph τ) (r : Nat) (S : Nat → Prop) : Prop where
  one : ∀ c, S c → c ≠ r → ∃ p, (S p ∧ Edge g p c) ∧ ∀ q, S q → Edge g q c → q = p
  reach : ∀ c, S c → Relation.ReflTransGen (Edge g) r c

/-- What can be reached. (Specification, no line of the source.) -/
def Reach (g : Graph τ) (r : Nat) : Nat → Prop := Relation.ReflTransGen (Edge g) r

theorem mstLoop_tree {g0 : Graph τ} (hg : Consistent g0) {r : Nat} (hr : ∀ q, ¬ Edge g0 q r) (hrk : r ∈ g0.keys) :
    ∃ g', mstLoop g0 [(none, r)] [] = pure g' ∧ MTrace g0 [(none, r)] [] g' ∧ Consistent g' ∧ g'.keys = g0.keys ∧ (∀ x, valueOf g' x = valueOf g0 x) ∧
      (∀ a b, Edge g' a b → Edge g0 a b) ∧ (∀ a b, ¬ Reach g0 r a → Edge g0 a b → Edge g' a b) ∧ Tree g' r (Reach g0 r) := by
  have h0 : M g0 r g0 [(none, r)] [] := by
    refine ⟨hg, rfl, fun _ => rfl, fun _ _ h => h, fun _ _ _ h => h, by simp, Or.inl ⟨rfl, rfl⟩, by simp, by simp, ?_, by simp, by simp⟩
    rintro p c ⟨h, _⟩
    simp at h
  obtain ⟨g', vis, e, t, h⟩ := mstLoop_ok hr hrk _ _ g0 _ [] h0 rfl rfl
  have hrv : r ∈ vis := by
    rcases h.start with ⟨h1, _⟩ | h1
    · simp at h1
    · exact h1.2
  have hvis : ∀ x, x ∈ vis ↔ Reach g0 r x := by
    intro x
    refine ⟨h.reached x, fun hx => ?_⟩
    induction hx with
    | refl => exact hrv
    | tail _ hE ih => simpa using h.closed _ ih _ hE
  have hk : ∀ p c, Kept g' [] vis p c ↔ Reach g0 r p ∧ Edge g' p c := by
    intro p c
    unfold Kept
    rw [hvis]
    simp
  refine ⟨g', e, t, h.cons, h.keys, h.values, h.sub, fun a b ha hab => h.other a b (fun hc => ha ((hvis a).1 hc)) hab, ?_, ?_⟩
  · intro c hc hcr
    obtain ⟨p, hp, hu⟩ := h.one c ((hvis c).2 hc) hcr
    exact ⟨p, (hk p c).1 hp, fun q hq hE => hu q ((hk q c).2 ⟨hq, hE⟩)⟩
  · intro c hc
    exact Relation.ReflTransGen.mono (fun a b hab => hab.2.1) _ _ (h.tree c ((hvis c).2 hc))

/-- On every graph `mst` ends; the result has the same nodes with the same values, its edges are edges of the graph and are listed
at both ends. -/
theorem C56_subgraph (g : Graph τ) (hg : Consistent g) :
    ∃ g', mst g = pure g' ∧ Consistent g' ∧ g'.keys = g.keys ∧ (∀ x, valueOf g' x = valueOf g x) ∧ ∀ a b, Edge g' a b → Edge g a b := by
  obtain ⟨roots, e, _, h2⟩ := findRoots_ok hg
  unfold mst
  rw [e]
  simp only [pure_bind]
  clear e
  have hroots : ∀ r ∈ roots, r ∈ g.keys ∧ ∀ p, ¬ Edge g p r := fun r hr => (h2 r).1 hr
  clear h2
  have key : ∀ (rs : List Nat) (g1 : Graph τ), Consistent g1 → (∀ r ∈ rs, r ∈ g1.keys ∧ ∀ p, ¬ Edge g1 p r) →
      ∃ g', mstRoots rs g1 = pure g' ∧ Consistent g' ∧ g'.keys = g1.keys ∧ (∀ x, valueOf g' x = valueOf g1 x) ∧
        ∀ a b, Edge g' a b → Edge g1 a b := by
    intro rs
    induction rs with
    | nil => intro g1 h1 _; exact ⟨g1, rfl, h1, rfl, fun _ => rfl, fun _ _ h => h⟩
    | cons r rs ih =>
      intro g1 h1 h2
      obtain ⟨g2, e, _, a1, a2, a3, a4, _, _⟩ := mstLoop_tree h1 (h2 r (by simp)).2 (h2 r (by simp)).1
      obtain ⟨g3, e3, b1, b2, b3, b4⟩ := ih g2 a1 (fun r' hr' => by
        have := h2 r' (List.mem_cons_of_mem _ hr')
        exact ⟨a2 ▸ this.1, fun p hp => this.2 p (a4 p r' hp)⟩)
      refine ⟨g3, ?_, b1, b2.trans a2, fun x => (b3 x).trans (a3 x), fun a b h => a4 a b (b4 a b h)⟩
      rw [mstRoots, e]
      exact e3
  exact key roots g hg hroots

example := C56_subgraph _ (run_consistent (τ := Nat) [.addNode 7, .addNode 8, .addNode 9, .addDirected 0 1, .addDirected 0 2, .addDirected 1 2] _ _ rfl)

theorem mstRoots_forest {g0 : Graph τ} (rs : List Nat) : ∀ (done : List Nat) (g : Graph τ),
    (∀ r, r ∈ done ∨ r ∈ rs → r ∈ g0.keys ∧ ∀ p, ¬ Edge g0 p r) → (done ++ rs).Nodup →
    (∀ r r', (r ∈ done ∨ r ∈ rs) → (r' ∈ done ∨ r' ∈ rs) → r ≠ r' → ∀ x, Reach g0 r x → ¬ Reach g0 r' x) →
    Consistent g → g.keys = g0.keys → (∀ a b, Edge g a b → Edge g0 a b) →
    (∀ a b, (∀ r ∈ done, ¬ Reach g0 r a) → Edge g0 a b → Edge g a b) → (∀ r ∈ done, Tree g r (Reach g0 r)) →
    ∃ g', mstRoots rs g = pure g' ∧ (∀ a b, Edge g' a b → Edge g0 a b) ∧ ∀ r, r ∈ done ∨ r ∈ rs → Tree g' r (Reach g0 r) := by
  induction rs with
  | nil =>
    intro done g _ _ _ _ _ hsub _ ht
    exact ⟨g, rfl, hsub, fun r hr => ht r (by simpa using hr)⟩
  | cons r rs ih =>
    intro done g hroots hnd hdis hg hk hsub hother ht
    have hr := hroots r (Or.inr (by simp))
    have hne : ∀ r' ∈ done, r ≠ r' := by
      rintro r' hr' rfl
      rw [List.nodup_append] at hnd
      exact hnd.2.2 r hr' r (by simp) rfl
    -- what the root reaches has not been touched
    have hsame : ∀ x, Reach g r x ↔ Reach g0 r x := by
      intro x
      constructor
      · exact fun h => Relation.ReflTransGen.mono hsub _ _ h
      · intro h
        unfold Reach at h
        induction h with
        | refl => exact Relation.ReflTransGen.refl
        | tail hxy hE ih =>
          refine Relation.ReflTransGen.tail ih (hother _ _ ?_ hE)
          intro r' hr'
          exact hdis r r' (Or.inr (by simp)) (Or.inl hr') (hne r' hr') _ hxy
    obtain ⟨g2, e, _, a1, a2, _, a4, a5, a6⟩ := mstLoop_tree hg (r := r) (fun q hq => hr.2 q (hsub q r hq)) (hk ▸ hr.1)
    have hR : Reach g r = Reach g0 r := by
      funext x
      exact propext (hsame x)
    rw [hR] at a5 a6
    have hmem : ∀ y, (y ∈ done ++ [r] ∨ y ∈ rs) ↔ (y ∈ done ∨ y ∈ r :: rs) := by
      intro y
      simp only [List.mem_append, List.mem_cons, List.not_mem_nil, or_false]
      tauto
    obtain ⟨g3, e3, b1, b2⟩ := ih (done ++ [r]) g2 (fun r' hr' => hroots r' ((hmem r').1 hr')) (by simpa using hnd)
      (fun r1 r2 h1 h2 => hdis r1 r2 ((hmem r1).1 h1) ((hmem r2).1 h2)) a1 (a2.trans hk) (fun a b h => hsub a b (a4 a b h)) (by
        intro a b ha hab
        refine a5 a b (ha r (by simp)) (hother a b (fun r' hr' => ha r' (by simp [hr'])) hab)) (by
        intro r' hr'
        rw [List.mem_append, List.mem_singleton] at hr'
        rcases hr' with hr' | rfl
        · have hd : ∀ a, Reach g0 r' a → ¬ Reach g0 r a := fun a ha =>
            hdis r' r (Or.inl hr') (Or.inr (by simp)) (fun h => hne r' hr' h.symm) a ha
          have hE : ∀ a b, Reach g0 r' a → (Edge g2 a b ↔ Edge g a b) := fun a b ha => ⟨a4 a b, a5 a b (hd a ha)⟩
          obtain ⟨t1, t2⟩ := ht r' hr'
          refine ⟨fun c hc hcr => ?_, fun c hc => ?_⟩
          · obtain ⟨p, ⟨hp1, hp2⟩, hp3⟩ := t1 c hc hcr
            exact ⟨p, ⟨hp1, (hE p c hp1).2 hp2⟩, fun q hq hqc => hp3 q hq ((hE q c hq).1 hqc)⟩
          · have := t2 c hc
            clear hc hr'
            induction this with
            | refl => exact Relation.ReflTransGen.refl
            | tail hxy hxE ih =>
              exact Relation.ReflTransGen.tail ih ((hE _ _ (Relation.ReflTransGen.mono hsub _ _ hxy)).2 hxE)
        · exact a6)
    refine ⟨g3, ?_, b1, fun r' hr' => b2 r' ((hmem r').2 hr')⟩
    rw [mstRoots, e]
    exact e3

/-- The edges of a graph without their direction, among the nodes of `S`. (Specification, no line of the source.) -/
def undirected (g : Graph τ) (S : Nat → Prop) : SimpleGraph Nat where
  Adj x y := x ≠ y ∧ S x ∧ S y ∧ (Edge g x y ∨ Edge g y x)
  symm := ⟨fun _ _ h => ⟨h.1.symm, h.2.2.1, h.2.1, h.2.2.2.symm⟩⟩
  loopless := ⟨fun _ h => h.1 rfl⟩

theorem steps_of_reach {g : Graph τ} {r x : Nat} (h : Relation.ReflTransGen (Edge g) r x) : ∃ n, Steps g r n x := by
  induction h with
  | refl => exact ⟨0, .refl⟩
  | tail _ hE ih =>
    obtain ⟨n, hn⟩ := ih
    exact ⟨n + 1, .tail n _ _ hn hE⟩

/-- A tree has no cycle, whichever way its edges are followed. -/
theorem Tree.acyclic {g : Graph τ} {r : Nat} {S : Nat → Prop} (ht : Tree g r S) (hr : S r) (hroot : ∀ p, ¬ Edge g p r)
    (hcl : ∀ a b, S a → Edge g a b → S b) : (undirected g S).IsAcyclic := by
  have hS : ∀ n x, Steps g r n x → S x := by
    intro n x h
    induction h with
    | refl => exact hr
    | tail n x y _ hE ih => exact hcl x y ih hE
  have huniq : ∀ n x, Steps g r n x → ∀ m, Steps g r m x → n = m := by
    intro n x h
    induction h with
    | refl =>
      intro m hm
      cases hm with
      | refl => rfl
      | tail m y _ _ hE => exact absurd hE (hroot y)
    | tail n x y hx hE ih =>
      intro m hm
      cases hm with
      | refl => exact absurd hE (hroot x)
      | tail m z _ hz hE' =>
        have hyr : y ≠ r := by rintro rfl; exact hroot x hE
        obtain ⟨p, _, hp⟩ := ht.one y (hcl x y (hS n x hx) hE) hyr
        have h1 := hp x (hS n x hx) hE
        have h2 := hp z (hS m z hz) hE'
        rw [h2, ← h1] at hz
        rw [ih m hz]
  classical
  let depth : Nat → Nat := fun x => if h : ∃ n, Steps g r n x then h.choose else 0
  have hdepth : ∀ n x, Steps g r n x → depth x = n := by
    intro n x h
    have hex : ∃ n, Steps g r n x := ⟨n, h⟩
    show (if h : ∃ n, Steps g r n x then h.choose else 0) = n
    rw [dif_pos hex]
    exact huniq _ x hex.choose_spec n h
  have hedge : ∀ a b, S a → Edge g a b → depth b = depth a + 1 := by
    intro a b ha hE
    obtain ⟨n, hn⟩ := steps_of_reach (ht.reach a ha)
    rw [hdepth n a hn, hdepth (n + 1) b (.tail n a b hn hE)]
  intro v w hw
  obtain ⟨u, hu, hmax⟩ := Finset.exists_max_image w.support.toFinset depth ⟨v, by simp⟩
  have hu : u ∈ w.support := by simpa using hu
  have hw' := hw.rotate hu
  have hnil := hw'.not_nil
  have a1 := SimpleGraph.Walk.adj_snd hnil
  have a2 := (SimpleGraph.Walk.adj_penultimate hnil).symm
  have hparent : ∀ y, (undirected g S).Adj u y → y ∈ (w.rotate u hu).support → S y ∧ Edge g y u := by
    intro y hy hys
    obtain ⟨_, h1, h2, h3⟩ := hy
    refine ⟨h2, h3.resolve_left (fun hE => ?_)⟩
    have hle := hmax y (by simpa using (SimpleGraph.Walk.mem_support_rotate_iff w u hu).1 hys)
    have := hedge u y h1 hE
    omega
  have p1 := hparent _ a1 (SimpleGraph.Walk.getVert_mem_support _ _)
  have p2 := hparent _ a2 (SimpleGraph.Walk.getVert_mem_support _ _)
  have hur : u ≠ r := by
    rintro rfl
    exact hroot _ p1.2
  obtain ⟨p, _, hp⟩ := ht.one u a1.2.1 hur
  exact hw'.snd_ne_penultimate ((hp _ p1.1 p1.2).trans (hp _ p2.1 p2.2).symm)

/-- Where no node is reached from two roots, in particular where there is one root, `mst` leaves a tree below each root: the nodes
reached are those reached before, each other than the root by exactly one edge, and there is no cycle among them even when the
direction of the edges is disregarded.  Missing are the graphs with nodes reached from several roots. -/
theorem C56_forest_partial (g : Graph τ) (hg : Consistent g)
    (hdis : ∀ r r', (r ∈ g.keys ∧ ∀ p, ¬ Edge g p r) → (r' ∈ g.keys ∧ ∀ p, ¬ Edge g p r') → r ≠ r' → ∀ x, Reach g r x → ¬ Reach g r' x) :
    ∃ g', mst g = pure g' ∧ ∀ r, r ∈ g.keys → (∀ p, ¬ Edge g p r) →
      (∀ x, Reach g' r x ↔ Reach g r x) ∧ (∀ c, Reach g r c → c ≠ r → ∃ p, (Reach g r p ∧ Edge g' p c) ∧ ∀ q, Reach g r q → Edge g' q c → q = p) ∧
      (undirected g' (Reach g r)).IsAcyclic := by
  obtain ⟨roots, e, h1, h2⟩ := findRoots_ok hg
  obtain ⟨g', e', hsub, ht⟩ := mstRoots_forest (g0 := g) roots [] g (fun r hr => (h2 r).1 (by simpa using hr)) (by simpa using h1)
    (fun r r' hr hr' => hdis r r' ((h2 r).1 (by simpa using hr)) ((h2 r').1 (by simpa using hr'))) hg rfl (fun _ _ h => h)
    (fun _ _ _ h => h) (by simp)
  refine ⟨g', ?_, fun r hr hroot => ?_⟩
  · unfold mst
    rw [e]
    exact e'
  · have t := ht r (Or.inr ((h2 r).2 ⟨hr, hroot⟩))
    refine ⟨fun x => ⟨fun h => Relation.ReflTransGen.mono hsub _ _ h, t.reach x⟩, t.one, ?_⟩
    exact t.acyclic Relation.ReflTransGen.refl (fun p hp => hroot p (hsub p r hp)) (fun a b ha hab => Relation.ReflTransGen.tail ha (hsub a b hab))

/-- A root with a diamond and a cycle below it, and another root. -/
example : ∃ g : Graph Nat, Consistent g ∧ (∀ r r', (r ∈ g.keys ∧ ∀ p, ¬ Edge g p r) → (r' ∈ g.keys ∧ ∀ p, ¬ Edge g p r') → r ≠ r' →
    ∀ x, Reach g r x → ¬ Reach g r' x) ∧ Edge g 0 1 ∧ Edge g 0 2 ∧ Edge g 1 2 ∧ Edge g 2 1 ∧ 3 ∈ g.keys := by
  obtain ⟨g, rs, h, h1, h2, h3, h4, hk, hkeys, i1, i2, o3⟩ : ∃ g rs, run (empty : Graph Nat) [.addNode 7, .addNode 8, .addNode 9, .addNode 7,
    .addDirected 0 1, .addDirected 0 2, .addUndirected 1 2] = pure (g, rs) ∧ Edge g 0 1 ∧ Edge g 0 2 ∧ Edge g 1 2 ∧ Edge g 2 1 ∧
    3 ∈ g.keys ∧ g.keys = [3, 2, 1, 0] ∧ (∃ n, g.nodes 1 = some n ∧ 0 ∈ n.inc) ∧ (∃ n, g.nodes 2 = some n ∧ 0 ∈ n.inc) ∧
    ∃ n, g.nodes 3 = some n ∧ n.inc = [] ∧ n.out = [] := by
    refine ⟨_, _, rfl, ⟨_, rfl, by decide⟩, ⟨_, rfl, by decide⟩, ⟨_, rfl, by decide⟩, ⟨_, rfl, by decide⟩, by decide, rfl, ⟨_, rfl, by decide⟩,
      ⟨_, rfl, by decide⟩, ⟨_, rfl, rfl, rfl⟩⟩
  have hc := run_consistent _ g rs h
  obtain ⟨n3, hn3, hi3, ho3⟩ := o3
  have h3i : ∀ p, ¬ Edge g p 3 := fun p hp => by
    have := (hc.inc hn3 p).2 hp
    rw [hi3] at this
    simp at this
  have h3o : ∀ x, Reach g 3 x → x = 3 := by
    intro x hx
    unfold Reach at hx
    induction hx with
    | refl => rfl
    | tail _ hE ih =>
      subst ih
      rw [edge_iff hn3, ho3] at hE
      simp at hE
  have hno : ∀ r x, r ≠ 3 → Reach g r x → x ≠ 3 := by
    rintro r x hr hx rfl
    rcases Relation.ReflTransGen.cases_tail hx with rfl | ⟨p, _, hp⟩
    · exact hr rfl
    · exact h3i p hp
  have hroot : ∀ r, r ∈ g.keys → (∀ p, ¬ Edge g p r) → r = 0 ∨ r = 3 := by
    intro r hr hp
    rw [hkeys] at hr
    simp only [List.mem_cons, List.not_mem_nil, or_false] at hr
    rcases hr with rfl | rfl | rfl | rfl
    · exact Or.inr rfl
    · exact absurd h2 (hp 0)
    · exact absurd h1 (hp 0)
    · exact Or.inl rfl
  refine ⟨g, hc, ?_, h1, h2, h3, h4, hk⟩
  rintro r r' ⟨a1, a2⟩ ⟨b1, b2⟩ hne x hx hx'
  rcases hroot r a1 a2 with rfl | rfl
  · rcases hroot r' b1 b2 with rfl | rfl
    · exact hne rfl
    · exact hno 0 x (by decide) hx (h3o x hx')
  · rcases hroot r' b1 b2 with rfl | rfl
    · exact hno 0 x (by decide) hx' (h3o x hx)
    · exact hne rfl

/-- With two roots `mst` can cut what one of them reaches: the edge removed for the sake of the second root was the only way for the
first. -/
theorem C56_reach_violated :
    ∃ g g' : Graph Unit, Consistent g ∧ mst g = pure g' ∧ 0 ∈ g.keys ∧ (∀ p, ¬ Edge g p 0) ∧ Reach g 0 3 ∧ ¬ Reach g' 0 3 := by
  obtain ⟨g, rs, h, hroots, hk0, hk1, ⟨n0, a0, b0, c0⟩, ⟨n1, a1, b1, c1⟩, ⟨n2, a2, b2⟩, ⟨n3, a3, b3⟩⟩ : ∃ g rs,
    run (empty : Graph Unit) [.addNode (), .addNode (), .addNode (), .addNode (), .addDirected 0 2, .addDirected 2 3, .addDirected 1 3,
    .addDirected 1 2] = pure (g, rs) ∧ findRoots g = pure [1, 0] ∧ 0 ∈ g.keys ∧ 1 ∈ g.keys ∧
    (∃ n, g.nodes 0 = some n ∧ n.out = [2] ∧ n.inc = []) ∧ (∃ n, g.nodes 1 = some n ∧ n.out = [2, 3] ∧ n.inc = []) ∧
    (∃ n, g.nodes 2 = some n ∧ n.out = [3]) ∧ ∃ n, g.nodes 3 = some n ∧ n.out = [] :=
    ⟨_, _, rfl, rfl, by decide, by decide, ⟨_, rfl, rfl, rfl⟩, ⟨_, rfl, rfl, rfl⟩, ⟨_, rfl, rfl⟩, ⟨_, rfl, rfl⟩⟩
  have hc := run_consistent _ g rs h
  have r0 : ∀ p, ¬ Edge g p 0 := fun p hp => by
    have := (hc.inc a0 p).2 hp
    rw [c0] at this
    simp at this
  have r1 : ∀ p, ¬ Edge g p 1 := fun p hp => by
    have := (hc.inc a1 p).2 hp
    rw [c1] at this
    simp at this
  have e02 : Edge g 0 2 := ⟨n0, a0, by simp [b0]⟩
  have e23 : Edge g 2 3 := ⟨n2, a2, by simp [b2]⟩
  obtain ⟨g1, e, t, d1, d2, _, d3, _, _⟩ := mstLoop_tree hc r1 hk1
  obtain ⟨g2, e2, _, _, _, _, f3, _, _⟩ := mstLoop_tree d1 (r := 0) (fun p hp => r0 p (d3 p 0 hp)) (d2 ▸ hk0)
  refine ⟨g, g2, hc, ?_, hk0, r0, (Relation.ReflTransGen.single e02).tail e23, ?_⟩
  · unfold mst
    rw [hroots]
    simp only [pure_bind]
    rw [mstRoots, e]
    simp only [pure_bind]
    rw [mstRoots, e2]
    rfl
  · -- the edge from 2 to 3 is gone
    have hg1 : removeDirected g 2 3 = pure g1 := by
      cases t with
      | first _ _ _ _ _ _ _ n hn t =>
        rw [a1] at hn
        injection hn with hn
        subst hn
        rw [b1] at t
        cases t with
        | again _ _ _ _ _ _ _ hx _ _ => simp at hx
        | first _ _ _ _ _ _ _ n hn t =>
          rw [a3] at hn
          injection hn with hn
          subst hn
          rw [b3] at t
          cases t with
          | again _ _ _ _ _ _ _ hx _ _ => simp at hx
          | first _ _ _ _ _ _ _ n hn t =>
            rw [a2] at hn
            injection hn with hn
            subst hn
            rw [b2] at t
            cases t with
            | first _ _ _ _ _ _ hx _ _ _ => simp at hx
            | again _ g' _ _ _ _ _ _ e t =>
              cases t
              exact e
    obtain ⟨g', e', _, _, _, hE⟩ := remove_ok hc (hc.edge_keys e23).1 (hc.edge_keys e23).2
    rw [e'] at hg1
    have hg1 := pure_inj.1 hg1
    subst hg1
    intro hr
    have hS : ∀ x, Reach g2 0 x → x = 0 ∨ x = 2 := by
      intro x hx
      unfold Reach at hx
      induction hx with
      | refl => exact Or.inl rfl
      | tail _ hxy ih =>
        have h1 := (hE _ _).1 (f3 _ _ hxy)
        rcases ih with rfl | rfl
        · have := h1.1
          rw [edge_iff a0, b0] at this
          exact Or.inr (by simpa using this)
        · have := h1.1
          rw [edge_iff a2, b2] at this
          exact absurd ⟨rfl, by simpa using this⟩ h1.2
    rcases hS 3 hr with h | h <;> omega

end Verif.Graph
