import Verif.Graph.Topological
import Mathlib.Algebra.BigOperators.Group.List.Basic
import Mathlib.Tactic.Ring
import Mathlib.Tactic.Linarith

/-
`bfs_walk` and `dfs_walk`, include/daw/daw_graph_algorithm.h 117-193 and 531-557.  The visitor is a function that does not change the
graph; the result of the model is the list of the nodes it is called with.  Sorting the children by a comparison is any function
`ord` that permutes; without a comparison it is the identity.
-/

namespace Verif.Graph
open Cxx

variable {τ : Type}

/-- The loop of `bfs_walk` and `dfs_walk`, daw_graph_algorithm.h 124-152 and 163-191; `put` adds the children that have not been
visited to `path`, whose next element comes first. -/
def search (g : Graph τ) (put : List Nat → List Nat → List Nat) (path visited : List Nat) : Cxx (List Nat) :=
  match path with
  | [] => pure []
  | x :: ps => do
    let n ← node g x
    let visited := x :: visited
    let r ← search g put (put (n.out.filter (fun c => !visited.contains c)) ps) visited
    pure (x :: r)
partial_fixpoint

/-- `bfs_walk`, daw_graph_algorithm.h 117-154: a queue. -/
def bfs (g : Graph τ) (ord : List Nat → List Nat) (s : Nat) : Cxx (List Nat) := search g (fun cs ps => ps ++ ord cs) [s] []

/-- `dfs_walk`, daw_graph_algorithm.h 156-193: a stack, written with its back first. -/
def dfs (g : Graph τ) (ord : List Nat → List Nat) (s : Nat) : Cxx (List Nat) := search g (fun cs ps => (ord cs).reverse ++ ps) [s] []

/-- What the loop does, step by step. (Specification, no line of the source.) -/
inductive Trace (g : Graph τ) (put : List Nat → List Nat → List Nat) : List Nat → List Nat → List Nat → Prop
  | nil (vis : List Nat) : Trace g put [] vis []
  | pop (x : Nat) (ps vis l : List Nat) (n : Node τ) (hn : g.nodes x = some n)
    (h : Trace g put (put (n.out.filter (fun c => !(x :: vis).contains c)) ps) (x :: vis) l) : Trace g put (x :: ps) vis (x :: l)

/-- The loop ends. -/
theorem search_trace {g : Graph τ} (hg : Consistent g) {put : List Nat → List Nat → List Nat} (hp : ∀ cs ps, (put cs ps).Perm (cs ++ ps))
    (u : Nat) : ∀ (v : Nat) (path vis : List Nat), (∀ x ∈ path, x ∈ g.keys) → (g.keys.filter (fun k => !vis.contains k)).length = u →
    (path.filter (fun k => vis.contains k)).length = v → ∃ l, search g put path vis = pure l ∧ Trace g put path vis l := by
  induction u using Nat.strongRecOn with
  | _ u ihu =>
    intro v
    induction v using Nat.strongRecOn with
    | _ v ihv =>
      intro path vis hk hu hv
      cases path with
      | nil =>
        rw [search]
        exact ⟨[], rfl, .nil vis⟩
      | cons x ps =>
        obtain ⟨n, hn, hnode⟩ := hg.node (hk x (by simp))
        rw [search, hnode]
        simp only [pure_bind]
        obtain ⟨cs, hcs⟩ : ∃ cs, n.out.filter (fun c => !(x :: vis).contains c) = cs := ⟨_, rfl⟩
        rw [hcs]
        have hk' : ∀ y ∈ put cs ps, y ∈ g.keys := by
          intro y hy
          rw [(hp cs ps).mem_iff, List.mem_append] at hy
          rcases hy with hy | hy
          · rw [← hcs, List.mem_filter] at hy
            exact hg.ends x n hn y (Or.inl hy.1)
          · exact hk y (List.mem_cons_of_mem _ hy)
        have key : ∃ l, search g put (put cs ps) (x :: vis) = pure l ∧ Trace g put (put cs ps) (x :: vis) l := by
          by_cases hx : x ∈ vis
          · -- one visited entry less
            have hsame : ∀ k, (x :: vis).contains k = vis.contains k := by
              intro k
              rw [List.contains_cons]
              by_cases hkx : k = x
              · subst hkx; simp [hx]
              · simp [hkx]
            refine ihv ((put cs ps).filter (fun k => (x :: vis).contains k)).length ?_ _ _ hk' ?_ rfl
            · rw [((hp cs ps).filter _).length_eq, List.filter_append, ← hcs, List.filter_filter]
              have : (n.out.filter (fun a => (x :: vis).contains a && !(x :: vis).contains a)) = [] := by
                rw [List.filter_eq_nil_iff]
                intro a _
                cases (x :: vis).contains a <;> simp
              rw [this, List.nil_append, ← hv]
              simp only [hsame]
              rw [List.filter_cons, if_pos (by simpa using hx)]
              simp
            · simp only [hsame]
              exact hu
          · -- one node more is visited
            refine ihu (g.keys.filter (fun k => !(x :: vis).contains k)).length ?_ _ _ _ hk' rfl rfl
            rw [← hu]
            have hsub : g.keys.filter (fun k => !(x :: vis).contains k) =
                (g.keys.filter (fun k => !vis.contains k)).filter (fun k => !(k == x)) := by
              rw [List.filter_filter]
              congr 1
              funext k
              rw [List.contains_cons, Bool.not_or]
            rw [hsub]
            apply List.length_filter_lt_length_iff_exists.2
            refine ⟨x, ?_, by simp⟩
            rw [List.mem_filter]
            exact ⟨hk x (by simp), by simpa using hx⟩
        obtain ⟨l, e, ht⟩ := key
        rw [e]
        refine ⟨x :: l, rfl, .pop x ps vis l n hn ?_⟩
        rw [hcs]
        exact ht

theorem edge_iff {g : Graph τ} {x : Nat} {n : Node τ} (hn : g.nodes x = some n) (y : Nat) : Edge g x y ↔ y ∈ n.out := by
  constructor
  · rintro ⟨m, hm, hy⟩
    rw [hn] at hm
    injection hm with hm
    subst hm
    exact hy
  · intro hy
    exact ⟨n, hn, hy⟩

theorem mem_next {put : List Nat → List Nat → List Nat} (hp : ∀ cs ps, (put cs ps).Perm (cs ++ ps)) {g : Graph τ} {x : Nat}
    {n : Node τ} (hn : g.nodes x = some n) (ps vis : List Nat) (y : Nat) :
    y ∈ put (n.out.filter (fun c => !(x :: vis).contains c)) ps ↔ (Edge g x y ∧ y ≠ x ∧ y ∉ vis) ∨ y ∈ ps := by
  rw [(hp _ _).mem_iff, List.mem_append, List.mem_filter, edge_iff hn]
  simp

/-- The nodes visited are those that can be reached. -/
theorem trace_reach {g : Graph τ} {put : List Nat → List Nat → List Nat} (hp : ∀ cs ps, (put cs ps).Perm (cs ++ ps))
    {path vis l : List Nat} (h : Trace g put path vis l) (hc : ∀ v ∈ vis, ∀ c, Edge g v c → c ∈ vis ∨ c ∈ path) :
    (∀ x ∈ l, ∃ s ∈ path, Relation.ReflTransGen (Edge g) s x) ∧ (∀ x ∈ path, x ∈ l) ∧
      ∀ v, v ∈ vis ∨ v ∈ l → ∀ c, Edge g v c → c ∈ vis ∨ c ∈ l := by
  induction h with
  | nil vis =>
    refine ⟨by simp, by simp, ?_⟩
    intro v hv c hvc
    rcases hv with hv | hv
    · have := hc v hv c hvc
      simpa using this
    · simp at hv
  | pop x ps vis l n hn h ih =>
    have hm := mem_next hp hn ps vis
    obtain ⟨i1, i2, i3⟩ := ih (by
      intro v hv c hvc
      rw [hm, List.mem_cons]
      by_cases hcx : c = x
      · exact Or.inl (Or.inl hcx)
      by_cases hcv : c ∈ vis
      · exact Or.inl (Or.inr hcv)
      right
      rcases List.mem_cons.1 hv with rfl | hv
      · exact Or.inl ⟨hvc, hcx, hcv⟩
      · rcases hc v hv c hvc with h | h
        · exact absurd h hcv
        · rcases List.mem_cons.1 h with h | h
          · exact absurd h hcx
          · exact Or.inr h)
    refine ⟨?_, ?_, ?_⟩
    · intro y hy
      rcases List.mem_cons.1 hy with rfl | hy
      · exact ⟨y, by simp, Relation.ReflTransGen.refl⟩
      · obtain ⟨s, hs, hr⟩ := i1 y hy
        rw [hm] at hs
        rcases hs with ⟨hs, _, _⟩ | hs
        · exact ⟨x, by simp, Relation.ReflTransGen.head hs hr⟩
        · exact ⟨s, by simp [hs], hr⟩
    · intro y hy
      rcases List.mem_cons.1 hy with rfl | hy
      · simp
      · exact List.mem_cons_of_mem _ (i2 y ((hm y).2 (Or.inr hy)))
    · intro v hv c hvc
      have := i3 v (by
        rcases hv with hv | hv
        · exact Or.inl (List.mem_cons_of_mem _ hv)
        · rcases List.mem_cons.1 hv with rfl | hv
          · exact Or.inl (by simp)
          · exact Or.inr hv) c hvc
      simp only [List.mem_cons] at this ⊢
      tauto

theorem bfs_trace {g : Graph τ} (hg : Consistent g) {ord : List Nat → List Nat} (ho : ∀ l, (ord l).Perm l) {s : Nat} (hs : s ∈ g.keys) :
    ∃ l, bfs g ord s = pure l ∧ Trace g (fun cs ps => ps ++ ord cs) [s] [] l :=
  search_trace hg (fun cs ps => List.perm_append_comm.trans ((ho cs).append_right ps)) _ _ [s] [] (by simpa using hs) rfl rfl

theorem dfs_trace {g : Graph τ} (hg : Consistent g) {ord : List Nat → List Nat} (ho : ∀ l, (ord l).Perm l) {s : Nat} (hs : s ∈ g.keys) :
    ∃ l, dfs g ord s = pure l ∧ Trace g (fun cs ps => (ord cs).reverse ++ ps) [s] [] l :=
  search_trace hg (fun cs ps => ((List.reverse_perm _).trans (ho cs)).append_right ps) _ _ [s] [] (by simpa using hs) rfl rfl

theorem trace_start {g : Graph τ} {put : List Nat → List Nat → List Nat} (hp : ∀ cs ps, (put cs ps).Perm (cs ++ ps)) {s : Nat} {l : List Nat}
    (h : Trace g put [s] [] l) (x : Nat) : x ∈ l ↔ Relation.ReflTransGen (Edge g) s x := by
  obtain ⟨h1, h2, h3⟩ := trace_reach hp h (by simp)
  constructor
  · intro hx
    obtain ⟨s', hs, hr⟩ := h1 x hx
    rw [List.mem_singleton] at hs
    rw [← hs]
    exact hr
  · intro hr
    induction hr with
    | refl => exact h2 s (by simp)
    | tail _ h ih =>
      have := h3 _ (Or.inr ih) _ h
      simpa using this

/-- Both walks end and visit exactly the nodes that can be reached from the start. -/
theorem C55_reachable (g : Graph τ) (hg : Consistent g) (ord : List Nat → List Nat) (ho : ∀ l, (ord l).Perm l) (s : Nat) (hs : s ∈ g.keys) :
    (∃ l, bfs g ord s = pure l ∧ ∀ x, x ∈ l ↔ Relation.ReflTransGen (Edge g) s x) ∧
      ∃ l, dfs g ord s = pure l ∧ ∀ x, x ∈ l ↔ Relation.ReflTransGen (Edge g) s x := by
  obtain ⟨l, e, h⟩ := bfs_trace hg ho hs
  obtain ⟨l', e', h'⟩ := dfs_trace hg ho hs
  exact ⟨⟨l, e, fun x => trace_start (fun cs ps => List.perm_append_comm.trans ((ho cs).append_right ps)) h x⟩,
    ⟨l', e', fun x => trace_start (fun cs ps => ((List.reverse_perm _).trans (ho cs)).append_right ps) h' x⟩⟩

example := C55_reachable _ (run_consistent (τ := Nat) [.addNode 7, .addNode 8, .addNode 9, .addDirected 0 1, .addDirected 0 2, .addDirected 2 0] _ _ rfl) List.reverse
  List.reverse_perm 0 (by decide)

/-- `n` edges lead from `s` to `x`. (Specification, no line of the source.) -/
inductive Steps (g : Graph τ) (s : Nat) : Nat → Nat → Prop
  | refl : Steps g s 0 s
  | tail (n x y : Nat) (h : Steps g s n x) (hxy : Edge g x y) : Steps g s (n + 1) y

/-- The loop with a queue: `A` holds the rest of one level, `B` the next one. -/
theorem trace_levels {g : Graph τ} {ord : List Nat → List Nat} (ho : ∀ l, (ord l).Perm l) {s : Nat} {path vis l : List Nat}
    (h : Trace g (fun cs ps => ps ++ ord cs) path vis l) :
    ∀ (d : Nat) (A B : List Nat), path = A ++ B → (∀ n x, n ≤ d → Steps g s n x → x ∈ vis ∨ x ∈ A) →
    (∀ n x, n < d → Steps g s n x → x ∈ vis) →
    (∀ x ∈ A, ∃ n, n ≤ d ∧ Steps g s n x) → (∀ x ∈ B, ∃ n, n ≤ d + 1 ∧ Steps g s n x) →
    (∀ v ∈ vis, ∀ c, Edge g v c → c ∈ vis ∨ c ∈ path) →
    ∀ a x b, l = a ++ x :: b → x ∉ a → x ∉ vis → ∀ n y, Steps g s n y → (∀ m, m ≤ n → ¬ Steps g s m x) → y ∈ a ∨ y ∈ vis := by
  induction h with
  | nil vis =>
    intro d A B _ _ _ _ _ _ a x b hl
    simp at hl
  | pop x ps vis l n hn h ih =>
    intro d A B hAB h1 h2 h3 h4 h5
    have hm := mem_next (put := fun cs ps => ps ++ ord cs) (fun cs ps => List.perm_append_comm.trans ((ho cs).append_right ps)) hn ps vis
    -- without loss of generality the level is not exhausted
    have main : ∀ (d : Nat) (A B : List Nat), x :: ps = x :: A ++ B → (∀ n y, n ≤ d → Steps g s n y → y ∈ vis ∨ y ∈ x :: A) →
        (∀ n y, n < d → Steps g s n y → y ∈ vis) →
        (∀ y ∈ x :: A, ∃ n, n ≤ d ∧ Steps g s n y) → (∀ y ∈ B, ∃ n, n ≤ d + 1 ∧ Steps g s n y) →
        ∀ a z b, x :: l = a ++ z :: b → z ∉ a → z ∉ vis → ∀ n y, Steps g s n y → (∀ m, m ≤ n → ¬ Steps g s m z) → y ∈ a ∨ y ∈ vis := by
      clear h1 h2 h3 h4 hAB A B d
      intro d A B hAB h1 h2 h3 h4 a z b hl hza hzv k y hy hno
      have hps : ps = A ++ B := by simpa using hAB
      cases a with
      | nil =>
        simp only [List.nil_append, List.cons.injEq] at hl
        obtain ⟨rfl, rfl⟩ := hl
        right
        obtain ⟨m, hmd, hms⟩ := h3 x (by simp)
        refine h2 k y ?_ hy
        by_contra hc
        exact hno m (by omega) hms
      | cons w a =>
        simp only [List.cons_append, List.cons.injEq] at hl
        obtain ⟨rfl, hl⟩ := hl
        rw [List.mem_cons, not_or] at hza
        have := ih d A (B ++ ord (n.out.filter (fun c => !(x :: vis).contains c))) (by simp [hps]) (by
            intro k y hk hy
            have := h1 k y hk hy
            simp only [List.mem_cons] at this ⊢
            tauto) (by
            intro k y hk hy
            exact List.mem_cons_of_mem _ (h2 k y hk hy)) (fun y hy => h3 y (List.mem_cons_of_mem _ hy)) (by
            intro y hy
            rcases List.mem_append.1 hy with hy | hy
            · exact h4 y hy
            · rw [(ho _).mem_iff, List.mem_filter] at hy
              obtain ⟨m, hmd, hms⟩ := h3 x (by simp)
              exact ⟨m + 1, by omega, Steps.tail m x y hms ((edge_iff hn y).2 hy.1)⟩) (by
            intro v hv c hvc
            rw [List.mem_cons]
            by_cases hcx : c = x
            · exact Or.inl (Or.inl hcx)
            by_cases hcv : c ∈ vis
            · exact Or.inl (Or.inr hcv)
            right
            refine (hm c).2 ?_
            rcases List.mem_cons.1 hv with rfl | hv
            · exact Or.inl ⟨hvc, hcx, hcv⟩
            · rcases h5 v hv c hvc with h | h
              · exact absurd h hcv
              · rcases List.mem_cons.1 h with h | h
                · exact absurd h hcx
                · exact Or.inr h) a z b hl hza.2 (by
            rw [List.mem_cons, not_or]
            exact ⟨hza.1, hzv⟩) k y hy hno
        simp only [List.mem_cons] at this ⊢
        tauto
    cases A with
    | cons x' A =>
      simp only [List.cons_append, List.cons.injEq] at hAB
      obtain ⟨rfl, rfl⟩ := hAB
      exact main d A B rfl h1 h2 h3 h4
    | nil =>
      rw [List.nil_append] at hAB
      have hv : ∀ k y, k ≤ d → Steps g s k y → y ∈ vis := fun k y hk hy => by simpa using h1 k y hk hy
      have hnext : ∀ k y, k ≤ d + 1 → Steps g s k y → y ∈ vis ∨ y ∈ x :: ps := by
        intro k y hk hy
        cases hy with
        | refl => exact Or.inl (hv 0 s (by omega) Steps.refl)
        | tail m z _ hz hzy => exact h5 z (hv m z (by omega) hz) y hzy
      subst hAB
      refine main (d + 1) ps [] (by simp) hnext (fun k y hk hy => hv k y (by omega) hy) ?_ (by simp)
      exact h4

/-- `bfs_walk` visits a node for the first time only when every node that is nearer to the start has been visited. -/
theorem C55_bfs_nearest_first (g : Graph τ) (hg : Consistent g) (ord : List Nat → List Nat) (ho : ∀ l, (ord l).Perm l) (s : Nat)
    (hs : s ∈ g.keys) :
    ∃ l, bfs g ord s = pure l ∧ ∀ a x b, l = a ++ x :: b → x ∉ a → ∀ n y, Steps g s n y → (∀ m, m ≤ n → ¬ Steps g s m x) → y ∈ a := by
  obtain ⟨l, e, h⟩ := bfs_trace hg ho hs
  refine ⟨l, e, fun a x b hl hx n y hy hno => ?_⟩
  have := trace_levels ho (s := s) h 0 [s] [] (by simp) (by
      intro n x hn hx
      obtain rfl : n = 0 := by omega
      cases hx
      simp) (by intro n x hn; omega) (by
      intro x hx
      rw [List.mem_singleton] at hx
      subst hx
      exact ⟨0, by omega, Steps.refl⟩) (by simp) (by simp) a x b hl hx (by simp) n y hy hno
  simpa using this

example := C55_bfs_nearest_first _ (run_consistent (τ := Nat) [.addNode 7, .addNode 8, .addNode 9, .addDirected 0 1, .addDirected 0 2, .addDirected 2 0] _ _ rfl)
  List.reverse List.reverse_perm 0 (by decide)

theorem trace_deepens {g : Graph τ} {ord : List Nat → List Nat} (ho : ∀ l, (ord l).Perm l) {path vis l : List Nat}
    (h : Trace g (fun cs ps => (ord cs).reverse ++ ps) path vis l) :
    ∀ a x b, l = a ++ x :: b → (∃ c, Edge g x c ∧ c ≠ x ∧ c ∉ a ∧ c ∉ vis) →
      ∃ y b', b = y :: b' ∧ Edge g x y ∧ y ≠ x ∧ y ∉ a ∧ y ∉ vis := by
  induction h with
  | nil vis => intro a x b hl; simp at hl
  | pop w ps vis l n hn h ih =>
    intro a x b hl hex
    cases a with
    | nil =>
      simp only [List.nil_append, List.cons.injEq] at hl
      obtain ⟨rfl, rfl⟩ := hl
      obtain ⟨c, hc1, hc2, _, hc3⟩ := hex
      obtain ⟨cs, hcs⟩ : ∃ cs, n.out.filter (fun c => !(w :: vis).contains c) = cs := ⟨_, rfl⟩
      have hmem : ∀ y, y ∈ (ord cs).reverse ↔ Edge g w y ∧ y ≠ w ∧ y ∉ vis := by
        intro y
        rw [List.mem_reverse, (ho cs).mem_iff, ← hcs, List.mem_filter, edge_iff hn]
        simp
      rw [hcs] at h
      obtain ⟨q, hq⟩ : ∃ q, (ord cs).reverse = q := ⟨_, rfl⟩
      simp only [hq] at h
      rw [hq] at hmem
      cases q with
      | nil =>
        have := (hmem c).2 ⟨hc1, hc2, hc3⟩
        simp at this
      | cons y q =>
        have hy := (hmem y).1 (by simp)
        cases h with
        | pop _ _ _ l' n' hn' h' => exact ⟨y, l', rfl, hy.1, hy.2.1, by simp, hy.2.2⟩
    | cons w' a =>
      simp only [List.cons_append, List.cons.injEq] at hl
      obtain ⟨rfl, hl⟩ := hl
      obtain ⟨c, hc1, hc2, hc3, hc4⟩ := hex
      rw [List.mem_cons, not_or] at hc3
      obtain ⟨y, b', hb, hy1, hy2, hy3, hy4⟩ := ih a x b hl ⟨c, hc1, hc2, hc3.2, by rw [List.mem_cons, not_or]; exact ⟨hc3.1, hc4⟩⟩
      rw [List.mem_cons, not_or] at hy4
      exact ⟨y, b', hb, hy1, hy2, by rw [List.mem_cons, not_or]; exact ⟨hy4.1, hy3⟩, hy4.2⟩

/-- `dfs_walk` goes from a node to a child of it that has not been visited whenever there is one. -/
theorem C55_dfs_deepens (g : Graph τ) (hg : Consistent g) (ord : List Nat → List Nat) (ho : ∀ l, (ord l).Perm l) (s : Nat)
    (hs : s ∈ g.keys) :
    ∃ l, dfs g ord s = pure l ∧ ∀ a x b, l = a ++ x :: b → (∃ c, Edge g x c ∧ c ∉ a ++ [x]) →
      ∃ y b', b = y :: b' ∧ Edge g x y ∧ y ∉ a ++ [x] := by
  obtain ⟨l, e, h⟩ := dfs_trace hg ho hs
  refine ⟨l, e, fun a x b hl ⟨c, hc1, hc2⟩ => ?_⟩
  simp only [List.mem_append, List.mem_singleton, not_or] at hc2 ⊢
  obtain ⟨y, b', hb, h1, h2, h3, _⟩ := trace_deepens ho h a x b hl ⟨c, hc1, hc2.2, hc2.1, by simp⟩
  exact ⟨y, b', hb, h1, h3, h2⟩

example := C55_dfs_deepens _ (run_consistent (τ := Nat) [.addNode 7, .addNode 8, .addNode 9, .addDirected 0 1, .addDirected 0 2, .addDirected 2 0] _ _ rfl)
  List.reverse List.reverse_perm 0 (by decide)

theorem trace_once {g : Graph τ} (hg : Consistent g) {put : List Nat → List Nat → List Nat} (hp : ∀ cs ps, (put cs ps).Perm (cs ++ ps)) {s : Nat}
    (hs : ∀ p, Relation.ReflTransGen (Edge g) s p → ¬ Edge g p s)
    (hu : ∀ p q x, Relation.ReflTransGen (Edge g) s p → Relation.ReflTransGen (Edge g) s q → Edge g p x → Edge g q x → p = q)
    {path vis l : List Nat} (h : Trace g put path vis l) :
    (path ++ vis).Nodup → (∀ y, y ∈ path ∨ y ∈ vis → Relation.ReflTransGen (Edge g) s y) →
    (∀ y, y ∈ path ∨ y ∈ vis → y = s ∨ ∃ p ∈ vis, Edge g p y) → l.Nodup ∧ ∀ x ∈ l, x ∉ vis := by
  induction h with
  | nil vis => intro _ _ _; simp
  | pop x ps vis l n hn h ih =>
    intro h1 h2 h3
    have hm := mem_next hp hn ps vis
    have hxr := h2 x (Or.inl (by simp))
    rw [List.cons_append, List.nodup_cons, List.mem_append, not_or] at h1
    obtain ⟨i1, i2⟩ := ih (by
        have hperm : (put (n.out.filter (fun c => !(x :: vis).contains c)) ps ++ x :: vis).Perm
            (n.out.filter (fun c => !(x :: vis).contains c) ++ (x :: (ps ++ vis))) := by
          refine ((hp _ _).append_right _).trans ?_
          rw [List.append_assoc]
          exact List.Perm.append_left _ List.perm_middle
        rw [hperm.nodup_iff, List.nodup_append]
        refine ⟨(hg.lists x n hn).1.filter _, List.nodup_cons.2 ⟨by simpa using h1.1, h1.2⟩, ?_⟩
        intro c hc y hy hcy
        subst hcy
        rw [List.mem_filter] at hc
        have hxc := (edge_iff hn c).2 hc.1
        have hc2 : ¬ (c = x ∨ c ∈ vis) := by simpa using hc.2
        rw [List.mem_cons, List.mem_append] at hy
        rcases hy with rfl | hy
        · exact hc2 (Or.inl rfl)
        · rcases h3 c (by rcases hy with hy | hy; exacts [Or.inl (List.mem_cons_of_mem _ hy), Or.inr hy]) with rfl | ⟨p, hpv, hpc⟩
          · exact hs x hxr hxc
          · have := hu p x c (h2 p (Or.inr hpv)) hxr hpc hxc
            subst this
            exact h1.1.2 hpv) (by
        intro y hy
        rw [hm, List.mem_cons] at hy
        rcases hy with (⟨hy, _⟩ | hy) | (rfl | hy)
        · exact hxr.tail hy
        · exact h2 y (Or.inl (List.mem_cons_of_mem _ hy))
        · exact hxr
        · exact h2 y (Or.inr hy)) (by
        intro y hy
        rw [hm, List.mem_cons] at hy
        have old : y ∈ x :: ps ∨ y ∈ vis → y = s ∨ ∃ p ∈ x :: vis, Edge g p y := fun h => by
          rcases h3 y h with h | ⟨p, h1, h2⟩
          · exact Or.inl h
          · exact Or.inr ⟨p, List.mem_cons_of_mem _ h1, h2⟩
        rcases hy with (⟨hy, _⟩ | hy) | (rfl | hy)
        · exact Or.inr ⟨x, by simp, hy⟩
        · exact old (Or.inl (List.mem_cons_of_mem _ hy))
        · exact old (Or.inl (by simp))
        · exact old (Or.inr hy))
    refine ⟨List.nodup_cons.2 ⟨fun hx => i2 x hx (by simp), i1⟩, ?_⟩
    intro y hy
    rcases List.mem_cons.1 hy with rfl | hy
    · exact h1.1.2
    · exact fun hv => i2 y hy (List.mem_cons_of_mem _ hv)

/-- Each node is visited once if what can be reached is a tree: no edge leads back to the start and at most one to any other node.
Missing are the graphs where several edges lead to a node, which is then visited several times. -/
theorem C55_once_partial (g : Graph τ) (hg : Consistent g) (ord : List Nat → List Nat) (ho : ∀ l, (ord l).Perm l) (s : Nat) (hs : s ∈ g.keys)
    (hroot : ∀ p, Relation.ReflTransGen (Edge g) s p → ¬ Edge g p s)
    (hu : ∀ p q x, Relation.ReflTransGen (Edge g) s p → Relation.ReflTransGen (Edge g) s q → Edge g p x → Edge g q x → p = q) :
    (∃ l, bfs g ord s = pure l ∧ l.Nodup) ∧ ∃ l, dfs g ord s = pure l ∧ l.Nodup := by
  obtain ⟨l, e, h⟩ := bfs_trace hg ho hs
  obtain ⟨l', e', h'⟩ := dfs_trace hg ho hs
  have h0 : ∀ y, y ∈ [s] ∨ y ∈ ([] : List Nat) → Relation.ReflTransGen (Edge g) s y := by
    intro y hy
    have : y = s := by simpa using hy
    subst this
    exact Relation.ReflTransGen.refl
  have h1 : ∀ y, y ∈ [s] ∨ y ∈ ([] : List Nat) → y = s ∨ ∃ p ∈ ([] : List Nat), Edge g p y := fun y hy => Or.inl (by simpa using hy)
  exact ⟨⟨l, e, (trace_once hg (fun cs ps => List.perm_append_comm.trans ((ho cs).append_right ps)) hroot hu h (by simp) h0 h1).1⟩,
    ⟨l', e', (trace_once hg (fun cs ps => ((List.reverse_perm _).trans (ho cs)).append_right ps) hroot hu h' (by simp) h0 h1).1⟩⟩

/-- A tree of five nodes. -/
example : ∃ g : Graph Nat, Consistent g ∧ 0 ∈ g.keys ∧ (∀ p, ¬ Edge g p 0) ∧ (∀ p q x, Edge g p x → Edge g q x → p = q) ∧ Edge g 0 1 ∧ Edge g 0 2 ∧
    Edge g 2 3 ∧ Edge g 2 4 := by
  obtain ⟨g, rs, h, hg, hk, h0, h1, h2, h3, h4⟩ : ∃ g rs, run (empty : Graph Nat) [.addNode 7, .addNode 8, .addNode 9, .addNode 7, .addNode 1,
    .addDirected 0 1, .addDirected 0 2, .addDirected 2 3, .addDirected 2 4] = pure (g, rs) ∧
    (Edge g 0 1 ∧ Edge g 0 2 ∧ Edge g 2 3 ∧ Edge g 2 4) ∧ 0 ∈ g.keys ∧
    (∃ n, g.nodes 0 = some n ∧ n.inc = []) ∧ (∃ n, g.nodes 1 = some n ∧ n.inc = [0]) ∧ (∃ n, g.nodes 2 = some n ∧ n.inc = [0]) ∧
    (∃ n, g.nodes 3 = some n ∧ n.inc = [2]) ∧ (∃ n, g.nodes 4 = some n ∧ n.inc = [2]) ∧ g.keys = [4, 3, 2, 1, 0] := by
    refine ⟨_, _, rfl, ⟨⟨_, rfl, by decide⟩, ⟨_, rfl, by decide⟩, ⟨_, rfl, by decide⟩, ⟨_, rfl, by decide⟩⟩, by decide, ⟨_, rfl, rfl⟩,
      ⟨_, rfl, rfl⟩, ⟨_, rfl, rfl⟩, ⟨_, rfl, rfl⟩, ⟨_, rfl, rfl⟩, rfl⟩
  obtain ⟨h4, hkeys⟩ := h4
  have hc := run_consistent _ g rs h
  have hp : ∀ p x l, (∃ n, g.nodes x = some n ∧ n.inc = l) → Edge g p x → p ∈ l := by
    rintro p x l ⟨n, hn, rfl⟩ hpx
    exact (hc.inc hn p).2 hpx
  refine ⟨g, hc, hk, fun p hpx => by simpa using hp p 0 _ h0 hpx, ?_, hg⟩
  intro p q x hpx hqx
  have hx := (hc.edge_keys hpx).2
  rw [hkeys] at hx
  simp only [List.mem_cons, List.not_mem_nil, or_false] at hx
  rcases hx with rfl | rfl | rfl | rfl | rfl
  · have a := hp p 4 _ h4 hpx; have b := hp q 4 _ h4 hqx; simp at a b; omega
  · have a := hp p 3 _ h3 hpx; have b := hp q 3 _ h3 hqx; simp at a b; omega
  · have a := hp p 2 _ h2 hpx; have b := hp q 2 _ h2 hqx; simp at a b; omega
  · have a := hp p 1 _ h1 hpx; have b := hp q 1 _ h1 hqx; simp at a b; omega
  · have a := hp p 0 _ h0 hpx; simp at a

/-! ### How often nodes are visited -/

/-- The number of edges that leave a node. (Specification, no line of the source.) -/
def outDegree (g : Graph τ) (x : Nat) : Nat := match g.nodes x with | some n => n.out.length | none => 0

/-- The number of edges. (Specification, no line of the source.) -/
def edgeCount (g : Graph τ) : Nat := (g.keys.map (outDegree g)).sum

theorem trace_dfs_count {g : Graph τ} (hg : Consistent g) {ord : List Nat → List Nat} (ho : ∀ l, (ord l).Perm l) {path vis l : List Nat}
    (h : Trace g (fun cs ps => (ord cs).reverse ++ ps) path vis l) :
    (∀ a x b, path = a ++ x :: b → x ∈ vis → ∀ c, Edge g x c → c ∈ vis ∨ c ∈ a) →
    l.length ≤ path.length + ((g.keys.filter (fun k => !vis.contains k)).map (outDegree g)).sum := by
  induction h with
  | nil vis => intro _; simp
  | pop x ps vis l n hn h ih =>
    intro hinv
    obtain ⟨cs, hcs⟩ : ∃ cs, n.out.filter (fun c => !(x :: vis).contains c) = cs := ⟨_, rfl⟩
    have hmem : ∀ y, y ∈ (ord cs).reverse ↔ Edge g x y ∧ y ≠ x ∧ y ∉ vis := by
      intro y
      rw [List.mem_reverse, (ho cs).mem_iff, ← hcs, List.mem_filter, edge_iff hn]
      simp
    rw [hcs] at ih
    have := ih (by
      intro a y b hab hy c hyc
      by_cases hcx : c = x
      · exact Or.inl (by simp [hcx])
      by_cases hcv : c ∈ vis
      · exact Or.inl (by simp [hcv])
      right
      have hab' : (ord cs).reverse ++ ps = a ++ y :: b := hab
      rcases List.append_eq_append_iff.1 hab' with ⟨m, ha, hps⟩ | ⟨m, hq, hm⟩
      · -- y in the old path
        rw [ha, List.mem_append]
        by_cases hyx : y = x
        · subst hyx
          exact Or.inl ((hmem c).2 ⟨hyc, hcx, hcv⟩)
        · have hyv : y ∈ vis := by simpa [hyx] using hy
          have := hinv (x :: m) y b (by rw [hps]; rfl) hyv c hyc
          rcases this with h | h
          · exact absurd h hcv
          · rcases List.mem_cons.1 h with h | h
            · exact absurd h hcx
            · exact Or.inr h
      · cases m with
        | nil =>
          rw [List.append_nil] at hq
          rw [List.nil_append] at hm
          by_cases hyx : y = x
          · subst hyx
            rw [← hq]
            exact (hmem c).2 ⟨hyc, hcx, hcv⟩
          · have hyv : y ∈ vis := by simpa [hyx] using hy
            have := hinv [x] y b (by rw [← hm]; rfl) hyv c hyc
            rcases this with h | h
            · exact absurd h hcv
            · exact absurd (by simpa using h) hcx
        | cons z m =>
          exfalso
          simp only [List.cons_append, List.cons.injEq] at hm
          obtain ⟨rfl, _⟩ := hm
          have := (hmem y).1 (by rw [hq]; simp)
          rcases List.mem_cons.1 hy with h | h
          · exact this.2.1 h
          · exact this.2.2 h)
    have hlen : ((ord cs).reverse ++ ps).length = cs.length + ps.length := by
      rw [List.length_append, List.length_reverse, (ho cs).length_eq]
    have this : l.length ≤ ((ord cs).reverse ++ ps).length + ((g.keys.filter (fun k => !(x :: vis).contains k)).map (outDegree g)).sum := this
    rw [hlen] at this
    rw [List.length_cons, List.length_cons]
    by_cases hx : x ∈ vis
    · have hsame : ∀ k, (x :: vis).contains k = vis.contains k := by
        intro k
        rw [List.contains_cons]
        by_cases hkx : k = x
        · subst hkx; simp [hx]
        · simp [hkx]
      simp only [hsame] at this
      have hnil : cs = [] := by
        rw [← hcs, List.filter_eq_nil_iff]
        intro c hc
        have := hinv [] x ps rfl hx c ((edge_iff hn c).2 hc)
        have hcv : c ∈ vis := by simpa using this
        simp [hcv]
      rw [hnil] at this
      simp only [List.length_nil] at this
      omega
    · have hsub : g.keys.filter (fun k => !(x :: vis).contains k) = (g.keys.filter (fun k => !vis.contains k)).erase x := by
        rw [(hg.nodup.filter _).erase_eq_filter, List.filter_filter]
        congr 1
        funext k
        rw [List.contains_cons, Bool.not_or]
        rfl
      have hxm : x ∈ g.keys.filter (fun k => !vis.contains k) := by
        rw [List.mem_filter]
        exact ⟨(hg.here x).2 ⟨n, hn⟩, by simpa using hx⟩
      have hs := List.sum_map_erase (outDegree g) hxm
      rw [← hsub] at hs
      have hd : outDegree g x = n.out.length := by unfold outDegree; rw [hn]
      have hc : cs.length ≤ n.out.length := by rw [← hcs]; exact List.length_filter_le _ _
      omega

/-- `dfs_walk` makes at most one visit per edge and one for the start. -/
theorem C55_dfs_linear (g : Graph τ) (hg : Consistent g) (ord : List Nat → List Nat) (ho : ∀ l, (ord l).Perm l) (s : Nat) (hs : s ∈ g.keys) :
    ∃ l, dfs g ord s = pure l ∧ l.length ≤ 1 + edgeCount g := by
  obtain ⟨l, e, h⟩ := dfs_trace hg ho hs
  refine ⟨l, e, ?_⟩
  have := trace_dfs_count hg ho h (by intro a x b _ hx; simp at hx)
  simpa [edgeCount] using this

example := C55_dfs_linear _ (run_consistent (τ := Nat) [.addNode 7, .addNode 8, .addNode 9, .addDirected 0 1, .addDirected 0 2, .addDirected 2 0] _ _ rfl)
  List.reverse List.reverse_perm 0 (by decide)

/-- `L` layers of two nodes; each node leads to both nodes of the next layer. (Specification, no line of the source.) -/
def layered (L : Nat) : Graph Unit :=
  ⟨2 * L, List.range (2 * L), fun x =>
    if x < 2 * L then
      some ⟨(), if 2 ≤ x then [2 * (x / 2 - 1), 2 * (x / 2 - 1) + 1] else [], if x / 2 + 1 < L then [2 * (x / 2 + 1), 2 * (x / 2 + 1) + 1] else []⟩
    else none⟩

theorem layered_consistent {L : Nat} (hL : 2 * L < noId) : Consistent (layered L) := by
  have hsome : ∀ x n, (layered L).nodes x = some n → x < 2 * L ∧ n.inc = (if 2 ≤ x then [2 * (x / 2 - 1), 2 * (x / 2 - 1) + 1] else []) ∧
      n.out = (if x / 2 + 1 < L then [2 * (x / 2 + 1), 2 * (x / 2 + 1) + 1] else []) := by
    intro x n h
    simp only [layered] at h
    split at h
    · rename_i hx
      injection h with h
      subst h
      exact ⟨hx, rfl, rfl⟩
    · exact absurd h (by simp)
  refine ⟨List.nodup_range, fun x => ?_, fun x hx => ?_, fun x n h => ?_, fun x y n m hx hy => ?_, fun x n hx y hy => ?_⟩
  · show x ∈ List.range (2 * L) ↔ _
    rw [List.mem_range]
    constructor
    · intro h
      exact ⟨_, by simp only [layered]; rw [if_pos h]⟩
    · rintro ⟨n, hn⟩
      exact (hsome x n hn).1
  · have : x < 2 * L := List.mem_range.1 hx
    omega
  · obtain ⟨_, h1, h2⟩ := hsome x n h
    rw [h1, h2]
    constructor
    · split <;> simp
    · split <;> simp
  · obtain ⟨x1, x2, x3⟩ := hsome x n hx
    obtain ⟨y1, y2, y3⟩ := hsome y m hy
    rw [x3, y2]
    split <;> split <;> simp <;> omega
  · obtain ⟨x1, x2, x3⟩ := hsome x n hx
    show y ∈ List.range (2 * L)
    rw [List.mem_range]
    rw [x3, x2] at hy
    rcases hy with hy | hy
    · split at hy
      · simp at hy; omega
      · simp at hy
    · split at hy
      · simp at hy; omega
      · simp at hy

theorem trace_layered {L : Nat} {ord : List Nat → List Nat} (ho : ∀ l, (ord l).Perm l) {path vis l : List Nat}
    (h : Trace (layered L) (fun cs ps => ps ++ ord cs) path vis l) :
    ∀ (i k : Nat) (A B : List Nat), path = A ++ B → L = i + k + 1 → (∀ x ∈ A, x / 2 = i) → (∀ x ∈ B, x / 2 = i + 1 ∧ x < 2 * L) →
    (∀ x ∈ vis, x / 2 ≤ i) → l.length + A.length + B.length = A.length * (2 * 2 ^ k) + B.length * 2 ^ k := by
  induction h with
  | nil vis =>
    intro i k A B h
    have : A = [] ∧ B = [] := by simpa using h.symm
    rw [this.1, this.2]
    simp
  | pop x ps vis l n hn h ih =>
    intro i k A B hAB hL hA hB hv
    have hout : n.out = (if x / 2 + 1 < L then [2 * (x / 2 + 1), 2 * (x / 2 + 1) + 1] else []) := by
      simp only [layered] at hn
      split at hn
      · injection hn with hn
        subst hn
        rfl
      · exact absurd hn (by simp)
    have main : ∀ (i k : Nat) (A B : List Nat), x :: ps = x :: A ++ B → L = i + k + 1 → (∀ y ∈ x :: A, y / 2 = i) →
        (∀ y ∈ B, y / 2 = i + 1 ∧ y < 2 * L) → (∀ x ∈ vis, x / 2 ≤ i) →
        (x :: l).length + (x :: A).length + B.length = (x :: A).length * (2 * 2 ^ k) + B.length * 2 ^ k := by
      clear hAB hL hA hB hv A B i k
      intro i k A B hAB hL hA hB hv
      have hps : ps = A ++ B := by simpa using hAB
      have hxi : x / 2 = i := hA x (by simp)
      have hfil : n.out.filter (fun c => !(x :: vis).contains c) = n.out := by
        rw [List.filter_eq_self]
        intro c hc
        rw [hout] at hc
        have hci : c / 2 = i + 1 := by
          split at hc
          · simp at hc
            omega
          · simp at hc
        have h1 : c ≠ x := by rintro rfl; omega
        have h2 : c ∉ vis := fun hcv => by
          have := hv c hcv
          omega
        simp [h1, h2]
      rw [hfil] at ih
      have := ih i k A (B ++ ord n.out) (by simp [hps]) hL (fun y hy => hA y (List.mem_cons_of_mem _ hy)) (by
          intro y hy
          rcases List.mem_append.1 hy with hy | hy
          · exact hB y hy
          · rw [(ho _).mem_iff, hout] at hy
            split at hy
            · simp at hy
              omega
            · simp at hy) (by
          intro y hy
          rcases List.mem_cons.1 hy with rfl | hy
          · omega
          · exact hv y hy)
      rw [List.length_append, (ho n.out).length_eq] at this
      simp only [List.length_cons]
      cases k with
      | zero =>
        have hn0 : n.out = [] := by rw [hout, if_neg (by omega)]
        rw [hn0] at this
        simp only [List.length_nil, Nat.pow_zero] at this ⊢
        omega
      | succ k =>
        have hn2 : n.out.length = 2 := by rw [hout, if_pos (by omega)]; rfl
        rw [hn2] at this
        have e : 2 ^ (k + 1) = 2 * 2 ^ k := by rw [Nat.pow_succ, Nat.mul_comm]
        rw [e] at this ⊢
        generalize 2 ^ k = P at *
        nlinarith
    cases A with
    | cons x' A =>
      simp only [List.cons_append, List.cons.injEq] at hAB
      obtain ⟨rfl, rfl⟩ := hAB
      exact main i k A B rfl hL hA hB hv
    | nil =>
      rw [List.nil_append] at hAB
      subst hAB
      have hx := hB x (by simp)
      cases k with
      | zero => omega
      | succ k =>
        have := main (i + 1) k ps [] (by simp) (by omega) (fun y hy => (hB y hy).1) (by simp) (fun y hy => by have := hv y hy; omega)
        have e : 2 ^ (k + 1) = 2 * 2 ^ k := by rw [Nat.pow_succ, Nat.mul_comm]
        rw [e]
        simp only [List.length_nil] at this ⊢
        omega

/-- The number of visits of `bfs_walk` can grow as a power of two: on a graph of `2 * L` nodes, whatever the order of the children, it
makes `2 ^ L - 1` visits. -/
theorem C55_bfs_once_violated (L : Nat) (h0 : 0 < L) (hL : 2 * L < noId) :
    ∃ g : Graph Unit, Consistent g ∧ g.keys.length = 2 * L ∧ 0 ∈ g.keys ∧
      ∀ ord : List Nat → List Nat, (∀ l, (ord l).Perm l) → ∃ l, bfs g ord 0 = pure l ∧ l.length = 2 ^ L - 1 := by
  have hc := layered_consistent hL
  have hk : 0 ∈ (layered L).keys := List.mem_range.2 (by omega)
  refine ⟨layered L, hc, List.length_range, hk, fun ord ho => ?_⟩
  obtain ⟨l, e, h⟩ := bfs_trace hc ho hk
  refine ⟨l, e, ?_⟩
  have := trace_layered ho h 0 (L - 1) [0] [] (by simp) (by omega) (by simp) (by simp) (by simp)
  have e2 : 2 ^ L = 2 * 2 ^ (L - 1) := by
    obtain ⟨k, rfl⟩ : ∃ k, L = k + 1 := ⟨L - 1, by omega⟩
    rw [Nat.pow_succ, Nat.mul_comm]
    rfl
  simp only [List.length_cons, List.length_nil] at this
  omega

example := C55_bfs_once_violated 5 (by decide) (by decide)

/-- `dfs_walk` visits a node twice when two edges lead to it. -/
theorem C55_dfs_once_violated :
    ∃ g : Graph Unit, Consistent g ∧ 0 ∈ g.keys ∧ ∃ ord : List Nat → List Nat, (∀ l, (ord l).Perm l) ∧
      ∃ l, dfs g ord 0 = pure l ∧ ¬ l.Nodup := by
  obtain ⟨g, rs, h, hk, h0, h1, h2⟩ : ∃ g rs, run (empty : Graph Unit) [.addNode (), .addNode (), .addNode (), .addDirected 1 2,
    .addDirected 0 1, .addDirected 0 2] = pure (g, rs) ∧ 0 ∈ g.keys ∧ (∃ n, g.nodes 0 = some n ∧ n.out = [2, 1]) ∧
    (∃ n, g.nodes 1 = some n ∧ n.out = [2]) ∧ ∃ n, g.nodes 2 = some n ∧ n.out = [] :=
    ⟨_, _, rfl, by decide, ⟨_, rfl, rfl⟩, ⟨_, rfl, rfl⟩, ⟨_, rfl, rfl⟩⟩
  have hc := run_consistent _ g rs h
  obtain ⟨l, e, ht⟩ := dfs_trace hc (ord := id) (fun l => List.Perm.refl l) hk
  refine ⟨g, hc, hk, id, fun l => List.Perm.refl l, l, e, ?_⟩
  obtain ⟨n0, a0, b0⟩ := h0
  obtain ⟨n1, a1, b1⟩ := h1
  obtain ⟨n2, a2, b2⟩ := h2
  cases ht with
  | pop _ _ _ l n hn ht =>
    rw [a0] at hn
    injection hn with hn
    subst hn
    rw [b0] at ht
    cases ht with
    | pop _ _ _ l n hn ht =>
      rw [a1] at hn
      injection hn with hn
      subst hn
      rw [b1] at ht
      cases ht with
      | pop _ _ _ l n hn ht =>
        rw [a2] at hn
        injection hn with hn
        subst hn
        rw [b2] at ht
        cases ht with
        | pop _ _ _ l n hn ht =>
          simp

end Verif.Graph
