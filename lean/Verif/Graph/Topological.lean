import Verif.Graph.Consistency
import Mathlib.Logic.Relation
import Mathlib.Data.Fintype.Card
import Mathlib.Order.Fin.Basic
import Mathlib.Order.WellFounded
import Mathlib.Data.Finite.Prod
import Mathlib.Order.WellFoundedSet

/-
`topological_sorted_walk`, include/daw/daw_graph_algorithm.h 43-115.  The visitor is a function that does not change the graph; the
result of the model is the list of the nodes it is called with.  With a comparison the vectors are sorted by `std::sort`, without one
they are left as they are: the model takes any functions `ordR` and `ordC` that permute.  The stack is written with its back first.
-/

namespace Verif.Graph
open Cxx

variable {τ : Type}

/-- A graph whose edges are listed at both ends, in whatever order. (Specification, no line of the source.) -/
structure Consistent (g : Graph τ) : Prop where
  nodup : g.keys.Nodup
  here : ∀ x, x ∈ g.keys ↔ ∃ n, g.nodes x = some n
  ids : ∀ x ∈ g.keys, x ≠ noId
  lists : ∀ x n, g.nodes x = some n → n.out.Nodup ∧ n.inc.Nodup
  both : ∀ x y n m, g.nodes x = some n → g.nodes y = some m → (y ∈ n.out ↔ x ∈ m.inc)
  ends : ∀ x n, g.nodes x = some n → ∀ y, y ∈ n.out ∨ y ∈ n.inc → y ∈ g.keys

/-- Every history leaves a consistent graph. -/
theorem run_consistent (os : List (Op τ)) (g : Graph τ) (rs : List (Option Nat)) (h : run empty os = pure (g, rs)) : Consistent g := by
  obtain ⟨h1, h2, h3, h4, _⟩ := C53_consistent os g rs h
  have h4' : ∀ x, x ∈ g.keys ↔ ∃ n, g.nodes x = some n := fun x => by rw [h4, Option.isSome_iff_exists]
  refine ⟨h3, h4', ?_, fun x n hx => ⟨(h2 x n hx).1, (h2 x n hx).2.1⟩, h1, fun x n hx y hy => (h4 y).2 ((h2 x n hx).2.2 y hy)⟩
  rcases run_is os empty_is with ⟨_, h2⟩ | ⟨a, rs', g', _, h2, hi⟩
  · rw [h2] at h; exact absurd h (abort_ne_pure _)
  · rw [h2] at h
    have h := pure_inj.1 h
    injection h with h _
    subst h
    intro x hx
    rw [hi.keys] at hx
    exact hi.ne_noId hx

/-- There is an edge. (Specification, no line of the source.) -/
def Edge (g : Graph τ) (x y : Nat) : Prop := ∃ n, g.nodes x = some n ∧ y ∈ n.out

theorem Consistent.edge_keys {g : Graph τ} (hg : Consistent g) {x y : Nat} (h : Edge g x y) : x ∈ g.keys ∧ y ∈ g.keys := by
  obtain ⟨n, hn, hy⟩ := h
  exact ⟨(hg.here x).2 ⟨n, hn⟩, hg.ends x n hn y (Or.inl hy)⟩

theorem Consistent.inc {g : Graph τ} (hg : Consistent g) {x : Nat} {n : Node τ} (hx : g.nodes x = some n) (p : Nat) :
    p ∈ n.inc ↔ Edge g p x := by
  constructor
  · intro h
    obtain ⟨m, hm⟩ := (hg.here p).1 (hg.ends x n hx p (Or.inr h))
    exact ⟨m, hm, (hg.both p x m n hm hx).2 h⟩
  · rintro ⟨m, hm, h⟩
    exact (hg.both p x m n hm hx).1 h

theorem Consistent.check {g : Graph τ} (hg : Consistent g) {x : Nat} (hx : x ∈ g.keys) : check g x = pure () := by
  obtain ⟨n, hn⟩ := (hg.here x).1 hx
  unfold Graph.check hasNode
  rw [if_neg (hg.ids x hx)]
  simp [hn]

theorem Consistent.node {g : Graph τ} (hg : Consistent g) {x : Nat} (hx : x ∈ g.keys) :
    ∃ n, g.nodes x = some n ∧ node g x = pure n := by
  obtain ⟨n, hn⟩ := (hg.here x).1 hx
  refine ⟨n, hn, ?_⟩
  unfold Graph.node
  rw [hg.check hx]
  simp only [pure_bind]
  rw [hn]

/-! ### The walk -/

/-- `excluded_edges`, daw_graph_algorithm.h 67-68. -/
abbrev Excl := Nat → Option (List Nat)

/-- `exclude_edge`, daw_graph_algorithm.h 70-76. -/
def exclude (ex : Excl) (s t : Nat) : Excl :=
  fun x => if x = t then (if s ∈ (ex t).getD [] then some ((ex t).getD []) else some ((ex t).getD [] ++ [s])) else ex x

/-- `has_parent_nodes`, daw_graph_algorithm.h 78-90. -/
def hasParents (g : Graph τ) (ex : Excl) (x : Nat) : Cxx Bool := do
  let n ← node g x
  if n.inc.isEmpty then pure false
  else
    match ex x with
    | none => pure true
    | some l => pure (!(l.foldl (fun inc e => inc.erase e) n.inc).isEmpty)

/-- `get_child_nodes`, daw_graph_algorithm.h 31-41: the ids of the nodes. -/
def getChildren (g : Graph τ) : List Nat → Cxx (List Nat)
  | [] => pure []
  | c :: cs => do
    check g c
    let r ← getChildren g cs
    pure (c :: r)

/-- The loop over the children, daw_graph_algorithm.h 104-109. -/
def children (g : Graph τ) (x : Nat) : List Nat → List Nat → Excl → Cxx (List Nat × Excl)
  | [], roots, ex => pure (roots, ex)
  | c :: cs, roots, ex => do
    let ex := exclude ex x c
    let b ← hasParents g ex c
    children g x cs (if b then roots else c :: roots) ex

/-- The loop over the roots, daw_graph_algorithm.h 92-114: the nodes visited. -/
def walk (g : Graph τ) (ordR ordC : List Nat → List Nat) (roots : List Nat) (ex : Excl) : Cxx (List Nat) :=
  match roots with
  | [] => pure []
  | x :: rs => do
    let n ← node g x
    let cs ← getChildren g n.out
    let (rs, ex) ← children g x (ordC cs) rs ex
    let rest ← walk g ordR ordC (ordR rs) ex
    pure (x :: rest)
partial_fixpoint

/-- `topological_sorted_walk`, daw_graph_algorithm.h 43-115. -/
def topological (g : Graph τ) (ordR ordC : List Nat → List Nat) : Cxx (List Nat) := do
  let roots ← findRoots g
  let roots ← getChildren g roots
  walk g ordR ordC (ordR roots.reverse) (fun _ => none)

theorem getChildren_ok {g : Graph τ} (hg : Consistent g) (cs : List Nat) (h : ∀ c ∈ cs, c ∈ g.keys) : getChildren g cs = pure cs := by
  induction cs with
  | nil => rfl
  | cons c cs ih =>
    rw [getChildren, hg.check (h c (by simp))]
    simp only [pure_bind]
    rw [ih (fun c hc => h c (List.mem_cons_of_mem _ hc))]
    rfl

theorem foldl_erase (l : List Nat) : ∀ inc : List Nat, inc.Nodup → ∀ p, p ∈ l.foldl (fun inc e => inc.erase e) inc ↔ p ∈ inc ∧ p ∉ l := by
  induction l with
  | nil => intro inc _ p; simp
  | cons e l ih =>
    intro inc hnd p
    rw [List.foldl_cons, ih _ (hnd.erase e) p, hnd.mem_erase_iff, List.mem_cons]
    tauto

/-- `has_parent_nodes` asks for a parent that is not excluded. -/
theorem hasParents_ok {g : Graph τ} (hg : Consistent g) {ex : Excl} {x : Nat} (hx : x ∈ g.keys) :
    ∃ b, hasParents g ex x = pure b ∧ (b = false ↔ ∀ p, Edge g p x → p ∈ (ex x).getD []) := by
  obtain ⟨n, hn, hnode⟩ := hg.node hx
  unfold hasParents
  rw [hnode]
  simp only [pure_bind]
  by_cases he : n.inc.isEmpty = true
  · rw [if_pos he]
    refine ⟨false, rfl, ?_⟩
    simp only [true_iff]
    intro p hp
    have := (hg.inc hn p).2 hp
    rw [List.isEmpty_iff] at he
    rw [he] at this
    simp at this
  · rw [if_neg he]
    cases hex : ex x with
    | none =>
      refine ⟨true, rfl, ?_⟩
      constructor
      · intro h; injection h
      · intro h
        exfalso
        rw [List.isEmpty_iff] at he
        obtain ⟨p, hp⟩ := List.exists_mem_of_ne_nil _ he
        have := h p ((hg.inc hn p).1 hp)
        simp at this
    | some l =>
      refine ⟨_, rfl, ?_⟩
      rw [Bool.not_eq_false', List.isEmpty_iff, List.eq_nil_iff_forall_not_mem]
      have hnd := (hg.lists x n hn).2
      constructor
      · intro h p hp
        have := h p
        rw [foldl_erase l _ hnd] at this
        show p ∈ l
        by_contra hc
        exact this ⟨(hg.inc hn p).2 hp, hc⟩
      · intro h p hp
        rw [foldl_erase l _ hnd] at hp
        exact hp.2 (h p ((hg.inc hn p).1 hp.1))

theorem mem_exclude {ex : Excl} {s t c p : Nat} : p ∈ (exclude ex s t c).getD [] ↔ p ∈ (ex c).getD [] ∨ (c = t ∧ p = s) := by
  unfold exclude
  by_cases hc : c = t
  · subst hc
    rw [if_pos rfl]
    by_cases hs : s ∈ (ex c).getD []
    · rw [if_pos hs]
      simp only [Option.getD_some, true_and]
      constructor
      · exact Or.inl
      · rintro (h | rfl)
        · exact h
        · exact hs
    · rw [if_neg hs]
      simp
  · rw [if_neg hc]
    simp [hc]

/-- The state of the walk: `vs` are the nodes visited, in order. (Specification, no line of the source.) -/
structure W (g : Graph τ) (roots : List Nat) (ex : Excl) (vs : List Nat) : Prop where
  nodup : (roots ++ vs).Nodup
  mem : ∀ x, (x ∈ roots ∨ x ∈ vs) ↔ (x ∈ g.keys ∧ ∀ p, Edge g p x → p ∈ vs)
  excl : ∀ c p, p ∈ (ex c).getD [] ↔ Edge g p c ∧ p ∈ vs
  order : ∀ a x b, vs = a ++ x :: b → ∀ p, Edge g p x → p ∈ a

/-- The loop over the children. -/
theorem children_ok {g : Graph τ} (hg : Consistent g) {x : Nat} {vs : List Nat} (hxv : x ∉ vs) (cs : List Nat) :
    ∀ (done roots : List Nat) (ex : Excl), (∀ c ∈ cs, Edge g x c) → (done ++ cs).Nodup →
    (roots ++ (vs ++ [x])).Nodup →
    (∀ y, (y ∈ roots ∨ y ∈ vs ++ [x]) ↔
      (y ∈ g.keys ∧ ((∀ p, Edge g p y → p ∈ vs) ∨ (y ∈ done ∧ ∀ p, Edge g p y → p ∈ vs ++ [x])))) →
    (∀ c p, p ∈ (ex c).getD [] ↔ (Edge g p c ∧ p ∈ vs) ∨ (c ∈ done ∧ p = x)) →
    ∃ roots' ex', children g x cs roots ex = pure (roots', ex') ∧ (roots' ++ (vs ++ [x])).Nodup ∧
      (∀ y, (y ∈ roots' ∨ y ∈ vs ++ [x]) ↔
        (y ∈ g.keys ∧ ((∀ p, Edge g p y → p ∈ vs) ∨ (y ∈ done ++ cs ∧ ∀ p, Edge g p y → p ∈ vs ++ [x])))) ∧
      ∀ c p, p ∈ (ex' c).getD [] ↔ (Edge g p c ∧ p ∈ vs) ∨ (c ∈ done ++ cs ∧ p = x) := by
  induction cs with
  | nil =>
    intro done roots ex _ _ h1 h2 h3
    exact ⟨roots, ex, rfl, h1, by simpa using h2, by simpa using h3⟩
  | cons c cs ih =>
    intro done roots ex hE hnd h1 h2 h3
    have hxc := hE c (by simp)
    have hck := (hg.edge_keys hxc).2
    obtain ⟨b, hb, hbf⟩ := hasParents_ok hg (ex := exclude ex x c) hck
    have hcd : c ∉ done := by
      rw [List.nodup_append] at hnd
      exact fun h => hnd.2.2 c h c (by simp) rfl
    have h3' : ∀ d p, p ∈ (exclude ex x c d).getD [] ↔ (Edge g p d ∧ p ∈ vs) ∨ (d ∈ done ++ [c] ∧ p = x) := by
      intro d p
      rw [mem_exclude, h3, List.mem_append, List.mem_singleton]
      tauto
    -- the child is not yet among the roots
    have hnew : c ∉ roots ∧ c ∉ vs ++ [x] := by
      have : ¬ (c ∈ roots ∨ c ∈ vs ++ [x]) := by
        rw [h2]
        rintro ⟨_, h | ⟨h, _⟩⟩
        · exact hxv (h x hxc)
        · exact hcd h
      exact not_or.1 this
    have hbf' : b = false ↔ ∀ p, Edge g p c → p ∈ vs ++ [x] := by
      rw [hbf]
      constructor
      · intro h p hp
        have := (h3' c p).1 (h p hp)
        rcases this with ⟨_, h⟩ | ⟨_, rfl⟩ <;> simp_all
      · intro h p hp
        rw [h3']
        have := h p hp
        rw [List.mem_append, List.mem_singleton] at this
        rcases this with h | h
        · exact Or.inl ⟨hp, h⟩
        · exact Or.inr ⟨by simp, h⟩
    rw [children]
    rw [hb]
    simp only [pure_bind]
    have hnd' : ((done ++ [c]) ++ cs).Nodup := by simpa using hnd
    obtain ⟨roots', ex', e, r1, r2, r3⟩ := ih (done ++ [c]) (if b = true then roots else c :: roots) (exclude ex x c)
      (fun d hd => hE d (List.mem_cons_of_mem _ hd)) hnd' (by
        cases b with
        | true => exact h1
        | false =>
          rw [if_neg (by decide), List.cons_append, List.nodup_cons, List.mem_append]
          exact ⟨not_or.2 hnew, h1⟩) (by
        intro y
        cases b with
        | true =>
          rw [if_pos rfl, h2]
          constructor
          · rintro ⟨hy, h | ⟨h, h'⟩⟩
            · exact ⟨hy, Or.inl h⟩
            · exact ⟨hy, Or.inr ⟨by simp [h], h'⟩⟩
          · rintro ⟨hy, h | ⟨h, h'⟩⟩
            · exact ⟨hy, Or.inl h⟩
            · rw [List.mem_append, List.mem_singleton] at h
              rcases h with h | rfl
              · exact ⟨hy, Or.inr ⟨h, h'⟩⟩
              · have := hbf'.2 h'
                simp at this
        | false =>
          have hc := hbf'.1 rfl
          rw [if_neg (by decide), List.mem_cons, or_assoc, h2]
          constructor
          · rintro (rfl | ⟨hy, h | ⟨h, h'⟩⟩)
            · exact ⟨hck, Or.inr ⟨by simp, hc⟩⟩
            · exact ⟨hy, Or.inl h⟩
            · exact ⟨hy, Or.inr ⟨by simp [h], h'⟩⟩
          · rintro ⟨hy, h | ⟨h, h'⟩⟩
            · exact Or.inr ⟨hy, Or.inl h⟩
            · rw [List.mem_append, List.mem_singleton] at h
              rcases h with h | rfl
              · exact Or.inr ⟨hy, Or.inr ⟨h, h'⟩⟩
              · exact Or.inl rfl) h3'
    refine ⟨roots', ex', e, r1, ?_, ?_⟩
    · simpa using r2
    · simpa using r3

theorem walk_ok {g : Graph τ} (hg : Consistent g) {ordR ordC : List Nat → List Nat} (hR : ∀ l, (ordR l).Perm l) (hC : ∀ l, (ordC l).Perm l)
    (k : Nat) : ∀ (roots : List Nat) (ex : Excl) (vs : List Nat), W g roots ex vs → g.keys.length - vs.length = k →
    ∃ l ex', walk g ordR ordC roots ex = pure l ∧ W g [] ex' (vs ++ l) := by
  induction k using Nat.strongRecOn with
  | _ k ih =>
    intro roots ex vs hw hk
    cases roots with
    | nil =>
      rw [walk]
      exact ⟨[], ex, rfl, by simpa using hw⟩
    | cons x rs =>
      rw [walk]
      have hxk : x ∈ g.keys := ((hw.mem x).1 (Or.inl (by simp))).1
      obtain ⟨n, hn, hnode⟩ := hg.node hxk
      rw [hnode]
      simp only [pure_bind]
      rw [getChildren_ok hg n.out (fun c hc => hg.ends x n hn c (Or.inl hc))]
      simp only [pure_bind]
      have hnd := hw.nodup
      rw [List.cons_append, List.nodup_cons, List.mem_append, not_or] at hnd
      have hxv := hnd.1.2
      have hnd1 : (rs ++ (vs ++ [x])).Nodup := by
        rw [← List.append_assoc]
        rw [List.nodup_append]
        refine ⟨hnd.2, by simp, ?_⟩
        intro a ha b hb
        rw [List.mem_singleton] at hb
        subst hb
        rintro rfl
        rcases List.mem_append.1 ha with h | h
        · exact hnd.1.1 h
        · exact hnd.1.2 h
      have hperm := hC n.out
      obtain ⟨roots', ex', e, r1, r2, r3⟩ := children_ok hg hxv (ordC n.out) [] rs ex
        (fun c hc => ⟨n, hn, hperm.mem_iff.1 hc⟩) (by simpa using hperm.nodup_iff.2 (hg.lists x n hn).1) hnd1 (by
          intro y
          have := hw.mem y
          rw [List.mem_cons] at this
          rw [List.mem_append, List.mem_singleton]
          constructor
          · intro h
            have h' := this.1 (by tauto)
            exact ⟨h'.1, Or.inl h'.2⟩
          · rintro ⟨hy, h | ⟨h, _⟩⟩
            · have := this.2 ⟨hy, h⟩
              tauto
            · simp at h) (by
          intro c p
          rw [hw.excl]
          simp)
      rw [e]
      simp only [pure_bind]
      have hxn : ∀ y, Edge g x y ↔ y ∈ ordC n.out := by
        intro y
        rw [hperm.mem_iff]
        constructor
        · rintro ⟨m, hm, hy⟩
          rw [hn] at hm
          injection hm with hm
          subst hm
          exact hy
        · intro hy
          exact ⟨n, hn, hy⟩
      have hW : W g (ordR roots') ex' (vs ++ [x]) := by
        refine ⟨((hR roots').append_right _).nodup_iff.2 r1, ?_, ?_, ?_⟩
        · intro y
          rw [(hR roots').mem_iff, r2]
          constructor
          · rintro ⟨hy, h | ⟨_, h⟩⟩
            · exact ⟨hy, fun p hp => List.mem_append_left _ (h p hp)⟩
            · exact ⟨hy, h⟩
          · rintro ⟨hy, h⟩
            refine ⟨hy, ?_⟩
            by_cases hxy : Edge g x y
            · exact Or.inr ⟨by simpa using (hxn y).1 hxy, h⟩
            · left
              intro p hp
              have := h p hp
              rw [List.mem_append, List.mem_singleton] at this
              rcases this with h | rfl
              · exact h
              · exact absurd hp hxy
        · intro c p
          rw [r3, List.nil_append, ← hxn, List.mem_append, List.mem_singleton]
          constructor
          · rintro (⟨h1, h2⟩ | ⟨h1, rfl⟩)
            · exact ⟨h1, Or.inl h2⟩
            · exact ⟨h1, Or.inr rfl⟩
          · rintro ⟨h1, h2 | rfl⟩
            · exact Or.inl ⟨h1, h2⟩
            · exact Or.inr ⟨h1, rfl⟩
        · intro a y b hab p hp
          rcases List.eq_nil_or_concat b with rfl | ⟨b', z, rfl⟩
          · have := List.append_inj' hab rfl
            obtain ⟨rfl, hxy⟩ := this
            injection hxy with hxy
            subst hxy
            exact ((hw.mem x).1 (Or.inl (by simp))).2 p hp
          · rw [List.concat_eq_append, ← List.cons_append, ← List.append_assoc] at hab
            have := List.append_inj' hab rfl
            exact hw.order a y b' this.1 p hp
      have hlen : vs.length < g.keys.length := by
        have hsub : (x :: vs) ⊆ g.keys := by
          intro y hy
          rcases List.mem_cons.1 hy with rfl | hy
          · exact hxk
          · exact ((hw.mem y).1 (Or.inr hy)).1
        have hnd2 : (x :: vs).Nodup := List.nodup_cons.2 ⟨hxv, (List.nodup_append.1 hnd.2).2.1⟩
        exact (List.subperm_of_subset hnd2 hsub).length_le
      obtain ⟨l, ex'', e2, hW2⟩ := ih (g.keys.length - (vs ++ [x]).length) (by simp; omega) (ordR roots') ex' (vs ++ [x]) hW rfl
      rw [e2]
      refine ⟨x :: l, ex'', rfl, ?_⟩
      simpa using hW2

theorem findNodes_consistent {g : Graph τ} (hg : Consistent g) (p : Node τ → Bool) (ks : List Nat) (hks : ∀ k ∈ ks, k ∈ g.keys)
    (hnd : ks.Nodup) : ∃ l, findNodes g p ks = pure l ∧ l.Nodup ∧ ∀ x, x ∈ l ↔ x ∈ ks ∧ ∃ n, g.nodes x = some n ∧ p n = true := by
  induction ks with
  | nil => exact ⟨[], rfl, List.nodup_nil, fun x => by simp⟩
  | cons k ks ih =>
    rw [List.nodup_cons] at hnd
    obtain ⟨l, e, h1, h2⟩ := ih (fun k hk => hks k (List.mem_cons_of_mem _ hk)) hnd.2
    obtain ⟨n, hn, hnode⟩ := hg.node (hks k (by simp))
    refine ⟨if p n then k :: l else l, ?_, ?_, fun x => ?_⟩
    · rw [findNodes, hnode]
      simp only [pure_bind]
      rw [e]
      rfl
    · split
      · rw [List.nodup_cons]
        exact ⟨fun hc => hnd.1 ((h2 k).1 hc).1, h1⟩
      · exact h1
    · by_cases hx : x = k
      · subst hx
        by_cases hp : p n = true
        · rw [if_pos hp]
          simp [hn, hp]
        · rw [if_neg hp, h2]
          simp [hn, hp]
      · have hl : x ∈ (if p n = true then k :: l else l) ↔ x ∈ l := by
          split
          · rw [List.mem_cons]; simp [hx]
          · rfl
        rw [hl, h2, List.mem_cons]
        simp [hx]

/-- The roots of a consistent graph. -/
theorem findRoots_ok {g : Graph τ} (hg : Consistent g) :
    ∃ l, findRoots g = pure l ∧ l.Nodup ∧ ∀ x, x ∈ l ↔ x ∈ g.keys ∧ ∀ p, ¬ Edge g p x := by
  obtain ⟨l, e, h1, h2⟩ := findNodes_consistent hg (fun n => n.inc.isEmpty) g.keys (fun _ h => h) hg.nodup
  refine ⟨l, e, h1, fun x => ?_⟩
  rw [h2]
  constructor
  · rintro ⟨hx, n, hn, he⟩
    refine ⟨hx, fun p hp => ?_⟩
    have := (hg.inc hn p).2 hp
    rw [List.isEmpty_iff] at he
    rw [he] at this
    simp at this
  · rintro ⟨hx, h⟩
    obtain ⟨n, hn⟩ := (hg.here x).1 hx
    refine ⟨hx, n, hn, ?_⟩
    rw [List.isEmpty_iff, List.eq_nil_iff_forall_not_mem]
    intro p hp
    exact h p ((hg.inc hn p).1 hp)

/-- The walk ends on every graph; it visits no node twice, no node before any of its predecessors, and exactly the nodes that no
cycle leads to: on a graph without cycles every node. -/
theorem C54_walk (g : Graph τ) (hg : Consistent g) (ordR ordC : List Nat → List Nat) (hR : ∀ l, (ordR l).Perm l)
    (hC : ∀ l, (ordC l).Perm l) :
    ∃ l, topological g ordR ordC = pure l ∧ l.Nodup ∧ (∀ a x b, l = a ++ x :: b → ∀ p, Edge g p x → p ∈ a) ∧
      ∀ x, x ∈ l ↔ x ∈ g.keys ∧ ¬ ∃ c, Relation.TransGen (Edge g) c c ∧ Relation.ReflTransGen (Edge g) c x := by
  obtain ⟨roots, e, h1, h2⟩ := findRoots_ok hg
  have hp : (ordR roots.reverse).Perm roots := (hR _).trans (List.reverse_perm _)
  obtain ⟨l, ex, e2, hW⟩ := walk_ok hg hR hC _ (ordR roots.reverse) (fun _ => none) [] (by
    refine ⟨by simpa using hp.nodup_iff.2 h1, fun x => ?_, fun c p => by simp, fun a x b h => by simp at h⟩
    rw [hp.mem_iff, h2]
    simp) rfl
  rw [List.nil_append] at hW
  refine ⟨l, ?_, by simpa using hW.nodup, hW.order, fun x => ?_⟩
  · unfold topological
    rw [e]
    simp only [pure_bind]
    rw [getChildren_ok hg roots (fun c hc => ((h2 c).1 hc).1)]
    exact e2
  · have hmem : ∀ y, y ∈ l ↔ y ∈ g.keys ∧ ∀ p, Edge g p y → p ∈ l := fun y => by simpa using hW.mem y
    constructor
    · intro hx
      refine ⟨((hmem x).1 hx).1, ?_⟩
      rintro ⟨c, hcc, hcx⟩
      -- everything before a visited node was visited, and earlier
      have hback : ∀ y, y ∈ l → ∀ z, Relation.ReflTransGen (Edge g) z y → z ∈ l := by
        intro y hy z hz
        induction hz with
        | refl => exact hy
        | tail _ h ih => exact ih (((hmem _).1 hy).2 _ h)
      have hc := hback x hx c hcx
      -- position decreases along edges
      have hpos : ∀ y z, y ∈ l → Relation.TransGen (Edge g) z y → ∀ a b, l = a ++ y :: b → z ∈ a := by
        intro y z hy hz
        induction hz with
        | single h => intro a b hab; exact hW.order a _ b hab z h
        | tail _ h ih =>
          intro a b hab
          have hm := hW.order a _ b hab _ h
          obtain ⟨a1, a2, rfl⟩ := List.append_of_mem hm
          have := ih (by rw [hab]; simp) a1 (a2 ++ _ :: b) (by rw [hab]; simp; rfl)
          simp [this]
      obtain ⟨a, b, hab⟩ := List.append_of_mem hc
      have := hpos c c hc hcc a b hab
      have hnd : l.Nodup := by simpa using hW.nodup
      rw [hab, List.nodup_append] at hnd
      exact hnd.2.2 c this c (by simp) rfl
    · rintro ⟨hx, hno⟩
      -- the nodes that lead to x, without cycles
      let S := {y : Nat // y ∈ g.keys ∧ Relation.ReflTransGen (Edge g) y x}
      have hfin : Finite S := Finite.of_injective (fun s : S => (⟨s.1, s.2.1⟩ : {y // y ∈ g.keys})) (fun a b h => by
        apply Subtype.ext
        have h : (⟨a.1, a.2.1⟩ : {y // y ∈ g.keys}) = ⟨b.1, b.2.1⟩ := h
        injection h)
      let r : S → S → Prop := fun a b => Relation.TransGen (Edge g) a.1 b.1
      have : IsTrans S r := ⟨fun a b c h1 h2 => Relation.TransGen.trans h1 h2⟩
      have : Std.Irrefl r := ⟨fun a h => hno ⟨a.1, h, a.2.2⟩⟩
      have hwf : WellFounded r := Finite.wellFounded_of_trans_of_irrefl r
      have : ∀ s : S, s.1 ∈ l := by
        intro s
        induction s using hwf.induction with
        | _ s ih =>
          rw [hmem]
          refine ⟨s.2.1, fun p hp => ?_⟩
          exact ih ⟨p, (hg.edge_keys hp).1, Relation.ReflTransGen.head hp s.2.2⟩ (Relation.TransGen.single hp)
      exact this ⟨x, hx, Relation.ReflTransGen.refl⟩

/-- Graphs with a diamond, with a cycle and what hangs from it. -/
example : ∃ g : Graph Nat, Consistent g ∧ Edge g 0 1 ∧ Edge g 0 2 ∧ Edge g 1 3 ∧ Edge g 2 3 ∧ Edge g 4 4 ∧ Edge g 4 3 := by
  obtain ⟨g, rs, h, hg⟩ : ∃ g rs, run (empty : Graph Nat) [.addNode 7, .addNode 8, .addNode 9, .addNode 7, .addNode 1, .addDirected 0 1,
    .addDirected 0 2, .addDirected 1 3, .addDirected 2 3, .addDirected 4 4, .addDirected 4 3] = pure (g, rs) ∧
    (Edge g 0 1 ∧ Edge g 0 2 ∧ Edge g 1 3 ∧ Edge g 2 3 ∧ Edge g 4 4 ∧ Edge g 4 3) :=
    ⟨_, _, rfl, ⟨_, rfl, by decide⟩, ⟨_, rfl, by decide⟩, ⟨_, rfl, by decide⟩, ⟨_, rfl, by decide⟩, ⟨_, rfl, by decide⟩, ⟨_, rfl, by decide⟩⟩
  exact ⟨g, run_consistent _ g rs h, hg⟩

/-- `reverse_topological_sorted_walk`, daw_graph_algorithm.h 491-529: the nodes visited. -/
def reverseTopological (g : Graph τ) (ordR ordC : List Nat → List Nat) : Cxx (List Nat) := do
  let l ← topological g ordR ordC
  getChildren g l.reverse

/-- The reverse walk ends on every graph; it visits no node twice, no node before any of its successors that it visits, and exactly
the nodes that no cycle leads to. -/
theorem C54_reverse (g : Graph τ) (hg : Consistent g) (ordR ordC : List Nat → List Nat) (hR : ∀ l, (ordR l).Perm l)
    (hC : ∀ l, (ordC l).Perm l) :
    ∃ l, reverseTopological g ordR ordC = pure l ∧ l.Nodup ∧ (∀ a x b, l = a ++ x :: b → ∀ y ∈ l, Edge g x y → y ∈ a) ∧
      ∀ x, x ∈ l ↔ x ∈ g.keys ∧ ¬ ∃ c, Relation.TransGen (Edge g) c c ∧ Relation.ReflTransGen (Edge g) c x := by
  obtain ⟨l, e, h1, h2, h3⟩ := C54_walk g hg ordR ordC hR hC
  refine ⟨l.reverse, ?_, List.nodup_reverse.2 h1, ?_, fun x => by rw [List.mem_reverse, h3]⟩
  · unfold reverseTopological
    rw [e]
    simp only [pure_bind]
    exact getChildren_ok hg _ (fun c hc => ((h3 c).1 (List.mem_reverse.1 hc)).1)
  · intro a x b hab y hy hxy
    rw [List.mem_reverse] at hy
    obtain ⟨p, q, hpq⟩ := List.append_of_mem hy
    have hx := h2 p y q hpq x hxy
    -- y comes after x in l
    have hl : l = b.reverse ++ x :: a.reverse := by
      rw [← List.reverse_reverse l, hab]; simp
    have hnd := h1
    rw [hl] at hy
    rcases List.mem_append.1 hy with hb | hb
    · exfalso
      -- y before x as well
      have hyb : y ∈ b.reverse := hb
      obtain ⟨b1, b2, hb12⟩ := List.append_of_mem hyb
      have h5 := h2 b1 y (b2 ++ x :: a.reverse) (by rw [hl, hb12]; simp) x hxy
      rw [hl, hb12] at hnd
      rw [List.append_assoc, List.nodup_append] at hnd
      exact hnd.2.2 x h5 x (by simp) rfl
    · rcases List.mem_cons.1 hb with rfl | hb
      · exfalso
        have h5 := h2 b.reverse y a.reverse hl y hxy
        rw [hl, List.nodup_append] at hnd
        exact hnd.2.2 y h5 y (by simp) rfl
      · exact List.mem_reverse.1 hb

example := C54_reverse _ (run_consistent (τ := Nat) [.addNode 7, .addNode 8, .addNode 9, .addDirected 0 1, .addDirected 2 1, .addDirected 2 2] _ _ rfl) id List.reverse
  (fun _ => .refl _) List.reverse_perm

/-! ### The orders handed to `std::sort` -/

/-- The order of the children in `topological_sorted_walk`, daw_graph_algorithm.h 99-102, and in `dfs_walk`, 182-186. -/
def childOrder {α : Type} (comp : α → α → Bool) : α → α → Bool := fun a b => !comp a b

/-- `std::sort` asks for a strict weak order; the order of the children is none, whatever strict weak order the caller gives. -/
theorem C93_child_order_violated {α : Type} [Inhabited α] (comp : α → α → Bool) (h : StrictWeak comp) : ¬ StrictWeak (childOrder comp) := by
  intro h'
  have h1 := h'.irrefl (default : α)
  have h2 := h.irrefl (default : α)
  simp [childOrder, h2] at h1

example : StrictWeak (fun a b : Nat => decide (a < b)) := strictWeak_nat

/-! ### The ranges -/

/-- `topological_sorted_iterator`, daw_graph_algorithm.h 257-266: the nodes and a position. -/
structure Iter where
  nodes : List Nat
  pos : Int

/-- `topological_sorted_iterator( graph, comp )`, daw_graph_algorithm.h 292-304. -/
def begin_ (g : Graph τ) (ordR ordC : List Nat → List Nat) : Cxx Iter := do
  let l ← topological g ordR ordC
  pure ⟨l, 0⟩

/-- `end( )`, daw_graph_algorithm.h 306-310. -/
def Iter.end_ (i : Iter) : Iter := ⟨i.nodes, i.nodes.length⟩

/-- `operator*`, daw_graph_algorithm.h 328-334: the vector is read at the position. -/
def Iter.deref (i : Iter) : Cxx Nat :=
  if i.pos < 0 then ub
  else match i.nodes[i.pos.toNat]? with
    | some x => pure x
    | none => ub

/-- `operator++`, daw_graph_algorithm.h 344-347. -/
def Iter.next (i : Iter) : Cxx Iter := if i.pos < i.nodes.length then pure ⟨i.nodes, i.pos + 1⟩ else ub

/-- `operator--`, daw_graph_algorithm.h 355-358. -/
def Iter.prev (i : Iter) : Cxx Iter := if 0 < i.pos then pure ⟨i.nodes, i.pos - 1⟩ else ub

/-- `std::reverse_iterator::operator*` over such an iterator. (Rule of C++ or its library, no line of the source.) -/
def Iter.rderef (i : Iter) : Cxx Nat := do
  let j ← i.prev
  j.deref

/-- What a loop `for( ; it != last; ++it )` reads with the forward iterators of `make_topological_sorted_range`,
daw_graph_algorithm.h 412-449; the fuel is the number of steps allowed. -/
def forward : Nat → Iter → Iter → Cxx (List Nat)
  | 0, _, _ => pure []
  | k + 1, i, e =>
    if i.pos = e.pos then pure []
    else do
      let x ← i.deref
      let i ← i.next
      let r ← forward k i e
      pure (x :: r)

/-- What a loop `for( ; it != last; ++it )` reads with `begin( ) = reverse_iterator( first )`, `end( ) = reverse_iterator( last )`:
`make_reverse_topological_sorted_range`, daw_graph_algorithm.h 451-489, and `rbegin( )`, `rend( )` of the forward range. -/
def reversed : Nat → Iter → Iter → Cxx (List Nat)
  | 0, _, _ => pure []
  | k + 1, i, e =>
    if i.pos = e.pos then pure []
    else do
      let x ← i.rderef
      let i ← i.prev
      let r ← reversed k i e
      pure (x :: r)

/-- Iterating over the reverse range is undefined on every graph that has anything to visit: the first step leaves the vector at its
front. -/
theorem C94_reverse_range_violated (g : Graph τ) (hg : Consistent g) (ordR ordC : List Nat → List Nat) (hR : ∀ l, (ordR l).Perm l)
    (hC : ∀ l, (ordC l).Perm l) (x : Nat) (hx : x ∈ g.keys) (hroot : ∀ p, ¬ Edge g p x) :
    ∃ i, begin_ g ordR ordC = pure i ∧ ∀ k, reversed (k + 1) i i.end_ = ub := by
  obtain ⟨l, e, _, _, h3⟩ := C54_walk g hg ordR ordC hR hC
  refine ⟨⟨l, 0⟩, by unfold begin_; rw [e]; rfl, fun k => ?_⟩
  have hl : x ∈ l := by
    rw [h3]
    refine ⟨hx, ?_⟩
    rintro ⟨c, h1, h2⟩
    rcases Relation.ReflTransGen.cases_tail h2 with rfl | ⟨p, _, hp⟩
    · obtain ⟨p, _, hp⟩ := (Relation.TransGen.tail'_iff).1 h1
      exact hroot p hp
    · exact hroot p hp
  have hpos : 0 < l.length := List.length_pos_of_mem hl
  rw [reversed]
  rw [if_neg (by show ¬ (0 : Int) = l.length; omega)]
  rfl

theorem forward_ok (l : List Nat) : ∀ (k n : Nat), n ≤ l.length → l.length < k + n → forward k ⟨l, n⟩ ⟨l, l.length⟩ = pure (l.drop n) := by
  intro k
  induction k with
  | zero => intro n h1 h2; omega
  | succ k ih =>
    intro n h1 h2
    rw [forward]
    by_cases hn : n = l.length
    · rw [if_pos (by show (n : Int) = l.length; omega), hn, List.drop_length]
    · rw [if_neg (by show ¬ (n : Int) = l.length; omega)]
      have hlt : n < l.length := by omega
      have hd : Iter.deref ⟨l, n⟩ = pure l[n] := by
        unfold Iter.deref
        rw [if_neg (by show ¬ (n : Int) < 0; omega)]
        show (match l[(n : Int).toNat]? with | some x => pure x | none => ub) = _
        rw [Int.toNat_natCast, List.getElem?_eq_getElem hlt]
      have hnx : Iter.next ⟨l, n⟩ = pure ⟨l, ((n + 1 : Nat) : Int)⟩ := by
        unfold Iter.next
        rw [if_pos (by show (n : Int) < l.length; omega)]
        rfl
      rw [hd]
      simp only [pure_bind]
      rw [hnx]
      simp only [pure_bind]
      rw [ih (n + 1) (by omega) (by omega)]
      simp only [pure_bind]
      rw [List.drop_eq_getElem_cons hlt]

/-- Iterating over the forward range reads the nodes of the walk in order; missing is the reverse range. -/
theorem C94_forward_range_partial (g : Graph τ) (hg : Consistent g) (ordR ordC : List Nat → List Nat) (hR : ∀ l, (ordR l).Perm l)
    (hC : ∀ l, (ordC l).Perm l) :
    ∃ l i, topological g ordR ordC = pure l ∧ begin_ g ordR ordC = pure i ∧ ∀ k, l.length < k → forward k i i.end_ = pure l := by
  obtain ⟨l, e, _, _, _⟩ := C54_walk g hg ordR ordC hR hC
  refine ⟨l, ⟨l, 0⟩, e, by unfold begin_; rw [e]; rfl, fun k hk => ?_⟩
  exact forward_ok l k 0 (by omega) (by omega)

example := C94_forward_range_partial _ (run_consistent (τ := Nat) [.addNode 7, .addNode 8, .addNode 9, .addDirected 0 1, .addDirected 2 1, .addDirected 2 2] _ _ rfl) id
  List.reverse (fun _ => .refl _) List.reverse_perm

/-- **C94 (backwards).**  An iterator at position `n` taken back to the first one, reading as a `std::reverse_iterator` does, gives the nodes before it from the last
to the first; the ranges of `C94_reverse_range_violated` only lack the exchange of their ends. -/
theorem C94_backward (l : List Nat) : ∀ (n k : Nat), n ≤ l.length → n < k → reversed k ⟨l, n⟩ ⟨l, 0⟩ = pure (l.take n).reverse
  | 0, k + 1, _, _ => by rw [reversed, if_pos (by rfl)]; rfl
  | n + 1, k + 1, h1, h2 => by
    have hlt : n < l.length := by omega
    have hp : Iter.prev ⟨l, ((n + 1 : Nat) : Int)⟩ = pure ⟨l, (n : Int)⟩ := by
      unfold Iter.prev
      rw [if_pos (by show (0 : Int) < (n + 1 : Nat); omega)]
      show pure (⟨l, ((n + 1 : Nat) : Int) - 1⟩ : Iter) = _
      rw [show ((n + 1 : Nat) : Int) - 1 = n by omega]
    have hd : Iter.deref ⟨l, n⟩ = pure l[n] := by
      unfold Iter.deref
      rw [if_neg (by show ¬ (n : Int) < 0; omega)]
      show (match l[(n : Int).toNat]? with | some x => pure x | none => ub) = _
      rw [Int.toNat_natCast, List.getElem?_eq_getElem hlt]
    rw [reversed, if_neg (by show ¬ ((n + 1 : Nat) : Int) = 0; omega)]
    unfold Iter.rderef
    rw [hp]
    simp only [pure_bind]
    rw [hd, pure_bind, C94_backward l n k (by omega) (by omega), pure_bind, List.take_succ_eq_append_getElem hlt, List.reverse_append]
    rfl

example : reversed 4 (Iter.end_ ⟨[7, 8, 9], 0⟩) ⟨[7, 8, 9], 0⟩ = pure [9, 8, 7] := C94_backward [7, 8, 9] 3 4 (by decide) (by decide)

end Verif.Graph
