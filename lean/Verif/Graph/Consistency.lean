import Verif.Graph.Model
import Mathlib.Data.List.Nodup

/-
Every history of calls of `graph_t` is a history of a mathematical directed graph.
-/

namespace Verif.Graph
open Cxx

variable {τ : Type}

/-! ### The mathematical graph -/

/-- A directed graph with numbered nodes. (Specification, no line of the source.) -/
structure Abs (τ : Type) where
  /-- the next number -/
  next : Nat
  /-- the nodes -/
  V : List Nat
  /-- what the nodes hold -/
  val : Nat → Option τ
  /-- the edges -/
  E : Nat → Nat → Prop

/-- The graph without nodes. (Specification, no line of the source.) -/
def Abs.empty : Abs τ := ⟨0, [], fun _ => none, fun _ _ => False⟩

open Classical in
/-- A call on the mathematical graph; nothing if the call is not allowed. (Specification, no line of the source.) -/
noncomputable def Abs.step (a : Abs τ) : Op τ → Option (Abs τ × Option Nat)
  | .addNode v => if a.next = 2 ^ 64 - 1 then none
    else some (⟨a.next + 1, a.next :: a.V, fun x => if x = a.next then some v else a.val x, a.E⟩, some a.next)
  | .removeNode id => if id ∈ a.V then
      some (⟨a.next, a.V.erase id, fun x => if x = id then none else a.val x, fun x y => a.E x y ∧ x ≠ id ∧ y ≠ id⟩, none) else none
  | .addDirected s t => if s ∈ a.V ∧ t ∈ a.V then some ({ a with E := fun x y => a.E x y ∨ (x = s ∧ y = t) }, none) else none
  | .addUndirected s t => if s ∈ a.V ∧ t ∈ a.V then
      some ({ a with E := fun x y => a.E x y ∨ (x = s ∧ y = t) ∨ (x = t ∧ y = s) }, none) else none
  | .removeDirected s t => if s ∈ a.V ∧ t ∈ a.V then some ({ a with E := fun x y => a.E x y ∧ ¬ (x = s ∧ y = t) }, none) else none
  | .removeEdges s t => if s ∈ a.V ∧ t ∈ a.V then
      some ({ a with E := fun x y => a.E x y ∧ ¬ (x = s ∧ y = t) ∧ ¬ (x = t ∧ y = s) }, none) else none
  | .size => some (a, some a.V.length)
  | .hasNode id => if id = 2 ^ 64 - 1 then none else some (a, some (if id ∈ a.V then 1 else 0))

/-- A history on the mathematical graph. (Specification, no line of the source.) -/
noncomputable def Abs.run (a : Abs τ) : List (Op τ) → Option (Abs τ × List (Option Nat))
  | [] => some (a, [])
  | o :: os =>
    match a.step o with
    | none => none
    | some (a, r) =>
      match a.run os with
      | none => none
      | some (a, rs) => some (a, r :: rs)

/-- The graph of the program is this mathematical graph. (Specification, no line of the source.) -/
structure Is (g : Graph τ) (a : Abs τ) : Prop where
  cur : g.cur = a.next
  bound : a.next ≤ noId
  keys : g.keys = a.V
  nodup : a.V.Nodup
  old : ∀ x ∈ a.V, x < a.next
  here : ∀ x, x ∈ a.V ↔ ∃ n, g.nodes x = some n
  value : ∀ x n, g.nodes x = some n → a.val x = some n.value
  gone : ∀ x, x ∉ a.V → a.val x = none
  outs : ∀ x n, g.nodes x = some n → n.out.Nodup ∧ ∀ y, y ∈ n.out ↔ a.E x y
  incs : ∀ x n, g.nodes x = some n → n.inc.Nodup ∧ ∀ y, y ∈ n.inc ↔ a.E y x
  ends : ∀ x y, a.E x y → x ∈ a.V ∧ y ∈ a.V

theorem empty_is : Is (empty : Graph τ) Abs.empty where
  cur := rfl
  bound := Nat.zero_le _
  keys := rfl
  nodup := List.nodup_nil
  old := by intro x hx; simp [Abs.empty] at hx
  here := by intro x; simp [Abs.empty, empty]
  value := by intro x n h; simp [empty] at h
  gone := fun _ _ => rfl
  outs := by intro x n h; simp [empty] at h
  incs := by intro x n h; simp [empty] at h
  ends := by intro x y h; exact h.elim

theorem upd_nodes (g : Graph τ) (id : Nat) (f : Node τ → Node τ) (x : Nat) :
    (upd g id f).nodes x = (g.nodes x).map (fun n => if x = id then f n else n) := by
  unfold upd
  by_cases h : x = id
  · simp [h]
  · simp [h]

theorem mem_sinsert {x y : Nat} {l : List Nat} : y ∈ sinsert x l ↔ y ∈ l ∨ y = x := by
  unfold sinsert
  by_cases h : x ∈ l
  · rw [if_pos h]
    constructor
    · exact Or.inl
    · rintro (h' | rfl)
      · exact h'
      · exact h
  · rw [if_neg h, List.mem_cons]
    exact Or.comm

theorem nodup_sinsert {x : Nat} {l : List Nat} (h : l.Nodup) : (sinsert x l).Nodup := by
  unfold sinsert
  by_cases hx : x ∈ l
  · rw [if_pos hx]; exact h
  · rw [if_neg hx]; exact List.nodup_cons.2 ⟨hx, h⟩

/-- Changing only edges. -/
theorem Is.edges {g g' : Graph τ} {a : Abs τ} (h : Is g a) (hc : g'.cur = g.cur) (hk : g'.keys = g.keys) (E : Nat → Nat → Prop)
    (F : Nat → Node τ → Node τ) (hn : ∀ x, g'.nodes x = (g.nodes x).map (F x)) (hv : ∀ x n, (F x n).value = n.value)
    (ho : ∀ x n, n.out.Nodup → (∀ y, y ∈ n.out ↔ a.E x y) → (F x n).out.Nodup ∧ ∀ y, y ∈ (F x n).out ↔ E x y)
    (hi : ∀ x n, n.inc.Nodup → (∀ y, y ∈ n.inc ↔ a.E y x) → (F x n).inc.Nodup ∧ ∀ y, y ∈ (F x n).inc ↔ E y x)
    (he : ∀ x y, E x y → x ∈ a.V ∧ y ∈ a.V) : Is g' { a with E := E } where
  cur := hc.trans h.cur
  bound := h.bound
  keys := hk.trans h.keys
  nodup := h.nodup
  old := h.old
  here := by
    intro x
    rw [hn]
    show x ∈ a.V ↔ _
    rw [h.here x]
    constructor
    · rintro ⟨n, hx⟩; exact ⟨F x n, by rw [hx]; rfl⟩
    · rintro ⟨n, hx⟩
      obtain ⟨m, hm, _⟩ := Option.map_eq_some_iff.1 hx
      exact ⟨m, hm⟩
  value := by
    intro x n hx
    rw [hn] at hx
    obtain ⟨m, hm, rfl⟩ := Option.map_eq_some_iff.1 hx
    rw [hv]
    exact h.value x m hm
  gone := h.gone
  outs := by
    intro x n hx
    rw [hn] at hx
    obtain ⟨m, hm, rfl⟩ := Option.map_eq_some_iff.1 hx
    exact ho x m (h.outs x m hm).1 (h.outs x m hm).2
  incs := by
    intro x n hx
    rw [hn] at hx
    obtain ⟨m, hm, rfl⟩ := Option.map_eq_some_iff.1 hx
    exact hi x m (h.incs x m hm).1 (h.incs x m hm).2
  ends := he

theorem Is.ne_noId {g : Graph τ} {a : Abs τ} (h : Is g a) {x : Nat} (hx : x ∈ a.V) : x ≠ noId := by
  have := h.old x hx
  have := h.bound
  omega

theorem Is.check {g : Graph τ} {a : Abs τ} (h : Is g a) (x : Nat) : (x ∈ a.V → check g x = pure ()) ∧ (x ∉ a.V → check g x = abort) := by
  unfold Graph.check hasNode
  constructor
  · intro hx
    obtain ⟨n, hn⟩ := (h.here x).1 hx
    rw [if_neg (h.ne_noId hx)]
    simp [hn]
  · intro hx
    by_cases hid : x = noId
    · rw [if_pos hid]; rfl
    · rw [if_neg hid]
      have : g.nodes x = none := by
        cases hc : g.nodes x with
        | none => rfl
        | some n => exact absurd ((h.here x).2 ⟨n, hc⟩) hx
      simp [this]

theorem Is.node {g : Graph τ} {a : Abs τ} (h : Is g a) {x : Nat} (hx : x ∈ a.V) : ∃ n, g.nodes x = some n ∧ node g x = pure n := by
  obtain ⟨n, hn⟩ := (h.here x).1 hx
  refine ⟨n, hn, ?_⟩
  unfold Graph.node
  rw [(h.check x).1 hx]
  simp only [pure_bind]
  rw [hn]

/-- Two nodes are checked first. -/
theorem check2 {g : Graph τ} {a : Abs τ} (h : Is g a) (s t : Nat) (k : Cxx (Graph τ)) :
    (do Graph.check g s; Graph.check g t; k) = if s ∈ a.V ∧ t ∈ a.V then k else abort := by
  by_cases hs : s ∈ a.V
  · rw [(h.check s).1 hs]
    simp only [pure_bind]
    by_cases ht : t ∈ a.V
    · rw [(h.check t).1 ht, if_pos ⟨hs, ht⟩]
      rfl
    · rw [(h.check t).2 ht, if_neg (fun hc => ht hc.2)]
      rfl
  · rw [(h.check s).2 hs, if_neg (fun hc => hs hc.1)]
    rfl

/-- The graph after the loops of `remove_node`. -/
theorem dropOut_ok (id : Nat) (ns : List Nat) : ∀ g : Graph τ, ns.Nodup → (∀ x ∈ ns, check g x = pure ()) →
    ∃ g', dropOut id ns g = pure g' ∧ g'.cur = g.cur ∧ g'.keys = g.keys ∧
      ∀ x, g'.nodes x = (g.nodes x).map (fun n => if x ∈ ns then delOut id n else n) := by
  induction ns with
  | nil => intro g _ _; exact ⟨g, rfl, rfl, rfl, fun x => by simp⟩
  | cons n ns ih =>
    intro g hnd hc
    rw [List.nodup_cons] at hnd
    have hcheck : ∀ x, check (upd g n (delOut id)) x = check g x := by
      intro x
      unfold check hasNode
      rw [upd_nodes]
      simp
    obtain ⟨g', e, h1, h2, h3⟩ := ih (upd g n (delOut id)) hnd.2 (fun x hx => by rw [hcheck]; exact hc x (List.mem_cons_of_mem _ hx))
    refine ⟨g', ?_, h1, h2, fun x => ?_⟩
    · rw [dropOut, hc n (by simp)]
      exact e
    · rw [h3, upd_nodes, Option.map_map]
      congr 1
      funext m
      by_cases hx : x = n
      · subst hx
        simp [hnd.1]
      · simp [hx]

theorem dropInc_ok (id : Nat) (ns : List Nat) : ∀ g : Graph τ, ns.Nodup → (∀ x ∈ ns, check g x = pure ()) →
    ∃ g', dropInc id ns g = pure g' ∧ g'.cur = g.cur ∧ g'.keys = g.keys ∧
      ∀ x, g'.nodes x = (g.nodes x).map (fun n => if x ∈ ns then delInc id n else n) := by
  induction ns with
  | nil => intro g _ _; exact ⟨g, rfl, rfl, rfl, fun x => by simp⟩
  | cons n ns ih =>
    intro g hnd hc
    rw [List.nodup_cons] at hnd
    have hcheck : ∀ x, check (upd g n (delInc id)) x = check g x := by
      intro x
      unfold check hasNode
      rw [upd_nodes]
      simp
    obtain ⟨g', e, h1, h2, h3⟩ := ih (upd g n (delInc id)) hnd.2 (fun x hx => by rw [hcheck]; exact hc x (List.mem_cons_of_mem _ hx))
    refine ⟨g', ?_, h1, h2, fun x => ?_⟩
    · rw [dropInc, hc n (by simp)]
      exact e
    · rw [h3, upd_nodes, Option.map_map]
      congr 1
      funext m
      by_cases hx : x = n
      · subst hx
        simp [hnd.1]
      · simp [hx]

/-- One call. -/
theorem step_is {g : Graph τ} {a : Abs τ} (h : Is g a) (o : Op τ) :
    (a.step o = none ∧ step g o = abort) ∨ ∃ a' r g', a.step o = some (a', r) ∧ step g o = pure (g', r) ∧ Is g' a' := by
  cases o with
  | addNode v =>
    unfold Abs.step step addNode
    simp only []
    rw [h.cur]
    by_cases hid : a.next = noId
    · left
      rw [if_pos hid]
      exact ⟨if_pos hid, rfl⟩
    · right
      have hfresh : a.next ∉ a.V := fun hc => by have := h.old _ hc; omega
      have hnone : g.nodes a.next = none := by
        cases hc : g.nodes a.next with
        | none => rfl
        | some n => exact absurd ((h.here _).2 ⟨n, hc⟩) hfresh
      have hlt : a.next < noId := by have := h.bound; omega
      refine ⟨_, _, ⟨a.next + 1, a.next :: g.keys, fun x => if x = a.next then some ⟨v, [], []⟩ else g.nodes x⟩, if_neg hid, ?_, ?_⟩
      · rw [if_neg hid, hnone]
        have : (a.next + 1) % 2 ^ 64 = a.next + 1 := Nat.mod_eq_of_lt (by unfold noId at hlt; omega)
        rw [this]
        rfl
      · refine ⟨rfl, hlt, by rw [h.keys], List.nodup_cons.2 ⟨hfresh, h.nodup⟩, ?_, ?_, ?_, ?_, ?_, ?_, ?_⟩
        · intro x hx
          show x < a.next + 1
          rcases List.mem_cons.1 hx with rfl | hx
          · omega
          · have := h.old x hx; omega
        · intro x
          show x ∈ a.next :: a.V ↔ ∃ n, (if x = a.next then some (⟨v, [], []⟩ : Node τ) else g.nodes x) = some n
          by_cases hx : x = a.next
          · simp [hx]
          · rw [List.mem_cons, h.here x]; simp [hx]
        · intro x n hx
          dsimp only at hx ⊢
          by_cases hxn : x = a.next
          · rw [if_pos hxn] at hx ⊢; injection hx with hx; subst hx; rfl
          · rw [if_neg hxn] at hx ⊢; exact h.value x n hx
        · intro x hx
          have hx : x ∉ a.next :: a.V := hx
          rw [List.mem_cons, not_or] at hx
          dsimp only
          rw [if_neg hx.1]; exact h.gone x hx.2
        · intro x n hx
          dsimp only at hx ⊢
          by_cases hxn : x = a.next
          · rw [if_pos hxn] at hx
            injection hx with hx; subst hx
            refine ⟨List.nodup_nil, fun y => ?_⟩
            simp only [List.not_mem_nil, false_iff]
            intro hc
            exact hfresh (hxn ▸ (h.ends x y hc).1)
          · rw [if_neg hxn] at hx
            exact h.outs x n hx
        · intro x n hx
          dsimp only at hx ⊢
          by_cases hxn : x = a.next
          · rw [if_pos hxn] at hx
            injection hx with hx; subst hx
            refine ⟨List.nodup_nil, fun y => ?_⟩
            simp only [List.not_mem_nil, false_iff]
            intro hc
            exact hfresh (hxn ▸ (h.ends y x hc).2)
          · rw [if_neg hxn] at hx
            exact h.incs x n hx
        · intro x y hxy
          have := h.ends x y hxy
          exact ⟨List.mem_cons_of_mem _ this.1, List.mem_cons_of_mem _ this.2⟩
  | removeNode id =>
    unfold Abs.step step removeNode
    simp only []
    by_cases hid : id ∈ a.V
    swap
    · left
      refine ⟨if_neg hid, ?_⟩
      unfold node
      rw [(h.check id).2 hid]
      rfl
    right
    obtain ⟨n, hn, hnode⟩ := h.node hid
    have hinc := h.incs id n hn
    obtain ⟨g1, e1, hc1, hk1, hn1⟩ := dropOut_ok id n.inc g hinc.1 (fun x hx =>
      (h.check x).1 (h.ends x id ((hinc.2 x).1 hx)).1)
    have hnode1 : g1.nodes id = some (if id ∈ n.inc then delOut id n else n) := by rw [hn1, hn]; rfl
    have hcheck1 : ∀ x, Graph.check g1 x = Graph.check g x := by
      intro x
      unfold Graph.check hasNode
      rw [hn1]
      simp
    have hout := h.outs id n hn
    obtain ⟨m, hm⟩ : ∃ m, (if id ∈ n.inc then delOut id n else n) = m := ⟨_, rfl⟩
    have hmo : m.out.Nodup ∧ ∀ y, y ∈ m.out ↔ a.E id y ∧ y ≠ id := by
      rw [← hm]
      by_cases hself : id ∈ n.inc
      · rw [if_pos hself]
        refine ⟨hout.1.erase id, fun y => ?_⟩
        show y ∈ n.out.erase id ↔ _
        rw [hout.1.mem_erase_iff, hout.2 y]
        exact And.comm
      · rw [if_neg hself]
        refine ⟨hout.1, fun y => ?_⟩
        rw [hout.2 y]
        constructor
        · intro hy
          refine ⟨hy, fun hc => hself ?_⟩
          rw [hc] at hy
          exact (hinc.2 id).2 hy
        · exact And.left
    rw [hm] at hnode1
    obtain ⟨g2, e2, hc2, hk2, hn2⟩ := dropInc_ok id m.out g1 hmo.1 (fun x hx => by
      rw [hcheck1]
      exact (h.check x).1 (h.ends id x ((hmo.2 x).1 hx).1).2)
    refine ⟨_, _, ⟨g2.cur, g2.keys.erase id, fun x => if x = id then none else g2.nodes x⟩, if_pos hid, ?_, ?_⟩
    · rw [hnode]
      simp only [pure_bind]
      rw [e1]
      simp only [pure_bind]
      have : Graph.node g1 id = pure m := by
        unfold Graph.node
        rw [hcheck1, (h.check id).1 hid]
        simp only [pure_bind]
        rw [hnode1]
      rw [this]
      simp only [pure_bind]
      rw [e2]
      rfl
    · have hnodes : ∀ x, x ≠ id → g2.nodes x = (g.nodes x).map (fun k =>
          (if x ∈ m.out then delInc id else fun k => k) ((if x ∈ n.inc then delOut id else fun k => k) k)) := by
        intro x _
        rw [hn2, hn1, Option.map_map]
        congr 1
        funext k
        by_cases h1 : x ∈ m.out <;> by_cases h2 : x ∈ n.inc <;> simp [h1, h2]
      refine ⟨by rw [← h.cur, ← hc1, ← hc2], h.bound, by rw [← h.keys, ← hk1, ← hk2], h.nodup.erase id, ?_, ?_, ?_, ?_, ?_, ?_, ?_⟩
      · intro x hx
        exact h.old x (List.mem_of_mem_erase hx)
      · intro x
        show x ∈ a.V.erase id ↔ ∃ k, (if x = id then none else g2.nodes x) = some k
        rw [h.nodup.mem_erase_iff, h.here x]
        by_cases hx : x = id
        · simp [hx]
        · rw [if_neg hx, hnodes x hx]
          constructor
          · rintro ⟨_, k, hk⟩; exact ⟨_, by rw [hk]; rfl⟩
          · rintro ⟨k, hk⟩
            obtain ⟨k', hk', _⟩ := Option.map_eq_some_iff.1 hk
            exact ⟨hx, k', hk'⟩
      · intro x k hk
        dsimp only at hk ⊢
        by_cases hx : x = id
        · rw [if_pos hx] at hk; injection hk
        · rw [if_neg hx] at hk ⊢
          rw [hnodes x hx] at hk
          obtain ⟨k', hk', rfl⟩ := Option.map_eq_some_iff.1 hk
          rw [h.value x k' hk']
          by_cases h1 : x ∈ m.out <;> by_cases h2 : x ∈ n.inc <;> simp [h1, h2, delInc, delOut]
      · intro x hx
        have hx : x ∉ a.V.erase id := hx
        rw [h.nodup.mem_erase_iff] at hx
        dsimp only
        by_cases hxi : x = id
        · rw [if_pos hxi]
        · rw [if_neg hxi]
          exact h.gone x (fun hc => hx ⟨hxi, hc⟩)
      · intro x k hk
        dsimp only at hk ⊢
        by_cases hx : x = id
        · rw [if_pos hx] at hk; injection hk
        · rw [if_neg hx, hnodes x hx] at hk
          obtain ⟨k', hk', rfl⟩ := Option.map_eq_some_iff.1 hk
          have ho := h.outs x k' hk'
          have key : ((if x ∈ m.out then delInc id else fun k => k) ((if x ∈ n.inc then delOut id else fun k => k) k')).out =
              if x ∈ n.inc then k'.out.erase id else k'.out := by
            by_cases h1 : x ∈ m.out <;> by_cases h2 : x ∈ n.inc <;> simp [h1, h2, delInc, delOut]
          rw [key]
          by_cases h2 : x ∈ n.inc
          · rw [if_pos h2]
            refine ⟨ho.1.erase id, fun y => ?_⟩
            rw [ho.1.mem_erase_iff, ho.2 y]
            constructor
            · rintro ⟨p, q⟩; exact ⟨q, hx, p⟩
            · rintro ⟨p, _, q⟩; exact ⟨q, p⟩
          · rw [if_neg h2]
            refine ⟨ho.1, fun y => ?_⟩
            rw [ho.2 y]
            constructor
            · intro p
              refine ⟨p, hx, fun hc => h2 ?_⟩
              rw [hc] at p
              exact (hinc.2 x).2 p
            · rintro ⟨p, _, _⟩; exact p
      · intro x k hk
        dsimp only at hk ⊢
        by_cases hx : x = id
        · rw [if_pos hx] at hk; injection hk
        · rw [if_neg hx, hnodes x hx] at hk
          obtain ⟨k', hk', rfl⟩ := Option.map_eq_some_iff.1 hk
          have ho := h.incs x k' hk'
          have key : ((if x ∈ m.out then delInc id else fun k => k) ((if x ∈ n.inc then delOut id else fun k => k) k')).inc =
              if x ∈ m.out then k'.inc.erase id else k'.inc := by
            by_cases h1 : x ∈ m.out <;> by_cases h2 : x ∈ n.inc <;> simp [h1, h2, delInc, delOut]
          rw [key]
          by_cases h2 : x ∈ m.out
          · rw [if_pos h2]
            refine ⟨ho.1.erase id, fun y => ?_⟩
            rw [ho.1.mem_erase_iff, ho.2 y]
            constructor
            · rintro ⟨p, q⟩; exact ⟨q, p, hx⟩
            · rintro ⟨p, q, _⟩; exact ⟨q, p⟩
          · rw [if_neg h2]
            refine ⟨ho.1, fun y => ?_⟩
            rw [ho.2 y]
            constructor
            · intro p
              refine ⟨p, fun hc => h2 ?_, hx⟩
              rw [hc] at p
              exact (hmo.2 x).2 ⟨p, hx⟩
            · rintro ⟨p, _, _⟩; exact p
      · rintro x y ⟨hxy, hx, hy⟩
        have := h.ends x y hxy
        exact ⟨(h.nodup.mem_erase_iff).2 ⟨hx, this.1⟩, (h.nodup.mem_erase_iff).2 ⟨hy, this.2⟩⟩
  | addDirected s t =>
    unfold Abs.step step addDirected
    simp only []
    rw [check2 h]
    by_cases hst : s ∈ a.V ∧ t ∈ a.V
    swap
    · left
      refine ⟨if_neg hst, ?_⟩
      rw [if_neg hst]
      rfl
    right
    refine ⟨_, _, _, if_pos hst, by rw [if_pos hst]; rfl, ?_⟩
    refine h.edges (by rfl) (by rfl) _ (fun x n => if x = t then addInc s (if x = s then addOut t n else n) else if x = s then addOut t n else n)
      (fun x => ?_) (fun x n => ?_) (fun x n hnd hm => ?_) (fun x n hnd hm => ?_) (fun x y hxy => ?_)
    · rw [upd_nodes, upd_nodes, Option.map_map]; rfl
    · by_cases h1 : x = t <;> by_cases h2 : x = s <;> simp [h1, h2, addInc, addOut] <;> split <;> rfl
    · have key : (if x = t then addInc s (if x = s then addOut t n else n) else if x = s then addOut t n else n).out =
          if x = s then sinsert t n.out else n.out := by
        split <;> split <;> rfl
      rw [key]
      by_cases h2 : x = s
      · rw [if_pos h2]
        refine ⟨nodup_sinsert hnd, fun y => ?_⟩
        rw [mem_sinsert, hm y]; simp [h2]
      · rw [if_neg h2]
        refine ⟨hnd, fun y => ?_⟩
        rw [hm y]; simp [h2]
    · have key : (if x = t then addInc s (if x = s then addOut t n else n) else if x = s then addOut t n else n).inc =
          if x = t then sinsert s n.inc else n.inc := by
        split <;> split <;> rfl
      rw [key]
      by_cases h2 : x = t
      · rw [if_pos h2]
        refine ⟨nodup_sinsert hnd, fun y => ?_⟩
        rw [mem_sinsert, hm y]; simp [h2]
      · rw [if_neg h2]
        refine ⟨hnd, fun y => ?_⟩
        rw [hm y]; simp [h2]
    · rcases hxy with hxy | ⟨rfl, rfl⟩
      · exact h.ends x y hxy
      · exact hst
  | addUndirected s t =>
    unfold Abs.step step addUndirected
    simp only []
    rw [check2 h]
    by_cases hst : s ∈ a.V ∧ t ∈ a.V
    swap
    · left
      refine ⟨if_neg hst, ?_⟩
      rw [if_neg hst]
      rfl
    right
    refine ⟨_, _, _, if_pos hst, by rw [if_pos hst]; rfl, ?_⟩
    refine h.edges (by rfl) (by rfl) _ (fun x n => (fun n => if x = t then addInc s n else n) ((fun n => if x = t then addOut s n else n)
      ((fun n => if x = s then addInc t n else n) ((fun n => if x = s then addOut t n else n) n))))
      (fun x => ?_) (fun x n => ?_) (fun x n hnd hm => ?_) (fun x n hnd hm => ?_) (fun x y hxy => ?_)
    · rw [upd_nodes, upd_nodes, upd_nodes, upd_nodes, Option.map_map, Option.map_map, Option.map_map]; rfl
    · by_cases h1 : x = t <;> by_cases h2 : x = s <;> simp only [h1, h2, if_true, if_false] <;> (try split) <;> rfl
    · have key : ((fun n => if x = t then addInc s n else n) ((fun n => if x = t then addOut s n else n)
          ((fun n => if x = s then addInc t n else n) ((fun n => if x = s then addOut t n else n) n)))).out =
          (fun l => if x = t then sinsert s l else l) (if x = s then sinsert t n.out else n.out) := by
        dsimp only
        split <;> split <;> rfl
      rw [key]
      by_cases h1 : x = t <;> by_cases h2 : x = s <;> simp only [h1, h2, if_true, if_false]
      · refine ⟨by split <;> first | exact nodup_sinsert (nodup_sinsert hnd) | exact nodup_sinsert hnd, fun y => ?_⟩
        subst h1
        subst h2
        simp [mem_sinsert, hm y]
      · subst h1
        rw [if_neg h2]
        refine ⟨nodup_sinsert hnd, fun y => ?_⟩
        rw [mem_sinsert, hm y]
        simp [h2]
      · subst h2
        rw [if_neg h1]
        refine ⟨nodup_sinsert hnd, fun y => ?_⟩
        rw [mem_sinsert, hm y]
        simp [h1]
      · refine ⟨hnd, fun y => ?_⟩
        rw [hm y]
        simp
    · have key : ((fun n => if x = t then addInc s n else n) ((fun n => if x = t then addOut s n else n)
          ((fun n => if x = s then addInc t n else n) ((fun n => if x = s then addOut t n else n) n)))).inc =
          (fun l => if x = t then sinsert s l else l) (if x = s then sinsert t n.inc else n.inc) := by
        dsimp only
        split <;> split <;> rfl
      rw [key]
      by_cases h1 : x = t <;> by_cases h2 : x = s <;> simp only [h1, h2, if_true, if_false]
      · refine ⟨by split <;> first | exact nodup_sinsert (nodup_sinsert hnd) | exact nodup_sinsert hnd, fun y => ?_⟩
        subst h1
        subst h2
        simp [mem_sinsert, hm y]
      · subst h1
        rw [if_neg h2]
        refine ⟨nodup_sinsert hnd, fun y => ?_⟩
        rw [mem_sinsert, hm y]
        simp [h2]
      · subst h2
        rw [if_neg h1]
        refine ⟨nodup_sinsert hnd, fun y => ?_⟩
        rw [mem_sinsert, hm y]
        simp [h1]
      · refine ⟨hnd, fun y => ?_⟩
        rw [hm y]
        simp
    · rcases hxy with hxy | ⟨rfl, rfl⟩ | ⟨rfl, rfl⟩
      · exact h.ends x y hxy
      · exact hst
      · exact hst.symm
  | removeDirected s t =>
    unfold Abs.step step removeDirected
    simp only []
    rw [check2 h]
    by_cases hst : s ∈ a.V ∧ t ∈ a.V
    swap
    · left
      refine ⟨if_neg hst, ?_⟩
      rw [if_neg hst]
      rfl
    right
    refine ⟨_, _, _, if_pos hst, by rw [if_pos hst]; rfl, ?_⟩
    refine h.edges (by rfl) (by rfl) _ (fun x n => (fun n => if x = t then delInc s n else n) ((fun n => if x = s then delOut t n else n) n))
      (fun x => ?_) (fun x n => ?_) (fun x n hnd hm => ?_) (fun x n hnd hm => ?_) (fun x y hxy => ?_)
    · rw [upd_nodes, upd_nodes, Option.map_map]; rfl
    · dsimp only; split <;> split <;> rfl
    · have key : ((fun n => if x = t then delInc s n else n) ((fun n => if x = s then delOut t n else n) n)).out =
          if x = s then n.out.erase t else n.out := by
        dsimp only
        split <;> split <;> rfl
      rw [key]
      by_cases h2 : x = s
      · rw [if_pos h2]
        refine ⟨hnd.erase t, fun y => ?_⟩
        rw [hnd.mem_erase_iff, hm y]
        simp [h2, and_comm]
      · rw [if_neg h2]
        refine ⟨hnd, fun y => ?_⟩
        rw [hm y]; simp [h2]
    · have key : ((fun n => if x = t then delInc s n else n) ((fun n => if x = s then delOut t n else n) n)).inc =
          if x = t then n.inc.erase s else n.inc := by
        dsimp only
        split <;> split <;> rfl
      rw [key]
      by_cases h2 : x = t
      · rw [if_pos h2]
        refine ⟨hnd.erase s, fun y => ?_⟩
        rw [hnd.mem_erase_iff, hm y]
        simp [h2, and_comm]
      · rw [if_neg h2]
        refine ⟨hnd, fun y => ?_⟩
        rw [hm y]; simp [h2]
    · exact h.ends x y hxy.1
  | removeEdges s t =>
    unfold Abs.step step removeEdges
    simp only []
    rw [check2 h]
    by_cases hst : s ∈ a.V ∧ t ∈ a.V
    swap
    · left
      refine ⟨if_neg hst, ?_⟩
      rw [if_neg hst]
      rfl
    right
    refine ⟨_, _, _, if_pos hst, by rw [if_pos hst]; rfl, ?_⟩
    refine h.edges (by rfl) (by rfl) _ (fun x n => (fun n => if x = t then delInc s n else n) ((fun n => if x = t then delOut s n else n)
      ((fun n => if x = s then delInc t n else n) ((fun n => if x = s then delOut t n else n) n))))
      (fun x => ?_) (fun x n => ?_) (fun x n hnd hm => ?_) (fun x n hnd hm => ?_) (fun x y hxy => ?_)
    · rw [upd_nodes, upd_nodes, upd_nodes, upd_nodes, Option.map_map, Option.map_map, Option.map_map]; rfl
    · dsimp only; split <;> split <;> rfl
    · have key : ((fun n => if x = t then delInc s n else n) ((fun n => if x = t then delOut s n else n)
          ((fun n => if x = s then delInc t n else n) ((fun n => if x = s then delOut t n else n) n)))).out =
          (fun l => if x = t then l.erase s else l) (if x = s then n.out.erase t else n.out) := by
        dsimp only
        split <;> split <;> rfl
      rw [key]
      by_cases h1 : x = t <;> by_cases h2 : x = s
      · subst h1
        subst h2
        simp only [if_true]
        refine ⟨(hnd.erase _).erase _, fun y => ?_⟩
        rw [(hnd.erase _).mem_erase_iff, hnd.mem_erase_iff, hm y]
        simp; tauto
      · subst h1
        simp only [if_true, if_neg h2]
        refine ⟨hnd.erase _, fun y => ?_⟩
        rw [hnd.mem_erase_iff, hm y]
        simp [h2]; tauto
      · subst h2
        simp only [if_true, if_neg h1]
        refine ⟨hnd.erase _, fun y => ?_⟩
        rw [hnd.mem_erase_iff, hm y]
        simp [h1]; tauto
      · simp only [if_neg h1, if_neg h2]
        refine ⟨hnd, fun y => ?_⟩
        rw [hm y]
        simp [h1, h2]
    · have key : ((fun n => if x = t then delInc s n else n) ((fun n => if x = t then delOut s n else n)
          ((fun n => if x = s then delInc t n else n) ((fun n => if x = s then delOut t n else n) n)))).inc =
          (fun l => if x = t then l.erase s else l) (if x = s then n.inc.erase t else n.inc) := by
        dsimp only
        split <;> split <;> rfl
      rw [key]
      by_cases h1 : x = t <;> by_cases h2 : x = s
      · subst h1
        subst h2
        simp only [if_true]
        refine ⟨(hnd.erase _).erase _, fun y => ?_⟩
        rw [(hnd.erase _).mem_erase_iff, hnd.mem_erase_iff, hm y]
        simp; tauto
      · subst h1
        simp only [if_true, if_neg h2]
        refine ⟨hnd.erase _, fun y => ?_⟩
        rw [hnd.mem_erase_iff, hm y]
        simp [h2]; tauto
      · subst h2
        simp only [if_true, if_neg h1]
        refine ⟨hnd.erase _, fun y => ?_⟩
        rw [hnd.mem_erase_iff, hm y]
        simp [h1]; tauto
      · simp only [if_neg h1, if_neg h2]
        refine ⟨hnd, fun y => ?_⟩
        rw [hm y]
        simp [h1, h2]
    · exact h.ends x y hxy.1
  | size =>
    right
    refine ⟨a, _, g, rfl, ?_, h⟩
    unfold step size
    simp only []
    rw [h.keys]
  | hasNode id =>
    unfold Abs.step step hasNode
    simp only []
    by_cases hid : id = noId
    · left
      rw [if_pos hid]
      exact ⟨if_pos hid, rfl⟩
    · right
      refine ⟨a, _, g, if_neg hid, ?_, h⟩
      rw [if_neg hid]
      simp only [pure_bind]
      by_cases hx : id ∈ a.V
      · obtain ⟨n, hn⟩ := (h.here id).1 hx
        simp [hn, hx]
      · have : g.nodes id = none := by
          cases hc : g.nodes id with
          | none => rfl
          | some n => exact absurd ((h.here id).2 ⟨n, hc⟩) hx
        simp [this, hx]

theorem run_is (os : List (Op τ)) : ∀ {g : Graph τ} {a : Abs τ}, Is g a →
    (a.run os = none ∧ run g os = abort) ∨ ∃ a' rs g', a.run os = some (a', rs) ∧ run g os = pure (g', rs) ∧ Is g' a' := by
  induction os with
  | nil => intro g a h; right; exact ⟨a, [], g, rfl, rfl, h⟩
  | cons o os ih =>
    intro g a h
    rw [Abs.run, run]
    rcases step_is h o with ⟨h1, h2⟩ | ⟨a1, r, g1, h1, h2, hi⟩
    · left
      rw [h1, h2]
      exact ⟨rfl, rfl⟩
    · rw [h1, h2]
      simp only [pure_bind]
      rcases ih hi with ⟨h3, h4⟩ | ⟨a2, rs, g2, h3, h4, hi2⟩
      · left
        rw [h3, h4]
        exact ⟨rfl, rfl⟩
      · right
        rw [h3, h4]
        exact ⟨a2, r :: rs, g2, rfl, rfl, hi2⟩

/-- Every history of calls returns what it returns on a mathematical graph, aborts exactly where a call names a node that is not
there (or the numbers are used up), and leaves that mathematical graph. -/
theorem C53_history (os : List (Op τ)) :
    (Abs.empty.run os = none ∧ run (empty : Graph τ) os = abort) ∨
      ∃ a rs g, Abs.empty.run os = some (a, rs) ∧ run (empty : Graph τ) os = pure (g, rs) ∧ g.keys = a.V ∧
        (∀ x, (g.nodes x).map Node.value = a.val x) ∧
        ∀ x y, ((∃ n, g.nodes x = some n ∧ y ∈ n.out) ↔ a.E x y) ∧ ((∃ n, g.nodes y = some n ∧ x ∈ n.inc) ↔ a.E x y) := by
  rcases run_is os empty_is with h | ⟨a, rs, g, h1, h2, hi⟩
  · exact Or.inl h
  · right
    refine ⟨a, rs, g, h1, h2, hi.keys, fun x => ?_, fun x y => ⟨⟨?_, fun he => ?_⟩, ⟨?_, fun he => ?_⟩⟩⟩
    · cases hx : g.nodes x with
      | none =>
        rw [hi.gone x (fun hc => by obtain ⟨n, hn⟩ := (hi.here x).1 hc; rw [hx] at hn; injection hn)]
        rfl
      | some n => rw [hi.value x n hx]; rfl
    · rintro ⟨n, hn, hy⟩; exact ((hi.outs x n hn).2 y).1 hy
    · obtain ⟨n, hn⟩ := (hi.here x).1 (hi.ends x y he).1
      exact ⟨n, hn, ((hi.outs x n hn).2 y).2 he⟩
    · rintro ⟨n, hn, hy⟩; exact ((hi.incs y n hn).2 x).1 hy
    · obtain ⟨n, hn⟩ := (hi.here y).1 (hi.ends x y he).2
      exact ⟨n, hn, ((hi.incs y n hn).2 x).2 he⟩

/-- After every history: edges are listed at both ends, between nodes that are there, once, and the size is the number of nodes. -/
theorem C53_consistent (os : List (Op τ)) (g : Graph τ) (rs : List (Option Nat)) (h : run empty os = pure (g, rs)) :
    (∀ x y n m, g.nodes x = some n → g.nodes y = some m → (y ∈ n.out ↔ x ∈ m.inc)) ∧
    (∀ x n, g.nodes x = some n → n.out.Nodup ∧ n.inc.Nodup ∧ ∀ y, y ∈ n.out ∨ y ∈ n.inc → (g.nodes y).isSome) ∧
    g.keys.Nodup ∧ (∀ x, x ∈ g.keys ↔ (g.nodes x).isSome) ∧ size g = g.keys.length := by
  rcases run_is os empty_is with ⟨_, h2⟩ | ⟨a, rs', g', _, h2, hi⟩
  · rw [h2] at h; exact absurd h (abort_ne_pure _)
  · rw [h2] at h
    have h := pure_inj.1 h
    injection h with h _
    subst h
    have hsome : ∀ x, x ∈ a.V ↔ (g'.nodes x).isSome := fun x => by rw [hi.here, Option.isSome_iff_exists]
    refine ⟨fun x y n m hx hy => ?_, fun x n hx => ⟨(hi.outs x n hx).1, (hi.incs x n hx).1, fun y hy => ?_⟩,
      by rw [hi.keys]; exact hi.nodup, fun x => by rw [hi.keys]; exact hsome x, rfl⟩
    · rw [(hi.outs x n hx).2, (hi.incs y m hy).2]
    · rw [← hsome]
      rcases hy with hy | hy
      · exact (hi.ends _ _ (((hi.outs x n hx).2 y).1 hy)).2
      · exact (hi.ends _ _ (((hi.incs x n hx).2 y).1 hy)).1

example := C53_consistent (τ := Nat) [.addNode 7, .addNode 8, .addDirected 0 0, .addDirected 0 1, .removeNode 0, .addNode 9, .addDirected 2 1, .size] _ _ rfl

/-- What the calls of `add_node` returned. (Specification, no line of the source.) -/
def added : List (Op τ) → List (Option Nat) → List Nat
  | .addNode _ :: os, some r :: rs => r :: added os rs
  | _ :: os, _ :: rs => added os rs
  | _, _ => []

/-- The number of calls of `add_node`. (Specification, no line of the source.) -/
def adds : List (Op τ) → Nat
  | [] => 0
  | .addNode _ :: os => adds os + 1
  | _ :: os => adds os

theorem added_eq (os : List (Op τ)) : ∀ (a a' : Abs τ) (rs : List (Option Nat)), a.run os = some (a', rs) →
    added os rs = List.range' a.next (adds os) := by
  induction os with
  | nil => intro a a' rs h; simp [Abs.run] at h; rw [h.2]; rfl
  | cons o os ih =>
    intro a a' rs h
    rw [Abs.run] at h
    cases hs : a.step o with
    | none => rw [hs] at h; injection h
    | some p =>
      obtain ⟨a1, r⟩ := p
      rw [hs] at h
      simp only [] at h
      cases hr : a1.run os with
      | none => rw [hr] at h; injection h
      | some q =>
        obtain ⟨a2, rs2⟩ := q
        rw [hr] at h
        simp only [Option.some.injEq, Prod.mk.injEq] at h
        obtain ⟨_, rfl⟩ := h
        have h1 := ih a1 a2 rs2 hr
        cases o with
        | addNode v =>
          unfold Abs.step at hs
          simp only [] at hs
          split at hs
          · injection hs
          · injection hs with hs
            injection hs with hs1 hs2
            subst hs1 hs2
            rw [added, h1, adds, List.range'_succ]
        | removeNode id =>
          unfold Abs.step at hs
          simp only [] at hs
          split at hs
          · injection hs with hs
            injection hs with hs1 hs2
            subst hs1 hs2
            exact h1
          · injection hs
        | addDirected s t =>
          unfold Abs.step at hs
          simp only [] at hs
          split at hs
          · injection hs with hs
            injection hs with hs1 hs2
            subst hs1 hs2
            exact h1
          · injection hs
        | addUndirected s t =>
          unfold Abs.step at hs
          simp only [] at hs
          split at hs
          · injection hs with hs
            injection hs with hs1 hs2
            subst hs1 hs2
            exact h1
          · injection hs
        | removeDirected s t =>
          unfold Abs.step at hs
          simp only [] at hs
          split at hs
          · injection hs with hs
            injection hs with hs1 hs2
            subst hs1 hs2
            exact h1
          · injection hs
        | removeEdges s t =>
          unfold Abs.step at hs
          simp only [] at hs
          split at hs
          · injection hs with hs
            injection hs with hs1 hs2
            subst hs1 hs2
            exact h1
          · injection hs
        | size =>
          unfold Abs.step at hs
          injection hs with hs
          injection hs with hs1 hs2
          subst hs1 hs2
          exact h1
        | hasNode id =>
          unfold Abs.step at hs
          simp only [] at hs
          split at hs
          · injection hs
          · injection hs with hs
            injection hs with hs1 hs2
            subst hs1 hs2
            exact h1

/-- No id is given twice, whatever is removed in between. -/
theorem C53_ids (os : List (Op τ)) (g : Graph τ) (rs : List (Option Nat)) (h : run empty os = pure (g, rs)) :
    (added os rs).length = adds os ∧ (added os rs).Nodup ∧ added os rs = List.range (adds os) := by
  rcases run_is os empty_is with ⟨_, h2⟩ | ⟨a, rs', g', h1, h2, hi⟩
  · rw [h2] at h; exact absurd h (abort_ne_pure _)
  · rw [h2] at h
    have h := pure_inj.1 h
    injection h with _ h
    subst h
    have he := added_eq os _ _ _ h1
    have he : added os rs' = List.range (adds os) := by rw [he, List.range_eq_range']; rfl
    rw [he]
    exact ⟨List.length_range, List.nodup_range, rfl⟩

example := C53_ids (τ := Nat) [.addNode 7, .addNode 8, .addDirected 0 0, .addDirected 0 1, .removeNode 0, .addNode 9, .addDirected 2 1, .size] _ _ rfl

theorem findNodes_ok {g : Graph τ} {a : Abs τ} (hi : Is g a) (p : Node τ → Bool) (ks : List Nat) (hks : ∀ k ∈ ks, k ∈ a.V)
    (hnd : ks.Nodup) : ∃ l, findNodes g p ks = pure l ∧ l.Nodup ∧ ∀ x, x ∈ l ↔ x ∈ ks ∧ ∃ n, g.nodes x = some n ∧ p n = true := by
  induction ks with
  | nil => exact ⟨[], rfl, List.nodup_nil, fun x => by simp⟩
  | cons k ks ih =>
    rw [List.nodup_cons] at hnd
    obtain ⟨l, e, h1, h2⟩ := ih (fun k hk => hks k (List.mem_cons_of_mem _ hk)) hnd.2
    obtain ⟨n, hn, hnode⟩ := hi.node (hks k (by simp))
    refine ⟨if p n then k :: l else l, ?_, ?_, fun x => ?_⟩
    · rw [findNodes, hnode]
      simp only [pure_bind]
      rw [e]
      rfl
    · split
      · rw [List.nodup_cons]
        exact ⟨fun hc => hnd.1 ((h2 k).1 hc).1, h1⟩
      · exact h1
    · by_cases hx : x = k
      · subst hx
        by_cases hp : p n = true
        · rw [if_pos hp]
          simp [hn, hp]
        · rw [if_neg hp, h2]
          simp [hn, hp]
      · have hl : x ∈ (if p n = true then k :: l else l) ↔ x ∈ l := by
          split
          · rw [List.mem_cons]; simp [hx]
          · rfl
        rw [hl, h2, List.mem_cons]
        simp [hx]

/-- The roots are the nodes no edge leads to, the leaves those no edge leaves, each once. -/
theorem C53_roots_leaves (os : List (Op τ)) (g : Graph τ) (rs : List (Option Nat)) (h : run empty os = pure (g, rs)) :
    (∃ l, findRoots g = pure l ∧ l.Nodup ∧
      ∀ x, x ∈ l ↔ (g.nodes x).isSome ∧ ∀ y m, g.nodes y = some m → x ∉ m.out) ∧
    ∃ l, findLeaves g = pure l ∧ l.Nodup ∧ ∀ x, x ∈ l ↔ (g.nodes x).isSome ∧ ∀ y m, g.nodes y = some m → x ∉ m.inc := by
  rcases run_is os empty_is with ⟨_, h2⟩ | ⟨a, rs', g', h1, h2, hi⟩
  · rw [h2] at h; exact absurd h (abort_ne_pure _)
  · rw [h2] at h
    have h := pure_inj.1 h
    injection h with h _
    subst h
    have hk : ∀ k ∈ g'.keys, k ∈ a.V := by rw [hi.keys]; exact fun _ h => h
    have hnd : g'.keys.Nodup := by rw [hi.keys]; exact hi.nodup
    constructor
    · obtain ⟨l, e, h3, h4⟩ := findNodes_ok hi (fun n => n.inc.isEmpty) g'.keys hk hnd
      refine ⟨l, e, h3, fun x => ?_⟩
      rw [h4 x, hi.keys, hi.here]
      constructor
      · rintro ⟨_, n, hn, he⟩
        refine ⟨by rw [hn]; rfl, fun y m hm hx => ?_⟩
        have hE := ((hi.outs y m hm).2 x).1 hx
        have := ((hi.incs x n hn).2 y).2 hE
        rw [List.isEmpty_iff] at he
        rw [he] at this
        simp at this
      · rintro ⟨hs, hall⟩
        obtain ⟨n, hn⟩ := Option.isSome_iff_exists.1 hs
        refine ⟨⟨n, hn⟩, n, hn, ?_⟩
        rw [List.isEmpty_iff, List.eq_nil_iff_forall_not_mem]
        intro y hy
        have hE := ((hi.incs x n hn).2 y).1 hy
        obtain ⟨m, hm⟩ := (hi.here y).1 (hi.ends y x hE).1
        exact hall y m hm (((hi.outs y m hm).2 x).2 hE)
    · obtain ⟨l, e, h3, h4⟩ := findNodes_ok hi (fun n => n.out.isEmpty) g'.keys hk hnd
      refine ⟨l, e, h3, fun x => ?_⟩
      rw [h4 x, hi.keys, hi.here]
      constructor
      · rintro ⟨_, n, hn, he⟩
        refine ⟨by rw [hn]; rfl, fun y m hm hx => ?_⟩
        have hE := ((hi.incs y m hm).2 x).1 hx
        have := ((hi.outs x n hn).2 y).2 hE
        rw [List.isEmpty_iff] at he
        rw [he] at this
        simp at this
      · rintro ⟨hs, hall⟩
        obtain ⟨n, hn⟩ := Option.isSome_iff_exists.1 hs
        refine ⟨⟨n, hn⟩, n, hn, ?_⟩
        rw [List.isEmpty_iff, List.eq_nil_iff_forall_not_mem]
        intro y hy
        have hE := ((hi.outs x n hn).2 y).1 hy
        obtain ⟨m, hm⟩ := (hi.here y).1 (hi.ends x y hE).2
        exact hall y m hm (((hi.incs y m hm).2 x).2 hE)

example := C53_roots_leaves (τ := Nat) [.addNode 7, .addNode 8, .addDirected 0 0, .addDirected 0 1, .removeNode 0, .addNode 9, .addDirected 2 1, .size] _ _ rfl

/-- `find_by_value` lists the nodes of that value, each once. -/
theorem C53_find_by_value (os : List (Op τ)) (g : Graph τ) (rs : List (Option Nat)) (h : run empty os = pure (g, rs)) (eq : τ → Bool) :
    ∃ l, findByValue g eq = pure l ∧ l.Nodup ∧ ∀ x, x ∈ l ↔ ∃ n, g.nodes x = some n ∧ eq n.value = true := by
  rcases run_is os empty_is with ⟨_, h2⟩ | ⟨a, rs', g', h1, h2, hi⟩
  · rw [h2] at h; exact absurd h (abort_ne_pure _)
  · rw [h2] at h
    have h := pure_inj.1 h
    injection h with h _
    subst h
    obtain ⟨l, e, h3, h4⟩ := findNodes_ok hi (fun n => eq n.value) g'.keys (by rw [hi.keys]; exact fun _ h => h)
      (by rw [hi.keys]; exact hi.nodup)
    refine ⟨l, e, h3, fun x => ?_⟩
    rw [h4 x, hi.keys, hi.here]
    constructor
    · rintro ⟨_, h⟩; exact h
    · rintro ⟨n, hn, hp⟩; exact ⟨⟨n, hn⟩, n, hn, hp⟩

/-- A history with removal of a node with an edge to itself. -/
example : ∃ g, run (empty : Graph Nat) [.addNode 7, .addNode 8, .addDirected 0 0, .addDirected 0 1, .addUndirected 0 1, .removeNode 0, .addNode 9,
    .size] = pure (g, [some 0, some 1, none, none, none, none, some 2, some 2]) := ⟨_, rfl⟩

/-- Two different nodes of one graph compare equal, and different at the same time. -/
theorem C92_equality_violated : ∃ l r : Proxy, l ≠ r ∧ l.eq r = true ∧ l.ne r = true := by
  exact ⟨⟨0, 1⟩, ⟨0, 2⟩, by decide, by decide, by decide⟩

/-- `operator!=` tells nodes apart. -/
theorem C92_inequality (l r : Proxy) : l.ne r = true ↔ l ≠ r := by
  obtain ⟨lg, li⟩ := l
  obtain ⟨rg, ri⟩ := r
  simp only [Proxy.ne, Bool.or_eq_true, bne_iff_ne, ne_eq, Proxy.mk.injEq]
  tauto

/-- Nodes that differ in both graph and id compare unequal, and a node compares equal to itself; missing are nodes that share one
of the two. -/
theorem C92_equality_partial (l r : Proxy) : (l = r → l.eq r = true) ∧ (l.id ≠ r.id → l.graph ≠ r.graph → l.eq r = false) := by
  constructor
  · rintro rfl; simp [Proxy.eq]
  · intro h1 h2; simp [Proxy.eq, h1, h2]

end Verif.Graph
