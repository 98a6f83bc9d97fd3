import Verif.Own.Base

/-
include/daw/daw_unique_array.h.
-/

namespace Verif.Own
open Cxx
variable {α : Type}

/-- An array on the heap; an element of a trivial type that was not written yet has no value.
(Rule of C++ or its library, no line of the source.) -/
abbrev Buf (α : Type) := List (Option α)

/-- `unique_array_t`, daw_unique_array.h 35-36: `m_data` is the number of the array, or null. -/
structure UArr where
  data : Option Nat
  size : Nat
  deriving DecidableEq

/-- The arrays that were allocated, `none` for the deleted ones, and the variables, `none` for the destroyed ones.
(Specification, no line of the source.) -/
structure UMem (α : Type) where
  heap : List (Option (Buf α))
  vars : List (Option UArr)
  deriving DecidableEq

/-- `clear`, daw_unique_array.h 48-54: what it does to the heap. Deleting an array twice is undefined. -/
def UMem.free (heap : List (Option (Buf α))) (a : UArr) : Cxx (List (Option (Buf α))) :=
  match a.data with
  | none => pure heap
  | some b => do
    match ← rd heap b with
    | none => ub
    | some _ => pure (heap.set b none)

/-- What a program does with variables of the class. (Specification, no line of the source.) -/
inductive AOp (α : Type) where
  | dflt
  | make (n : Nat)
  | move (i : Nat)
  | assign (i j : Nat)
  | write (i pos : Nat) (v : α)
  | destroy (i : Nat)

/-- One operation: the default constructor 57, the constructor from a size 78-80 with `create_values` 38-46 (which does not run out of
memory here), the move constructor 61-63, the move assignment 65-76, `operator[]` 107-109 used to assign, the destructor 91-93, all of
daw_unique_array.h. -/
def UMem.step (s : UMem α) : AOp α → Cxx (UMem α)
  | .dflt => pure { s with vars := s.vars ++ [some ⟨none, 0⟩] }
  | .make n => pure ⟨s.heap ++ [some (List.replicate n none)], s.vars ++ [some ⟨some s.heap.length, n⟩]⟩
  | .move i => do
    let a ← live s.vars i
    pure { s with vars := s.vars.set i (some ⟨none, 0⟩) ++ [some a] }
  | .assign i j => do
    let a ← live s.vars i
    let b ← live s.vars j
    if i = j then pure s
    else
      let heap ← UMem.free s.heap a
      if b.data = none then pure ⟨heap, s.vars.set i (some ⟨none, 0⟩)⟩
      else pure ⟨heap, (s.vars.set j (some ⟨none, 0⟩)).set i (some b)⟩
  | .write i pos v => do
    let a ← live s.vars i
    match a.data with
    | none => ub
    | some b => do
      match ← rd s.heap b with
      | none => ub
      | some buf => do
        let buf ← wr buf pos (some v)
        pure { s with heap := s.heap.set b (some buf) }
  | .destroy i => do
    let a ← live s.vars i
    let heap ← UMem.free s.heap a
    pure ⟨heap, s.vars.set i none⟩

/-- A program. (Specification, no line of the source.) -/
def UMem.run : List (AOp α) → UMem α → Cxx (UMem α)
  | [], s => pure s
  | op :: ops, s => do
    let s ← s.step op
    UMem.run ops s

/-- The same program on variables that hold a list, or nothing (`some none`), without a heap; `none` for the destroyed ones.
(Specification, no line of the source.) -/
def arrStep (r : List (Option (Option (Buf α)))) : AOp α → Cxx (List (Option (Option (Buf α))))
  | .dflt => pure (r ++ [some none])
  | .make n => pure (r ++ [some (some (List.replicate n none))])
  | .move i => do
    let v ← live r i
    pure (r.set i (some none) ++ [some v])
  | .assign i j => do
    let _ ← live r i
    let v ← live r j
    if i = j then pure r else pure ((r.set j (some none)).set i (some v))
  | .write i pos v => do
    match ← live r i with
    | none => ub
    | some buf => do
      let buf ← wr buf pos (some v)
      pure (r.set i (some (some buf)))
  | .destroy i => do
    let _ ← live r i
    pure (r.set i none)

/-- The program on such variables. (Specification, no line of the source.) -/
def arrRun : List (AOp α) → List (Option (Option (Buf α))) → Cxx (List (Option (Option (Buf α))))
  | [], r => pure r
  | op :: ops, r => do
    let r ← arrStep r op
    arrRun ops r

/-- What a variable holds. (Specification, no line of the source.) -/
def contents (heap : List (Option (Buf α))) (a : UArr) : Option (Buf α) :=
  match a.data with
  | none => none
  | some b => (heap[b]?).join

/-- What the variables hold. (Specification, no line of the source.) -/
def UMem.abs (s : UMem α) : List (Option (Option (Buf α))) := s.vars.map (Option.map (contents s.heap))

/-- Every array that is not deleted has exactly one variable, which knows its size. (Specification, no line of the source.) -/
structure UMem.Sound (s : UMem α) : Prop where
  null : ∀ (i : Nat) (a : UArr), s.vars[i]? = some (some a) → a.data = none → a.size = 0
  alive : ∀ (i : Nat) (a : UArr) (b : Nat), s.vars[i]? = some (some a) → a.data = some b →
    ∃ buf : Buf α, s.heap[b]? = some (some buf) ∧ buf.length = a.size
  uniq : ∀ (i j : Nat) (a a' : UArr) (b : Nat), s.vars[i]? = some (some a) →
    s.vars[j]? = some (some a') → a.data = some b → a'.data = some b → i = j
  owned : ∀ (b : Nat) (buf : Buf α), s.heap[b]? = some (some buf) → ∃ (i : Nat) (a : UArr), s.vars[i]? = some (some a) ∧ a.data = some b

theorem live_abs (s : UMem α) (i : Nat) : live s.abs i = (do let a ← live s.vars i; pure (contents s.heap a)) := by
  unfold live UMem.abs
  by_cases h : i < s.vars.length
  · rw [rd_eq h, rd_eq (by simpa using h), pure_bind, pure_bind, List.getElem_map]
    cases s.vars[i] <;> rfl
  · rw [rd_oob (Nat.le_of_not_lt h), rd_oob (by simpa using h)]
    rfl

theorem live_cases {β : Type} (vars : List (Option β)) (i : Nat) :
    live vars i = ub ∨ ∃ a, vars[i]? = some (some a) ∧ live vars i = pure a := by
  by_cases h : i < vars.length
  · cases e : vars[i] with
    | none => left; unfold live; rw [rd_eq h, pure_bind, e]
    | some a =>
      have : vars[i]? = some (some a) := by rw [List.getElem?_eq_getElem h, e]
      exact .inr ⟨a, this, live_of this⟩
  · left; unfold live; rw [rd_oob (Nat.le_of_not_lt h)]; rfl

theorem contents_set {heap : List (Option (Buf α))} {a : UArr} {b : Nat} (x : Option (Buf α)) (h : a.data ≠ some b) :
    contents (heap.set b x) a = contents heap a := by
  unfold contents
  cases e : a.data with
  | none => rfl
  | some c =>
    have hc : b ≠ c := fun h' => h (by rw [e, h'])
    simp only []
    rw [List.getElem?_set_ne hc]

theorem abs_get (s : UMem α) (k : Nat) : s.abs[k]? = (s.vars[k]?).map (Option.map (contents s.heap)) := by
  unfold UMem.abs; rw [List.getElem?_map]

/-- Clearing variable `i` and giving it another state. -/
theorem freed {s : UMem α} (hs : s.Sound) {i : Nat} {a : UArr} (hi : s.vars[i]? = some (some a)) :
    ∃ heap, UMem.free s.heap a = pure heap ∧
      (∀ c : Nat, a.data ≠ some c → heap[c]? = s.heap[c]?) ∧ (∀ (c : Nat) (buf : Buf α), a.data = some c → heap[c]? ≠ some (some buf)) ∧
      ∀ (k : Nat) (a' : UArr), k ≠ i → s.vars[k]? = some (some a') → contents heap a' = contents s.heap a' := by
  cases e : a.data with
  | none =>
    refine ⟨s.heap, ?_, fun _ _ => rfl, ?_, fun _ _ _ _ => rfl⟩
    · unfold UMem.free; rw [e]
    · intro c _ h; cases h
  | some b =>
    obtain ⟨buf, hb, _⟩ := hs.alive i a b hi e
    refine ⟨s.heap.set b none, ?_, ?_, ?_, ?_⟩
    · unfold UMem.free; rw [e]; simp only []; rw [rd_some hb]; rfl
    · intro c hc
      exact List.getElem?_set_ne (fun h => hc (by rw [h]))
    · intro c _ hc
      injection hc with hc
      rw [← hc, List.getElem?_set_self (lt_of_some hb)]
      simp
    · intro k a' hk ha'
      exact contents_set none (fun h => hk (hs.uniq k i a' a b ha' hi h e))

theorem step_sound {s s' : UMem α} (hs : s.Sound) (op : AOp α) (h : s.step op = pure s') : s'.Sound := by
  cases op with
  | dflt =>
    obtain rfl := Cxx.pure_inj.mp h
    have old : ∀ (k : Nat) (a : UArr), (s.vars ++ [some ⟨none, 0⟩])[k]? = some (some a) → s.vars[k]? = some (some a) ∨ a = ⟨none, 0⟩ := by
      intro k a hk
      rw [List.getElem?_append] at hk
      split at hk
      · exact .inl hk
      · rcases hc : k - s.vars.length with _ | n
        · rw [hc] at hk; simp at hk; exact .inr hk.symm
        · rw [hc] at hk; simp at hk
    refine ⟨?_, ?_, ?_, ?_⟩
    · intro k a hk hn
      rcases old k a hk with h | rfl
      · exact hs.null k a h hn
      · rfl
    · intro k a b hk hb
      rcases old k a hk with h | rfl
      · exact hs.alive k a b h hb
      · cases hb
    · intro k j a a' b hk hj hb hb'
      rcases old k a hk with h | rfl
      · rcases old j a' hj with h' | rfl
        · exact hs.uniq k j a a' b h h' hb hb'
        · cases hb'
      · cases hb
    · intro b buf hb
      obtain ⟨k, a, hk, ha⟩ := hs.owned b buf hb
      exact ⟨k, a, by rw [List.getElem?_append_left (lt_of_some hk)]; exact hk, ha⟩
  | make n =>
    obtain rfl := Cxx.pure_inj.mp h
    have old : ∀ (k : Nat) (a : UArr), (s.vars ++ [some ⟨some s.heap.length, n⟩])[k]? = some (some a) →
        s.vars[k]? = some (some a) ∨ (a = ⟨some s.heap.length, n⟩ ∧ k = s.vars.length) := by
      intro k a hk
      rw [List.getElem?_append] at hk
      split at hk
      · exact .inl hk
      · rcases hc : k - s.vars.length with _ | m
        · rw [hc] at hk; simp at hk; exact .inr ⟨hk.symm, by omega⟩
        · rw [hc] at hk; simp at hk
    have lt : ∀ (k : Nat) (a : UArr) (b : Nat), s.vars[k]? = some (some a) → a.data = some b → b < s.heap.length := by
      intro k a b hk hb
      obtain ⟨_, h, _⟩ := hs.alive k a b hk hb
      exact lt_of_some h
    refine ⟨?_, ?_, ?_, ?_⟩
    · intro k a hk hn
      rcases old k a hk with h | ⟨rfl, _⟩
      · exact hs.null k a h hn
      · cases hn
    · intro k a b hk hb
      rcases old k a hk with h | ⟨rfl, _⟩
      · obtain ⟨buf, h1, h2⟩ := hs.alive k a b h hb
        exact ⟨buf, by rw [List.getElem?_append_left (lt_of_some h1)]; exact h1, h2⟩
      · injection hb with hb
        exact ⟨List.replicate n none, by rw [← hb]; simp, by simp⟩
    · intro k j a a' b hk hj hb hb'
      rcases old k a hk with h | ⟨rfl, h⟩
      · rcases old j a' hj with h' | ⟨rfl, h'⟩
        · exact hs.uniq k j a a' b h h' hb hb'
        · have := lt k a b h hb
          injection hb' with hb'
          omega
      · rcases old j a' hj with h' | ⟨rfl, h'⟩
        · have := lt j a' b h' hb'
          injection hb with hb
          omega
        · omega
    · intro b buf hb
      rw [List.getElem?_append] at hb
      split at hb
      · obtain ⟨k, a, hk, ha⟩ := hs.owned b buf hb
        exact ⟨k, a, by rw [List.getElem?_append_left (lt_of_some hk)]; exact hk, ha⟩
      · rcases hc : b - s.heap.length with _ | m
        · exact ⟨s.vars.length, ⟨some s.heap.length, n⟩, by simp, by show some _ = some _; congr 1; omega⟩
        · rw [hc] at hb; simp at hb
  | move i =>
    obtain ⟨a, ha, h⟩ := Cxx.bind_eq_pure.mp h
    have ha := live_eq ha
    obtain rfl := Cxx.pure_inj.mp h
    have hil := lt_of_some ha
    -- a variable of the new state: an old one other than `i`, the emptied one, or the new one
    have old : ∀ (k : Nat) (c : UArr), (s.vars.set i (some ⟨none, 0⟩) ++ [some a])[k]? = some (some c) →
        (k ≠ i ∧ s.vars[k]? = some (some c)) ∨ c = ⟨none, 0⟩ ∨ (c = a ∧ k = s.vars.length) := by
      intro k c hk
      rw [List.getElem?_append] at hk
      split at hk
      · rename_i hl
        by_cases e : k = i
        · subst e
          rw [List.getElem?_set_self hil] at hk
          simp at hk
          exact .inr (.inl hk.symm)
        · rw [List.getElem?_set_ne (Ne.symm e)] at hk
          exact .inl ⟨e, hk⟩
      · rename_i hl
        rw [List.length_set] at hl hk
        rcases hc : k - s.vars.length with _ | m
        · rw [hc] at hk; simp at hk; exact .inr (.inr ⟨hk.symm, by omega⟩)
        · rw [hc] at hk; simp at hk
    refine ⟨?_, ?_, ?_, ?_⟩
    · intro k c hk hn
      rcases old k c hk with ⟨_, h⟩ | rfl | ⟨rfl, _⟩
      · exact hs.null k c h hn
      · rfl
      · exact hs.null i c ha hn
    · intro k c b hk hb
      rcases old k c hk with ⟨_, h⟩ | rfl | ⟨rfl, _⟩
      · exact hs.alive k c b h hb
      · cases hb
      · exact hs.alive i c b ha hb
    · intro k j c c' b hk hj hb hb'
      rcases old k c hk with ⟨hne, hk0⟩ | rfl | ⟨rfl, hkl⟩
      · rcases old j c' hj with ⟨_, h'⟩ | rfl | ⟨rfl, hjl⟩
        · exact hs.uniq k j c c' b hk0 h' hb hb'
        · cases hb'
        · exact absurd (hs.uniq k i c c' b hk0 ha hb hb') hne
      · cases hb
      · rcases old j c' hj with ⟨hne, h'⟩ | rfl | ⟨rfl, hjl⟩
        · exact absurd (hs.uniq j i c' c b h' ha hb' hb) hne
        · cases hb'
        · omega
    · intro b buf hb
      obtain ⟨k, c, hk, hc⟩ := hs.owned b buf hb
      by_cases e : k = i
      · subst e
        rw [ha] at hk
        have hac : a = c := by injection hk with hk; injection hk
        refine ⟨s.vars.length, a, ?_, hac ▸ hc⟩
        show (s.vars.set k (some ⟨none, 0⟩) ++ [some a])[s.vars.length]? = _
        rw [List.getElem?_append_right (by simp)]
        simp
      · refine ⟨k, c, ?_, hc⟩
        show (s.vars.set i (some ⟨none, 0⟩) ++ [some a])[k]? = _
        rw [List.getElem?_append_left (by simpa using lt_of_some hk), List.getElem?_set_ne (Ne.symm e)]
        exact hk
  | assign i j =>
    obtain ⟨a, ha, h⟩ := Cxx.bind_eq_pure.mp h
    obtain ⟨b, hb, h⟩ := Cxx.bind_eq_pure.mp h
    have ha := live_eq ha
    have hb := live_eq hb
    split at h
    · exact Cxx.pure_inj.mp h ▸ hs
    · rename_i hij
      obtain ⟨heap, hf, hkeep, hgone, hcont⟩ := freed hs ha
      rw [hf, pure_bind] at h
      have keep : ∀ (k : Nat) (c : UArr) (d : Nat), k ≠ i → s.vars[k]? = some (some c) → c.data = some d → heap[d]? = s.heap[d]? := by
        intro k c d hk hc hd
        exact hkeep d (fun e => hk (hs.uniq k i c a d hc ha hd e))
      have back : ∀ (d : Nat) (buf : Buf α), heap[d]? = some (some buf) → ∃ (k : Nat) (c : UArr), k ≠ i ∧ s.vars[k]? = some (some c) ∧ c.data = some d := by
        intro d buf hd
        have hne : a.data ≠ some d := fun e => hgone d buf e hd
        rw [hkeep d hne] at hd
        obtain ⟨k, c, hk, hc⟩ := hs.owned d buf hd
        refine ⟨k, c, ?_, hk, hc⟩
        rintro rfl
        rw [ha] at hk
        have hac : a = c := by injection hk with hk; injection hk
        exact hne (hac ▸ hc)
      split at h
      · rename_i hnull
        obtain rfl := Cxx.pure_inj.mp h
        have old : ∀ (k : Nat) (c : UArr), (s.vars.set i (some ⟨none, 0⟩))[k]? = some (some c) → (k ≠ i ∧ s.vars[k]? = some (some c)) ∨ c = ⟨none, 0⟩ := by
          intro k c hk
          by_cases e : k = i
          · subst e
            rw [List.getElem?_set_self (lt_of_some ha)] at hk
            simp at hk
            exact .inr hk.symm
          · rw [List.getElem?_set_ne (Ne.symm e)] at hk
            exact .inl ⟨e, hk⟩
        refine ⟨?_, ?_, ?_, ?_⟩
        · intro k c hk hn
          rcases old k c hk with ⟨_, h⟩ | rfl
          · exact hs.null k c h hn
          · rfl
        · intro k c d hk hd
          rcases old k c hk with ⟨hne, h⟩ | rfl
          · show ∃ buf, heap[d]? = _ ∧ _
            rw [keep k c d hne h hd]
            exact hs.alive k c d h hd
          · cases hd
        · intro k l c c' d hk hl hd hd'
          rcases old k c hk with ⟨_, h⟩ | rfl
          · rcases old l c' hl with ⟨_, h'⟩ | rfl
            · exact hs.uniq k l c c' d h h' hd hd'
            · cases hd'
          · cases hd
        · intro d buf hd
          obtain ⟨k, c, hne, hk, hc⟩ := back d buf hd
          exact ⟨k, c, by show (s.vars.set i _)[k]? = _; rw [List.getElem?_set_ne (Ne.symm hne)]; exact hk, hc⟩
      · rename_i hnn
        obtain rfl := Cxx.pure_inj.mp h
        have hji : j ≠ i := fun e => hij e.symm
        have old : ∀ (k : Nat) (c : UArr), ((s.vars.set j (some ⟨none, 0⟩)).set i (some b))[k]? = some (some c) →
            (k ≠ i ∧ k ≠ j ∧ s.vars[k]? = some (some c)) ∨ c = ⟨none, 0⟩ ∨ (k = i ∧ c = b) := by
          intro k c hk
          by_cases e : k = i
          · subst e
            rw [List.getElem?_set_self (by simpa using lt_of_some ha)] at hk
            simp at hk
            exact .inr (.inr ⟨rfl, hk.symm⟩)
          · rw [List.getElem?_set_ne (Ne.symm e)] at hk
            by_cases e' : k = j
            · subst e'
              rw [List.getElem?_set_self (lt_of_some hb)] at hk
              simp at hk
              exact .inr (.inl hk.symm)
            · rw [List.getElem?_set_ne (Ne.symm e')] at hk
              exact .inl ⟨e, e', hk⟩
        refine ⟨?_, ?_, ?_, ?_⟩
        · intro k c hk hn
          rcases old k c hk with ⟨_, _, h⟩ | rfl | ⟨_, rfl⟩
          · exact hs.null k c h hn
          · rfl
          · exact absurd hn hnn
        · intro k c d hk hd
          show ∃ buf, heap[d]? = _ ∧ _
          rcases old k c hk with ⟨hne, _, h⟩ | rfl | ⟨_, rfl⟩
          · rw [keep k c d hne h hd]
            exact hs.alive k c d h hd
          · cases hd
          · rw [keep j c d hji hb hd]
            exact hs.alive j c d hb hd
        · intro k l c c' d hk hl hd hd'
          rcases old k c hk with ⟨_, hkj, hk0⟩ | rfl | ⟨hki, rfl⟩
          · rcases old l c' hl with ⟨_, _, h'⟩ | rfl | ⟨_, rfl⟩
            · exact hs.uniq k l c c' d hk0 h' hd hd'
            · cases hd'
            · exact absurd (hs.uniq k j c c' d hk0 hb hd hd') hkj
          · cases hd
          · rcases old l c' hl with ⟨_, hlj, h'⟩ | rfl | ⟨hli, rfl⟩
            · exact absurd (hs.uniq l j c' c d h' hb hd' hd) hlj
            · cases hd'
            · omega
        · intro d buf hd
          obtain ⟨k, c, hne, hk, hc⟩ := back d buf hd
          by_cases e : k = j
          · subst e
            rw [hb] at hk
            have hbc : b = c := by injection hk with hk; injection hk
            refine ⟨i, b, ?_, hbc ▸ hc⟩
            show ((s.vars.set k _).set i (some b))[i]? = _
            rw [List.getElem?_set_self (by simpa using lt_of_some ha)]
          · refine ⟨k, c, ?_, hc⟩
            show ((s.vars.set j _).set i (some b))[k]? = _
            rw [List.getElem?_set_ne (Ne.symm hne), List.getElem?_set_ne (Ne.symm e)]
            exact hk
  | write i pos v =>
    obtain ⟨a, ha, h⟩ := Cxx.bind_eq_pure.mp h
    have ha := live_eq ha
    cases e : a.data with
    | none => rw [e] at h; exact absurd h (Cxx.ub_ne_pure _)
    | some b =>
      rw [e] at h
      obtain ⟨buf, hb, hlen⟩ := hs.alive i a b ha e
      simp only [rd_some hb, pure_bind] at h
      obtain ⟨buf', hw, h⟩ := Cxx.bind_eq_pure.mp h
      obtain rfl := Cxx.pure_inj.mp h
      have hl : buf'.length = buf.length := by
        unfold wr at hw
        split at hw
        · rw [← Cxx.pure_inj.mp hw, List.length_set]
        · exact absurd hw (Cxx.ub_ne_pure _)
      refine ⟨hs.null, ?_, hs.uniq, ?_⟩
      · intro k c d hk hd
        show ∃ buf, (s.heap.set b (some buf'))[d]? = _ ∧ _
        by_cases hdb : b = d
        · subst hdb
          obtain ⟨buf2, h2, h3⟩ := hs.alive k c b hk hd
          rw [hb] at h2
          have : buf = buf2 := by injection h2 with h2; injection h2
          exact ⟨buf', by rw [List.getElem?_set_self (lt_of_some hb)], by rw [hl, this, h3]⟩
        · rw [List.getElem?_set_ne hdb]
          exact hs.alive k c d hk hd
      · intro d buf2 hd
        by_cases hdb : b = d
        · subst hdb; exact ⟨i, a, ha, e⟩
        · exact hs.owned d buf2 (by rw [← hd]; exact (List.getElem?_set_ne hdb).symm)
  | destroy i =>
    obtain ⟨a, ha, h⟩ := Cxx.bind_eq_pure.mp h
    have ha := live_eq ha
    obtain ⟨heap, hf, hkeep, hgone, hcont⟩ := freed hs ha
    rw [hf, pure_bind] at h
    obtain rfl := Cxx.pure_inj.mp h
    have old : ∀ (k : Nat) (c : UArr), (s.vars.set i none)[k]? = some (some c) → k ≠ i ∧ s.vars[k]? = some (some c) := by
      intro k c hk
      by_cases e : k = i
      · subst e
        rw [List.getElem?_set_self (lt_of_some ha)] at hk
        simp at hk
      · rw [List.getElem?_set_ne (Ne.symm e)] at hk
        exact ⟨e, hk⟩
    refine ⟨?_, ?_, ?_, ?_⟩
    · intro k c hk hn
      exact hs.null k c (old k c hk).2 hn
    · intro k c d hk hd
      obtain ⟨hne, h⟩ := old k c hk
      show ∃ buf, heap[d]? = _ ∧ _
      rw [hkeep d (fun e => hne (hs.uniq k i c a d h ha hd e))]
      exact hs.alive k c d h hd
    · intro k l c c' d hk hl hd hd'
      exact hs.uniq k l c c' d (old k c hk).2 (old l c' hl).2 hd hd'
    · intro d buf hd
      have hne : a.data ≠ some d := fun e => hgone d buf e hd
      have hd' : s.heap[d]? = some (some buf) := by rw [← hkeep d hne]; exact hd
      obtain ⟨k, c, hk, hc⟩ := hs.owned d buf hd'
      have hki : k ≠ i := by
        rintro rfl
        rw [ha] at hk
        have hac : a = c := by injection hk with hk; injection hk
        exact hne (hac ▸ hc)
      exact ⟨k, c, by show (s.vars.set i none)[k]? = _; rw [List.getElem?_set_ne (Ne.symm hki)]; exact hk, hc⟩

/-- The variables seen through another heap that agrees on all but variable `i`, which is replaced. -/
theorem abs_set {s : UMem α} {heap : List (Option (Buf α))} {i : Nat} (x : Option UArr)
    (h : ∀ (k : Nat) (a' : UArr), k ≠ i → s.vars[k]? = some (some a') → contents heap a' = contents s.heap a') :
    (s.vars.set i x).map (Option.map (contents heap)) = s.abs.set i (x.map (contents heap)) := by
  apply List.ext_getElem?
  intro k
  rw [List.getElem?_map]
  by_cases e : i = k
  · subst e
    by_cases hl : i < s.vars.length
    · rw [List.getElem?_set_self hl, List.getElem?_set_self (by unfold UMem.abs; simpa using hl)]; rfl
    · rw [List.getElem?_eq_none (by simpa using hl), List.getElem?_eq_none (by unfold UMem.abs; simpa using hl)]; rfl
  · rw [List.getElem?_set_ne e, List.getElem?_set_ne e, abs_get]
    cases hv : s.vars[k]? with
    | none => rfl
    | some v =>
      cases v with
      | none => rfl
      | some a' =>
        show some (some _) = some (some _)
        rw [h k a' (Ne.symm e) hv]

theorem step_abs {s : UMem α} (hs : s.Sound) (op : AOp α) :
    (do let s' ← s.step op; pure s'.abs) = arrStep s.abs op := by
  cases op with
  | dflt =>
    simp only [UMem.step, arrStep, pure_bind, UMem.abs, List.map_append]
    rfl
  | make n =>
    simp only [UMem.step, arrStep, pure_bind]
    congr 1
    show List.map _ (s.vars ++ _) = s.abs ++ _
    rw [List.map_append]
    congr 1
    · apply List.map_congr_left
      intro v hv
      cases v with
      | none => rfl
      | some a =>
        obtain ⟨k, hk⟩ := List.mem_iff_getElem?.mp hv
        show some (contents _ a) = some (contents _ a)
        unfold contents
        cases e : a.data with
        | none => rfl
        | some b =>
          obtain ⟨buf, hb, _⟩ := hs.alive k a b hk e
          simp only []
          rw [List.getElem?_append_left (lt_of_some hb)]
    · simp [contents]
  | move i =>
    simp only [UMem.step, arrStep, live_abs, bind_assoc, pure_bind]
    rcases live_cases s.vars i with h | ⟨a, ha, h⟩
    · rw [h]; rfl
    · rw [h, pure_bind, pure_bind]
      show (pure (List.map _ (s.vars.set i _ ++ _)) : Cxx _) = _
      rw [List.map_append, abs_set (s := s) (heap := s.heap) _ (fun _ _ _ _ => rfl)]
      rfl
  | assign i j =>
    simp only [UMem.step, arrStep, live_abs, bind_assoc, pure_bind]
    rcases live_cases s.vars i with h | ⟨a, ha, h⟩
    · rw [h]; rfl
    rcases live_cases s.vars j with h' | ⟨b, hb, h'⟩
    · rw [h, h']; rfl
    rw [h, h']
    simp only [pure_bind]
    by_cases e : i = j
    · simp only [if_pos e, pure_bind]
    · simp only [if_neg e]
      obtain ⟨heap, hf, hkeep, hgone, hcont⟩ := freed hs ha
      simp only [hf, pure_bind]
      have hji : j ≠ i := fun h => e h.symm
      by_cases hn : b.data = none
      · rw [if_pos hn, pure_bind]
        show (pure (List.map _ (s.vars.set i _)) : Cxx _) = _
        rw [abs_set (s := s) (heap := heap) _ hcont]
        have hcb : contents s.heap b = none := by unfold contents; rw [hn]
        have hself : s.abs.set j (some none) = s.abs := by
          apply List.ext_getElem?
          intro k
          by_cases ek : j = k
          · subst ek
            rw [List.getElem?_set_self (by unfold UMem.abs; simpa using lt_of_some hb), abs_get, hb]
            show some (some none) = some (some _)
            rw [hcb]
          · rw [List.getElem?_set_ne ek]
        rw [hself, hcb]
        rfl
      · rw [if_neg hn, pure_bind]
        show (pure (List.map _ ((s.vars.set j _).set i _)) : Cxx _) = _
        have h2 := abs_set (s := ⟨s.heap, s.vars.set j (some ⟨none, 0⟩)⟩) (heap := heap) (i := i) (some b) (by
          intro k c hk hc
          by_cases ek : k = j
          · subst ek
            rw [List.getElem?_set_self (lt_of_some hb)] at hc
            injection hc with hc
            injection hc with hc
            rw [← hc]; rfl
          · rw [List.getElem?_set_ne (Ne.symm ek)] at hc
            exact hcont k c hk hc)
        rw [h2]
        have h3 := abs_set (s := s) (heap := s.heap) (i := j) (some ⟨none, 0⟩) (fun _ _ _ _ => rfl)
        show (pure ((List.map _ (s.vars.set j _)).set i _) : Cxx _) = _
        rw [h3]
        show (pure ((s.abs.set j (some none)).set i (some (contents heap b))) : Cxx _) = _
        rw [hcont j b hji hb]
  | write i pos v =>
    simp only [UMem.step, arrStep, live_abs, bind_assoc, pure_bind]
    rcases live_cases s.vars i with h | ⟨a, ha, h⟩
    · rw [h]; rfl
    rw [h]
    simp only [pure_bind]
    cases e : a.data with
    | none =>
      have hc : contents s.heap a = none := by unfold contents; rw [e]
      rw [hc]; rfl
    | some b =>
      obtain ⟨buf, hb, _⟩ := hs.alive i a b ha e
      have hc : contents s.heap a = some buf := by unfold contents; rw [e]; simp only []; rw [hb]; rfl
      rw [hc]
      simp only [rd_some hb, pure_bind]
      rw [bind_assoc]
      congr 1
      funext buf'
      rw [pure_bind]
      have hvi : s.vars.set i (some a) = s.vars := by
        apply List.ext_getElem?
        intro k
        by_cases ek : i = k
        · subst ek; rw [List.getElem?_set_self (lt_of_some ha), ha]
        · rw [List.getElem?_set_ne ek]
      have h2 := abs_set (s := s) (heap := s.heap.set b (some buf')) (i := i) (some a) (by
        intro k c hk hcv
        exact contents_set _ (fun h => hk (hs.uniq k i c a b hcv ha h e)))
      rw [hvi] at h2
      have hc2 : contents (s.heap.set b (some buf')) a = some buf' := by
        unfold contents; rw [e]; simp only []; rw [List.getElem?_set_self (lt_of_some hb)]; rfl
      show (pure (List.map _ s.vars) : Cxx _) = _
      rw [h2]
      show (pure (s.abs.set i (some (contents _ a))) : Cxx _) = _
      rw [hc2]
  | destroy i =>
    simp only [UMem.step, arrStep, live_abs, bind_assoc, pure_bind]
    rcases live_cases s.vars i with h | ⟨a, ha, h⟩
    · rw [h]; rfl
    rw [h]
    obtain ⟨heap, hf, hkeep, hgone, hcont⟩ := freed hs ha
    simp only [pure_bind]
    rw [hf, pure_bind]
    show (pure (List.map _ (s.vars.set i none)) : Cxx _) = _
    rw [abs_set (s := s) (heap := heap) none hcont]
    rfl

theorem run_abs (ops : List (AOp α)) (s : UMem α) (hs : s.Sound) :
    (do let s' ← UMem.run ops s; pure s'.abs) = arrRun ops s.abs ∧ ∀ s', UMem.run ops s = pure s' → s'.Sound := by
  induction ops generalizing s with
  | nil => exact ⟨rfl, fun s' h => Cxx.pure_inj.mp h ▸ hs⟩
  | cons op ops ih =>
    constructor
    · show ((s.step op >>= UMem.run ops) >>= _) = (arrStep s.abs op >>= arrRun ops)
      rw [← step_abs hs, bind_assoc, bind_assoc]
      cases hx : (s.step op : Option (Except Err (UMem α))) with
      | none => rfl
      | some r =>
        cases r with
        | error e => rfl
        | ok s1 =>
          have h1 : s.step op = pure s1 := hx
          show (UMem.run ops s1 >>= fun s' => pure s'.abs) = arrRun ops s1.abs
          exact (ih s1 (step_sound hs op h1)).1
    · intro s' h
      obtain ⟨s1, h1, h2⟩ := Cxx.bind_eq_pure.mp h
      exact (ih s1 (step_sound hs op h1)).2 s' h2

theorem sound_empty : (⟨[], []⟩ : UMem α).Sound :=
  ⟨by intro i a h; simp at h, by intro i a b h; simp at h, by intro i j a a' b h; simp at h, by intro b buf h; simp at h⟩

/-- Programs of any length that create, move, assign, write to and destroy any number of such arrays do what they do with variables
that hold lists: nothing is deleted twice or used after it was deleted, and no array is shared. The size is the number of elements, and when all variables are
destroyed, every array has been deleted. -/
theorem C158_unique_array (ops : List (AOp α)) :
    (do let s ← UMem.run ops ⟨[], []⟩; pure s.abs) = arrRun ops [] ∧
    ∀ s, UMem.run ops ⟨[], []⟩ = pure s →
      (∀ (i : Nat) (a : UArr), s.vars[i]? = some (some a) → a.size = ((contents s.heap a).getD []).length) ∧
      ((∀ v ∈ s.vars, v = none) → ∀ x ∈ s.heap, x = none) := by
  obtain ⟨h1, h2⟩ := run_abs ops (⟨[], []⟩ : UMem α) sound_empty
  refine ⟨h1, fun s hr => ?_⟩
  have hs := h2 s hr
  refine ⟨?_, ?_⟩
  · intro i a ha
    unfold contents
    cases e : a.data with
    | none => simp [hs.null i a ha e]
    | some b =>
      obtain ⟨buf, hb, hl⟩ := hs.alive i a b ha e
      simp only []
      rw [hb]
      exact hl.symm
  · intro hd x hx
    obtain ⟨b, hb⟩ := List.mem_iff_getElem?.mp hx
    cases x with
    | none => rfl
    | some buf =>
      obtain ⟨i, a, hi, _⟩ := hs.owned b buf hb
      have := hd (some a) (List.mem_iff_getElem?.mpr ⟨i, hi⟩)
      cases this

example : (do let s ← UMem.run [.make 2, .write 0 1 7, .move 0, .dflt, .assign 2 1, .destroy 0, .destroy 1] (⟨[], []⟩ : UMem Nat); pure s.abs) =
    pure [none, none, some (some [none, some 7])] := by decide +kernel

/-! ## Access -/

/-- `operator[]`, daw_unique_array.h 107-113: an element of the array. -/
def UArr.index (heap : List (Option (Buf α))) (a : UArr) (pos : Nat) : Cxx (Option α) :=
  match a.data with
  | none => ub
  | some b => do
    match ← rd heap b with
    | none => ub
    | some buf => rd buf pos

/-- `at`, daw_unique_array.h 115-125: `daw_throw_on_false` throws if `pos >= m_size` is false. -/
def UArr.atPos (heap : List (Option (Buf α))) (a : UArr) (pos : Nat) : Cxx (Option α) :=
  if ¬ (pos ≥ a.size) then thrown else a.index heap pos

/-- `empty`, daw_unique_array.h 95-97. -/
def UArr.isEmpty (a : UArr) : Bool := a.data == none

/-- `front`, daw_unique_array.h 151-157. -/
def UArr.front (heap : List (Option (Buf α))) (a : UArr) : Cxx (Option α) := a.index heap 0

/-- `back`, daw_unique_array.h 159-165: `m_size - 1` of a `size_t`, for sizes below half of its range; before the first element the pointer
arithmetic is undefined. -/
def UArr.back (heap : List (Option (Buf α))) (a : UArr) : Cxx (Option α) :=
  if a.size = 0 then ub else a.index heap (a.size - 1)

/-- In whatever state a program has got to: `operator[]`, `front` and `back` read the elements they name, out of range they are undefined;
an array of one element or more is not empty, and one that was default constructed or moved from is. -/
theorem C159_access_partial (ops : List (AOp α)) {s : UMem α} (hr : UMem.run ops ⟨[], []⟩ = pure s) {i : Nat} {a : UArr}
    (ha : s.vars[i]? = some (some a)) :
    (∀ buf, contents s.heap a = some buf → (∀ pos, a.index s.heap pos = rd buf pos) ∧ a.front s.heap = rd buf 0 ∧
      (∀ x, buf.getLast? = some x → a.back s.heap = pure x) ∧ (buf ≠ [] → a.isEmpty = false)) ∧
    (contents s.heap a = none → a.isEmpty = true ∧ a.size = 0 ∧ ∀ pos, a.index s.heap pos = ub) := by
  have hs := (run_abs ops (⟨[], []⟩ : UMem α) sound_empty).2 s hr
  cases e : a.data with
  | none =>
    have hc : contents s.heap a = none := by unfold contents; rw [e]
    refine ⟨fun buf h => ?_, fun _ => ⟨by unfold UArr.isEmpty; rw [e]; rfl, hs.null i a ha e, ?_⟩⟩
    · rw [hc] at h; cases h
    · intro pos; unfold UArr.index; rw [e]
  | some b =>
    obtain ⟨buf, hb, hl⟩ := hs.alive i a b ha e
    have hc : contents s.heap a = some buf := by unfold contents; rw [e]; simp only []; rw [hb]; rfl
    have hidx : ∀ pos, a.index s.heap pos = rd buf pos := by
      intro pos; unfold UArr.index; rw [e]; simp only []; rw [rd_some hb]; rfl
    refine ⟨fun buf' h => ?_, fun h => ?_⟩
    · rw [hc] at h
      injection h with h
      subst h
      refine ⟨hidx, hidx 0, ?_, ?_⟩
      · intro x hx
        have hne : buf ≠ [] := by rintro rfl; simp at hx
        have hpos : 0 < buf.length := List.length_pos_iff.mpr hne
        unfold UArr.back
        rw [if_neg (by omega), hidx, ← hl]
        apply rd_some
        rw [List.getLast?_eq_getElem?] at hx
        exact hx
      · intro _; unfold UArr.isEmpty; rw [e]; rfl
    · rw [hc] at h; cases h

example := C159_access_partial (α := Nat) [.make 3, .write 0 2 9] (s := ⟨[some [none, none, some 9]], [some ⟨some 0, 3⟩]⟩) (by decide +kernel) (i := 0) rfl

/-- `at` is the wrong way round: it throws for every element there is, and reads past the array for every other position. -/
theorem C159_at_violated (ops : List (AOp α)) {s : UMem α} (hr : UMem.run ops ⟨[], []⟩ = pure s) {i : Nat} {a : UArr}
    (ha : s.vars[i]? = some (some a)) (pos : Nat) : a.atPos s.heap pos = if pos < a.size then thrown else ub := by
  have hs := (run_abs ops (⟨[], []⟩ : UMem α) sound_empty).2 s hr
  unfold UArr.atPos
  by_cases h : pos < a.size
  · rw [if_pos (by omega), if_pos h]
  · rw [if_neg (by omega), if_neg h]
    unfold UArr.index
    cases e : a.data with
    | none => rfl
    | some b =>
      obtain ⟨buf, hb, hl⟩ := hs.alive i a b ha e
      simp only []
      rw [rd_some hb]
      exact rd_oob (by omega)

example := C159_at_violated (α := Nat) [.make 3, .write 0 2 9] (s := ⟨[some [none, none, some 9]], [some ⟨some 0, 3⟩]⟩) (by decide +kernel) (i := 0) rfl 2

/-- An array of no elements is not empty. -/
theorem C159_empty_violated : ∃ (s : UMem Nat) (a : UArr), UMem.run [.make 0] ⟨[], []⟩ = pure s ∧ s.vars[0]? = some (some a) ∧
    a.size = 0 ∧ a.isEmpty = false := ⟨⟨[some []], [some ⟨some 0, 0⟩]⟩, ⟨some 0, 0⟩, by decide +kernel, rfl, rfl, rfl⟩

example : ∃ s : UMem Nat, UMem.run [.make 3, .write 0 2 9] ⟨[], []⟩ = pure s ∧ s.vars[0]? = some (some ⟨some 0, 3⟩) ∧
    UArr.back s.heap ⟨some 0, 3⟩ = pure (some 9) ∧ UArr.atPos s.heap ⟨some 0, 3⟩ 2 = thrown :=
  ⟨⟨[some [none, none, some 9]], [some ⟨some 0, 3⟩]⟩, by decide +kernel, rfl, by decide +kernel, by decide +kernel⟩

end Verif.Own
