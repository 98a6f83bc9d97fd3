import Verif.Own.Base

/-
`daw::shared_function` and `daw::weak_shared_function`, include/daw/daw_shared_function.h: the life of one storage block under all
interleavings of the atomic operations of any number of threads.  Threads may use one handle at the same time as long as they only
call, copy or lock it; it is destroyed, moved or assigned by one thread while no other uses it.
-/

namespace Verif.Memory.SharedFunction
open Cxx Own

/-- A handle, or a thread in the middle of an operation; `src` is the handle that the operation was called on.
(daw_shared_function.h 25-302; the lines of each case are at the constructors.) -/
inductive Tok where
  /-- a `shared_function` -/
  | S
  /-- a `weak_shared_function` -/
  | W
  /-- in `operator( )`, the callable runs, daw_shared_function.h 115-123 -/
  | B (src : Nat)
  /-- in `strong_copy`, between the two increments, 42-46 -/
  | C (src : Nat)
  /-- in `weak_upgrade`, `count` is known, 48-61 -/
  | U (src : Nat) (count : Int)
  /-- in `weak_upgrade`, after the exchange succeeded and before the increment of the weak count, 56 -/
  | V (src : Nat)
  /-- in `strong_release`, the strong count has become zero, 162-163 -/
  | X
  /-- in `strong_release`, before `weak_release`, 165 -/
  | Y
  /-- in `weak_release`, the weak count has become zero, 150-151 -/
  | D
  /-- gone -/
  | gone
  deriving DecidableEq

/-- The storage block: the two counts (31-32), how often the callable was destroyed by `reset_storage` (125-129) and how often the
block was deleted; and all handles and threads.  The counts do not overflow here. -/
structure St where
  strong : Int
  weak : Int
  resets : Nat
  deleted : Nat
  toks : List Tok
  deriving DecidableEq

/-- After `make_fn_storage`, 168-191: one `shared_function`. -/
def St.init : St := ⟨1, 1, 0, 0, [.S]⟩

/-- The atomic steps. (daw_shared_function.h 25-302; the lines of each case are at the constructors.) -/
inductive Act where
  /-- `operator( )` begins, 293-302 with 117-119 -/
  | call
  /-- the callable returns, 120 -/
  | ret
  /-- `++m_strong_count` of `strong_copy`, 43 -/
  | copyStrong
  /-- `++m_weak_count` of `strong_copy`, 44: there is another `shared_function` -/
  | copyWeak
  /-- `weak_copy`, 63-66: copy of a weak handle or `get_weak` -/
  | weakCopy
  /-- `m_strong_count.load` of `weak_upgrade`, 49 -/
  | load
  /-- `compare_exchange_weak`, 51-55; it may fail spuriously -/
  | cas (spurious : Bool)
  /-- the loop ends with `count <= 0` and `lock` returns an empty `shared_function`, 50 and 60 -/
  | giveUp
  /-- `m_weak_count.fetch_add`, 56: `lock` returns a `shared_function` -/
  | upgraded
  /-- `strong_dec`, 68-70, when a `shared_function` is destroyed -/
  | strongDec
  /-- `reset_storage`, 163 -/
  | reset
  /-- `weak_dec`, 72-74, at the end of a weak handle or of `strong_release` -/
  | weakDec
  /-- `delete p`, 151 -/
  | delete
  deriving DecidableEq

/-- Access to the block, undefined after it was deleted.
(daw_shared_function.h 25-302; the lines of each case are at the constructors.) -/
def touch (s : St) : Cxx Unit := if s.deleted = 0 then pure () else ub

/-- The handle that a thread uses. (daw_shared_function.h 25-302; the lines of each case are at the constructors.) -/
def Tok.src : Tok → Option Nat
  | .B j => some j
  | .C j => some j
  | .U j _ => some j
  | .V j => some j
  | _ => none

/-- No thread uses handle `i`. (daw_shared_function.h 25-302; the lines of each case are at the constructors.) -/
def free (s : St) (i : Nat) : Bool := s.toks.all fun t => t.src != some i

/-- Handle or thread `i` does step `a`; nothing happens if it cannot do this step now.
(daw_shared_function.h 25-302; the lines of each case are at the constructors.) -/
def step (s : St) (i : Nat) (a : Act) : Cxx St :=
  match s.toks[i]?, a with
  | some .S, .call => do
    touch s
    if s.resets = 0 then pure { s with toks := s.toks ++ [.B i] } else abort
  | some (.B _), .ret => do
    touch s
    if s.resets = 0 then pure { s with toks := s.toks.set i .gone } else ub
  | some .S, .copyStrong => do
    touch s
    pure { s with strong := s.strong + 1, toks := s.toks ++ [.C i] }
  | some (.C _), .copyWeak => do
    touch s
    pure { s with weak := s.weak + 1, toks := s.toks.set i .S }
  | some .S, .weakCopy => do
    touch s
    pure { s with weak := s.weak + 1, toks := s.toks ++ [.W] }
  | some .W, .weakCopy => do
    touch s
    pure { s with weak := s.weak + 1, toks := s.toks ++ [.W] }
  | some .W, .load => do
    touch s
    pure { s with toks := s.toks ++ [.U i s.strong] }
  | some (.U j c), .cas spurious =>
    if 0 < c then do
      touch s
      if s.strong = c ∧ spurious = false then pure { s with strong := s.strong + 1, toks := s.toks.set i (.V j) }
      else pure { s with toks := s.toks.set i (.U j s.strong) }
    else pure s
  | some (.U _ c), .giveUp => if 0 < c then pure s else pure { s with toks := s.toks.set i .gone }
  | some (.V _), .upgraded => do
    touch s
    pure { s with weak := s.weak + 1, toks := s.toks.set i .S }
  | some .S, .strongDec =>
    if free s i then do
      touch s
      if s.strong - 1 = 0 then pure { s with strong := s.strong - 1, toks := s.toks.set i .X }
      else pure { s with strong := s.strong - 1, toks := s.toks.set i .Y }
    else pure s
  | some .X, .reset => do
    touch s
    pure { s with resets := s.resets + 1, toks := s.toks.set i .Y }
  | some .Y, .weakDec => do
    touch s
    if s.weak - 1 = 0 then pure { s with weak := s.weak - 1, toks := s.toks.set i .D }
    else pure { s with weak := s.weak - 1, toks := s.toks.set i .gone }
  | some .W, .weakDec =>
    if free s i then do
      touch s
      if s.weak - 1 = 0 then pure { s with weak := s.weak - 1, toks := s.toks.set i .D }
      else pure { s with weak := s.weak - 1, toks := s.toks.set i .gone }
    else pure s
  | some .D, .delete => do
    touch s
    pure { s with deleted := s.deleted + 1, toks := s.toks.set i .gone }
  | _, _ => pure s

/-- An interleaving: who does which step. (daw_shared_function.h 25-302; the lines of each case are at the constructors.) -/
def run : List (Nat × Act) → St → Cxx St
  | [], s => pure s
  | (i, a) :: l, s => do
    let s ← step s i a
    run l s

/-- Strong references. (Specification, no line of the source.) -/
def so : Tok → Nat
  | .S => 1
  | .C _ => 1
  | .V _ => 1
  | _ => 0

/-- Weak references. (Specification, no line of the source.) -/
def wo : Tok → Nat
  | .S => 1
  | .W => 1
  | .X => 1
  | .Y => 1
  | _ => 0

/-- One for a thread that is about to destroy the callable. (Specification, no line of the source.) -/
def xs : Tok → Nat
  | .X => 1
  | _ => 0

/-- One for a thread that is about to delete the block. (Specification, no line of the source.) -/
def ds : Tok → Nat
  | .D => 1
  | _ => 0

/-- What is known of a thread: the handle it uses exists, and a count of zero is final. (Specification, no line of the source.) -/
def good (l : List Tok) (strong : Int) : Tok → Prop
  | .B j => l[j]? = some .S
  | .C j => l[j]? = some .S
  | .U j c => l[j]? = some .W ∧ 0 ≤ c ∧ (c = 0 → strong = 0)
  | .V j => l[j]? = some .W
  | _ => True

/-- The counts count the references, and exactly one destruction and deletion are done or due once they are zero.
(Specification, no line of the source.) -/
structure Inv (s : St) : Prop where
  strong : s.strong = tot so s.toks
  weak : s.weak = tot wo s.toks
  reset0 : s.strong = 0 → s.resets + tot xs s.toks = 1
  reset1 : s.strong ≠ 0 → s.resets + tot xs s.toks = 0
  del0 : s.weak = 0 → s.deleted + tot ds s.toks = 1
  del1 : s.weak ≠ 0 → s.deleted + tot ds s.toks = 0
  good : ∀ t ∈ s.toks, good s.toks s.strong t

theorem inv_init : Inv .init :=
  ⟨rfl, rfl, (by intro h; cases h), fun _ => rfl, (by intro h; cases h), fun _ => rfl, by
    intro t ht
    cases ht with
    | head => trivial
    | tail _ h => cases h⟩

theorem Inv.ref {s : St} (hI : Inv s) {i : Nat} {t : Tok} (h : s.toks[i]? = some t) :
    (so t : Int) ≤ s.strong ∧ (wo t : Int) ≤ s.weak := by
  have h1 := le_tot so s.toks t (List.mem_of_getElem? h)
  have h2 := le_tot wo s.toks t (List.mem_of_getElem? h)
  rw [hI.strong, hI.weak]
  omega

/-- While something that is not gone is there, the block is. -/
theorem Inv.alive {s : St} (hI : Inv s) {i : Nat} {t : Tok} (h : s.toks[i]? = some t) (ht : t ≠ .gone) :
    s.deleted = 0 ∧ (t ≠ .D → 0 < s.weak) := by
  have key : 0 < s.weak → s.deleted = 0 ∧ (t ≠ .D → 0 < s.weak) := by
    intro hw
    have := hI.del1 (by omega)
    exact ⟨by omega, fun _ => hw⟩
  have hS : ∀ j : Nat, s.toks[j]? = some .S → 0 < s.weak := by
    intro j hj
    have := (hI.ref hj).2
    simp only [wo] at this
    omega
  have hW : ∀ j : Nat, s.toks[j]? = some .W → 0 < s.weak := by
    intro j hj
    have := (hI.ref hj).2
    simp only [wo] at this
    omega
  have hg := hI.good t (List.mem_of_getElem? h)
  have r2 := (hI.ref h).2
  cases t with
  | S => exact key (hS i h)
  | W => exact key (hW i h)
  | B j => exact key (hS j hg)
  | C j => exact key (hS j hg)
  | U j c => exact key (hW j hg.1)
  | V j => exact key (hW j hg)
  | X => simp only [wo] at r2; exact key (by omega)
  | Y => simp only [wo] at r2; exact key (by omega)
  | D =>
    have h1 := le_tot ds s.toks .D (List.mem_of_getElem? h)
    simp only [ds] at h1
    refine ⟨?_, fun h => absurd rfl h⟩
    rcases Classical.em (s.weak = 0) with e | e
    · have := hI.del0 e; omega
    · have := hI.del1 e; omega
  | gone => exact absurd rfl ht

theorem Inv.touch {s : St} (hI : Inv s) {i : Nat} {t : Tok} (h : s.toks[i]? = some t) (ht : t ≠ .gone) : touch s = pure () := by
  unfold SharedFunction.touch
  rw [if_pos (hI.alive h ht).1]

theorem get_set {l : List Tok} {i j : Nat} {t u : Tok} (h : (l.set i t)[j]? = some u) : u = t ∨ l[j]? = some u := by
  by_cases hij : j = i
  · subst hij
    left
    have hl := lt_of_some h
    rw [List.length_set] at hl
    rw [List.getElem?_set_self hl] at h
    injection h with h
    exact h.symm
  · right
    rw [List.getElem?_set_ne (Ne.symm hij)] at h
    exact h

theorem get_snoc {l : List Tok} {j : Nat} {t u : Tok} (h : (l ++ [t])[j]? = some u) : u = t ∨ l[j]? = some u := by
  rcases Nat.lt_or_ge j l.length with g | g
  · right; rw [List.getElem?_append_left g] at h; exact h
  · left
    rw [List.getElem?_append_right g] at h
    cases e : j - l.length with
    | zero => rw [e] at h; injection h with h; exact h.symm
    | succ k => rw [e] at h; simp at h

/-- Knowledge about threads survives if their handles do and zero stays zero. -/
theorem good_mono {l l' : List Tok} {a b : Int} {t : Tok} (h : good l a t)
    (hl : ∀ j : Nat, t.src = some j → ∀ u, u = .S ∨ u = .W → l[j]? = some u → l'[j]? = some u) (hz : a = 0 → b = 0) : good l' b t := by
  cases t with
  | B j => exact hl j rfl _ (Or.inl rfl) h
  | C j => exact hl j rfl _ (Or.inl rfl) h
  | U j c => exact ⟨hl j rfl _ (Or.inr rfl) h.1, h.2.1, fun e => hz (h.2.2 e)⟩
  | V j => exact hl j rfl _ (Or.inr rfl) h
  | _ => trivial

theorem good_snoc {l : List Tok} {a b : Int} {n : Tok} (h : ∀ t ∈ l, good l a t) (hz : a = 0 → b = 0)
    (hn : good (l ++ [n]) b n) : ∀ t ∈ l ++ [n], good (l ++ [n]) b t := by
  intro t ht
  rcases List.mem_append.1 ht with e | e
  · refine good_mono (h t e) (fun j _ u _ hj => ?_) hz
    rw [List.getElem?_append_left (lt_of_some hj)]
    exact hj
  · rw [List.mem_singleton.1 e]
    exact hn

theorem good_set {l : List Tok} {a b : Int} {i : Nat} {o n : Tok} (h : ∀ t ∈ l, good l a t) (hz : a = 0 → b = 0) (hi : l[i]? = some o)
    (ho : (o ≠ .S ∧ o ≠ .W) ∨ ∀ t ∈ l, t.src ≠ some i) (hn : good (l.set i n) b n) : ∀ t ∈ l.set i n, good (l.set i n) b t := by
  intro t ht
  obtain ⟨k, hk⟩ := List.getElem?_of_mem ht
  rcases get_set hk with e | e
  · rw [e]; exact hn
  · have hm := List.mem_of_getElem? e
    refine good_mono (h t hm) (fun j hj u hu hg => ?_) hz
    have hji : j ≠ i := by
      intro e
      subst e
      rcases ho with ho | ho
      · rw [hi] at hg
        injection hg with hg
        subst hg
        rcases hu with hu | hu
        · exact ho.1 hu
        · exact ho.2 hu
      · exact ho t hm hj
    rw [List.getElem?_set_ne (Ne.symm hji)]
    exact hg

theorem free_iff {s : St} {i : Nat} (h : free s i = true) : ∀ t ∈ s.toks, t.src ≠ some i := by
  intro t ht he
  have := List.all_eq_true.1 h t ht
  rw [he] at this
  simp at this

macro "cnt" h:term ", " u:term : tactic =>
  `(tactic| (have k1 := $h so $u; have k2 := $h wo $u; have k3 := $h xs $u; have k4 := $h ds $u
             simp only [so] at k1; simp only [wo] at k2; simp only [xs] at k3; simp only [ds] at k4))

/-- One step from a good state returns a good state. -/
theorem step_inv {s : St} (hI : Inv s) (i : Nat) (a : Act) : ∃ s', step s i a = pure s' ∧ Inv s' := by
  cases h : s.toks[i]? with
  | none =>
    refine ⟨s, ?_, hI⟩
    unfold step
    rw [h]
  | some t =>
    have hset : ∀ (f : Tok → Nat) (u : Tok), tot f (s.toks.set i u) + f t = tot f s.toks + f u := fun f u => tot_set f s.toks i t u h
    have hsn : ∀ (f : Tok → Nat) (u : Tok), tot f (s.toks ++ [u]) = tot f s.toks + f u := fun f u => tot_snoc f s.toks u
    have hself : ∀ u : Tok, s.toks[i]? = some t → (s.toks ++ [u])[i]? = some t := by
      intro u h
      rw [List.getElem?_append_left (lt_of_some h)]
      exact h
    have hother : ∀ (j : Nat) (u v : Tok), s.toks[j]? = some v → v ≠ t → (s.toks.set i u)[j]? = some v := by
      intro j u v hj hv
      have : j ≠ i := by
        intro e
        rw [e, h] at hj
        injection hj with hj
        exact hv hj.symm
      rw [List.getElem?_set_ne (Ne.symm this)]
      exact hj
    obtain ⟨r1, r2⟩ := hI.ref h
    have htouch := fun ht => hI.touch h ht
    have halive := fun ht => hI.alive h ht
    have gt := hI.good t (List.mem_of_getElem? h)
    have hsrc : ∀ j : Nat, s.toks[j]? = some .S → 0 < s.strong := by
      intro j hj
      have := (hI.ref hj).1
      simp only [so] at this
      omega
    obtain ⟨i1, i2, i3, i4, i5, i6, i7⟩ := hI
    have stay : ∃ s', (pure s : Cxx St) = pure s' ∧ Inv s' := ⟨s, rfl, i1, i2, i3, i4, i5, i6, i7⟩
    unfold step
    rw [h]
    cases t with
    | S =>
      have e1 := htouch (by intro h; cases h)
      simp only [so] at r1
      simp only [wo] at r2
      have z3 := i4 (by omega)
      have z5 := i6 (by omega)
      cases a with
      | call =>
        dsimp only
        rw [e1, pure_bind, if_pos (by omega)]
        cnt hsn, (.B i)
        refine ⟨_, rfl, ?_, ?_, ?_, ?_, ?_, ?_, good_snoc i7 (fun h => h) (hself _ h)⟩ <;> dsimp only <;> omega
      | copyStrong =>
        dsimp only
        rw [e1, pure_bind]
        cnt hsn, (.C i)
        refine ⟨_, rfl, ?_, ?_, ?_, ?_, ?_, ?_, good_snoc i7 (fun h => by omega) (hself _ h)⟩ <;> dsimp only <;> omega
      | weakCopy =>
        dsimp only
        rw [e1, pure_bind]
        cnt hsn, .W
        refine ⟨_, rfl, ?_, ?_, ?_, ?_, ?_, ?_, good_snoc i7 (fun h => h) trivial⟩ <;> dsimp only <;> omega
      | strongDec =>
        dsimp only
        by_cases hf : free s i = true
        · rw [if_pos hf, e1, pure_bind]
          by_cases hz : s.strong - 1 = 0
          · rw [if_pos hz]
            cnt hset, .X
            refine ⟨_, rfl, ?_, ?_, ?_, ?_, ?_, ?_, good_set i7 (fun _ => hz) h (Or.inr (free_iff hf)) trivial⟩ <;> dsimp only <;> omega
          · rw [if_neg hz]
            cnt hset, .Y
            refine ⟨_, rfl, ?_, ?_, ?_, ?_, ?_, ?_, good_set i7 (fun h => by omega) h (Or.inr (free_iff hf)) trivial⟩ <;>
              dsimp only <;> omega
        · rw [if_neg hf]
          exact stay
      | _ => exact stay
    | W =>
      have e1 := htouch (by intro h; cases h)
      simp only [wo] at r2
      have z5 := i6 (by omega)
      cases a with
      | weakCopy =>
        dsimp only
        rw [e1, pure_bind]
        cnt hsn, .W
        refine ⟨_, rfl, ?_, ?_, ?_, ?_, ?_, ?_, good_snoc i7 (fun h => h) trivial⟩ <;> dsimp only <;> omega
      | load =>
        dsimp only
        rw [e1, pure_bind]
        cnt hsn, (.U i s.strong)
        refine ⟨_, rfl, ?_, ?_, ?_, ?_, ?_, ?_, good_snoc i7 (fun h => h) ⟨hself _ h, by omega, fun h => h⟩⟩ <;> dsimp only <;> omega
      | weakDec =>
        dsimp only
        by_cases hf : free s i = true
        · rw [if_pos hf, e1, pure_bind]
          by_cases hz : s.weak - 1 = 0
          · rw [if_pos hz]
            cnt hset, .D
            refine ⟨_, rfl, ?_, ?_, ?_, ?_, ?_, ?_, good_set i7 (fun h => h) h (Or.inr (free_iff hf)) trivial⟩ <;> dsimp only <;> omega
          · rw [if_neg hz]
            cnt hset, .gone
            refine ⟨_, rfl, ?_, ?_, ?_, ?_, ?_, ?_, good_set i7 (fun h => h) h (Or.inr (free_iff hf)) trivial⟩ <;> dsimp only <;> omega
        · rw [if_neg hf]
          exact stay
      | _ => exact stay
    | B j =>
      have e1 := htouch (by intro h; cases h)
      have z3 := i4 (by have := hsrc j gt; omega)
      cases a with
      | ret =>
        dsimp only
        rw [e1, pure_bind, if_pos (by omega)]
        cnt hset, .gone
        refine ⟨_, rfl, ?_, ?_, ?_, ?_, ?_, ?_,
          good_set i7 (fun h => h) h (Or.inl ⟨(by intro h; cases h), (by intro h; cases h)⟩) trivial⟩ <;> dsimp only <;> omega
      | _ => exact stay
    | C j =>
      have e1 := htouch (by intro h; cases h)
      have e2 := (halive (by intro h; cases h)).2 (by intro h; cases h)
      cases a with
      | copyWeak =>
        dsimp only
        rw [e1, pure_bind]
        cnt hset, .S
        refine ⟨_, rfl, ?_, ?_, ?_, ?_, ?_, ?_,
          good_set i7 (fun h => h) h (Or.inl ⟨(by intro h; cases h), (by intro h; cases h)⟩) trivial⟩ <;> dsimp only <;> omega
      | _ => exact stay
    | U j c =>
      have e1 := htouch (by intro h; cases h)
      have e2 := (halive (by intro h; cases h)).2 (by intro h; cases h)
      cases a with
      | cas spurious =>
        dsimp only
        by_cases hc : 0 < c
        · rw [if_pos hc, e1, pure_bind]
          by_cases hs : s.strong = c ∧ spurious = false
          · rw [if_pos hs]
            cnt hset, (.V j)
            refine ⟨_, rfl, ?_, ?_, ?_, ?_, ?_, ?_, good_set i7 (fun h => by omega) h
              (Or.inl ⟨(by intro h; cases h), (by intro h; cases h)⟩) (hother j _ _ gt.1 (by intro h; cases h))⟩ <;> dsimp only <;> omega
          · rw [if_neg hs]
            cnt hset, (.U j s.strong)
            refine ⟨_, rfl, ?_, ?_, ?_, ?_, ?_, ?_, good_set i7 (fun h => h) h
              (Or.inl ⟨(by intro h; cases h), (by intro h; cases h)⟩)
              ⟨hother j _ _ gt.1 (by intro h; cases h), by omega, fun h => h⟩⟩ <;> dsimp only <;> omega
        · rw [if_neg hc]
          exact stay
      | giveUp =>
        dsimp only
        by_cases hc : 0 < c
        · rw [if_pos hc]
          exact stay
        · rw [if_neg hc]
          cnt hset, .gone
          refine ⟨_, rfl, ?_, ?_, ?_, ?_, ?_, ?_,
            good_set i7 (fun h => h) h (Or.inl ⟨(by intro h; cases h), (by intro h; cases h)⟩) trivial⟩ <;> dsimp only <;> omega
      | _ => exact stay
    | V j =>
      have e1 := htouch (by intro h; cases h)
      have e2 := (halive (by intro h; cases h)).2 (by intro h; cases h)
      cases a with
      | upgraded =>
        dsimp only
        rw [e1, pure_bind]
        cnt hset, .S
        refine ⟨_, rfl, ?_, ?_, ?_, ?_, ?_, ?_,
          good_set i7 (fun h => h) h (Or.inl ⟨(by intro h; cases h), (by intro h; cases h)⟩) trivial⟩ <;> dsimp only <;> omega
      | _ => exact stay
    | X =>
      have e1 := htouch (by intro h; cases h)
      cases a with
      | reset =>
        dsimp only
        rw [e1, pure_bind]
        cnt hset, .Y
        refine ⟨_, rfl, ?_, ?_, ?_, ?_, ?_, ?_,
          good_set i7 (fun h => h) h (Or.inl ⟨(by intro h; cases h), (by intro h; cases h)⟩) trivial⟩ <;> dsimp only <;> omega
      | _ => exact stay
    | Y =>
      have e1 := htouch (by intro h; cases h)
      simp only [wo] at r2
      have z5 := i6 (by omega)
      cases a with
      | weakDec =>
        dsimp only
        rw [e1, pure_bind]
        by_cases hz : s.weak - 1 = 0
        · rw [if_pos hz]
          cnt hset, .D
          refine ⟨_, rfl, ?_, ?_, ?_, ?_, ?_, ?_,
            good_set i7 (fun h => h) h (Or.inl ⟨(by intro h; cases h), (by intro h; cases h)⟩) trivial⟩ <;> dsimp only <;> omega
        · rw [if_neg hz]
          cnt hset, .gone
          refine ⟨_, rfl, ?_, ?_, ?_, ?_, ?_, ?_,
            good_set i7 (fun h => h) h (Or.inl ⟨(by intro h; cases h), (by intro h; cases h)⟩) trivial⟩ <;> dsimp only <;> omega
      | _ => exact stay
    | D =>
      have e1 := htouch (by intro h; cases h)
      cases a with
      | delete =>
        dsimp only
        rw [e1, pure_bind]
        cnt hset, .gone
        refine ⟨_, rfl, ?_, ?_, ?_, ?_, ?_, ?_,
          good_set i7 (fun h => h) h (Or.inl ⟨(by intro h; cases h), (by intro h; cases h)⟩) trivial⟩ <;> dsimp only <;> omega
      | _ => exact stay
    | gone => cases a <;> exact stay

theorem run_inv (l : List (Nat × Act)) : ∀ s, Inv s → ∃ s', run l s = pure s' ∧ Inv s' := by
  induction l with
  | nil => intro s hI; exact ⟨s, rfl, hI⟩
  | cons x l ih =>
    intro s hI
    obtain ⟨i, a⟩ := x
    obtain ⟨s', e, hI'⟩ := step_inv hI i a
    rw [run, e, pure_bind]
    exact ih s' hI'

/-- C116: no interleaving touches the block after it was deleted or calls a destroyed callable, the callable is destroyed and the block
deleted at most once, and the callable lives as long as a `shared_function` does, the block as long as any handle does. -/
theorem C116_safe (l : List (Nat × Act)) : ∃ s, run l .init = pure s ∧ s.resets ≤ 1 ∧ s.deleted ≤ 1 ∧
    (.S ∈ s.toks → s.resets = 0) ∧ (.S ∈ s.toks ∨ .W ∈ s.toks → s.deleted = 0) := by
  obtain ⟨s, e, hI⟩ := run_inv l .init inv_init
  refine ⟨s, e, ?_, ?_, ?_, ?_⟩
  · rcases Classical.em (s.strong = 0) with h | h
    · have := hI.reset0 h; omega
    · have := hI.reset1 h; omega
  · rcases Classical.em (s.weak = 0) with h | h
    · have := hI.del0 h; omega
    · have := hI.del1 h; omega
  · intro hm
    obtain ⟨i, hi⟩ := List.getElem?_of_mem hm
    have := (hI.ref hi).1
    have n1 : so .S = 1 := rfl
    have := hI.reset1 (by omega)
    omega
  · intro hm
    have hw : 0 < s.weak := by
      rcases hm with hm | hm
      · obtain ⟨i, hi⟩ := List.getElem?_of_mem hm
        have := (hI.ref hi).2
        have n1 : wo .S = 1 := rfl
        omega
      · obtain ⟨i, hi⟩ := List.getElem?_of_mem hm
        have := (hI.ref hi).2
        have n1 : wo .W = 1 := rfl
        omega
    have := hI.del1 (by omega)
    omega

/-- C116: when all handles are gone the callable was destroyed exactly once and the block deleted exactly once. -/
theorem C116_exactly_once (l : List (Nat × Act)) (s : St) (h : run l .init = pure s) (hg : ∀ t ∈ s.toks, t = .gone) :
    s.resets = 1 ∧ s.deleted = 1 := by
  obtain ⟨s', e, hI⟩ := run_inv l .init inv_init
  rw [h, pure_inj] at e
  subst e
  have z : ∀ f : Tok → Nat, f .gone = 0 → tot f s.toks = 0 := fun f hf => tot_eq_zero f s.toks (fun t ht => by rw [hg t ht]; exact hf)
  have h1 := hI.strong
  have h2 := hI.weak
  rw [z so rfl] at h1
  rw [z wo rfl] at h2
  have h3 := hI.reset0 h1
  have h4 := hI.del0 h2
  rw [z xs rfl] at h3
  rw [z ds rfl] at h4
  exact ⟨h3, h4⟩

example := C116_exactly_once [(0, .weakCopy), (0, .strongDec), (1, .load), (0, .reset), (2, .giveUp), (0, .weakDec), (1, .weakDec), (1, .delete)]
  ⟨0, 0, 1, 1, [.gone, .gone, .gone]⟩ (by decide +kernel) (by decide)

/-- C116: the callable is destroyed without delay: when no `shared_function` and no operation on one is left, it is destroyed, even if
weak handles remain. -/
theorem C116_prompt (l : List (Nat × Act)) (s : St) (h : run l .init = pure s) (hg : ∀ t ∈ s.toks, t = .gone ∨ t = .W) :
    s.resets = 1 := by
  obtain ⟨s', e, hI⟩ := run_inv l .init inv_init
  rw [h, pure_inj] at e
  subst e
  have z : ∀ f : Tok → Nat, f .gone = 0 → f .W = 0 → tot f s.toks = 0 := fun f hf hw =>
    tot_eq_zero f s.toks (fun t ht => by rcases hg t ht with e | e <;> rw [e] <;> assumption)
  have h1 := hI.strong
  rw [z so rfl rfl] at h1
  have h3 := hI.reset0 h1
  rw [z xs rfl rfl] at h3
  exact h3

example := C116_prompt [(0, .weakCopy), (0, .strongDec), (1, .load), (0, .reset), (2, .giveUp), (0, .weakDec)]
  ⟨0, 1, 1, 0, [.gone, .W, .gone]⟩ (by decide +kernel) (by decide)

/-- C116: while a call runs, the callable is not destroyed and the block not deleted. -/
theorem C116_call (l : List (Nat × Act)) (s : St) (h : run l .init = pure s) (j : Nat) (hb : .B j ∈ s.toks) :
    s.resets = 0 ∧ s.deleted = 0 := by
  obtain ⟨s', e, hI⟩ := run_inv l .init inv_init
  rw [h, pure_inj] at e
  subst e
  have hj : s.toks[j]? = some .S := hI.good _ hb
  have h1 := (hI.ref hj).1
  simp only [so] at h1
  have h2 := hI.reset1 (by omega)
  exact ⟨by omega, (hI.alive hj (by intro h; cases h)).1⟩

example := C116_call [(0, .weakCopy), (1, .load), (0, .copyStrong), (1, .load), (2, .cas false), (4, .cas false), (2, .cas false), (2, .cas false),
  (3, .copyWeak), (2, .upgraded), (0, .strongDec), (2, .call), (4, .upgraded)] ⟨3, 5, 0, 0, [.Y, .W, .S, .S, .S, .B 2]⟩ (by decide +kernel) 2 (by decide)

/-- C117: `lock` returns an empty `shared_function` only when no `shared_function` is left, not even one that another thread is about to
have; and the callable is destroyed or about to be. -/
theorem C117_lock_fails (l : List (Nat × Act)) (s : St) (h : run l .init = pure s) (j : Nat) (c : Int)
    (hi : .U j c ∈ s.toks) (hc : ¬ 0 < c) :
    (∀ t ∈ s.toks, t ≠ .S ∧ ∀ k, t ≠ .C k ∧ t ≠ .V k ∧ t ≠ .B k) ∧ s.resets + s.toks.count .X = 1 := by
  obtain ⟨s', e, hI⟩ := run_inv l .init inv_init
  rw [h, pure_inj] at e
  subst e
  obtain ⟨_, h0, h1⟩ := hI.good _ hi
  have hz := h1 (by omega)
  have hS : ∀ k : Nat, s.toks[k]? ≠ some .S := by
    intro k hk
    have := (hI.ref hk).1
    simp only [so] at this
    omega
  refine ⟨?_, ?_⟩
  · intro t ht
    obtain ⟨k, hk⟩ := List.getElem?_of_mem ht
    have hr := (hI.ref hk).1
    have hg := hI.good t ht
    refine ⟨?_, fun k' => ⟨?_, ?_, ?_⟩⟩
    · rintro rfl; exact hS k hk
    · rintro rfl; exact hS k' hg
    · rintro rfl; simp only [so] at hr; omega
    · rintro rfl; exact hS k' hg
  · rw [← hI.reset0 hz]
    congr 1
    generalize s.toks = l
    induction l with
    | nil => rfl
    | cons t l ih =>
      rw [List.count_cons, tot_cons, ih]
      cases t <;> simp [xs, Nat.add_comm]

/-- C117: from the moment the exchange in `lock` succeeds the callable is alive, and no thread is about to destroy it. -/
theorem C117_lock_holds (l : List (Nat × Act)) (s : St) (h : run l .init = pure s) (j : Nat) (hv : .V j ∈ s.toks) :
    s.resets = 0 ∧ .X ∉ s.toks ∧ s.deleted = 0 := by
  obtain ⟨s', e, hI⟩ := run_inv l .init inv_init
  rw [h, pure_inj] at e
  subst e
  obtain ⟨k, hk⟩ := List.getElem?_of_mem hv
  have h1 := (hI.ref hk).1
  simp only [so] at h1
  have h2 := hI.reset1 (by omega)
  refine ⟨by omega, fun hx => ?_, (hI.alive hk (by intro h; cases h)).1⟩
  have := le_tot xs s.toks .X hx
  simp only [xs] at this
  omega

/-- A weak handle is taken; while the last `shared_function` goes, `lock` fails; then the weak handle goes. -/
example : run [(0, .weakCopy), (0, .strongDec), (1, .load), (0, .reset), (2, .giveUp), (0, .weakDec), (1, .weakDec), (1, .delete)] .init =
    pure ⟨0, 0, 1, 1, [.gone, .gone, .gone]⟩ := by decide +kernel

/-- Two threads lock one weak handle while a third copies the function; both succeed and one calls it after the original is gone. -/
example : run [(0, .weakCopy), (1, .load), (0, .copyStrong), (1, .load), (2, .cas false), (4, .cas false), (2, .cas false), (2, .cas false),
    (3, .copyWeak), (2, .upgraded), (0, .strongDec), (2, .call), (4, .upgraded)] .init =
    pure ⟨3, 5, 0, 0, [.Y, .W, .S, .S, .S, .B 2]⟩ := by decide +kernel

end Verif.Memory.SharedFunction
