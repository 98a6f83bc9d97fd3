import Verif.Vector.Lemmas

/- Every operation of the vector, on a vector that represents a list. -/

namespace Verif.Vector
open Cxx

variable {α : Type}

/-- The vector holds exactly the elements `xs`: its first cells are objects with these values, the others
are raw, and it owns one block if it has any capacity. (Specification, no line of the source.) -/
structure Rep (v : Vec α) (xs : List α) : Prop where
  mem : v.mem = lv xs ++ rw' (v.cap - xs.length)
  size_le : xs.length ≤ v.cap
  last : v.last = xs.length
  blocks : v.blocks = if v.cap = 0 then 0 else 1

theorem Rep.of {v : Vec α} {xs : List α} {k : Nat} (hm : v.mem = lv xs ++ rw' k) (hl : v.last = xs.length)
    (hb : v.blocks = if xs.length + k = 0 then 0 else 1) : Rep v xs ∧ v.cap = xs.length + k := by
  have hc : v.cap = xs.length + k := by unfold Vec.cap; rw [hm]; simp
  exact ⟨⟨by rw [hm, hc]; congr 2; omega, by omega, hl, by rw [hb, hc]⟩, hc⟩

theorem Rep.ex {v : Vec α} {xs : List α} (h : Rep v xs) : ∃ k, v.mem = lv xs ++ rw' k ∧ v.cap = xs.length + k :=
  ⟨_, h.mem, by have := h.size_le; omega⟩

theorem rep_empty : Rep (Vec.empty : Vec α) [] := ⟨rfl, Nat.le_refl _, rfl, rfl⟩

/-- The capacity after making room for `need` elements; `none` if this throws: the limit of
`max_size()` is exceeded or the allocation fails. (Specification, no line of the source.) -/
def grow (env : Env) (cap need : Nat) : Option Nat :=
  if need ≤ cap then some cap
  else if env.maxSize < need then none
  else
    let c := if cap ≥ env.maxSize / 2 then env.maxSize else max (2 * cap) need
    if env.canAlloc c then some c else none

theorem grow_fits {env : Env} {cap need : Nat} (h : need ≤ cap) : grow env cap need = some cap := by
  simp [grow, h]

theorem grow_ge {env : Env} {cap need c : Nat} (h : grow env cap need = some c) : need ≤ c := by
  unfold grow at h
  by_cases h1 : need ≤ cap
  · rw [if_pos h1] at h; injection h; omega
  · rw [if_neg h1] at h
    by_cases h2 : env.maxSize < need
    · rw [if_pos h2] at h; cases h
    · rw [if_neg h2] at h
      simp only [] at h
      generalize hc : (if cap ≥ env.maxSize / 2 then env.maxSize else max (2 * cap) need) = d at h
      by_cases h3 : env.canAlloc d = true
      · rw [if_pos h3] at h; injection h with h; subst h hc
        split <;> omega
      · rw [if_neg h3] at h; cases h

theorem withBuf_spec {β : Type} (env : Env) (v : Vec α) (need start : Nat) (failed : β) (k : Buf α → Cxx β)
    (h : v.cap < need) :
    withBuf env v need start failed k =
      match grow env v.cap need with
      | none => pure failed
      | some c => k ⟨rw' c, start, start, 1⟩ := by
  unfold withBuf recommend grow Buf.new
  rw [if_neg (show ¬ need ≤ v.cap by omega)]
  by_cases h1 : env.maxSize < need
  · rw [if_pos (show need > env.maxSize from h1), if_pos h1]
  · rw [if_neg (show ¬ need > env.maxSize from h1), if_neg h1]
    by_cases h2 : v.cap ≥ env.maxSize / 2
    · simp only [if_pos h2]
      rw [if_neg (show ¬ env.maxSize = 0 by omega)]
      by_cases h3 : env.canAlloc env.maxSize
      · simp only [if_pos h3, rw']
      · simp only [if_neg h3]
    · simp only [if_neg h2]
      rw [if_neg (show ¬ max (2 * v.cap) need = 0 by omega)]
      by_cases h3 : env.canAlloc (max (2 * v.cap) need)
      · simp only [if_pos h3, rw']
      · simp only [if_neg h3]

theorem swapOutAt_spec {v : Vec α} {xs ys : List α} {p t : Nat} (h : Rep v xs) (hp : p ≤ xs.length)
    (ht : xs.length - p ≤ t) (hpos : 0 < p + ys.length + t) :
    ∃ v', swapOutAt v ⟨rw' p ++ lv ys ++ rw' t, p, p + ys.length, 1⟩ p = pure (v', p) ∧
      Rep v' (xs.take p ++ ys ++ xs.drop p) ∧ v'.cap = p + ys.length + t := by
  obtain ⟨k, hm, hk⟩ := h.ex
  have hx : lv xs = lv (xs.take p) ++ lv (xs.drop p) := by rw [← lv_append, List.take_append_drop]
  have hlt : (xs.take p).length = p := by simp [hp]
  have hld : (xs.drop p).length = xs.length - p := by simp
  unfold swapOutAt
  simp only []
  have e1 := transferDown_spec p (lv (xs.take p)) (lv (xs.drop p) ++ rw' k) [] (lv ys ++ rw' t) p (by simp [hp])
    (objs_lv _) (by simp)
  simp only [List.nil_append, ← List.append_assoc] at e1
  have e1' : v.mem = lv (xs.take p) ++ lv (xs.drop p) ++ rw' k := by rw [hm, hx]
  rw [e1', e1, pure_bind]
  simp only []
  have e2 := transferUp_spec (rw' k) (rw' (t - (xs.length - p))) (lv (xs.drop p)) (mv p)
    (lv (xs.take p) ++ lv ys) p (p + ys.length) (objs_lv _) (by simp) (by simp [hp])
  rw [lv_length, hld] at e2
  have e3 : (lv (xs.take p) ++ lv ys ++ rw' t : Mem α) =
      lv (xs.take p) ++ lv ys ++ rw' (xs.length - p) ++ rw' (t - (xs.length - p)) := by
    rw [List.append_assoc _ (rw' (xs.length - p)), ← rw'_add]; congr 2; omega
  rw [h.last, e3, e2, pure_bind]
  simp only [List.length_nil, ne_eq, not_true, if_false]
  have e4 := Buf.destruct_spec (α := α) (b := ⟨mv p ++ mv (xs.length - p) ++ rw' k, 0, xs.length, v.blocks⟩)
    (s := 0) (t := k) (Z := mv p ++ mv (xs.length - p)) (by simp) rfl (by simp; omega)
    ((objs_mv _).append (objs_mv _))
  rw [e4, pure_bind]
  have hb : (if (mv p ++ mv (xs.length - p) ++ rw' k : Mem α).length = 0 then v.blocks else v.blocks - 1) = 0 := by
    rw [h.blocks, hk]
    have : (mv p ++ mv (xs.length - p) ++ rw' k : Mem α).length = xs.length + k := by simp; omega
    rw [this]
    split <;> rfl
  simp only [hb]
  refine ⟨_, rfl, ?_⟩
  have := Rep.of (v := ⟨lv (xs.take p) ++ lv ys ++ lv (xs.drop p) ++ rw' (t - (xs.length - p)),
    p + ys.length + (xs.length - p), 1⟩) (xs := xs.take p ++ ys ++ xs.drop p) (k := t - (xs.length - p))
    (by simp) (by simp [hp]; omega) (by
      rw [if_neg]; simp only [List.length_append, List.length_take, List.length_drop]; omega)
  refine ⟨this.1, this.2.trans ?_⟩
  simp; omega

theorem swapOut_eq {v : Vec α} {b : Buf α} :
    swapOut v b = (do let r ← swapOutAt v b v.last; pure r.1) := by
  unfold swapOut swapOutAt
  simp only [Nat.sub_self, transferUp, bind_assoc, pure_bind, Nat.add_zero]
  congr 1
  funext ⟨m, bm, beg⟩
  simp only []
  split
  · rfl
  · simp only [bind_assoc, pure_bind]

theorem swapOut_spec {v : Vec α} {xs ys : List α} {t : Nat} (h : Rep v xs)
    (hpos : 0 < xs.length + ys.length + t) :
    ∃ v', swapOut v ⟨rw' xs.length ++ lv ys ++ rw' t, xs.length, xs.length + ys.length, 1⟩ = pure v' ∧
      Rep v' (xs ++ ys) ∧ v'.cap = xs.length + ys.length + t := by
  obtain ⟨v', e, hr, hc⟩ := swapOutAt_spec (p := xs.length) (ys := ys) (t := t) h (Nat.le_refl _) (by omega) hpos
  refine ⟨v', ?_, by simpa using hr, hc⟩
  rw [swapOut_eq, h.last, e, pure_bind]

theorem Rep.get_src {v : Vec α} {xs : List α} (h : Rep v xs) {x : Src α} {a : α}
    (hx : x.get (lv xs) = pure a) : x.get v.mem = pure a := by
  rw [h.mem]; exact Src.get_append hx _

theorem Vec.constructFill_spec {v : Vec α} {xs : List α} (h : Rep v xs) {n : Nat} {x : Src α} {a : α}
    (hx : x.get (lv xs) = pure a) (hn : xs.length + n ≤ v.cap) :
    ∃ v', v.constructFill n x = pure v' ∧ Rep v' (xs ++ List.replicate n a) ∧ v'.cap = v.cap := by
  obtain ⟨k, hm, hk⟩ := h.ex
  have e := Vector.constructFill_spec x a (rw' (k - n)) n (lv xs) v.last hx (by simp [h.last])
  have e2 : v.mem = lv xs ++ rw' n ++ rw' (k - n) := by
    rw [hm, List.append_assoc, ← rw'_add]; congr 2; omega
  unfold Vec.constructFill
  rw [e2, e, pure_bind]
  refine ⟨_, rfl, ?_⟩
  have := Rep.of (v := { v with mem := lv xs ++ lv (List.replicate n a) ++ rw' (k - n), last := v.last + n })
    (xs := xs ++ List.replicate n a) (k := k - n) (by simp) (by simp [h.last]) (by
      simp only [h.blocks, hk, List.length_append, List.length_replicate]
      congr 2; omega)
  refine ⟨this.1, this.2.trans ?_⟩
  simp; omega

theorem Vec.constructList_spec {v : Vec α} {xs : List α} (h : Rep v xs) {ys : List α}
    (hn : xs.length + ys.length ≤ v.cap) :
    ∃ v', v.constructList ys = pure v' ∧ Rep v' (xs ++ ys) ∧ v'.cap = v.cap := by
  obtain ⟨k, hm, hk⟩ := h.ex
  have e := Vector.constructList_spec (rw' (k - ys.length)) ys (lv xs) v.last (by simp [h.last])
  have e2 : v.mem = lv xs ++ rw' ys.length ++ rw' (k - ys.length) := by
    rw [hm, List.append_assoc, ← rw'_add]; congr 2; omega
  unfold Vec.constructList
  rw [e2, e, pure_bind]
  refine ⟨_, rfl, ?_⟩
  have := Rep.of (v := { v with mem := lv xs ++ lv ys ++ rw' (k - ys.length), last := v.last + ys.length })
    (xs := xs ++ ys) (k := k - ys.length) (by simp) (by simp [h.last]) (by
      simp only [h.blocks, hk, List.length_append]
      congr 2; omega)
  refine ⟨this.1, this.2.trans ?_⟩
  simp; omega

/-- Destroying from a position on, in a block whose first cells are `xs` and whose other objects are `Z`. -/
theorem Vec.destructAtEnd_spec' {v : Vec α} {xs : List α} {Z : Mem α} {k : Nat}
    (hm : v.mem = lv xs ++ Z ++ rw' k) (ho : Objs Z) (hl : v.last = xs.length + Z.length)
    (hb : v.blocks = if v.cap = 0 then 0 else 1) :
    ∃ v', v.destructAtEnd xs.length = pure v' ∧ Rep v' xs ∧ v'.cap = v.cap := by
  unfold Vec.destructAtEnd
  rw [destructAtEnd_eq hm (by simp) (by simp [hl]) ho, pure_bind]
  refine ⟨_, rfl, ?_⟩
  have hc : v.cap = xs.length + (Z.length + k) := by unfold Vec.cap; rw [hm]; simp
  have := Rep.of (v := { v with mem := lv xs ++ rw' Z.length ++ rw' k, last := xs.length })
    (xs := xs) (k := Z.length + k) (by simp [rw'_add]) rfl (by simp only [hb, hc])
  exact ⟨this.1, this.2.trans hc.symm⟩

theorem Vec.destructAtEnd_spec {v : Vec α} {xs : List α} (h : Rep v xs) {n : Nat} (hn : n ≤ xs.length) :
    ∃ v', v.destructAtEnd n = pure v' ∧ Rep v' (xs.take n) ∧ v'.cap = v.cap := by
  obtain ⟨k, hm, hk⟩ := h.ex
  have := Vec.destructAtEnd_spec' (v := v) (xs := xs.take n) (Z := lv (xs.drop n)) (k := k)
    (by rw [hm, ← lv_append, List.take_append_drop]) (objs_lv _)
    (by rw [h.last]; simp; omega) h.blocks
  rw [show (xs.take n).length = n by simp [hn]] at this
  exact this

theorem Vec.clear_spec {v : Vec α} {xs : List α} (h : Rep v xs) :
    ∃ v', v.clear = pure v' ∧ Rep v' [] ∧ v'.cap = v.cap := by
  have := Vec.destructAtEnd_spec h (n := 0) (by omega)
  unfold Vec.clear
  simpa using this

theorem Vec.vdeallocate_spec {v : Vec α} {xs : List α} (h : Rep v xs) :
    v.vdeallocate = pure Vec.empty := by
  unfold Vec.vdeallocate
  have hb := h.blocks
  by_cases hc : v.mem.length = 0
  · rw [if_pos hc]
    have h1 : v.mem = [] := List.length_eq_zero_iff.1 hc
    have h2 : v.cap = 0 := hc
    rw [if_pos h2] at hb
    have h3 := h.size_le
    have h4 := h.last
    obtain ⟨m, l, b⟩ := v
    simp only [] at h1 hb h4
    subst h1 hb
    simp [Vec.cap] at h3
    subst h3
    simp at h4
    subst h4; rfl
  · rw [if_neg hc]
    obtain ⟨v', e, hr, hcap⟩ := Vec.clear_spec h
    have hb' := hr.blocks
    have hc' : v'.cap ≠ 0 := by rw [hcap]; exact hc
    rw [if_neg hc'] at hb'
    rw [e, pure_bind]
    have : v'.mem = rw' v'.cap := by rw [hr.mem]; simp
    rw [this, release_raw, pure_bind, hb']
    rfl

/-- The destructor releases everything. -/
theorem Vec.destruct_spec {v : Vec α} {xs : List α} (h : Rep v xs) : v.destruct = pure 0 := by
  unfold Vec.destruct
  have hb := h.blocks
  by_cases hc : v.mem.length = 0
  · rw [if_pos hc]
    have h2 : v.cap = 0 := hc
    rw [if_pos h2] at hb
    rw [hb]
  · rw [if_neg hc]
    obtain ⟨v', e, hr, hcap⟩ := Vec.clear_spec h
    have hb' := hr.blocks
    have hc' : v'.cap ≠ 0 := by rw [hcap]; exact hc
    rw [if_neg hc'] at hb'
    rw [e, pure_bind]
    have : v'.mem = rw' v'.cap := by rw [hr.mem]; simp
    rw [this, release_raw, pure_bind, hb']

theorem Vec.toList_spec {v : Vec α} {xs : List α} (h : Rep v xs) : v.toList = pure xs := by
  obtain ⟨k, hm, _⟩ := h.ex
  unfold Vec.toList
  rw [hm, h.last]
  have : ∀ (ys : List α) (A : Mem α), Vec.toList.go (A ++ lv ys ++ rw' k) A.length ys.length = pure ys := by
    intro ys
    induction ys with
    | nil => intro A; rfl
    | cons y ys ih =>
      intro A
      have e : A ++ lv (y :: ys) ++ rw' k = A ++ Cell.live y :: (lv ys ++ rw' k) := by simp
      rw [List.length_cons, Vec.toList.go, e, value_mid _ _ _ rfl, pure_bind]
      have := ih (A ++ [.live y])
      simp only [List.append_assoc, List.cons_append, List.nil_append, List.length_append, List.length_cons,
        List.length_nil] at this
      rw [this, pure_bind]
  simpa using this xs []

/-! ### Growing -/

/-- What a call that may need room for `need` elements does: `ok` if there is room, or it can be made.
(Specification, no line of the source.) -/
def Grows (env : Env) (v : Vec α) (need : Nat) (run : Cxx (Bool × Vec α)) (xs : List α) : Prop :=
  match grow env v.cap need with
  | some c => ∃ v', run = pure (true, v') ∧ Rep v' xs ∧ v'.cap = c
  | none => run = pure (false, v)

theorem insertFill_constructLoop_spec (x : Src α) (a : α) (old : Mem α) (hx : x.get old = pure a) (B : Mem α) :
    ∀ (n : Nat) (A : Mem α) (pos : Nat), pos = A.length →
    Vec.insertFill.constructLoop x old (A ++ rw' n ++ B) pos n = pure (A ++ lv (List.replicate n a) ++ B) := by
  intro n
  induction n with
  | zero => intro A pos _; simp [Vec.insertFill.constructLoop]
  | succ n ih =>
    intro A pos hp
    rw [rw'_succ, Vec.insertFill.constructLoop, hx, pure_bind, List.append_assoc, List.cons_append,
      construct_mid A _ _ hp, pure_bind]
    have := ih (A ++ [.live a]) (pos + 1) (by simp [hp])
    simp only [List.append_assoc, List.cons_append, List.nil_append] at this
    rw [this]
    simp [List.replicate_succ]

theorem add64_eq {a b : Nat} (h : a + b < 2 ^ 64) : add64 a b = a + b := Nat.mod_eq_of_lt h

theorem Vec.append_spec (env : Env) {v : Vec α} {xs : List α} (h : Rep v xs) {n : Nat} {x : Src α} {a : α}
    (hx : x.get (lv xs) = pure a) (hn : xs.length + n < 2 ^ 64) :
    Grows env v (xs.length + n) (v.append env n x) (xs ++ List.replicate n a) := by
  unfold Grows Vec.append
  have hl := h.last
  have hs := h.size_le
  by_cases hfit : xs.length + n ≤ v.cap
  · rw [grow_fits hfit, if_pos (by omega)]
    obtain ⟨v', e, hr, hc⟩ := Vec.constructFill_spec h hx hfit
    exact ⟨v', by rw [e, pure_bind], hr, hc⟩
  · rw [if_neg (by omega), Vec.size, hl, add64_eq hn, withBuf_spec _ _ _ _ _ _ (by omega)]
    cases hg : grow env v.cap (xs.length + n) with
    | none => rfl
    | some c =>
      have hge := grow_ge hg
      have e1 : (rw' c : Mem α) = rw' xs.length ++ rw' n ++ rw' (c - (xs.length + n)) := by
        rw [← rw'_add, ← rw'_add]; congr 1; omega
      have e2 := insertFill_constructLoop_spec x a v.mem (h.get_src hx) (rw' (c - (xs.length + n))) n
        (rw' xs.length) xs.length (by simp)
      obtain ⟨v', e3, hr, hc⟩ := swapOut_spec (ys := List.replicate n a) (t := c - (xs.length + n)) h (by
        simp; omega)
      refine ⟨v', ?_, hr, hc.trans (by simp; omega)⟩
      simp only []
      rw [e1, e2, pure_bind]
      simp only [List.length_replicate] at e3
      rw [e3, pure_bind]

theorem Vec.pushBack_spec (env : Env) {v : Vec α} {xs : List α} (h : Rep v xs) {x : Src α} {a : α}
    (hx : x.get (lv xs) = pure a) (hn : xs.length + 1 < 2 ^ 64) :
    Grows env v (xs.length + 1) (v.pushBack env x) (xs ++ [a]) := by
  unfold Grows Vec.pushBack
  have hl := h.last
  have hs := h.size_le
  by_cases hfit : xs.length + 1 ≤ v.cap
  · rw [grow_fits hfit, if_pos (by omega)]
    obtain ⟨v', e, hr, hc⟩ := Vec.constructFill_spec h hx hfit
    exact ⟨v', by rw [e, pure_bind], hr, hc⟩
  · rw [if_neg (by omega), Vec.size, hl, add64_eq hn, withBuf_spec _ _ _ _ _ _ (by omega)]
    cases hg : grow env v.cap (xs.length + 1) with
    | none => rfl
    | some c =>
      have hge := grow_ge hg
      have e1 : (rw' c : Mem α) = rw' xs.length ++ Cell.raw :: rw' (c - (xs.length + 1)) := by
        rw [← rw'_succ, ← rw'_add]; congr 1; omega
      obtain ⟨v', e3, hr, hc⟩ := swapOut_spec (ys := [a]) (t := c - (xs.length + 1)) h (by
        simp; omega)
      refine ⟨v', ?_, hr, hc.trans (by simp; omega)⟩
      simp only []
      rw [h.get_src hx, pure_bind, e1, construct_mid _ _ _ (by simp), pure_bind]
      simp only [List.length_cons, List.length_nil, lv_cons, lv_nil, List.append_assoc, List.cons_append,
        List.nil_append] at e3
      rw [e3, pure_bind]

theorem Vec.resize_spec (env : Env) {v : Vec α} {xs : List α} (h : Rep v xs) {sz : Nat} {x : Src α} {a : α}
    (hx : x.get (lv xs) = pure a) (hn : sz < 2 ^ 64) :
    Grows env v sz (v.resize env sz x) (xs.take sz ++ List.replicate (sz - xs.length) a) := by
  have hl := h.last
  have hs := h.size_le
  unfold Vec.resize
  rw [Vec.size, hl]
  by_cases h1 : xs.length < sz
  · rw [if_pos h1, List.take_of_length_le (by omega)]
    have := Vec.append_spec env h (n := sz - xs.length) hx (by omega)
    rw [show xs.length + (sz - xs.length) = sz by omega] at this
    exact this
  · rw [if_neg h1]
    unfold Grows
    rw [grow_fits (by omega)]
    rw [show sz - xs.length = 0 by omega, List.replicate_zero, List.append_nil]
    by_cases h2 : xs.length > sz
    · rw [if_pos h2]
      obtain ⟨v', e, hr, hc⟩ := Vec.destructAtEnd_spec h (n := sz) (by omega)
      exact ⟨v', by rw [e, pure_bind], hr, hc⟩
    · rw [if_neg h2, List.take_of_length_le (by omega)]
      exact ⟨v, rfl, h, rfl⟩

theorem Vec.reserve_spec (env : Env) {v : Vec α} {xs : List α} (h : Rep v xs) (n : Nat) :
    (n ≤ v.cap ∧ v.reserve env n = pure (true, v)) ∨
    (v.cap < n ∧ n ≤ env.maxSize ∧ env.canAlloc n = true ∧
      ∃ v', v.reserve env n = pure (true, v') ∧ Rep v' xs ∧ v'.cap = n) ∨
    (v.cap < n ∧ (env.maxSize < n ∨ env.canAlloc n = false) ∧ v.reserve env n = pure (false, v)) := by
  unfold Vec.reserve
  have hl := h.last
  have hs := h.size_le
  by_cases h1 : n > v.cap
  · rw [if_pos h1]
    right
    by_cases h2 : n > env.maxSize
    · rw [if_pos h2]; exact .inr ⟨h1, .inl h2, rfl⟩
    · rw [if_neg h2]
      unfold Buf.new
      rw [if_neg (by omega)]
      by_cases h3 : env.canAlloc n
      · left
        rw [if_pos h3]
        refine ⟨h1, by omega, h3, ?_⟩
        simp only []
        obtain ⟨v', e, hr, hc⟩ := swapOut_spec (ys := []) (t := n - xs.length) h (by omega)
        refine ⟨v', ?_, by simpa using hr, hc.trans (by simp; omega)⟩
        have e1 : (List.replicate n Cell.raw : Mem α) = rw' xs.length ++ rw' (n - xs.length) := by
          rw [← rw'_add, rw']; congr 1; omega
        rw [Vec.size, hl, e1]
        simp only [lv_nil, List.append_nil, List.length_nil, Nat.add_zero] at e
        rw [e, pure_bind]
      · right
        rw [if_neg h3]
        exact ⟨h1, .inr (by simpa using h3), rfl⟩
  · rw [if_neg h1]; exact .inl ⟨by omega, rfl⟩

theorem Vec.shrinkToFit_spec (env : Env) {v : Vec α} {xs : List α} (h : Rep v xs) :
    ∃ v', v.shrinkToFit env = pure v' ∧ Rep v' xs ∧
      (v'.cap = v.cap ∨ v'.cap = xs.length) ∧ (env.canAlloc xs.length = true → v'.cap = xs.length) := by
  unfold Vec.shrinkToFit
  have hl := h.last
  have hs := h.size_le
  rw [Vec.size, hl]
  by_cases h1 : v.cap > xs.length
  · rw [if_pos h1]
    unfold Buf.new
    by_cases h0 : xs.length = 0
    · rw [if_pos h0]
      simp only []
      have hx : xs = [] := List.length_eq_zero_iff.1 h0
      subst hx
      unfold swapOut
      simp only [hl, List.length_nil, transferDown, pure_bind, ne_eq, not_true, if_false]
      have e4 := Buf.destruct_spec (b := ⟨v.mem, 0, 0, v.blocks⟩) (s := 0) (t := v.cap) (Z := [])
        (by rw [h.mem]; simp) rfl rfl (by intro c hc; simp at hc)
      rw [e4, pure_bind]
      refine ⟨_, rfl, ⟨rfl, by simp, rfl, ?_⟩, .inr rfl, fun _ => rfl⟩
      have : ¬ v.mem.length = 0 := by have : v.mem.length = v.cap := rfl; simp at h1; omega
      simp only [this, if_false, h.blocks]
      rw [if_neg (by simp at h1; omega)]
      rfl
    · rw [if_neg h0]
      by_cases h3 : env.canAlloc xs.length
      · rw [if_pos h3]
        simp only []
        obtain ⟨v', e, hr, hc⟩ := swapOut_spec (ys := []) (t := 0) h (by omega)
        simp only [lv_nil, List.append_nil, List.length_nil, Nat.add_zero, rw'_zero] at e hc
        exact ⟨v', e, by simpa using hr, .inr hc, fun _ => hc⟩
      · rw [if_neg h3]
        exact ⟨v, rfl, h, .inl rfl, fun hh => absurd hh h3⟩
  · rw [if_neg h1]
    exact ⟨v, rfl, h, .inl rfl, fun _ => by omega⟩

theorem Vec.popBack_spec {v : Vec α} {xs : List α} (h : Rep v xs) (hne : xs ≠ []) :
    ∃ v', v.popBack = pure v' ∧ Rep v' xs.dropLast ∧ v'.cap = v.cap := by
  have hpos : 0 < xs.length := List.length_pos_iff.2 hne
  unfold Vec.popBack
  rw [h.last, if_neg (by omega)]
  have := Vec.destructAtEnd_spec h (n := xs.length - 1) (by omega)
  rwa [← List.dropLast_eq_take] at this

theorem Vec.popBackValue_spec {v : Vec α} {xs : List α} (h : Rep v xs) (hne : xs ≠ []) :
    ∃ v', v.popBackValue = pure (xs.getLast hne, v') ∧ Rep v' xs.dropLast ∧ v'.cap = v.cap := by
  have hpos : 0 < xs.length := List.length_pos_iff.2 hne
  obtain ⟨k, hm, hk⟩ := h.ex
  have hx : lv xs = lv xs.dropLast ++ [Cell.live (xs.getLast hne)] := by
    conv => lhs; rw [← List.dropLast_concat_getLast hne]
    simp
  have hm' : v.mem = lv xs.dropLast ++ Cell.live (xs.getLast hne) :: rw' k := by rw [hm, hx]; simp
  unfold Vec.popBackValue
  rw [h.last, if_neg (by omega), hm', value_mid _ _ _ (by simp), pure_bind, moveOut_mid _ _ (by simp) (by simp),
    pure_bind]
  simp only []
  unfold Vec.popBack
  simp only []
  rw [if_neg (by omega)]
  obtain ⟨v', e, hr, hc⟩ := Vec.destructAtEnd_spec' (v := { v with mem := lv xs.dropLast ++ Cell.moved :: rw' k })
    (xs := xs.dropLast) (Z := [.moved]) (k := k) (by simp) (by intro c; simp; rintro rfl; simp)
    (by simp [h.last]; omega) (by
      have : ({ v with mem := lv xs.dropLast ++ Cell.moved :: rw' k } : Vec α).cap = v.cap := by
        unfold Vec.cap; rw [hm']; simp
      rw [this]; exact h.blocks)
  have hl2 : v.last - 1 = xs.dropLast.length := by simp [h.last]
  rw [← hl2, h.last] at e
  rw [e, pure_bind]
  refine ⟨v', rfl, hr, hc.trans ?_⟩
  unfold Vec.cap; rw [hm']; simp

end Verif.Vector
