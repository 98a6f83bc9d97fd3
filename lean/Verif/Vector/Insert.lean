import Verif.Vector.Ops

/- Insertion, erasure and assignment. -/

namespace Verif.Vector
open Cxx

variable {α : Type}

/-- Opening a gap of `k` inside of the old elements. -/
theorem Vec.moveRange_inside {v : Vec α} {A X : Mem α} {r k : Nat} (hm : v.mem = A ++ X ++ rw' r)
    (hl : v.last = A.length + X.length) (hk : k ≤ X.length) (hr : k ≤ r) (ho : Objs X) :
    v.moveRange A.length (A.length + X.length) (A.length + k) =
      pure { v with mem := A ++ mv k ++ X ++ rw' (r - k), last := v.last + k } := by
  unfold Vec.moveRange
  rw [if_neg (by omega)]
  simp only []
  have hX : X = X.take (X.length - k) ++ X.drop (X.length - k) := (List.take_append_drop _ _).symm
  generalize hX1 : X.take (X.length - k) = X1 at hX
  generalize hX2 : X.drop (X.length - k) = X2 at hX
  have h1 : X1.length = X.length - k := by rw [← hX1]; simp
  have h2 : X2.length = k := by rw [← hX2]; simp; omega
  have ho' := ho
  rw [hX] at ho'
  have e := moveRange_constructLoop_spec (rw' (r - k)) X2 (A ++ X1) [] (A.length + (v.last - (A.length + k))) v.last
    ho'.right (by rw [hl]; simp [h1]; omega) (by rw [hl]; simp [h1, h2]; omega)
  have em : v.mem = A ++ X1 ++ X2 ++ [] ++ rw' X2.length ++ rw' (r - k) := by
    have er : (rw' r : Mem α) = rw' k ++ rw' (r - k) := by rw [← rw'_add]; congr 1; omega
    rw [hm, hX, h2, er]
    simp
  have ek : A.length + X.length - (A.length + (v.last - (A.length + k))) = X2.length := by omega
  rw [ek, em, e, pure_bind]
  have e2 := moveBackward_spec A k X1.length X1 (X2 ++ rw' (r - k)) v.last rfl ho'.left (by omega)
  have e3 : v.last - (A.length + k) = X1.length := by omega
  have e4 : (A ++ X1 ++ mv X2.length ++ [] ++ X2 ++ rw' (r - k) : Mem α) =
      A ++ X1 ++ mv k ++ (X2 ++ rw' (r - k)) := by simp [h2]
  rw [e3, e4, e2, pure_bind, h2, hX]
  simp

/-- Moving everything from a position on behind the end. -/
theorem Vec.moveRange_behind {v : Vec α} {A X E : Mem α} {r : Nat} (hm : v.mem = A ++ X ++ E ++ rw' r)
    (hl : v.last = A.length + X.length + E.length) (hr : X.length ≤ r) (ho : Objs X) :
    v.moveRange A.length (A.length + X.length) v.last =
      pure { v with mem := A ++ mv X.length ++ E ++ X ++ rw' (r - X.length), last := v.last + X.length } := by
  unfold Vec.moveRange
  rw [if_neg (by omega)]
  simp only [Nat.sub_self, Nat.add_zero, Nat.add_sub_cancel_left, moveBackward]
  have e := moveRange_constructLoop_spec (rw' (r - X.length)) X A E A.length v.last ho rfl hl
  have em : v.mem = A ++ X ++ E ++ rw' X.length ++ rw' (r - X.length) := by
    rw [hm, List.append_assoc _ (rw' X.length), ← rw'_add]; congr 2; omega
  rw [em, e, pure_bind, pure_bind]

/-- The argument is still found after a gap has been opened. -/
theorem Src.shift_get {xs : List α} {x : Src α} {a : α} (hx : x.get (lv xs) = pure a) {p last n : Nat}
    (hl : xs.length ≤ last) (Y B : Mem α) (hp : p ≤ xs.length) (hY : Y.length = n) :
    (x.shift p last n).get (lv (xs.take p) ++ Y ++ (lv (xs.drop p) ++ B)) = pure a := by
  cases x with
  | ext b => exact hx
  | own i =>
    have hi : i < xs.length := by
      by_cases hi : i < xs.length
      · exact hi
      · simp only [Src.get, value] at hx
        rw [List.getElem?_eq_none (by simpa using hi)] at hx
        exact absurd hx (by simp)
    have hv : xs[i] = a := by
      simp only [Src.get, value, lv, List.getElem?_map, List.getElem?_eq_getElem hi, Option.map_some] at hx
      exact pure_inj.1 hx
    unfold Src.shift
    simp only []
    by_cases hpi : p ≤ i
    · rw [if_pos ⟨hpi, by omega⟩]
      have hs : xs.drop p = (xs.drop p).take (i - p) ++ a :: xs.drop (i + 1) := by
        have h1 : (xs.drop p)[i - p]'(by simp; omega) = a := by
          rw [List.getElem_drop, ← hv]; congr 1; omega
        conv => lhs; rw [← List.take_append_drop (i - p) (xs.drop p)]
        rw [List.drop_eq_getElem_cons (l := xs.drop p) (i := i - p) (by simp; omega), h1, List.drop_drop]
        congr 2; congr 1; omega
      simp only [Src.get]
      rw [hs]
      have : (lv (xs.take p) ++ Y ++ (lv ((xs.drop p).take (i - p) ++ a :: xs.drop (i + 1)) ++ B)) =
          (lv (xs.take p) ++ Y ++ lv ((xs.drop p).take (i - p))) ++ Cell.live a :: (lv (xs.drop (i + 1)) ++ B) := by
        simp
      rw [this]
      refine value_mid _ _ _ ?_
      simp [hY]; omega
    · rw [if_neg (by omega)]
      simp only [Src.get]
      rw [List.append_assoc]
      exact value_lv (by rw [List.getElem?_take_of_lt (by omega), List.getElem?_eq_getElem hi, hv]) _

/-- What an insertion that may need room for `need` elements does: as `Grows`, and the position returned.
(Specification, no line of the source.) -/
def GrowsAt (env : Env) (v : Vec α) (need p : Nat) (run : Cxx (Bool × Vec α × Nat)) (xs : List α) : Prop :=
  match grow env v.cap need with
  | some c => ∃ v', run = pure (true, v', p) ∧ Rep v' xs ∧ v'.cap = c
  | none => run = pure (false, v, p)

theorem Rep.split {v : Vec α} {xs : List α} (h : Rep v xs) (p : Nat) :
    ∃ k, v.mem = lv (xs.take p) ++ lv (xs.drop p) ++ rw' k ∧ v.cap = xs.length + k := by
  obtain ⟨k, hm, hk⟩ := h.ex
  exact ⟨k, by rw [hm, ← lv_append, List.take_append_drop], hk⟩

/-- A vector with a changed block still represents a list. -/
theorem Rep.upd {v : Vec α} {xs zs : List α} {m : Mem α} {k n : Nat} (h : Rep v xs)
    (hm : m = lv zs ++ rw' k) (hn : n = zs.length) (hc : v.cap = zs.length + k) :
    Rep { v with mem := m, last := n } zs ∧ ({ v with mem := m, last := n } : Vec α).cap = v.cap := by
  have := Rep.of (v := { v with mem := m, last := n }) (xs := zs) (k := k) hm hn (by simp only [h.blocks, hc])
  exact ⟨this.1, this.2.trans hc.symm⟩

theorem Vec.insertOne_spec (env : Env) {v : Vec α} {xs : List α} (h : Rep v xs) {p : Nat} {x : Src α} {a : α}
    (hp : p ≤ xs.length) (hx : x.get (lv xs) = pure a) (hn : xs.length + 1 < 2 ^ 64) :
    GrowsAt env v (xs.length + 1) p (v.insertOne env p x) (xs.take p ++ [a] ++ xs.drop p) := by
  unfold GrowsAt Vec.insertOne
  have hl := h.last
  have hs := h.size_le
  have hlt : (xs.take p).length = p := by simp [hp]
  by_cases hfit : xs.length + 1 ≤ v.cap
  · rw [grow_fits hfit, if_pos (by omega)]
    by_cases hpl : p = v.last
    · rw [if_pos hpl]
      obtain ⟨v', e, hr, hc⟩ := Vec.constructFill_spec h (n := 1) hx hfit
      refine ⟨v', by rw [e, pure_bind], ?_, hc⟩
      rw [hpl, hl]
      simpa using hr
    · rw [if_neg hpl]
      obtain ⟨k, hm, hk⟩ := h.split p
      have e := Vec.moveRange_inside (v := v) (k := 1) hm (by rw [hl]; simp [hp])
        (by simp; omega) (by omega) (objs_lv _)
      have e1 : (lv (xs.take p)).length = p := by simp [hp]
      have e2 : (lv (xs.take p)).length + (lv (xs.drop p)).length = v.last := by rw [hl]; simp [hp]
      rw [e2, e1] at e
      rw [e, pure_bind]
      simp only []
      have e3 := Src.shift_get (n := 1) hx (last := v.last + 1) (by omega) (mv 1) (rw' (k - 1)) hp (by simp)
      rw [List.append_assoc (lv (xs.take p) ++ mv 1), e3, pure_bind]
      have e4 : lv (xs.take p) ++ mv 1 ++ (lv (xs.drop p) ++ rw' (k - 1)) =
        lv (xs.take p) ++ Cell.moved :: (lv (xs.drop p) ++ rw' (k - 1)) := by simp [mv]
      rw [e4, assignAt_mid _ _ _ (by simp) e1.symm, pure_bind]
      refine ⟨_, rfl, ?_⟩
      exact Rep.upd (k := k - 1) h (by simp) (by rw [hl]; simp; omega) (by rw [hk]; simp; omega)
  · rw [if_neg (by omega), Vec.size, hl, add64_eq hn, withBuf_spec _ _ _ _ _ _ (by omega)]
    cases hg : grow env v.cap (xs.length + 1) with
    | none => rfl
    | some c =>
      have hge := grow_ge hg
      have e1 : (rw' c : Mem α) = rw' p ++ Cell.raw :: rw' (c - (p + 1)) := by
        rw [← rw'_succ, ← rw'_add]; congr 1; omega
      obtain ⟨v', e3, hr, hc⟩ := swapOutAt_spec (ys := [a]) (t := c - (p + 1)) h hp (by omega) (by simp; omega)
      refine ⟨v', ?_, hr, hc.trans (by simp; omega)⟩
      simp only []
      rw [h.get_src hx, pure_bind]
      unfold Buf.pushBack
      simp only [rw'_length]
      rw [if_neg (by omega), e1, construct_mid _ _ _ (by simp), pure_bind, pure_bind]
      simp only [if_true]
      simp only [List.length_cons, List.length_nil, lv_cons, lv_nil, List.append_assoc, List.cons_append,
        List.nil_append] at e3
      rw [e3, pure_bind]

theorem Vec.insertFill_spec (env : Env) {v : Vec α} {xs : List α} (h : Rep v xs) {p n : Nat} {x : Src α} {a : α}
    (hp : p ≤ xs.length) (hx : x.get (lv xs) = pure a) (hn : xs.length + n < 2 ^ 64) :
    GrowsAt env v (xs.length + n) p (v.insertFill env p n x) (xs.take p ++ List.replicate n a ++ xs.drop p) := by
  unfold GrowsAt Vec.insertFill
  have hl := h.last
  have hs := h.size_le
  have hlt : (xs.take p).length = p := by simp [hp]
  have e1 : (lv (xs.take p)).length = p := by simp [hp]
  have e2 : (lv (xs.take p)).length + (lv (xs.drop p)).length = v.last := by rw [hl]; simp [hp]
  by_cases hn0 : n = 0
  · subst hn0
    rw [if_pos rfl, grow_fits (by omega)]
    exact ⟨v, rfl, by simpa using h, rfl⟩
  rw [if_neg hn0]
  by_cases hfit : xs.length + n ≤ v.cap
  · rw [grow_fits hfit, if_pos (by omega)]
    simp only []
    obtain ⟨k, hm, hk⟩ := h.split p
    by_cases hnt : n > v.last - p
    · simp only [if_pos hnt]
      obtain ⟨v1, ev1, hr1, hc1⟩ := Vec.constructFill_spec h (n := n - (v.last - p)) hx (by omega)
      rw [ev1, pure_bind]
      by_cases ht : v.last - p = 0
      · rw [if_neg (by omega)]
        refine ⟨v1, rfl, ?_, hc1⟩
        have : p = xs.length := by omega
        have h2 : n - (v.last - p) = n := by omega
        rw [h2] at hr1
        rw [this]
        simpa using hr1
      · rw [if_pos (by omega)]
        have hm1 : v1.mem = lv (xs.take p) ++ lv (xs.drop p) ++ lv (List.replicate (n - (v.last - p)) a) ++
            rw' (k - (n - (v.last - p))) := by
          obtain ⟨k1, hk1, hk2⟩ := hr1.ex
          rw [hk1]
          have : k1 = k - (n - (v.last - p)) := by simp at hk2; omega
          rw [this, ← lv_append, ← lv_append, List.take_append_drop]
        have hl1 : v1.last = xs.length + (n - (v.last - p)) := by rw [hr1.last]; simp
        have e := Vec.moveRange_behind (v := v1) hm1 (by rw [hl1]; simp [hp]) (by simp; omega) (objs_lv _)
        have e3 : v1.last = p + n := by omega
        rw [e2, e1] at e
        rw [← e3, e, pure_bind]
        simp only []
        have hcx : n - (n - (v.last - p)) = v.last - p := by omega
        have hdl : (lv (xs.drop p)).length = v.last - p := by rw [hl]; simp
        have hf := fillN_spec (x.shift p (v1.last + (lv (xs.drop p)).length) n) a
          (lv (List.replicate (n - (v.last - p)) a) ++ lv (xs.drop p) ++
            rw' (k - (n - (v.last - p)) - (lv (xs.drop p)).length))
          (v.last - p) (lv (xs.take p)) (mv (lv (xs.drop p)).length) p (by
            intro Y' hY'
            have := Src.shift_get (n := n) hx (last := v1.last + (lv (xs.drop p)).length) (by omega)
              (Y' ++ lv (List.replicate (n - (v.last - p)) a))
              (rw' (k - (n - (v.last - p)) - (lv (xs.drop p)).length)) hp (by
                simp at hY' ⊢; omega)
            simp only [List.append_assoc] at this ⊢
            exact this) (objs_mv _) (by simp [hl]) e1.symm
        rw [hcx]
        simp only [List.append_assoc] at hf ⊢
        rw [hf, pure_bind]
        refine ⟨_, rfl, ?_⟩
        have hu := Rep.upd (zs := xs.take p ++ List.replicate n a ++ xs.drop p) (k := k - n)
          (m := lv (xs.take p) ++ (lv (List.replicate (v.last - p) a) ++ (lv (List.replicate (n - (v.last - p)) a) ++
            (lv (xs.drop p) ++ rw' (k - (n - (v.last - p)) - (lv (xs.drop p)).length)))))
          (n := v1.last + (lv (xs.drop p)).length) hr1 (by
            have e5 : List.replicate n a = List.replicate (v.last - p) a ++ List.replicate (n - (v.last - p)) a := by
              rw [List.replicate_append_replicate]; congr 1; omega
            rw [e5]
            have e6 : k - (n - (v.last - p)) - (lv (xs.drop p)).length = k - n := by omega
            rw [e6, lv_append, lv_append, lv_append]; simp only [List.append_assoc]) (by simp; omega) (by rw [hc1, hk]; simp; omega)
        rw [List.append_assoc] at hu
        exact ⟨hu.1, hu.2.trans hc1⟩
    · simp only [if_neg hnt]
      rw [pure_bind, if_pos (by omega)]
      have e := Vec.moveRange_inside (v := v) (k := n) hm (by rw [hl]; simp [hp])
        (by simp; omega) (by omega) (objs_lv _)
      rw [e2, e1] at e
      rw [e, pure_bind]
      simp only []
      have hf := fillN_spec (x.shift p (v.last + n) n) a (lv (xs.drop p) ++ rw' (k - n)) n (lv (xs.take p)) (mv n) p
        (fun Y' hY' => Src.shift_get (n := n) hx (last := v.last + n) (by omega) Y' (rw' (k - n)) hp (by simpa using hY'))
        (objs_mv _) (by simp) e1.symm
      rw [List.append_assoc (lv (xs.take p) ++ mv n), hf, pure_bind]
      refine ⟨_, rfl, ?_⟩
      exact Rep.upd (k := k - n) h (by simp) (by rw [hl]; simp; omega) (by rw [hk]; simp; omega)
  · rw [if_neg (by omega), Vec.size, hl, add64_eq hn, withBuf_spec _ _ _ _ _ _ (by omega)]
    cases hg : grow env v.cap (xs.length + n) with
    | none => rfl
    | some c =>
      have hge := grow_ge hg
      have e3 : (rw' c : Mem α) = rw' p ++ rw' n ++ rw' (c - (p + n)) := by
        rw [← rw'_add, ← rw'_add]; congr 1; omega
      have e4 := insertFill_constructLoop_spec x a v.mem (h.get_src hx) (rw' (c - (p + n))) n
        (rw' p) p (by simp)
      obtain ⟨v', e5, hr, hc⟩ := swapOutAt_spec (ys := List.replicate n a) (t := c - (p + n)) h hp (by omega) (by
        simp; omega)
      refine ⟨v', ?_, hr, hc.trans (by simp; omega)⟩
      simp only []
      rw [e3, e4, pure_bind]
      simp only [List.length_replicate] at e5
      rw [e5, pure_bind]

theorem Vec.insertRange_spec (env : Env) {v : Vec α} {xs : List α} (h : Rep v xs) {p : Nat} (ys : List α)
    (hp : p ≤ xs.length) :
    GrowsAt env v (xs.length + ys.length) p (v.insertRange env p ys) (xs.take p ++ ys ++ xs.drop p) := by
  unfold GrowsAt Vec.insertRange
  have hl := h.last
  have hs := h.size_le
  have hlt : (xs.take p).length = p := by simp [hp]
  have e1 : (lv (xs.take p)).length = p := by simp [hp]
  have e2 : (lv (xs.take p)).length + (lv (xs.drop p)).length = v.last := by rw [hl]; simp [hp]
  by_cases hn0 : ys.length = 0
  · have := List.length_eq_zero_iff.1 hn0
    rw [if_pos hn0, grow_fits (by omega)]
    exact ⟨v, rfl, by simpa [this] using h, rfl⟩
  rw [if_neg hn0]
  by_cases hfit : xs.length + ys.length ≤ v.cap
  · rw [grow_fits hfit, if_pos (by omega)]
    simp only []
    obtain ⟨k, hm, hk⟩ := h.split p
    by_cases hnt : ys.length > v.last - p
    · simp only [if_pos hnt]
      have hdy : (ys.drop (v.last - p)).length = ys.length - (v.last - p) := by simp
      obtain ⟨v1, ev1, hr1, hc1⟩ := Vec.constructList_spec h (ys := ys.drop (v.last - p)) (by omega)
      rw [ev1, pure_bind]
      by_cases ht : v.last - p = 0
      · rw [if_neg (by omega)]
        refine ⟨v1, rfl, ?_, hc1⟩
        have : p = xs.length := by omega
        rw [ht] at hr1
        rw [this]
        simpa using hr1
      · rw [if_pos (by omega)]
        have hm1 : v1.mem = lv (xs.take p) ++ lv (xs.drop p) ++ lv (ys.drop (v.last - p)) ++
            rw' (k - (ys.length - (v.last - p))) := by
          obtain ⟨k1, hk1, hk2⟩ := hr1.ex
          rw [hk1]
          have : k1 = k - (ys.length - (v.last - p)) := by simp at hk2; omega
          rw [this, ← lv_append, ← lv_append, List.take_append_drop]
        have hl1 : v1.last = xs.length + (ys.length - (v.last - p)) := by rw [hr1.last]; simp
        have e := Vec.moveRange_behind (v := v1) hm1 (by rw [hl1]; simp [hp]) (by simp; omega) (objs_lv _)
        have e3 : v1.last = p + ys.length := by omega
        rw [e2, e1] at e
        rw [← e3, e, pure_bind]
        simp only []
        have hf := copyList_spec
          (lv (ys.drop (v.last - p)) ++ lv (xs.drop p) ++
            rw' (k - (ys.length - (v.last - p)) - (lv (xs.drop p)).length))
          (ys.take (v.last - p)) (lv (xs.take p)) (mv (lv (xs.drop p)).length) p
          (objs_mv _) (by simp [hl]; omega) e1.symm
        simp only [List.append_assoc] at hf ⊢
        rw [hf, pure_bind]
        refine ⟨_, rfl, ?_⟩
        have hu := Rep.upd (zs := xs.take p ++ ys ++ xs.drop p) (k := k - ys.length)
          (m := lv (xs.take p) ++ (lv (ys.take (v.last - p)) ++ (lv (ys.drop (v.last - p)) ++
            (lv (xs.drop p) ++ rw' (k - (ys.length - (v.last - p)) - (lv (xs.drop p)).length)))))
          (n := v1.last + (lv (xs.drop p)).length) hr1 (by
            have e5 : lv ys = lv (ys.take (v.last - p)) ++ lv (ys.drop (v.last - p)) := by
              rw [← lv_append, List.take_append_drop]
            have e6 : k - (ys.length - (v.last - p)) - (lv (xs.drop p)).length = k - ys.length := by omega
            rw [e6, lv_append, lv_append, e5]; simp) (by simp; omega) (by rw [hc1, hk]; simp; omega)
        rw [List.append_assoc] at hu
        exact ⟨hu.1, hu.2.trans hc1⟩
    · simp only [if_neg hnt]
      rw [pure_bind, if_pos (by omega)]
      have e := Vec.moveRange_inside (v := v) (k := ys.length) hm (by rw [hl]; simp [hp])
        (by simp; omega) (by omega) (objs_lv _)
      rw [e2, e1] at e
      rw [e, pure_bind]
      simp only []
      have hf := copyList_spec (lv (xs.drop p) ++ rw' (k - ys.length)) ys (lv (xs.take p)) (mv ys.length) p
        (objs_mv _) (by simp) e1.symm
      rw [List.take_of_length_le (Nat.le_refl _), List.append_assoc (lv (xs.take p) ++ mv ys.length), hf, pure_bind]
      refine ⟨_, rfl, ?_⟩
      exact Rep.upd (k := k - ys.length) h (by simp) (by rw [hl]; simp; omega) (by rw [hk]; simp; omega)
  · rw [if_neg (by omega), Vec.size, hl, withBuf_spec _ _ _ _ _ _ (by omega)]
    cases hg : grow env v.cap (xs.length + ys.length) with
    | none => rfl
    | some c =>
      have hge := grow_ge hg
      have e3 : (rw' c : Mem α) = rw' p ++ rw' ys.length ++ rw' (c - (p + ys.length)) := by
        rw [← rw'_add, ← rw'_add]; congr 1; omega
      have e4 := Vector.constructList_spec (rw' (c - (p + ys.length))) ys (rw' p) p (by simp)
      obtain ⟨v', e5, hr, hc⟩ := swapOutAt_spec (ys := ys) (t := c - (p + ys.length)) h hp (by omega) (by omega)
      refine ⟨v', ?_, hr, hc.trans (by omega)⟩
      simp only []
      rw [e3, e4, pure_bind]
      rw [e5, pure_bind]

theorem Vec.eraseRange_spec {v : Vec α} {xs : List α} (h : Rep v xs) {p q : Nat} (hpq : p ≤ q)
    (hq : q ≤ xs.length) :
    ∃ v', v.eraseRange p q = pure (v', p) ∧ Rep v' (xs.take p ++ xs.drop q) ∧ v'.cap = v.cap := by
  unfold Vec.eraseRange
  have hl := h.last
  by_cases h0 : p = q
  · rw [if_pos h0]
    subst h0
    exact ⟨v, rfl, by simpa using h, rfl⟩
  · rw [if_neg h0, if_neg (by omega)]
    obtain ⟨k, hm, hk⟩ := h.ex
    have hx : lv xs = lv (xs.take p) ++ lv ((xs.drop p).take (q - p)) ++ lv (xs.drop q) := by
      rw [← lv_append, ← lv_append, List.append_assoc]
      congr 1
      have : xs.drop q = (xs.drop p).drop (q - p) := by rw [List.drop_drop]; congr 1; omega
      rw [this, List.take_append_drop, List.take_append_drop]
    obtain ⟨Z, e, hZ, hoZ⟩ := moveForward_spec (rw' k) (lv (xs.drop q)) (lv (xs.take p)) (lv ((xs.drop p).take (q - p)))
      q p (objs_lv _) (objs_lv _) (by simp; omega) (by simp; omega)
    have hlq : (lv (xs.drop q)).length = v.last - q := by rw [hl]; simp
    rw [hlq] at e
    rw [hm, hx, e, pure_bind]
    obtain ⟨v', e2, hr, hc⟩ := Vec.destructAtEnd_spec' (v := { v with mem := lv (xs.take p) ++ lv (xs.drop q) ++ Z ++ rw' k })
      (xs := xs.take p ++ xs.drop q) (Z := Z) (k := k) (by simp) hoZ (by
        simp [hl, hZ]; omega) (by
        have : ({ v with mem := lv (xs.take p) ++ lv (xs.drop q) ++ Z ++ rw' k } : Vec α).cap = v.cap := by
          unfold Vec.cap; rw [hm]; simp [hZ]; omega
        rw [this]; exact h.blocks)
    have : p + (v.last - q) = (xs.take p ++ xs.drop q).length := by simp [hl]; omega
    rw [this, e2, pure_bind]
    refine ⟨v', rfl, hr, hc.trans ?_⟩
    unfold Vec.cap; rw [hm]; simp [hZ]; omega

theorem Vec.eraseOne_spec {v : Vec α} {xs : List α} (h : Rep v xs) {p : Nat} (hp : p < xs.length) :
    ∃ v', v.eraseOne p = pure (v', p) ∧ Rep v' (xs.take p ++ xs.drop (p + 1)) ∧ v'.cap = v.cap := by
  have := Vec.eraseRange_spec h (p := p) (q := p + 1) (by omega) (by omega)
  unfold Vec.eraseRange at this
  rw [if_neg (by omega), if_neg (by rw [h.last]; omega)] at this
  unfold Vec.eraseOne
  rw [if_neg (by rw [h.last]; omega)]
  exact this

/-- What `assign` does: a vector that had to be reallocated is empty if this failed. (Specification, no line of the source.) -/
def Assigns (env : Env) (v : Vec α) (n : Nat) (run : Cxx (Bool × Vec α)) (xs : List α) : Prop :=
  if n ≤ v.cap then ∃ v', run = pure (true, v') ∧ Rep v' xs ∧ v'.cap = v.cap
  else match grow env 0 n with
    | some c => ∃ v', run = pure (true, v') ∧ Rep v' xs ∧ v'.cap = c
    | none => run = pure (false, Vec.empty)

theorem vallocate_grow (env : Env) {n : Nat} (hn : 0 < n) :
    (∃ c, grow env 0 n = some c ∧ recommend env (Vec.empty : Vec α).cap n = some c ∧
      (Vec.empty : Vec α).vallocate env c = (true, ⟨rw' c, 0, 1⟩)) ∨
    (grow env 0 n = none ∧ (recommend env (Vec.empty : Vec α).cap n = none ∨
      ∃ c, recommend env (Vec.empty : Vec α).cap n = some c ∧
        (Vec.empty : Vec α).vallocate env c = (false, Vec.empty))) := by
  unfold recommend grow Vec.vallocate
  rw [if_neg (show ¬ n ≤ 0 by omega)]
  simp only [show (Vec.empty : Vec α).cap = 0 from rfl]
  by_cases h1 : env.maxSize < n
  · rw [if_pos (show n > env.maxSize from h1), if_pos h1]
    exact .inr ⟨rfl, .inl rfl⟩
  · rw [if_neg (show ¬ n > env.maxSize from h1), if_neg h1]
    by_cases h2 : 0 ≥ env.maxSize / 2
    · simp only [if_pos h2]
      by_cases h3 : env.canAlloc env.maxSize
      · refine .inl ⟨_, if_pos h3, rfl, ?_⟩
        rw [if_neg (by omega), if_pos h3]; rfl
      · refine .inr ⟨if_neg h3, .inr ⟨_, rfl, ?_⟩⟩
        rw [if_neg (by omega), if_neg h3]
    · simp only [if_neg h2]
      by_cases h3 : env.canAlloc (max (2 * 0) n)
      · refine .inl ⟨_, if_pos h3, rfl, ?_⟩
        rw [if_neg (by omega), if_pos h3]; rfl
      · refine .inr ⟨if_neg h3, .inr ⟨_, rfl, ?_⟩⟩
        rw [if_neg (by omega), if_neg h3]

theorem rep_fresh {c : Nat} (hc : 0 < c) : Rep (⟨rw' c, 0, 1⟩ : Vec α) [] := by
  have := Rep.of (v := (⟨rw' c, 0, 1⟩ : Vec α)) (xs := []) (k := c) (by simp) rfl (by
    simp only [List.length_nil]; rw [if_neg (by omega)])
  exact this.1

theorem Vec.assignRange_spec (env : Env) {v : Vec α} {xs : List α} (h : Rep v xs) (ys : List α) :
    Assigns env v ys.length (v.assignRange env ys) ys := by
  unfold Assigns Vec.assignRange
  have hl := h.last
  have hs := h.size_le
  by_cases hfit : ys.length ≤ v.cap
  · rw [if_pos hfit, if_pos hfit, Vec.size, hl]
    obtain ⟨k, hm, hk⟩ := h.ex
    by_cases hgt : ys.length > xs.length
    · rw [if_pos hgt]
      have hf := copyList_spec (rw' k) (ys.take xs.length) [] (lv xs) 0 (objs_lv _) (by simp; omega) rfl
      simp only [List.nil_append] at hf
      rw [hm, hf, pure_bind]
      have hu := Rep.upd (zs := ys.take xs.length) (k := k) (n := v.last) h rfl (by rw [hl]; simp; omega)
        (by rw [hk]; simp; omega)
      obtain ⟨v', e, hr, hc⟩ := Vec.constructList_spec hu.1 (ys := ys.drop xs.length) (by
        rw [hu.2]; simp; omega)
      refine ⟨v', ?_, by simpa using hr, hc.trans hu.2⟩
      rw [hl] at e
      rw [e, pure_bind]
    · rw [if_neg hgt]
      have hx : lv xs = lv (xs.take ys.length) ++ lv (xs.drop ys.length) := by
        rw [← lv_append, List.take_append_drop]
      have hf := copyList_spec (lv (xs.drop ys.length) ++ rw' k) ys [] (lv (xs.take ys.length)) 0 (objs_lv _)
        (by simp; omega) rfl
      simp only [List.nil_append, ← List.append_assoc] at hf
      rw [hm, hx, hf, pure_bind]
      obtain ⟨v', e2, hr, hc⟩ := Vec.destructAtEnd_spec' (v := { v with mem := lv ys ++ lv (xs.drop ys.length) ++ rw' k })
        (xs := ys) (Z := lv (xs.drop ys.length)) (k := k) rfl (objs_lv _) (by simp [hl]; omega) (by
          have : ({ v with mem := lv ys ++ lv (xs.drop ys.length) ++ rw' k } : Vec α).cap = v.cap := by
            unfold Vec.cap; rw [hm]; simp; omega
          rw [this]; exact h.blocks)
      rw [hl] at e2
      rw [e2, pure_bind]
      refine ⟨v', rfl, hr, hc.trans ?_⟩
      unfold Vec.cap; rw [hm]; simp; omega
  · rw [if_neg hfit, if_neg hfit, Vec.vdeallocate_spec h, pure_bind]
    rcases vallocate_grow (α := α) env (n := ys.length) (by omega) with ⟨c, hg, hr, ha⟩ | ⟨hg, hr | ⟨c, hr, ha⟩⟩
    · have hge := grow_ge hg
      rw [hg, hr]
      simp only [ha]
      obtain ⟨v', e, hr, hc⟩ := Vec.constructList_spec (rep_fresh (α := α) (c := c) (by omega)) (ys := ys)
        (by simp [Vec.cap]; omega)
      refine ⟨v', ?_, by simpa using hr, hc.trans (by simp [Vec.cap])⟩
      rw [e, pure_bind]
    · rw [hg, hr]
    · rw [hg, hr]
      simp only [ha]

theorem Vec.assignFill_spec (env : Env) {v : Vec α} {xs : List α} (h : Rep v xs) (n : Nat) (u : α) :
    Assigns env v n (v.assignFill env n u) (List.replicate n u) := by
  unfold Assigns Vec.assignFill
  have hl := h.last
  have hs := h.size_le
  by_cases hfit : n ≤ v.cap
  · rw [if_pos hfit, if_pos hfit]
    simp only [Vec.size, hl]
    obtain ⟨k, hm, hk⟩ := h.ex
    by_cases hgt : n > xs.length
    · have hf := fillN_spec (.ext u) u (rw' k) xs.length [] (lv xs) 0 (fun _ _ => rfl) (objs_lv _) (by simp) rfl
      simp only [List.nil_append] at hf
      rw [Nat.min_eq_right (by omega), hm, hf, pure_bind, if_pos hgt]
      have hu := Rep.upd (zs := List.replicate xs.length u) (k := k) (n := v.last) h rfl (by rw [hl]; simp)
        (by rw [hk]; simp)
      obtain ⟨v', e, hr, hc⟩ := Vec.constructFill_spec hu.1 (x := .ext u) (a := u) (n := n - xs.length) rfl (by
        rw [hu.2]; simp; omega)
      refine ⟨v', ?_, ?_, hc.trans hu.2⟩
      · rw [hl] at e
        rw [e, pure_bind]
      · rw [List.replicate_append_replicate, show xs.length + (n - xs.length) = n by omega] at hr
        exact hr
    · have hx : lv xs = lv (xs.take n) ++ lv (xs.drop n) := by
        rw [← lv_append, List.take_append_drop]
      have hf := fillN_spec (.ext u) u (lv (xs.drop n) ++ rw' k) n [] (lv (xs.take n)) 0 (fun _ _ => rfl) (objs_lv _)
        (by simp; omega) rfl
      simp only [List.nil_append, ← List.append_assoc] at hf
      rw [Nat.min_eq_left (by omega), hm, hx, hf, pure_bind, if_neg hgt]
      obtain ⟨v', e2, hr, hc⟩ := Vec.destructAtEnd_spec'
        (v := { v with mem := lv (List.replicate n u) ++ lv (xs.drop n) ++ rw' k })
        (xs := List.replicate n u) (Z := lv (xs.drop n)) (k := k) rfl (objs_lv _) (by simp [hl]; omega) (by
          have : ({ v with mem := lv (List.replicate n u) ++ lv (xs.drop n) ++ rw' k } : Vec α).cap = v.cap := by
            unfold Vec.cap; rw [hm]; simp; omega
          rw [this]; exact h.blocks)
      rw [List.length_replicate, hl] at e2
      rw [e2, pure_bind]
      refine ⟨v', rfl, hr, hc.trans ?_⟩
      unfold Vec.cap; rw [hm]; simp; omega
  · rw [if_neg hfit, if_neg hfit, Vec.vdeallocate_spec h, pure_bind]
    rcases vallocate_grow (α := α) env (n := n) (by omega) with ⟨c, hg, hr, ha⟩ | ⟨hg, hr | ⟨c, hr, ha⟩⟩
    · have hge := grow_ge hg
      rw [hg, hr]
      simp only [ha]
      obtain ⟨v', e, hr, hc⟩ := Vec.constructFill_spec (rep_fresh (α := α) (c := c) (by omega)) (n := n)
        (x := .ext u) (a := u) rfl (by simp [Vec.cap]; omega)
      refine ⟨v', ?_, by simpa using hr, hc.trans (by simp [Vec.cap])⟩
      rw [e, pure_bind]
    · rw [hg, hr]
    · rw [hg, hr]
      simp only [ha]

/-- Construction from a range, and by copy. -/
theorem Vec.fromList_spec (env : Env) (ys : List α) :
    (∃ v, Vec.fromList env ys = pure (some v) ∧ Rep v ys ∧ v.cap = ys.length) ∨
    (0 < ys.length ∧ (env.maxSize < ys.length ∨ env.canAlloc ys.length = false) ∧
      Vec.fromList env ys = pure none) := by
  unfold Vec.fromList
  by_cases h0 : ys.length > 0
  · rw [if_pos h0]
    unfold Vec.vallocate
    by_cases h1 : ys.length > env.maxSize
    · right
      rw [if_pos h1]
      exact ⟨h0, .inl h1, rfl⟩
    · rw [if_neg h1]
      by_cases h2 : env.canAlloc ys.length
      · left
        rw [if_pos h2]
        obtain ⟨v', e, hr, hc⟩ := Vec.constructList_spec (rep_fresh (α := α) (c := ys.length) h0) (ys := ys)
          (by simp [Vec.cap])
        refine ⟨v', ?_, by simpa using hr, hc.trans (by simp [Vec.cap])⟩
        simp only []
        have e' : Vec.constructList (⟨List.replicate ys.length Cell.raw, 0, (Vec.empty : Vec α).blocks + 1⟩ : Vec α) ys =
          pure v' := e
        rw [e', pure_bind]
      · right
        rw [if_neg h2]
        exact ⟨h0, .inr (by simpa using h2), rfl⟩
  · left
    rw [if_neg h0]
    have : ys = [] := List.length_eq_zero_iff.1 (by omega)
    subst this
    exact ⟨Vec.empty, rfl, rep_empty, rfl⟩

end Verif.Vector
