import Verif.Vector.Insert

/-
`daw::vector` from single pass iterators: `assign`, vector.h 338-348, and `insert`, vector.h 714-748, with the
`construct_at_end` of `split_buffer` it uses, split_buffer.h 412-429.

A range of input iterators is the list of the values it produces.  The last statement of `insert` inserts a
range of `std::move_iterator`s.  Which overload that call selects depends on the standard library: with
`__cpp_lib_concepts` the concept of daw_concepts.h 330-331 is `std::forward_iterator`, and C++20 as published gives
`move_iterator` the `iterator_concept` `input_iterator_tag`, so that the call selects the function it is in; libraries
with P2520 give it the category of the pointer, so that it selects the overload for forward iterators, 750-785.
The model takes that as a parameter.
-/

namespace Verif.Vector
open Cxx

variable {α : Type}

/-! ### The model -/

/-- The first loop of `insert`, vector.h 723-725: elements are constructed in the spare room while there is any.
Result: also the elements not yet read. -/
def Vec.fillSpare (v : Vec α) : List α → Cxx (Vec α × List α)
  | [] => pure (v, [])
  | a :: rest =>
    if v.last = v.cap then pure (v, a :: rest)
    else do
      let v ← v.constructFill 1 (.ext a)
      Vec.fillSpare v rest

/-- `std::rotate( p, mid, last )` on objects of a block. (Rule of C++ or its library, no line of the source.) -/
def rotateCells (m : Mem α) (p mid last : Nat) : Cxx (Mem α) :=
  if p ≤ mid ∧ mid ≤ last ∧ last ≤ m.length ∧
      ((m.take last).drop p).all (fun c => match c with | .raw => false | _ => true) = true then
    pure (m.take p ++ (m.take last).drop mid ++ (m.take mid).drop p ++ m.drop last)
  else ub

/-- The elements `[begin(), end())` of a split_buffer, read through move iterators, split_buffer.h 170-180.  The
objects in the buffer stay behind without a value, or with it if moving copies; the model leaves them as they are,
they are only destroyed after this. -/
def Buf.values (b : Buf α) : Cxx (List α) := Vec.toList.go b.mem b.beg (b.fin - b.beg)

/-- `insert( position, InputIterator, InputIterator )` up to the rotation, vector.h 719-743.  Result: false if it left
by an exception, the vector, the position returned by the rotation, and the buffer with the elements for which
there was no room. -/
def Vec.insertPrepare (env : Env) (v : Vec α) (p : Nat) (ys : List α) : Cxx (Bool × Vec α × Nat × Buf α) := do
  let oldLast := v.last
  let (v, rest) ← v.fillSpare ys
  let b : Buf α := ⟨[], 0, 0, 0⟩
  let (ok, v, b) ← (match rest with
    | [] => pure (true, v, b)
    | _ :: _ => do
      let (ok, b) ← b.appendInput env rest
      let (ok, v) ← (if ok then
          match recommend env v.cap (add64 v.size (b.fin - b.beg)) with
          | none => pure (false, v)
          | some c => v.reserve env c
        else pure (false, v) : Cxx (Bool × Vec α))
      if ok then pure (true, v, b)
      else do
        let (v, _) ← v.eraseRange oldLast v.last
        pure (false, v, b) : Cxx (Bool × Vec α × Buf α))
  if ok then do
    let m ← rotateCells v.mem p oldLast v.last
    pure (true, { v with mem := m }, p + (v.last - oldLast), b)
  else pure (false, v, p, b)

/-- `insert( position, InputIterator, InputIterator )`, vector.h 714-748.  `moveFwd`: the standard library makes
`std::move_iterator` a forward iterator, see the head of the file.  The buffer is destroyed at the end; a block it
would not release is added to those of the vector. -/
def Vec.insertInput (env : Env) (moveFwd : Bool) (v : Vec α) (p : Nat) (ys : List α) :
    Cxx (Bool × Vec α × Nat) := do
  let (ok, v, q, b) ← v.insertPrepare env p ys
  if ok then do
    let zs ← b.values
    let (ok, v, _) ← (if moveFwd then v.insertRange env q zs
      else Vec.insertInput env moveFwd v q zs : Cxx (Bool × Vec α × Nat))
    let left ← b.destruct
    pure (ok, { v with blocks := v.blocks + left }, p)
  else do
    let left ← b.destruct
    pure (false, { v with blocks := v.blocks + left }, p)
partial_fixpoint

/-- The loop of `assign( InputIterator, InputIterator )`, vector.h 343-345. -/
def Vec.pushEach (env : Env) (v : Vec α) : List α → Cxx (Bool × Vec α)
  | [] => pure (true, v)
  | a :: rest => do
    let (ok, v) ← v.pushBack env (.ext a)
    if ok then Vec.pushEach env v rest else pure (false, v)

/-- `assign( InputIterator, InputIterator )`, vector.h 338-348. -/
def Vec.assignInput (env : Env) (v : Vec α) (ys : List α) : Cxx (Bool × Vec α) := do
  let v ← v.clear
  v.pushEach env ys

/-! ### The steps -/

theorem Vec.fillSpare_spec : ∀ (ys : List α) {v : Vec α} {xs : List α}, Rep v xs →
    ∃ v', v.fillSpare ys = pure (v', ys.drop (v.cap - xs.length)) ∧
      Rep v' (xs ++ ys.take (v.cap - xs.length)) ∧ v'.cap = v.cap := by
  intro ys
  induction ys with
  | nil => intro v xs h; exact ⟨v, by simp [Vec.fillSpare], by simpa using h, rfl⟩
  | cons a rest ih =>
    intro v xs h
    have hs := h.size_le
    have hl := h.last
    unfold Vec.fillSpare
    by_cases hf : v.last = v.cap
    · rw [if_pos hf]
      have : v.cap - xs.length = 0 := by omega
      exact ⟨v, by rw [this]; rfl, by rw [this]; simpa using h, rfl⟩
    · rw [if_neg hf]
      obtain ⟨v1, e1, h1, c1⟩ := Vec.constructFill_spec h (n := 1) (x := .ext a) (a := a) rfl (by omega)
      rw [e1, pure_bind]
      obtain ⟨v2, e2, h2, c2⟩ := ih h1
      refine ⟨v2, ?_, ?_, c2.trans c1⟩
      · rw [e2, c1]
        obtain ⟨k, hk⟩ : ∃ k, v.cap - xs.length = k + 1 := ⟨v.cap - xs.length - 1, by omega⟩
        have : v.cap - (xs ++ List.replicate 1 a).length = k := by simp; omega
        rw [this, hk]; rfl
      · obtain ⟨k, hk⟩ : ∃ k, v.cap - xs.length = k + 1 := ⟨v.cap - xs.length - 1, by omega⟩
        have : v1.cap - (xs ++ List.replicate 1 a).length = k := by simp; omega
        rw [this] at h2
        rw [hk]
        simpa using h2

/-- A buffer that holds exactly the elements `zs`, from the start of its block on.
(Specification, no line of the source.) -/
structure BufRep (b : Buf α) (zs : List α) : Prop where
  mem : ∃ k, b.mem = lv zs ++ rw' k
  beg : b.beg = 0
  fin : b.fin = zs.length
  blocks : b.blocks = if b.mem.length = 0 then 0 else 1

theorem BufRep.destruct {b : Buf α} {zs : List α} (h : BufRep b zs) : b.destruct = pure 0 := by
  obtain ⟨k, hm⟩ := h.mem
  rw [Buf.destruct_spec (s := 0) (t := k) (Z := lv zs) (by simpa [rw'] using hm) h.beg (by simp [h.fin]) (objs_lv zs),
    h.blocks]
  split <;> simp_all

theorem BufRep.values {b : Buf α} {zs : List α} (h : BufRep b zs) : b.values = pure zs := by
  obtain ⟨k, hm⟩ := h.mem
  have hr : Rep (⟨b.mem, zs.length, if zs.length + k = 0 then 0 else 1⟩ : Vec α) zs := (Rep.of hm rfl rfl).1
  have := Vec.toList_spec hr
  unfold Buf.values
  rw [h.beg, h.fin]
  exact this

theorem Buf.appendInput_spec (env : Env) : ∀ (ys : List α) {b : Buf α} {zs : List α}, BufRep b zs →
    (∃ b', b.appendInput env ys = pure (true, b') ∧ BufRep b' (zs ++ ys)) ∨
    (∃ b' c, b.appendInput env ys = pure (false, b') ∧ env.canAlloc c = false ∧ ∃ ws, BufRep b' ws) := by
  intro ys
  induction ys with
  | nil => intro b zs h; exact .inl ⟨b, rfl, by simpa using h⟩
  | cons a rest ih =>
    intro b zs h
    obtain ⟨k, hm⟩ := h.mem
    have hlen : b.mem.length = zs.length + k := by rw [hm]; simp
    -- the construction at the end of a buffer with room
    have room : ∀ {t : Buf α}, BufRep t zs → t.fin ≠ t.mem.length →
        ∃ m, construct t.mem t.fin (.live a) = pure m ∧ BufRep { t with mem := m, fin := t.fin + 1 } (zs ++ [a]) := by
      intro t ht hne
      obtain ⟨j, hj⟩ := ht.mem
      have hjl : t.mem.length = zs.length + j := by rw [hj]; simp
      have htf := ht.fin
      obtain ⟨i, rfl⟩ : ∃ i, j = i + 1 := ⟨j - 1, by omega⟩
      refine ⟨lv zs ++ Cell.live a :: rw' i, ?_, ⟨i, by simp⟩, ht.beg, by simp [htf], ?_⟩
      · rw [hj, rw'_succ]; exact construct_mid _ _ _ (by simp [htf])
      · show t.blocks = _
        rw [ht.blocks, if_neg (by omega), if_neg (by simp)]
    unfold Buf.appendInput
    by_cases hf : b.fin = b.mem.length
    · rw [if_pos hf]
      have hk : k = 0 := by have := h.fin; omega
      subst hk
      have hc0 : max (2 * b.mem.length) 8 ≠ 0 := by omega
      cases hca : env.canAlloc (max (2 * b.mem.length) 8) with
      | false =>
        refine .inr ⟨b, _, ?_, hca, zs, h⟩
        simp only [Buf.new, if_neg hc0, hca]
        rfl
      | true =>
        simp only [Buf.new, if_neg hc0, hca, if_true]
        generalize hC : max (2 * b.mem.length) 8 = C at *
        have hCge : zs.length + 1 ≤ C := by omega
        have hmv : b.moveInto ⟨List.replicate C .raw, 0, 0, 1⟩ =
            pure ⟨lv zs ++ rw' (C - zs.length), 0, zs.length, 1⟩ := by
          unfold Buf.moveInto
          have hb0 := h.beg
          have hf0 := h.fin
          have e := transferUp_spec (α := α) [] (rw' (C - zs.length)) (lv zs) [] [] 0 0 (objs_lv zs) rfl rfl
          simp only [List.append_nil, List.nil_append, show (lv zs).length = zs.length by simp] at e
          have e2 : (List.replicate C Cell.raw : Mem α) = rw' zs.length ++ rw' (C - zs.length) := by
            rw [← rw'_add]; unfold rw'; congr 1; omega
          have hm' : b.mem = lv zs := by rw [hm]; simp [rw']
          simp only [hb0, hf0, Nat.sub_zero]
          rw [e2, hm', e, pure_bind]
          simp only []
          have hd := Buf.destruct_spec (α := α) (b := { b with mem := mv zs.length }) (s := 0) (t := 0) (Z := mv zs.length)
            (by simp [rw']) hb0 (by simp [hf0]) (objs_mv _)
          simp only [hb0, hf0] at hd
          rw [hd, pure_bind]
          have hbl := h.blocks
          have : (if (mv zs.length : Mem α).length = 0 then b.blocks else b.blocks - 1) = 0 := by
            rw [hbl, hm']
            simp only [show (lv zs).length = zs.length by simp, show (mv zs.length : Mem α).length = zs.length by simp]
            split <;> rfl
          rw [this]
          simp
        rw [hmv, pure_bind]
        have ht : BufRep (⟨lv zs ++ rw' (C - zs.length), 0, zs.length, 1⟩ : Buf α) zs :=
          ⟨⟨_, rfl⟩, rfl, rfl, by rw [if_neg (by simp; omega)]⟩
        obtain ⟨m, em, hr⟩ := room ht (by simp; omega)
        simp only [] at em ⊢
        rw [em, pure_bind]
        simpa using ih hr
    · rw [if_neg hf]
      obtain ⟨m, em, hr⟩ := room h hf
      rw [em, pure_bind]
      simpa using ih hr

theorem rotateCells_spec (A X Y D : Mem α) (hX : Objs X) (hY : Objs Y) {p mid last : Nat} (hp : p = A.length)
    (hm : mid = A.length + X.length) (hl : last = A.length + X.length + Y.length) :
    rotateCells (A ++ X ++ Y ++ D) p mid last = pure (A ++ Y ++ X ++ D) := by
  unfold rotateCells
  have e1 : (A ++ X ++ Y ++ D).take last = A ++ X ++ Y := by
    rw [hl]; exact List.take_left' (by simp; omega)
  have e2 : (A ++ X ++ Y ++ D).drop last = D := by
    rw [hl]; exact List.drop_left' (by simp; omega)
  have e3 : (A ++ X ++ Y).drop mid = Y := by rw [hm]; exact List.drop_left' (by simp)
  have e4 : (A ++ X ++ Y ++ D).take mid = A ++ X := by
    rw [hm, List.append_assoc (A ++ X)]; exact List.take_left' (by simp)
  have e5 : (A ++ X).drop p = X := by rw [hp]; exact List.drop_left' rfl
  have e6 : (A ++ X ++ Y).drop p = X ++ Y := by rw [hp, List.append_assoc]; exact List.drop_left' rfl
  have e7 : (A ++ X ++ Y ++ D).take p = A := by
    rw [hp, List.append_assoc, List.append_assoc]; exact List.take_left' rfl
  rw [e1, e2, e3, e4, e5, e6, e7, if_pos]
  refine ⟨by omega, by omega, by simp; omega, ?_⟩
  rw [List.all_eq_true]
  intro c hc
  have := (hX.append hY) c hc
  cases c <;> simp_all

/-- What the part of `insert` up to the rotation does. -/
theorem Vec.insertPrepare_spec (env : Env) {v : Vec α} {xs : List α} (h : Rep v xs) {p : Nat} (ys : List α)
    (hp : p ≤ xs.length) (hn : xs.length + ys.length < 2 ^ 64) :
    (∃ v' b, v.insertPrepare env p ys = pure (true, v', p + (ys.take (v.cap - xs.length)).length, b) ∧
      Rep v' (xs.take p ++ ys.take (v.cap - xs.length) ++ xs.drop p) ∧ BufRep b (ys.drop (v.cap - xs.length)) ∧
      xs.length + ys.length ≤ v'.cap ∧ v.cap ≤ v'.cap) ∨
    (∃ v' b ws, v.insertPrepare env p ys = pure (false, v', p, b) ∧ Rep v' xs ∧ v'.cap = v.cap ∧ BufRep b ws ∧
      v.cap < xs.length + ys.length ∧ (env.maxSize < xs.length + ys.length ∨ ∃ c, env.canAlloc c = false)) := by
  have hl := h.last
  have hs := h.size_le
  obtain ⟨v1, e1, h1, c1⟩ := Vec.fillSpare_spec ys h
  generalize hY : ys.take (v.cap - xs.length) = Y at *
  generalize hR : ys.drop (v.cap - xs.length) = R at *
  have hlen : Y.length + R.length = ys.length := by rw [← hY, ← hR]; simp; omega
  have hl1 := h1.last
  -- the rotation
  have rot : ∀ {w : Vec α}, Rep w (xs ++ Y) → ∃ m, rotateCells w.mem p v.last w.last = pure m ∧
      Rep { w with mem := m } (xs.take p ++ Y ++ xs.drop p) ∧ ({ w with mem := m } : Vec α).cap = w.cap := by
    intro w hw
    obtain ⟨k, hm, hk⟩ := hw.ex
    have e := rotateCells_spec (lv (xs.take p)) (lv (xs.drop p)) (lv Y) (rw' k) (objs_lv _) (objs_lv _)
      (p := p) (mid := v.last) (last := w.last) (by simp [hp]) (by simp [hl]; omega) (by rw [hw.last]; simp; omega)
    refine ⟨_, (?_ : _ = pure (lv (xs.take p) ++ lv Y ++ lv (xs.drop p) ++ rw' k)), ?_⟩
    · rw [← e, hm]; congr 1
      rw [← lv_append, ← lv_append, List.take_append_drop]
    · have := hw.upd (zs := xs.take p ++ Y ++ xs.drop p) (m := lv (xs.take p) ++ lv Y ++ lv (xs.drop p) ++ rw' k)
        (k := k) (n := w.last) (by simp) (by rw [hw.last]; simp; omega) (by rw [hk]; simp; omega)
      exact this
  have b0 : BufRep (⟨[], 0, 0, 0⟩ : Buf α) [] := ⟨⟨0, rfl⟩, rfl, rfl, rfl⟩
  unfold Vec.insertPrepare
  rw [e1, pure_bind]
  cases hRc : R with
  | nil =>
    simp only [pure_bind, if_true]
    obtain ⟨m, em, hr, hc⟩ := rot h1
    rw [em, pure_bind]
    refine .inl ⟨_, _, ?_, hr, b0, ?_, ?_⟩
    · rw [hl1, hl]; simp
    · rw [hc, c1]
      have := h1.size_le
      rw [hRc] at hlen
      simp at this hlen
      omega
    · rw [hc, c1]; exact Nat.le_refl _
  | cons r R' =>
    simp only []
    have hover : v.cap < xs.length + ys.length := by
      rw [hRc] at hR
      have := congrArg List.length hR
      simp at this
      omega
    have hYl : xs.length + Y.length = v.cap := by
      rw [← hY]; simp; omega
    -- leaving by an exception
    have fail : ∃ v', v1.eraseRange v.last v1.last = pure (v', v.last) ∧ Rep v' xs ∧ v'.cap = v.cap := by
      obtain ⟨v', e, hr, hc⟩ := Vec.eraseRange_spec h1 (p := v.last) (q := v1.last) (by rw [hl1, hl]; simp)
        (by rw [hl1]; exact Nat.le_refl _)
      refine ⟨v', e, ?_, hc.trans c1⟩
      rw [hl1, hl] at hr
      simpa using hr
    obtain ⟨vf, ef, hrf, hcf⟩ := fail
    rcases Buf.appendInput_spec env (r :: R') b0 with ⟨b, eb, hb⟩ | ⟨b, c, eb, hc, ws, hb⟩
    · rw [eb, pure_bind]
      simp only [if_true]
      have hbn : b.fin - b.beg = R.length := by rw [hb.fin, hb.beg, hRc]; simp
      have hneed : add64 v1.size (b.fin - b.beg) = xs.length + ys.length := by
        rw [hbn, Vec.size, hl1]
        unfold add64
        rw [Nat.mod_eq_of_lt (by simp; omega)]
        simp; omega
      rw [hneed]
      have res : (∃ v', (match recommend env v1.cap (xs.length + ys.length) with
            | none => pure (false, v1)
            | some c => v1.reserve env c : Cxx (Bool × Vec α)) = pure (true, v') ∧ Rep v' (xs ++ Y) ∧
              xs.length + ys.length ≤ v'.cap) ∨
          ((match recommend env v1.cap (xs.length + ys.length) with
            | none => pure (false, v1)
            | some c => v1.reserve env c : Cxx (Bool × Vec α)) = pure (false, v1) ∧
            (env.maxSize < xs.length + ys.length ∨ ∃ c, env.canAlloc c = false)) := by
        cases hrec : recommend env v1.cap (xs.length + ys.length) with
        | none =>
          refine .inr ⟨rfl, .inl ?_⟩
          unfold recommend at hrec
          split at hrec
          · omega
          · split at hrec <;> cases hrec
        | some c =>
          have hcc : xs.length + ys.length ≤ c ∧ (c ≤ env.maxSize) := by
            unfold recommend at hrec
            split at hrec
            · cases hrec
            · split at hrec <;> injection hrec with hrec <;> omega
          simp only []
          rcases Vec.reserve_spec env h1 c with ⟨h0, _⟩ | ⟨_, _, _, v', e, hr, hcap⟩ | ⟨_, hwhy, e⟩
          · omega
          · exact .inl ⟨v', e, hr, by omega⟩
          · exact .inr ⟨e, .inr ⟨c, by rcases hwhy with hw | hw; · omega
                                       · exact hw⟩⟩
      rcases res with ⟨v2, e2, h2, hc2⟩ | ⟨e2, hwhy⟩
      · rw [e2]
        simp only [pure_bind, if_true]
        obtain ⟨m, em, hr, hc⟩ := rot h2
        rw [em, pure_bind]
        refine .inl ⟨_, b, ?_, hr, by simpa using hb, ?_, ?_⟩
        · rw [h2.last, hl]; simp
        · rw [hc]; exact hc2
        · rw [hc]; omega
      · rw [e2]
        simp only [pure_bind, if_neg (Bool.false_ne_true), ef]
        exact .inr ⟨vf, b, _, rfl, hrf, hcf, hb, hover, hwhy⟩
    · rw [eb, pure_bind]
      simp only [if_neg (Bool.false_ne_true), pure_bind, ef]
      exact .inr ⟨vf, b, ws, rfl, hrf, hcf, hb, hover, .inr ⟨c, hc⟩⟩

/-! ### C136: single pass iterators -/

/-- C136, in part: if `std::move_iterator` is a forward iterator in the standard library used, then `insert` puts the
elements in front of the position and returns it; or it leaves by an exception, with the elements as before, and this
only if there was no room, and the size limit or the allocator prevented more. -/
theorem C136_insert_partial (env : Env) {v : Vec α} {xs : List α} (h : Rep v xs) {p : Nat} (ys : List α)
    (hp : p ≤ xs.length) (hn : xs.length + ys.length < 2 ^ 64) :
    (∃ v', v.insertInput env true p ys = pure (true, v', p) ∧ v'.toList = pure (xs.take p ++ ys ++ xs.drop p) ∧
      Rep v' (xs.take p ++ ys ++ xs.drop p) ∧ v.cap ≤ v'.cap ∧ v'.destruct = pure 0) ∨
    (∃ v', v.insertInput env true p ys = pure (false, v', p) ∧ v'.toList = pure xs ∧ Rep v' xs ∧ v'.cap = v.cap ∧
      v'.destruct = pure 0 ∧ v.cap < xs.length + ys.length ∧
      (env.maxSize < xs.length + ys.length ∨ ∃ c, env.canAlloc c = false)) := by
  rw [Vec.insertInput]
  rcases Vec.insertPrepare_spec env h ys hp hn with ⟨v1, b, e, hr, hb, hc, hc'⟩ | ⟨v1, b, ws, e, hr, hc, hb, ho, hw⟩
  · rw [e, pure_bind]
    simp only [if_true]
    rw [hb.values, pure_bind]
    have hlen : (ys.take (v.cap - xs.length)).length + (ys.drop (v.cap - xs.length)).length = ys.length := by
      rw [← List.length_append, List.take_append_drop]
    generalize hY : ys.take (v.cap - xs.length) = Y at *
    generalize hR : ys.drop (v.cap - xs.length) = R at *
    have hq : p + Y.length ≤ (xs.take p ++ Y ++ xs.drop p).length := by simp; omega
    have hg := Vec.insertRange_spec env hr R hq
    unfold GrowsAt at hg
    rw [grow_fits (by simp; omega)] at hg
    obtain ⟨v2, e2, h2, c2⟩ := hg
    rw [e2, pure_bind]
    simp only []
    rw [hb.destruct, pure_bind]
    have hz : (xs.take p ++ Y ++ xs.drop p).take (p + Y.length) ++ R ++ (xs.take p ++ Y ++ xs.drop p).drop (p + Y.length)
        = xs.take p ++ ys ++ xs.drop p := by
      have t : (xs.take p ++ Y ++ xs.drop p).take (p + Y.length) = xs.take p ++ Y :=
        List.take_left' (by simp [hp])
      have d : (xs.take p ++ Y ++ xs.drop p).drop (p + Y.length) = xs.drop p :=
        List.drop_left' (by simp [hp])
      rw [t, d, ← List.take_append_drop (v.cap - xs.length) ys, hY, hR]
      simp
    rw [hz] at h2
    exact .inl ⟨v2, rfl, Vec.toList_spec h2, h2, by omega, Vec.destruct_spec h2⟩
  · rw [e, pure_bind]
    simp only [if_neg (Bool.false_ne_true)]
    rw [hb.destruct, pure_bind]
    exact .inr ⟨v1, rfl, Vec.toList_spec hr, hr, hc, Vec.destruct_spec hr, ho, hw⟩

/-- C136, violated: with the `std::move_iterator` of C++20 as published, whose concept is input iterator, `insert` calls
itself without end, even if there is room for all elements, and also if there are none. -/
theorem C136_insert_violated (env : Env) {v : Vec α} {xs : List α} (h : Rep v xs) {p : Nat} (ys : List α)
    (hp : p ≤ xs.length) (hn : xs.length + ys.length < 2 ^ 64) (hroom : xs.length + ys.length ≤ v.cap) :
    v.insertInput env false p ys = diverge := by
  suffices hh : ∀ (v : Vec α) (p : Nat) (ys : List α), (∃ xs, Rep v xs ∧ p ≤ xs.length ∧
      xs.length + ys.length < 2 ^ 64 ∧ xs.length + ys.length ≤ v.cap) →
      v.insertInput env false p ys = diverge from hh v p ys ⟨xs, h, hp, hn, hroom⟩
  refine Vec.insertInput.fixpoint_induct env false
    (fun f => ∀ v p ys, (∃ xs, Rep v xs ∧ p ≤ xs.length ∧
      xs.length + ys.length < 2 ^ 64 ∧ xs.length + ys.length ≤ v.cap) → f v p ys = diverge)
    (Cxx.admissible3 (fun (v : Vec α) (p : Nat) (ys : List α) x => (∃ xs, Rep v xs ∧ p ≤ xs.length ∧
      xs.length + ys.length < 2 ^ 64 ∧ xs.length + ys.length ≤ v.cap) → x = diverge)
      (fun _ _ _ _ => rfl)) ?_
  rintro f ih v p ys ⟨xs, h, hp, hn, hroom⟩
  rcases Vec.insertPrepare_spec env h ys hp hn with ⟨v1, b, e, hr, hb, hc, hc'⟩ | ⟨v1, b, ws, e, hr, hc, hb, ho, hw⟩
  · simp only []
    rw [e, pure_bind]
    simp only [if_true]
    rw [hb.values, pure_bind]
    have hR : ys.drop (v.cap - xs.length) = [] := List.drop_eq_nil_of_le (by omega)
    have hY : ys.take (v.cap - xs.length) = ys := List.take_of_length_le (by omega)
    rw [hR, hY]
    rw [hY] at hr
    rw [if_neg (Bool.false_ne_true), ih _ _ _ ⟨_, hr, by simp; omega, by simp; omega, by simp; omega⟩]
    rfl
  · omega

/-- C136: with that library no call of it ever returns to its caller other than by an exception. -/
theorem C136_insert_never_returns_finding (env : Env) (v : Vec α) (p : Nat) (ys : List α) (v' : Vec α) (q : Nat) :
    v.insertInput env false p ys ≠ pure (true, v', q) := by
  suffices hh : ∀ (v : Vec α) (p : Nat) (ys : List α), ∀ v' q,
      v.insertInput env false p ys ≠ pure (true, v', q) from hh v p ys v' q
  refine Vec.insertInput.fixpoint_induct env false
    (fun f => ∀ v p ys, ∀ v' q, f v p ys ≠ pure (true, v', q))
    (Cxx.admissible3 (fun _ _ _ x => ∀ v' q, x ≠ pure (true, v', q)) (fun _ _ _ _ _ hh => by cases hh)) ?_
  intro f ih v p ys v' q hh
  obtain ⟨⟨ok, v1, q1, b⟩, e1, h1⟩ := bind_eq_pure.1 hh
  cases ok with
  | true =>
    simp only [if_true] at h1
    obtain ⟨zs, e2, h2⟩ := bind_eq_pure.1 h1
    rw [if_neg (Bool.false_ne_true)] at h2
    obtain ⟨⟨ok, v2, q2⟩, e3, h3⟩ := bind_eq_pure.1 h2
    obtain ⟨left, e4, h4⟩ := bind_eq_pure.1 h3
    have := pure_inj.1 h4
    injection this with h5 _
    simp only at h5
    subst h5
    exact ih _ _ _ _ _ e3
  | false =>
    simp only [if_neg (Bool.false_ne_true)] at h1
    obtain ⟨left, e4, h4⟩ := bind_eq_pure.1 h1
    have := pure_inj.1 h4
    injection this with h5 _
    cases h5

theorem Vec.pushEach_spec (env : Env) : ∀ (ys : List α) {v : Vec α} {xs : List α}, Rep v xs →
    xs.length + ys.length < 2 ^ 64 →
    (∃ v', v.pushEach env ys = pure (true, v') ∧ Rep v' (xs ++ ys) ∧ v.cap ≤ v'.cap) ∨
    (∃ v' k, v.pushEach env ys = pure (false, v') ∧ k < ys.length ∧ Rep v' (xs ++ ys.take k) ∧
      v'.cap = xs.length + k ∧ v.cap ≤ v'.cap ∧ grow env v'.cap (v'.cap + 1) = none) := by
  intro ys
  induction ys with
  | nil => intro v xs h _; exact .inl ⟨v, rfl, by simpa using h, Nat.le_refl _⟩
  | cons a rest ih =>
    intro v xs h hn
    simp only [List.length_cons] at hn
    have hg := Vec.pushBack_spec env h (x := .ext a) (a := a) rfl (by omega)
    unfold Grows at hg
    unfold Vec.pushEach
    cases hgr : grow env v.cap (xs.length + 1) with
    | none =>
      rw [hgr] at hg
      simp only [] at hg
      rw [hg, pure_bind]
      have hcap : v.cap = xs.length := by
        have := h.size_le
        rcases Nat.lt_or_ge xs.length v.cap with hlt | hge
        · rw [grow_fits (by omega)] at hgr; cases hgr
        · omega
      exact .inr ⟨v, 0, by simp, by simp, by simpa using h, by simpa using hcap, Nat.le_refl _, by rw [← hcap] at hgr; exact hgr⟩
    | some c =>
      rw [hgr] at hg
      obtain ⟨v1, e1, h1, c1⟩ := hg
      rw [e1, pure_bind]
      simp only [if_true]
      have hvc : v.cap ≤ v1.cap := by
        rw [c1]
        have hge := grow_ge hgr
        rcases Nat.lt_or_ge v.cap (xs.length + 1) with hlt | hfit
        · omega
        · rw [grow_fits hfit] at hgr
          injection hgr with hgr
          omega
      rcases ih h1 (by simp; omega) with ⟨v2, e2, h2, c2⟩ | ⟨v2, k, e2, hk, h2, c2, c3, c4⟩
      · exact .inl ⟨v2, e2, by simpa using h2, by omega⟩
      · exact .inr ⟨v2, k + 1, e2, by simp; omega, by simpa using h2, by simp at c2; omega, by omega, c4⟩

/-- C136: `assign` from single pass iterators replaces the elements by those of the range; if it leaves by an
exception, then the vector holds the elements it had room for, and the block could not grow. -/
theorem C136_assign (env : Env) {v : Vec α} {xs : List α} (h : Rep v xs) (ys : List α) (hn : ys.length < 2 ^ 64) :
    (∃ v', v.assignInput env ys = pure (true, v') ∧ v'.toList = pure ys ∧ Rep v' ys ∧ v.cap ≤ v'.cap) ∨
    (∃ v' k, v.assignInput env ys = pure (false, v') ∧ k < ys.length ∧ v'.toList = pure (ys.take k) ∧
      Rep v' (ys.take k) ∧ v'.cap = k ∧ v.cap ≤ k ∧ grow env k (k + 1) = none) := by
  unfold Vec.assignInput
  obtain ⟨v1, e1, h1, c1⟩ := Vec.clear_spec h
  rw [e1, pure_bind]
  rcases Vec.pushEach_spec env ys h1 (by simpa using hn) with ⟨v2, e2, h2, c2⟩ | ⟨v2, k, e2, hk, h2, c2, c3, c4⟩
  · exact .inl ⟨v2, e2, Vec.toList_spec (by simpa using h2), by simpa using h2, by omega⟩
  · simp at c2
    rw [c2] at c4
    exact .inr ⟨v2, k, e2, hk, Vec.toList_spec (by simpa using h2), by simpa using h2, c2, by omega, c4⟩

/-- C136: the insertion and the assignment of three elements into a vector with room for one more, and of two into one
with room, which does not come back with the other library. -/
example :
    (∃ v', (⟨[.live 1, .live 2, .raw], 2, 1⟩ : Vec Nat).insertInput ⟨100, fun _ => true⟩ true 1 [7, 8, 9] =
      pure (true, v', 1) ∧ v'.toList = pure [1, 7, 8, 9, 2]) ∧
    (⟨[.live 1, .raw, .raw], 1, 1⟩ : Vec Nat).insertInput ⟨100, fun _ => true⟩ false 0 [7, 8] = diverge ∧
    (∃ v', (⟨[.live 1, .live 2, .raw], 2, 1⟩ : Vec Nat).assignInput ⟨100, fun _ => true⟩ [7, 8, 9, 10] =
      pure (true, v') ∧ v'.toList = pure [7, 8, 9, 10]) ∧
    (∃ v', (⟨[.live 1, .live 2, .raw], 2, 1⟩ : Vec Nat).assignInput ⟨100, fun _ => false⟩ [7, 8, 9, 10] =
      pure (false, v') ∧ v'.toList = pure [7, 8, 9]) := by
  have h : Rep (⟨[.live 1, .live 2, .raw], 2, 1⟩ : Vec Nat) [1, 2] := ⟨rfl, by decide, rfl, rfl⟩
  have h' : Rep (⟨[.live 1, .raw, .raw], 1, 1⟩ : Vec Nat) [1] := ⟨rfl, by decide, rfl, rfl⟩
  refine ⟨?_, C136_insert_violated _ h' _ (by decide) (by decide) (by decide), ?_, ?_⟩
  · rcases C136_insert_partial ⟨100, fun _ => true⟩ h [7, 8, 9] (p := 1) (by decide) (by decide) with
      ⟨v', e, t, _⟩ | ⟨_, _, _, _, _, _, _, hw⟩
    · exact ⟨v', e, t⟩
    · rcases hw with hw | ⟨_, hw⟩
      · exact absurd hw (by decide)
      · cases hw
  · exact ⟨_, rfl, rfl⟩
  · exact ⟨_, rfl, rfl⟩

end Verif.Vector
