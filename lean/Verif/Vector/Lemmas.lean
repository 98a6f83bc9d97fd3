import Verif.Vector.Model

/- Lemmas on the cell loops, in terms of concatenated pieces of the block. -/

namespace Verif.Vector
open Cxx

variable {α : Type}

/-- Live cells. (Specification, no line of the source.) -/
def lv (xs : List α) : Mem α := xs.map Cell.live
/-- Raw cells. (Specification, no line of the source.) -/
def rw' (n : Nat) : Mem α := List.replicate n Cell.raw
/-- Moved-from cells. (Specification, no line of the source.) -/
def mv (n : Nat) : Mem α := List.replicate n Cell.moved

/-- Cells that hold an object. (Specification, no line of the source.) -/
def Objs (m : Mem α) : Prop := ∀ c ∈ m, c ≠ Cell.raw

@[simp] theorem lv_length (xs : List α) : (lv xs).length = xs.length := by simp [lv]
@[simp] theorem rw'_length (n : Nat) : (rw' n : Mem α).length = n := by simp [rw']
@[simp] theorem mv_length (n : Nat) : (mv n : Mem α).length = n := by simp [mv]
@[simp] theorem lv_nil : (lv [] : Mem α) = [] := rfl
@[simp] theorem rw'_zero : (rw' 0 : Mem α) = [] := rfl
@[simp] theorem mv_zero : (mv 0 : Mem α) = [] := rfl
@[simp] theorem lv_append (xs ys : List α) : lv (xs ++ ys) = lv xs ++ lv ys := by simp [lv]
@[simp] theorem lv_cons (x : α) (ys : List α) : lv (x :: ys) = .live x :: lv ys := by simp [lv]
theorem rw'_succ (n : Nat) : (rw' (n + 1) : Mem α) = .raw :: rw' n := List.replicate_succ
theorem rw'_add (a b : Nat) : (rw' (a + b) : Mem α) = rw' a ++ rw' b := by
  simp [rw', List.replicate_append_replicate]
theorem mv_succ (n : Nat) : (mv (n + 1) : Mem α) = .moved :: mv n := List.replicate_succ
theorem mv_succ' (n : Nat) : (mv (n + 1) : Mem α) = mv n ++ [.moved] := List.replicate_succ'
theorem rw'_succ' (n : Nat) : (rw' (n + 1) : Mem α) = rw' n ++ [.raw] := List.replicate_succ'

theorem objs_lv (xs : List α) : Objs (lv xs) := by
  intro c hc; simp [lv] at hc; obtain ⟨a, _, rfl⟩ := hc; simp
theorem objs_mv (n : Nat) : Objs (mv n : Mem α) := by
  intro c hc; simp [mv] at hc; simp [hc]
theorem Objs.append {a b : Mem α} (ha : Objs a) (hb : Objs b) : Objs (a ++ b) := by
  intro c hc; rcases List.mem_append.1 hc with h | h
  · exact ha c h
  · exact hb c h
theorem Objs.cons {a : Cell α} {b : Mem α} (ha : a ≠ .raw) (hb : Objs b) : Objs (a :: b) := by
  intro c hc; rcases List.mem_cons.1 hc with h | h
  · exact h ▸ ha
  · exact hb c h
theorem Objs.tail {a : Cell α} {b : Mem α} (h : Objs (a :: b)) : Objs b :=
  fun c hc => h c (List.mem_cons_of_mem _ hc)
theorem Objs.head {a : Cell α} {b : Mem α} (h : Objs (a :: b)) : a ≠ .raw := h a (by simp)
theorem Objs.left {a b : Mem α} (h : Objs (a ++ b)) : Objs a :=
  fun c hc => h c (List.mem_append_left _ hc)
theorem Objs.right {a b : Mem α} (h : Objs (a ++ b)) : Objs b :=
  fun c hc => h c (List.mem_append_right _ hc)

theorem get_mid (A : Mem α) (c : Cell α) (B : Mem α) {i : Nat} (h : i = A.length) :
    (A ++ c :: B)[i]? = some c := by
  subst h; simp

theorem set_mid (A : Mem α) (c d : Cell α) (B : Mem α) {i : Nat} (h : i = A.length) :
    (A ++ c :: B).set i d = A ++ d :: B := by
  subst h; simp

theorem construct_mid (A B : Mem α) (d : Cell α) {i : Nat} (h : i = A.length) :
    construct (A ++ .raw :: B) i d = pure (A ++ d :: B) := by
  unfold construct; rw [get_mid A _ B h]; simp only []; rw [set_mid A _ _ B h]

theorem destroy_mid (A B : Mem α) {c : Cell α} (hc : c ≠ .raw) {i : Nat} (h : i = A.length) :
    destroy (A ++ c :: B) i = pure (A ++ .raw :: B) := by
  unfold destroy; rw [get_mid A _ B h]
  cases c with
  | raw => exact absurd rfl hc
  | moved => simp only []; rw [set_mid A _ _ B h]
  | live a => simp only []; rw [set_mid A _ _ B h]

theorem assignAt_mid (A B : Mem α) {c : Cell α} (d : Cell α) (hc : c ≠ .raw) {i : Nat} (h : i = A.length) :
    assignAt (A ++ c :: B) i d = pure (A ++ d :: B) := by
  unfold assignAt; rw [get_mid A _ B h]
  cases c with
  | raw => exact absurd rfl hc
  | moved => simp only []; rw [set_mid A _ _ B h]
  | live a => simp only []; rw [set_mid A _ _ B h]

theorem moveOut_mid (A B : Mem α) {c : Cell α} (hc : c ≠ .raw) {i : Nat} (h : i = A.length) :
    moveOut (A ++ c :: B) i = pure (c, A ++ .moved :: B) := by
  unfold moveOut; rw [get_mid A _ B h]
  cases c with
  | raw => exact absurd rfl hc
  | moved => rfl
  | live a => simp only []; rw [set_mid A _ _ B h]

theorem value_mid (A B : Mem α) (a : α) {i : Nat} (h : i = A.length) :
    value (A ++ .live a :: B) i = pure a := by
  unfold value; rw [get_mid A _ B h]

theorem value_lv {xs : List α} {i : Nat} {a : α} (h : xs[i]? = some a) (B : Mem α) :
    value (lv xs ++ B) i = pure a := by
  unfold value
  have : (lv xs ++ B)[i]? = some (.live a) := by
    have hi := (List.getElem?_eq_some_iff.1 h).1
    rw [List.getElem?_append_left (by simpa using hi)]
    simp [lv, h]
  rw [this]

/-- Reading an argument only needs the part of the block it is in. -/
theorem Src.get_append {A : Mem α} {x : Src α} {a : α} (h : x.get A = pure a) (B : Mem α) :
    x.get (A ++ B) = pure a := by
  cases x with
  | ext b => exact h
  | own i =>
    simp only [Src.get, value] at h ⊢
    by_cases hi : i < A.length
    · rw [List.getElem?_append_left hi]; exact h
    · rw [List.getElem?_eq_none (by omega)] at h
      exact absurd h (by simp)

theorem constructFill_spec (x : Src α) (a : α) (B : Mem α) : ∀ (n : Nat) (A : Mem α) (pos : Nat),
    x.get A = pure a → pos = A.length →
    constructFill (A ++ rw' n ++ B) x pos n = pure (A ++ lv (List.replicate n a) ++ B) := by
  intro n
  induction n with
  | zero => intro A pos _ _; simp [constructFill]
  | succ n ih =>
    intro A pos hx hp
    rw [rw'_succ, constructFill, List.append_assoc, Src.get_append hx, pure_bind, List.cons_append,
      construct_mid A _ _ hp, pure_bind]
    have := ih (A ++ [.live a]) (pos + 1) (Src.get_append hx _) (by simp [hp])
    simp only [List.append_assoc, List.cons_append, List.nil_append] at this
    rw [this]
    simp [List.replicate_succ]

theorem constructList_spec (B : Mem α) : ∀ (ys : List α) (A : Mem α) (pos : Nat), pos = A.length →
    constructList (A ++ rw' ys.length ++ B) pos ys = pure (A ++ lv ys ++ B) := by
  intro ys
  induction ys with
  | nil => intro A pos _; simp [constructList]
  | cons y ys ih =>
    intro A pos hp
    rw [List.length_cons, rw'_succ, constructList, List.append_assoc, List.cons_append,
      construct_mid A _ _ hp, pure_bind]
    have := ih (A ++ [.live y]) (pos + 1) (by simp [hp])
    simp only [List.append_assoc, List.cons_append, List.nil_append] at this
    rw [this]
    simp

theorem destructAtEnd_spec (A : Mem α) : ∀ (n : Nat) (Z B : Mem α), Z.length = n → Objs Z →
    destructAtEnd (A ++ Z ++ B) A.length (A.length + n) = pure (A ++ rw' n ++ B) := by
  intro n
  induction n with
  | zero =>
    intro Z B hZ _
    have : Z = [] := List.length_eq_zero_iff.1 hZ
    subst this
    cases h : A.length with
    | zero => simp [destructAtEnd]
    | succ k => simp [destructAtEnd]
  | succ n ih =>
    intro Z B hZ ho
    obtain ⟨Z', c, rfl⟩ : ∃ Z' c, Z = Z' ++ [c] :=
      ⟨_, _, (List.dropLast_concat_getLast (l := Z) (by rintro rfl; simp at hZ)).symm⟩
    have hZ' : Z'.length = n := by simpa using hZ
    rw [← Nat.add_assoc, destructAtEnd, if_neg (by omega)]
    have e : A ++ (Z' ++ [c]) ++ B = (A ++ Z') ++ c :: B := by simp
    rw [e, destroy_mid _ _ (ho.right.head) (by simp [hZ']), pure_bind, ih Z' _ hZ' ho.left, rw'_succ']
    simp

/-- `destructAtEnd_spec` with the positions as given. -/
theorem destructAtEnd_eq {A Z B m : Mem α} {a b : Nat} (hm : m = A ++ Z ++ B) (ha : a = A.length)
    (hb : b = A.length + Z.length) (ho : Objs Z) :
    destructAtEnd m a b = pure (A ++ rw' Z.length ++ B) := by
  subst hm ha hb; exact destructAtEnd_spec A _ Z B rfl ho

theorem moveBackward_spec (A : Mem α) (k : Nat) : ∀ (n : Nat) (X B : Mem α) (dlast : Nat), X.length = n →
    Objs X → dlast = A.length + n + k →
    moveBackward (A ++ X ++ mv k ++ B) A.length n dlast = pure (A ++ mv k ++ X ++ B) := by
  intro n
  induction n with
  | zero =>
    intro X B dlast hX _ _
    have : X = [] := List.length_eq_zero_iff.1 hX
    subst this
    simp [moveBackward]
  | succ n ih =>
    intro X B dlast hX ho hd
    obtain ⟨X', c, rfl⟩ : ∃ X' c, X = X' ++ [c] :=
      ⟨_, _, (List.dropLast_concat_getLast (l := X) (by rintro rfl; simp at hX)).symm⟩
    have hX' : X'.length = n := by simpa using hX
    have hc := ho.right.head
    have e : A ++ (X' ++ [c]) ++ mv k ++ B = (A ++ X') ++ c :: (mv k ++ B) := by simp
    rw [moveBackward, e, moveOut_mid _ _ hc (by simp [hX']), pure_bind]
    simp only []
    rw [if_neg (by omega)]
    have e2 : A ++ X' ++ Cell.moved :: (mv k ++ B) = (A ++ X' ++ mv k) ++ Cell.moved :: B := by
      have : (Cell.moved :: (mv k ++ B) : Mem α) = mv k ++ Cell.moved :: B := by
        rw [← List.cons_append, ← mv_succ, mv_succ']; simp
      rw [this]; simp
    rw [e2, assignAt_mid _ _ _ (by simp) (by simp [hX']; omega), pure_bind,
      ih X' (c :: B) (dlast - 1) hX' ho.left (by omega)]
    simp

theorem moveForward_spec (B : Mem α) : ∀ (X A Y : Mem α) (src dst : Nat), Objs X → Objs Y →
    dst = A.length → src = A.length + Y.length →
    ∃ Z, moveForward (A ++ Y ++ X ++ B) src dst X.length = pure (A ++ X ++ Z ++ B) ∧
      Z.length = Y.length ∧ Objs Z := by
  intro X
  induction X with
  | nil =>
    intro A Y src dst _ hY _ _
    exact ⟨Y, by simp [moveForward], rfl, hY⟩
  | cons x X ih =>
    intro A Y src dst hX hY hd hs
    rw [List.length_cons, moveForward]
    have e : A ++ Y ++ x :: X ++ B = (A ++ Y) ++ x :: (X ++ B) := by simp
    rw [e, moveOut_mid _ _ hX.head (by simp [hs]), pure_bind]
    simp only []
    cases Y with
    | nil =>
      have e2 : A ++ [] ++ Cell.moved :: (X ++ B) = A ++ Cell.moved :: (X ++ B) := by simp
      rw [e2, assignAt_mid _ _ _ (by simp) hd, pure_bind]
      obtain ⟨Z, h, hl, ho⟩ := ih (A ++ [x]) [] (src + 1) (dst + 1) hX.tail hY (by simp [hd])
        (by simp [hs])
      refine ⟨Z, ?_, hl, ho⟩
      simp only [List.append_assoc, List.nil_append, List.cons_append] at h ⊢
      rw [h]
    | cons y Y =>
      have e2 : A ++ (y :: Y) ++ Cell.moved :: (X ++ B) = A ++ y :: (Y ++ Cell.moved :: (X ++ B)) := by simp
      rw [e2, assignAt_mid _ _ _ hY.head hd, pure_bind]
      obtain ⟨Z, h, hl, ho⟩ := ih (A ++ [x]) (Y ++ [.moved]) (src + 1) (dst + 1) hX.tail
        (hY.tail.append (Objs.cons (by simp) (by intro c hc; simp at hc))) (by simp [hd])
        (by simp at hs ⊢; omega)
      refine ⟨Z, ?_, by simpa using hl, ho⟩
      simp only [List.append_assoc, List.nil_append, List.cons_append] at h ⊢
      rw [h]

theorem fillN_spec (x : Src α) (a : α) (B : Mem α) : ∀ (n : Nat) (A Y : Mem α) (dst : Nat),
    (∀ Y' : Mem α, Y'.length = Y.length → x.get (A ++ Y' ++ B) = pure a) →
    Objs Y → Y.length = n → dst = A.length →
    fillN (A ++ Y ++ B) x dst n = pure (A ++ lv (List.replicate n a) ++ B) := by
  intro n
  induction n with
  | zero =>
    intro A Y dst _ _ hl _
    have : Y = [] := List.length_eq_zero_iff.1 hl
    subst this
    simp [fillN]
  | succ n ih =>
    intro A Y dst hx ho hl hd
    cases Y with
    | nil => simp at hl
    | cons y Y =>
      rw [fillN, hx (y :: Y) rfl, pure_bind]
      have e : A ++ y :: Y ++ B = A ++ y :: (Y ++ B) := by simp
      rw [e, assignAt_mid _ _ _ ho.head hd, pure_bind]
      have := ih (A ++ [.live a]) Y (dst + 1)
        (fun Y' h => by
          have := hx (.live a :: Y') (by simp [h])
          simpa only [List.append_assoc, List.cons_append, List.nil_append] using this) ho.tail (by simpa using hl) (by simp [hd])
      simp only [List.append_assoc, List.cons_append, List.nil_append] at this
      rw [this]
      simp [List.replicate_succ]

theorem copyList_spec (B : Mem α) : ∀ (ys : List α) (A Y : Mem α) (dst : Nat), Objs Y →
    Y.length = ys.length → dst = A.length →
    copyList (A ++ Y ++ B) dst ys = pure (A ++ lv ys ++ B) := by
  intro ys
  induction ys with
  | nil =>
    intro A Y dst _ hl _
    have : Y = [] := List.length_eq_zero_iff.1 hl
    subst this
    simp [copyList]
  | cons a ys ih =>
    intro A Y dst ho hl hd
    cases Y with
    | nil => simp at hl
    | cons y Y =>
      have e : A ++ y :: Y ++ B = A ++ y :: (Y ++ B) := by simp
      rw [copyList, e, assignAt_mid _ _ _ ho.head hd, pure_bind]
      have := ih (A ++ [.live a]) Y (dst + 1) ho.tail (by simpa using hl) (by simp [hd])
      simp only [List.append_assoc, List.cons_append, List.nil_append] at this
      rw [this]
      simp

theorem transferUp_spec (B D : Mem α) : ∀ (X A C : Mem α) (src dst : Nat), Objs X → src = A.length →
    dst = C.length →
    transferUp (A ++ X ++ B) src (C ++ rw' X.length ++ D) dst X.length =
      pure (A ++ mv X.length ++ B, C ++ X ++ D) := by
  intro X
  induction X with
  | nil => intro A C src dst _ _ _; simp [transferUp]
  | cons x X ih =>
    intro A C src dst ho hs hd
    have e : A ++ x :: X ++ B = A ++ x :: (X ++ B) := by simp
    rw [List.length_cons, transferUp, e, moveOut_mid _ _ ho.head hs, pure_bind]
    simp only []
    have e2 : C ++ rw' (X.length + 1) ++ D = C ++ Cell.raw :: (rw' X.length ++ D) := by simp [rw'_succ]
    rw [e2, construct_mid _ _ _ hd, pure_bind]
    have := ih (A ++ [.moved]) (C ++ [x]) (src + 1) (dst + 1) ho.tail (by simp [hs]) (by simp [hd])
    simp only [List.append_assoc, List.cons_append, List.nil_append] at this
    rw [this]
    simp [mv_succ]

theorem transferDown_spec : ∀ (n : Nat) (X B C D : Mem α) (dst : Nat), X.length = n → Objs X →
    dst = C.length + n →
    transferDown (X ++ B) (C ++ rw' n ++ D) n dst = pure (mv n ++ B, C ++ X ++ D, C.length) := by
  intro n
  induction n with
  | zero =>
    intro X B C D dst hX _ hd
    have : X = [] := List.length_eq_zero_iff.1 hX
    subst this
    simp [transferDown, hd]
  | succ n ih =>
    intro X B C D dst hX ho hd
    obtain ⟨X', c, rfl⟩ : ∃ X' c, X = X' ++ [c] :=
      ⟨_, _, (List.dropLast_concat_getLast (l := X) (by rintro rfl; simp at hX)).symm⟩
    have hX' : X'.length = n := by simpa using hX
    rw [transferDown, if_neg (by omega)]
    have e : X' ++ [c] ++ B = X' ++ c :: B := by simp
    rw [e, moveOut_mid _ _ ho.right.head hX'.symm, pure_bind]
    simp only []
    have e2 : C ++ rw' (n + 1) ++ D = (C ++ rw' n) ++ Cell.raw :: D := by simp [rw'_succ']
    rw [e2, construct_mid _ _ _ (by simp; omega), pure_bind, ih X' _ C (c :: D) (dst - 1) hX' ho.left (by omega)]
    simp [mv_succ']

theorem release_raw (n : Nat) : release (rw' n : Mem α) = pure () := by
  unfold release
  rw [if_pos]
  simp [rw']

/-- The destruction of a buffer that holds `[beg, fin)`. -/
theorem Buf.destruct_spec {b : Buf α} {s t : Nat} {Z : Mem α} (hm : b.mem = rw' s ++ Z ++ rw' t)
    (hb : b.beg = s) (hf : b.fin = s + Z.length) (ho : Objs Z) :
    b.destruct = pure (if b.mem.length = 0 then b.blocks else b.blocks - 1) := by
  unfold Buf.destruct
  rw [destructAtEnd_eq hm (by simp [hb]) (by simp [hf]) ho, pure_bind]
  split
  · rfl
  · have : (rw' s ++ rw' Z.length ++ rw' t : Mem α) = rw' (s + Z.length + t) := by simp [rw'_add]
    rw [this, release_raw, pure_bind]

theorem moveRange_constructLoop_spec (D : Mem α) : ∀ (X A B : Mem α) (i pos : Nat), Objs X →
    i = A.length → pos = A.length + X.length + B.length →
    Vec.moveRange.constructLoop (A ++ X ++ B ++ rw' X.length ++ D) i pos X.length =
      pure (A ++ mv X.length ++ B ++ X ++ D) := by
  intro X
  induction X with
  | nil => intro A B i pos _ _ _; simp [Vec.moveRange.constructLoop]
  | cons x X ih =>
    intro A B i pos ho hi hp
    rw [List.length_cons, Vec.moveRange.constructLoop]
    have e : A ++ x :: X ++ B ++ rw' (X.length + 1) ++ D = A ++ x :: (X ++ B ++ rw' (X.length + 1) ++ D) := by simp
    rw [e, moveOut_mid _ _ ho.head hi, pure_bind]
    simp only []
    have e2 : A ++ Cell.moved :: (X ++ B ++ rw' (X.length + 1) ++ D) =
        (A ++ Cell.moved :: (X ++ B)) ++ Cell.raw :: (rw' X.length ++ D) := by simp [rw'_succ]
    rw [e2, construct_mid _ _ _ (by simp at hp ⊢; omega), pure_bind]
    have := ih (A ++ [.moved]) (B ++ [x]) (i + 1) (pos + 1) ho.tail (by simp [hi]) (by simp at hp ⊢; omega)
    simp only [List.append_assoc, List.cons_append, List.nil_append] at this ⊢
    rw [this]
    simp [mv_succ]

end Verif.Vector
