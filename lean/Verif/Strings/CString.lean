import Verif.Containers.Lists

/-
`daw::CString`, include/daw/deprecated/daw_cstring.h.
-/

namespace Verif.Strings.CStr
open Verif Verif.Cxx

/-! ## the text -/

/-- `string_length`, deprecated/daw_cstring.h 30-37, on the characters from the pointer to the end of the array. -/
def stringLength : List Nat → Nat → Cxx Nat
  | [], _ => ub
  | c :: cs, result => if c ≠ 0 then stringLength cs (result + 1) else pure result

/-- `strcmp`, on the characters as `unsigned char`. (Rule of C++ or its library, no line of the source.) -/
def strcmp : List Nat → List Nat → Cxx Int
  | a :: as, b :: bs => if a ≠ b then pure ((a : Int) - b) else if a = 0 then pure 0 else strcmp as bs
  | _, _ => ub

/-- The characters before the first NUL. (Specification, no line of the source.) -/
def textOf (cs : List Nat) : List Nat := cs.takeWhile (· ≠ 0)

theorem stringLength_eq (cs : List Nat) (h : 0 ∈ cs) (k : Nat) : stringLength cs k = pure (k + (textOf cs).length) := by
  induction cs generalizing k with
  | nil => simp at h
  | cons c cs ih =>
    unfold stringLength
    by_cases hc : c = 0
    · subst hc; simp [textOf]
    · have : 0 ∈ cs := by simpa [Ne.symm hc] using h
      have ht : textOf (c :: cs) = c :: textOf cs := by simp [textOf, hc]
      rw [if_pos hc, ih this, ht, List.length_cons]
      congr 1
      omega

theorem stringLength_ub (cs : List Nat) (h : 0 ∉ cs) (k : Nat) : stringLength cs k = ub := by
  induction cs generalizing k with
  | nil => rfl
  | cons c cs ih =>
    simp at h
    unfold stringLength
    rw [if_pos (by omega), ih h.2]

/-! ## the objects -/

/-- The data members, deprecated/daw_cstring.h 26-28; a pointer is the number of an array. -/
structure Str where
  data : Option Nat
  size : Nat
  isLocal : Bool
  deriving DecidableEq

/-- The arrays, those that have been deleted being `none`, and the objects, likewise. (Specification, no line of the source.) -/
structure World where
  mem : List (Option (List Nat))
  objs : List (Option Str)
  deriving DecidableEq

/-- What a program does with them.  The constructors and assignments that copy, 49-65, 72-87, do not compile: they give a `std::unique_ptr` by value to `daw::algorithm::copy_n`, 58-59. (Specification, no line of the source.) -/
inductive Op
  | fromPointer (b : Nat)
  | dflt
  | moveNew (i : Nat)
  | moveAssign (i j : Nat)
  | swap (i j : Nat)
  | take (i : Nat)
  | nullify (i : Nat)
  | destroy (i : Nat)
  deriving DecidableEq

/-- The object with a number; using one that is not there is undefined. (Rule of C++ or its library, no line of the source.) -/
def obj (w : World) (i : Nat) : Cxx Str :=
  match w.objs[i]? with
  | some (some s) => pure s
  | _ => ub

/-- The characters a pointer points to. (Rule of C++ or its library, no line of the source.) -/
def chars (w : World) (p : Option Nat) : Cxx (List Nat) :=
  match p with
  | none => ub
  | some b =>
    match w.mem[b]? with
    | some (some cs) => pure cs
    | _ => ub

/-- `nullify`, deprecated/daw_cstring.h 113-117. -/
def nullified : Str := ⟨none, 0, false⟩

/-- One operation: the constructor from a pointer, deprecated/daw_cstring.h 41-46 and 67-68, the default constructor, 26-28 and 70, the move constructor and assignment, 89-90, which copy the
members, `swap`, 92-96, `take_ownership_of_data`, 153-155, `nullify`, 113-117, and the destructor, 98-106, which is `delete[]` if the object owns an array. -/
def step (w : World) : Op → Cxx World
  | .fromPointer b => do
    let cs ← chars w (some b)
    let n ← stringLength cs 0
    pure { w with objs := w.objs ++ [some ⟨some b, n, false⟩] }
  | .dflt => pure { w with objs := w.objs ++ [some ⟨none, 0, true⟩] }
  | .moveNew i => do
    let s ← obj w i
    pure { w with objs := w.objs ++ [some s] }
  | .moveAssign i j => do
    let _ ← obj w i
    let s ← obj w j
    pure { w with objs := w.objs.set i (some s) }
  | .swap i j => do
    let s ← obj w i
    let t ← obj w j
    pure { w with objs := (w.objs.set i (some t)).set j (some s) }
  | .take i => do
    let s ← obj w i
    pure { w with objs := w.objs.set i (some { s with isLocal := true }) }
  | .nullify i => do
    let _ ← obj w i
    pure { w with objs := w.objs.set i (some nullified) }
  | .destroy i => do
    let s ← obj w i
    match s.isLocal, s.data with
    | true, some b => do
      let _ ← chars w (some b)
      pure ⟨w.mem.set b none, w.objs.set i none⟩
    | _, _ => pure { w with objs := w.objs.set i none }

/-- A program. (Specification, no line of the source.) -/
def run (w : World) : List Op → Cxx World
  | [] => pure w
  | op :: ops => do
    let w ← step w op
    run w ops

/-- Object `i` owns the array `b`. (Specification, no line of the source.) -/
def Owns (w : World) (i b : Nat) : Prop := ∃ n, w.objs[i]? = some (some ⟨some b, n, true⟩)

/-- The array is there. (Specification, no line of the source.) -/
def Live (w : World) (b : Nat) : Prop := ∃ cs, w.mem[b]? = some (some cs)

/-- The object is there. (Specification, no line of the source.) -/
def Alive (w : World) (i : Nat) : Prop := ∃ s, w.objs[i]? = some (some s)

/-- An array that an object owns is there, and no other object owns it. (Specification, no line of the source.) -/
def Good (w : World) : Prop := (∀ i b, Owns w i b → Live w b) ∧ ∀ i j b, Owns w i b → Owns w j b → i = j

/-- What is done is on objects and arrays that are there, an object is made the owner of an array only if none owns it, and no object that owns an array is moved from. (Specification, no line of the source.) -/
def Careful (w : World) : Op → Prop
  | .fromPointer b => ∃ cs, w.mem[b]? = some (some cs) ∧ 0 ∈ cs
  | .dflt => True
  | .moveNew i => Alive w i ∧ ∀ b, ¬ Owns w i b
  | .moveAssign i j => Alive w i ∧ Alive w j ∧ ∀ b, ¬ Owns w j b
  | .swap i j => Alive w i ∧ Alive w j
  | .take i => ∃ s, w.objs[i]? = some (some s) ∧ ∀ b, s.data = some b → Live w b ∧ ∀ j, ¬ Owns w j b
  | .nullify i => Alive w i
  | .destroy i => Alive w i

/-- Each operation of a program is. (Specification, no line of the source.) -/
def CarefulRun (w : World) : List Op → Prop
  | [] => True
  | op :: ops => Careful w op ∧ ∀ w', step w op = pure w' → CarefulRun w' ops

theorem obj_eq {w : World} {i : Nat} {s : Str} (h : w.objs[i]? = some (some s)) : obj w i = pure s := by
  unfold obj; rw [h]

theorem chars_eq {w : World} {b : Nat} {cs : List Nat} (h : w.mem[b]? = some (some cs)) : chars w (some b) = pure cs := by
  unfold chars; simp only [h]

theorem good_of {w : World} {objs : List (Option Str)} (hg : Good w) (f : Nat → Nat) (hinj : ∀ i j, f i = f j → i = j)
    (h : ∀ i b n, objs[i]? = some (some ⟨some b, n, true⟩) → Owns w (f i) b) : Good ⟨w.mem, objs⟩ := by
  refine ⟨fun i b ⟨n, ho⟩ => hg.1 (f i) b (h i b n ho), fun i j b ⟨n, hi⟩ ⟨m, hj⟩ => hinj _ _ (hg.2 _ _ b (h i b n hi) (h j b m hj))⟩

theorem append_get {objs : List (Option Str)} {s t : Str} {i : Nat} (h : (objs ++ [some s])[i]? = some (some t)) : objs[i]? = some (some t) ∨ t = s := by
  by_cases hi : i < objs.length
  · left; rwa [List.getElem?_append_left hi] at h
  · right
    rw [List.getElem?_append_right (by omega)] at h
    have h1 := (List.getElem?_eq_some_iff.1 h).1
    simp at h1
    have : i - objs.length = 0 := by omega
    rw [this] at h
    simp at h
    exact h.symm

theorem set_get {objs : List (Option Str)} {o : Option Str} {t : Str} {i k : Nat} (h : (objs.set k o)[i]? = some (some t)) : (i ≠ k ∧ objs[i]? = some (some t)) ∨ (i = k ∧ o = some t) := by
  rw [List.getElem?_set] at h
  by_cases hk : k = i
  · subst hk
    rw [if_pos rfl] at h
    by_cases hl : k < objs.length
    · rw [if_pos hl] at h; right; exact ⟨rfl, Option.some.inj h⟩
    · rw [if_neg hl] at h; exact absurd h (by simp)
  · rw [if_neg hk] at h; exact .inl ⟨fun h => hk h.symm, h⟩

theorem step_good {w : World} (hg : Good w) {op : Op} (hc : Careful w op) : ∃ w', step w op = pure w' ∧ Good w' := by
  cases op with
  | fromPointer b =>
    obtain ⟨cs, hm, h0⟩ := hc
    refine ⟨_, by simp only [step, chars_eq hm, stringLength_eq cs h0, pure_bind]; rfl, good_of hg id (fun _ _ h => h) fun i b n h => ?_⟩
    rcases append_get h with h | h
    · exact ⟨n, h⟩
    · simp at h
  | dflt =>
    refine ⟨_, rfl, good_of hg id (fun _ _ h => h) fun i b n h => ?_⟩
    rcases append_get h with h | h
    · exact ⟨n, h⟩
    · simp at h
  | moveNew i =>
    obtain ⟨⟨s, hs⟩, hn⟩ := hc
    refine ⟨_, by simp only [step, obj_eq hs, pure_bind]; rfl, good_of hg id (fun _ _ h => h) fun j b n h => ?_⟩
    rcases append_get h with h | h
    · exact ⟨n, h⟩
    · subst h; exact absurd ⟨n, hs⟩ (hn b)
  | moveAssign i j =>
    obtain ⟨⟨s, hs⟩, ⟨t, ht⟩, hn⟩ := hc
    refine ⟨_, by simp only [step, obj_eq hs, obj_eq ht, pure_bind]; rfl, good_of hg id (fun _ _ h => h) fun k b n h => ?_⟩
    rcases set_get h with ⟨_, h⟩ | ⟨_, h⟩
    · exact ⟨n, h⟩
    · cases h; exact absurd ⟨n, ht⟩ (hn b)
  | swap i j =>
    obtain ⟨⟨s, hs⟩, t, ht⟩ := hc
    refine ⟨_, by simp only [step, obj_eq hs, obj_eq ht, pure_bind]; rfl, good_of hg (fun k => if k = i then j else if k = j then i else k) (fun a b h => ?_) fun k b n h => ?_⟩
    · grind
    · rcases set_get h with ⟨hk, h2⟩ | ⟨rfl, h2⟩
      · rcases set_get h2 with ⟨hk', h3⟩ | ⟨rfl, h3⟩
        · simp only [hk, hk', if_false]; exact ⟨n, h3⟩
        · obtain rfl := Option.some.inj h3
          simp only [if_true]
          exact ⟨n, ht⟩
      · obtain rfl := Option.some.inj h2
        by_cases hki : k = i
        · subst hki; simp only [if_true]; exact ⟨n, hs⟩
        · simp only [hki, if_false, if_true]; exact ⟨n, hs⟩
  | take i =>
    obtain ⟨s, hs, hl⟩ := hc
    refine ⟨{ w with objs := w.objs.set i (some { s with isLocal := true }) }, by simp only [step, obj_eq hs, pure_bind], ⟨fun k b ⟨n, h⟩ => ?_, fun k l b ⟨n, h⟩ ⟨m, h'⟩ => ?_⟩⟩
    · rcases set_get h with ⟨_, h2⟩ | ⟨_, h2⟩
      · exact hg.1 k b ⟨n, h2⟩
      · simp at h2
        exact (hl b h2.1).1
    · rcases set_get h with ⟨_, h2⟩ | ⟨hk, h2⟩ <;> rcases set_get h' with ⟨_, h3⟩ | ⟨hk', h3⟩
      · exact hg.2 k l b ⟨n, h2⟩ ⟨m, h3⟩
      · simp at h3
        exact absurd ⟨n, h2⟩ ((hl b h3.1).2 k)
      · simp at h2
        exact absurd ⟨m, h3⟩ ((hl b h2.1).2 l)
      · omega
  | nullify i =>
    obtain ⟨s, hs⟩ := hc
    refine ⟨_, by simp only [step, obj_eq hs, pure_bind]; rfl, good_of hg id (fun _ _ h => h) fun k b n h => ?_⟩
    rcases set_get h with ⟨_, h⟩ | ⟨_, h⟩
    · exact ⟨n, h⟩
    · simp [nullified] at h
  | destroy i =>
    obtain ⟨s, hs⟩ := hc
    have keep : Good ⟨w.mem, w.objs.set i none⟩ := by
      refine good_of hg id (fun _ _ h => h) fun k b n h => ?_
      rcases set_get h with ⟨_, h⟩ | ⟨_, h⟩
      · exact ⟨n, h⟩
      · simp at h
    rcases s with ⟨d, n, l⟩
    cases l with
    | false => exact ⟨_, by simp only [step, obj_eq hs, pure_bind], keep⟩
    | true =>
      cases d with
      | none => exact ⟨_, by simp only [step, obj_eq hs, pure_bind], keep⟩
      | some b =>
        have ho : Owns w i b := ⟨n, hs⟩
        obtain ⟨cs, hm⟩ := hg.1 i b ho
        refine ⟨⟨w.mem.set b none, w.objs.set i none⟩, by simp only [step, obj_eq hs, chars_eq hm, pure_bind], ⟨fun k c ⟨m, h⟩ => ?_, fun k l c hk hl => keep.2 k l c hk hl⟩⟩
        obtain ⟨cs', hm'⟩ := keep.1 k c ⟨m, h⟩
        rcases set_get h with ⟨hne, h⟩ | ⟨_, h⟩
        · have hcb : b ≠ c := by rintro rfl; exact hne (hg.2 k i b ⟨m, h⟩ ho)
          exact ⟨cs', by show (w.mem.set b none)[c]? = _; rw [List.getElem?_set_ne hcb]; exact hm'⟩
        · simp at h

/-- **C330.**  In a program that makes an object the owner of an array only if no other is and that does not move from owners, nothing is undefined: no array is deleted twice and none is used
after it has been deleted; afterwards each owner has an array that is there and is the only one to own it.  Missing: moving from owners, for which it is false. -/
theorem C330_once_partial (ops : List Op) (w : World) (hg : Good w) (hc : CarefulRun w ops) : ∃ w', run w ops = pure w' ∧ Good w' := by
  induction ops generalizing w with
  | nil => exact ⟨w, rfl, hg⟩
  | cons op ops ih =>
    obtain ⟨w1, h1, hg1⟩ := step_good hg hc.1
    obtain ⟨w2, h2, hg2⟩ := ih w1 hg1 (hc.2 w1 h1)
    exact ⟨w2, by simp only [run, h1, pure_bind]; exact h2, hg2⟩

example : run ⟨[some [97, 0]], []⟩ [.fromPointer 0, .dflt, .take 0, .swap 0 1, .destroy 0, .destroy 1] = pure ⟨[none], [none, none]⟩ := by decide +kernel
example : Good ⟨[some [97, 0]], []⟩ := ⟨fun i b ⟨n, h⟩ => by simp at h, fun i j b ⟨n, h⟩ => by simp at h⟩

/-- **C330** (finding).  Moving from a string that owns its array makes two that do: the destructors of both delete it, which is undefined for every text. -/
theorem C330_move_violated (cs : List Nat) (h : 0 ∈ cs) : run ⟨[some cs], []⟩ [.fromPointer 0, .take 0, .moveNew 0, .destroy 1, .destroy 0] = ub := by
  have h1 : step ⟨[some cs], []⟩ (.fromPointer 0) = pure ⟨[some cs], [some ⟨some 0, (textOf cs).length, false⟩]⟩ := by
    simp only [step]
    rw [chars_eq (cs := cs) (by rfl), pure_bind, stringLength_eq cs h, pure_bind, Nat.zero_add]
    rfl
  simp only [run, h1, pure_bind]
  rfl

example := C330_move_violated [104, 105, 0] (by decide)

/-- **C330** (finding).  Assigning by moving to a string that owns its array does not delete the array: after the destructors have run it is still there, with no object that owns it. -/
theorem C330_assign_violated (cs : List Nat) (h : 0 ∈ cs) :
    run ⟨[some cs], []⟩ [.fromPointer 0, .take 0, .dflt, .moveAssign 0 1, .destroy 1, .destroy 0] = pure ⟨[some cs], [none, none]⟩ := by
  have h1 : step ⟨[some cs], []⟩ (.fromPointer 0) = pure ⟨[some cs], [some ⟨some 0, (textOf cs).length, false⟩]⟩ := by
    simp only [step]
    rw [chars_eq (cs := cs) (by rfl), pure_bind, stringLength_eq cs h, pure_bind, Nat.zero_add]
    rfl
  simp only [run, h1, pure_bind]
  rfl

example := C330_assign_violated [104, 105, 0] (by decide)

/-- **C330.**  A nullified string is null, has no characters and owns nothing; the other strings and all arrays stay as they are. -/
theorem C330_nullify (w : World) (i : Nat) (s : Str) (h : w.objs[i]? = some (some s)) : ∃ w', step w (.nullify i) = pure w' ∧ w'.mem = w.mem ∧
    w'.objs[i]? = some (some { data := none, size := 0, isLocal := false }) ∧ ∀ k, k ≠ i → w'.objs[k]? = w.objs[k]? := by
  refine ⟨{ w with objs := w.objs.set i (some nullified) }, by simp only [step, obj_eq h, pure_bind], rfl, ?_, fun k hk => List.getElem?_set_ne (Ne.symm hk)⟩
  show (w.objs.set i (some nullified))[i]? = _
  rw [List.getElem?_set, if_pos rfl, if_pos (List.getElem?_eq_some_iff.1 h).1]
  rfl

example := C330_nullify ⟨[some [97, 0]], [some ⟨some 0, 1, true⟩]⟩ 0 _ rfl

/-! ## comparison -/

/-- `compare`, deprecated/daw_cstring.h 157-159. -/
def compare (w : World) (a b : Str) : Cxx Int := do
  let x ← chars w a.data
  let y ← chars w b.data
  strcmp x y

/-- `to_string`, deprecated/daw_cstring.h 129-131. -/
def toString (w : World) (a : Str) : Cxx (List Nat) := do
  let x ← chars w a.data
  if a.size ≤ x.length then pure (x.take a.size) else ub

theorem strcmp_spec (x y : List Nat) (hx : 0 ∈ x) (hy : 0 ∈ y) : ∃ r, strcmp x y = pure r ∧ (r = 0 ↔ textOf x = textOf y) ∧ (r < 0 ↔ textOf x < textOf y) := by
  induction x generalizing y with
  | nil => simp at hx
  | cons a as ih =>
    match y, hy with
    | b :: bs, hy =>
      simp only [strcmp]
      by_cases hab : a = b
      · subst hab
        rw [if_neg (by simp)]
        by_cases ha : a = 0
        · subst ha
          exact ⟨0, by simp, by simp [textOf], by simp [textOf]⟩
        · rw [if_neg ha]
          obtain ⟨r, h1, h2, h3⟩ := ih bs (by simpa [Ne.symm ha] using hx) (by simpa [Ne.symm ha] using hy)
          refine ⟨r, h1, ?_, ?_⟩
          · rw [h2]; simp [textOf, ha]
          · rw [h3]; simp [textOf, ha]
      · rw [if_pos hab]
        refine ⟨_, rfl, ?_, ?_⟩
        · constructor
          · intro h; omega
          · intro h
            by_cases ha : a = 0 <;> by_cases hb : b = 0
            · omega
            · simp [textOf, ha, hb] at h
            · simp [textOf, ha, hb] at h
            · simp [textOf, ha, hb] at h; exact absurd h.1 hab
        · by_cases ha : a = 0 <;> by_cases hb : b = 0
          · omega
          · subst ha; simp [textOf, hb]; omega
          · subst hb; simp [textOf, ha]
          · have h1 : textOf (a :: as) = a :: textOf as := by simp [textOf, ha]
            have h2 : textOf (b :: bs) = b :: textOf bs := by simp [textOf, hb]
            rw [h1, h2, List.cons_lt_cons_iff]
            omega

/-- **C331.**  Two strings made of pointers to texts that end with NUL are equal, less and greater as the texts before the first NUL are in the lexicographic order of their characters; the
length of the string is that of the text and `to_string` gives it.
Missing: empty strings, see `C331_null_violated`. -/
theorem C331_compare_partial (w : World) (p q : Nat) (x y : List Nat) (hp : w.mem[p]? = some (some x)) (hq : w.mem[q]? = some (some y)) (hx : 0 ∈ x) (hy : 0 ∈ y) :
    ∃ s t r, run w [.fromPointer p, .fromPointer q] = pure { w with objs := w.objs ++ [some s] ++ [some t] } ∧ compare w s t = pure r ∧
      (r = 0 ↔ textOf x = textOf y) ∧ (r < 0 ↔ textOf x < textOf y) ∧ s.size = (textOf x).length ∧ toString w s = pure (textOf x) := by
  obtain ⟨r, h1, h2, h3⟩ := strcmp_spec x y hx hy
  refine ⟨⟨some p, (textOf x).length, false⟩, ⟨some q, (textOf y).length, false⟩, r, ?_, ?_, h2, h3, rfl, ?_⟩
  · simp only [run, step, chars_eq hp, stringLength_eq x hx, pure_bind, Nat.zero_add]
    have e : ∀ objs, chars ⟨w.mem, objs⟩ (some q) = pure y := fun objs => chars_eq (w := ⟨w.mem, objs⟩) hq
    simp only [e, stringLength_eq y hy, pure_bind, Nat.zero_add]
  · unfold compare
    rw [chars_eq hp, chars_eq hq, pure_bind, pure_bind, h1]
  · unfold toString
    rw [chars_eq hp, pure_bind]
    have h4 : textOf x <+: x := List.takeWhile_prefix _
    rw [if_pos h4.length_le]
    congr 1
    exact (List.prefix_iff_eq_take.1 h4).symm

example := C331_compare_partial ⟨[some [97, 0], some [97, 98, 0]], []⟩ 0 1 [97, 0] [97, 98, 0] rfl rfl (by decide) (by decide)

/-- **C331** (finding).  Comparing a default constructed string, which `empty` and `is_null` are defined for, with anything is undefined, also with another such string; and making a string of
characters without NUL is undefined, as no length can be given with them. -/
theorem C331_null_violated (w : World) (s : Str) (cs : List Nat) (h : 0 ∉ cs) :
    compare w ⟨none, 0, true⟩ s = ub ∧ compare w ⟨none, 0, true⟩ ⟨none, 0, true⟩ = ub ∧ step ⟨[some cs], []⟩ (.fromPointer 0) = ub := by
  refine ⟨rfl, rfl, ?_⟩
  simp only [step]
  rw [chars_eq (cs := cs) (by rfl), pure_bind, stringLength_ub cs h, ub_bind]

example := C331_null_violated ⟨[], []⟩ ⟨none, 0, true⟩ [97, 98] (by decide)

end Verif.Strings.CStr
