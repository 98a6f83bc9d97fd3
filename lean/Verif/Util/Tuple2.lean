import Verif.Base
import Verif.Containers.Lists

/-
Tuples, include/daw/daw_tuple2.h and include/daw/daw_tuple.h.
-/

namespace Verif.Util.Tuple2
open Verif Verif.Cxx

/-! ## `tuple2` -/

/-- What an element of a tuple is: a value that is no class one can derive from, a class, or a reference, daw_tuple2.h 63-77. -/
inductive Elem
  | plain
  | cls
  | lref
  deriving DecidableEq

/-- How a tuple is passed: const or not, as lvalue or rvalue. (Rule of C++ or its library, no line of the source.) -/
inductive Cat
  | constL
  | mutL
  | constR
  | mutR
  deriving DecidableEq

/-- A tuple: its elements, each with a number for its value. (Specification, no line of the source.) -/
abbrev Tup := List (Elem × Nat)

/-- Whether the body of `get` compiles, daw_tuple2.h 107-145.  For classes all of them return `static_cast<Ts const &>( tp )`, which only the first may return.
For others all return the lvalue `tp.value`, which cannot be returned as rvalue, unless it is a reference. -/
def getOk : Cat → Elem → Bool
  | .constL, _ => true
  | .mutL, .cls => false
  | .mutL, _ => true
  | .constR, .lref => true
  | .constR, _ => false
  | .mutR, .lref => true
  | .mutR, _ => false

/-- `get`, daw_tuple2.h 107-145; `none` does not compile. -/
def get (c : Cat) (t : Tup) (i : Nat) : Option (Elem × Nat) :=
  match t[i]? with
  | some e => if getOk c e.1 then some e else none
  | none => none

/-- `encode_location`, daw_tuple2.h 26-30, with 64 bits. -/
def encode (outer inner : Nat) : Nat := ((outer <<< 32) % 2 ^ 64) ||| inner

/-- The first half of the decoding, daw_tuple2.h 181 and 189. -/
def outerOf (location : Nat) : Nat := location >>> 32

/-- The second half of the decoding, daw_tuple2.h 182 and 190. -/
def innerOf (location : Nat) : Nat := ((location <<< 32) % 2 ^ 64) >>> 32

/-- The inner loop of `cartesian_product_impl2`, daw_tuple2.h 42-45, with `left` rounds left. -/
def innerLoop (n : Nat) : Nat → Nat → Nat → List Nat → Option (Nat × List Nat)
  | 0, _, idx, result => some (idx, result)
  | left + 1, m, idx, result => if idx < result.length then innerLoop n left (m + 1) (idx + 1) (result.set idx (encode n m)) else none

/-- The outer loop of `cartesian_product_impl2`, daw_tuple2.h 41-46, over the sizes left. -/
def outerLoop : List Nat → Nat → Nat → List Nat → Option (List Nat)
  | [], _, _, result => some result
  | size :: sizes, n, idx, result =>
    match innerLoop n size 0 idx result with
    | some (idx', result') => outerLoop sizes (n + 1) idx' result'
    | none => none

/-- `cartesian_product_impl`, daw_tuple2.h 32-57: the places of all elements of tuples of these sizes. -/
def locations (sizes : List Nat) : Option (List Nat) :=
  if sizes = [] then none else outerLoop sizes 0 0 (List.replicate sizes.sum 0)

/-- `forward_as_tuple2`, daw_tuple2.h 169-172: the element for an argument.  The type for an lvalue is a reference, for an rvalue it is the tuple itself, a class. -/
def forwardElem : Cat → Elem
  | .constL => .lref
  | .mutL => .lref
  | .constR => .cls
  | .mutR => .cls

/-- `decode_get`, daw_tuple2.h 178-184, on the tuple of tuples, which is an rvalue. -/
def decodeGet (args : List (Cat × Tup)) (location : Nat) : Option (Elem × Nat) :=
  match args[outerOf location]? with
  | some (c, t) => if getOk .mutR (forwardElem c) then get c t (innerOf location) else none
  | none => none

/-- `tuple2_cat`, daw_tuple2.h 198-225.  For one tuple, 212-215, the result has no elements. -/
def cat : List (Cat × Tup) → Option Tup
  | [] => some []
  | [(_, t)] => if t = [] then some [] else none
  | args =>
    match locations (args.map fun a => a.2.length) with
    | some locs => locs.mapM (decodeGet args)
    | none => none

/-- `apply`, daw_tuple2.h 227-263: the arguments of the call.  The last overload passes the tuple on as lvalue. -/
def apply (c : Cat) (t : Tup) : Option Tup :=
  (List.range t.length).mapM (get (if c = .mutR then .mutL else c) t)

/-! ### Proofs -/

theorem outer_encode (o i : Nat) (ho : o < 2 ^ 32) (hi : i < 2 ^ 32) : outerOf (encode o i) = o := by
  unfold outerOf encode
  rw [Nat.shiftLeft_eq, Nat.mod_eq_of_lt (by omega), ← Nat.shiftLeft_eq, Nat.shiftLeft_eq, Nat.mul_comm, ← Nat.two_pow_add_eq_or_of_lt hi, Nat.shiftRight_eq_div_pow]
  omega

theorem inner_encode (o i : Nat) (ho : o < 2 ^ 32) (hi : i < 2 ^ 32) : innerOf (encode o i) = i := by
  unfold innerOf encode
  rw [Nat.shiftLeft_eq o, Nat.mod_eq_of_lt (show o * 2 ^ 32 < 2 ^ 64 by omega), Nat.mul_comm o, ← Nat.two_pow_add_eq_or_of_lt hi, Nat.shiftLeft_eq,
    Nat.shiftRight_eq_div_pow]
  omega

/-- The places of the elements of tuples of these sizes, the first of which has number `n`. (Specification, no line of the source.) -/
def places : Nat → List Nat → List Nat
  | _, [] => []
  | n, size :: sizes => (List.range size).map (encode n) ++ places (n + 1) sizes

theorem innerLoop_eq (n left m : Nat) (done rest : List Nat) (h : left ≤ rest.length) :
    innerLoop n left m done.length (done ++ rest) =
      some (done.length + left, done ++ (List.range' m left).map (encode n) ++ rest.drop left) := by
  induction left generalizing m done rest with
  | zero => simp [innerLoop]
  | succ left ih =>
    cases rest with
    | nil => simp at h
    | cons r rest =>
      simp only [List.length_cons, Nat.add_le_add_iff_right] at h
      have := ih (m + 1) (done ++ [encode n m]) rest h
      simp only [List.length_append, List.length_cons, List.length_nil, List.append_assoc, List.cons_append, List.nil_append] at this
      simp only [innerLoop, List.length_append, List.length_cons]
      rw [if_pos (by omega), List.set_append_right _ _ (Nat.le_refl _), Nat.sub_self, List.set_cons_zero, Nat.zero_add] at *
      rw [this]
      simp only [List.range'_succ, List.map_cons, List.drop_succ_cons, List.append_assoc, List.cons_append]
      congr 2
      omega

theorem outerLoop_eq (sizes : List Nat) (n : Nat) (done : List Nat) :
    outerLoop sizes n done.length (done ++ List.replicate sizes.sum 0) = some (done ++ places n sizes) := by
  induction sizes generalizing n done with
  | nil => simp [outerLoop, places]
  | cons size sizes ih =>
    simp only [outerLoop, List.sum_cons]
    rw [innerLoop_eq n size 0 done _ (by simp)]
    dsimp only
    rw [List.drop_replicate, show size + sizes.sum - size = sizes.sum by omega]
    have := ih (n + 1) (done ++ (List.range' 0 size).map (encode n))
    rw [show (done ++ (List.range' 0 size).map (encode n)).length = done.length + size by simp] at this
    rw [this]
    simp [places, List.range_eq_range']

theorem locations_eq (sizes : List Nat) (h : sizes ≠ []) : locations sizes = some (places 0 sizes) := by
  rw [locations, if_neg h]
  exact outerLoop_eq sizes 0 []

/-- All elements of a tuple passed to `tuple2_cat`, if they can be read. (Specification, no line of the source.) -/
def readAll (a : Cat × Tup) : Option Tup :=
  if (a.1 = .constL ∨ a.1 = .mutL ∧ ∀ e ∈ a.2, e.1 ≠ .cls) ∨ a.2 = [] then some a.2 else none

theorem mapM_range (c : Cat) (t : Tup) (f : Nat → Option (Elem × Nat)) (s : Nat) (hf : ∀ i (hi : i < t.length), f (s + i) = if getOk c t[i].1 then some t[i] else none) :
    (List.range' s t.length).mapM f = if ∀ e ∈ t, getOk c e.1 = true then some t else none := by
  induction t generalizing s with
  | nil => simp
  | cons e t ih =>
    simp only [List.length_cons, List.range'_succ, List.mapM_cons]
    have h0 := hf 0 (by simp)
    simp only [Nat.add_zero, List.getElem_cons_zero] at h0
    rw [h0, ih (s + 1) (by
      intro i hi
      have := hf (i + 1) (by simpa using hi)
      rw [show s + 1 + i = s + (i + 1) by omega, this]
      simp only [List.getElem_cons_succ])]
    by_cases h1 : getOk c e.1 = true
    · by_cases h2 : ∀ e ∈ t, getOk c e.1 = true
      · rw [if_pos h1, if_pos h2, if_pos (by
          intro e' he'
          rcases List.mem_cons.1 he' with rfl | he'
          · exact h1
          · exact h2 e' he')]
        rfl
      · rw [if_pos h1, if_neg h2, if_neg (fun h => h2 fun e he => h e (List.mem_cons_of_mem _ he))]
        rfl
    · have h3 : ¬∀ e' ∈ e :: t, getOk c e'.1 = true := fun h => h1 (h e List.mem_cons_self)
      rw [if_neg h1, if_neg h3]
      rfl

theorem get_getElem (c : Cat) (t : Tup) (i : Nat) (h : i < t.length) : get c t i = if getOk c t[i].1 then some t[i] else none := by
  unfold get
  rw [List.getElem?_eq_getElem h]

theorem mapM_none_of_mem {α β : Type} (f : α → Option β) (l : List α) (a : α) (ha : a ∈ l) (hf : f a = none) : l.mapM f = none := by
  induction l with
  | nil => simp at ha
  | cons b l ih =>
    rw [List.mapM_cons]
    rcases List.mem_cons.1 ha with rfl | h
    · rw [hf]; rfl
    · rw [ih h]
      cases f b <;> rfl

theorem mapM_places (args : List (Cat × Tup)) (n : Nat) (c : Cat) (t : Tup) (hn : n < 2 ^ 32) (ht : t.length ≤ 2 ^ 32) (h : args[n]? = some (c, t)) :
    ((List.range t.length).map (encode n)).mapM (decodeGet args) = readAll (c, t) := by
  have key : ∀ i, i < t.length → decodeGet args (encode n i) = if getOk .mutR (forwardElem c) then get c t i else none := by
    intro i hi
    unfold decodeGet
    rw [outer_encode n i hn (by omega), inner_encode n i hn (by omega), h]
  rw [List.mapM_map]
  by_cases he : t = []
  · subst he; simp [readAll]
  · have hlen : 0 < t.length := List.length_pos_iff.2 he
    by_cases hg : getOk .mutR (forwardElem c) = true
    · rw [List.range_eq_range', mapM_range c t (decodeGet args ∘ encode n) 0 (by
        intro i hi
        rw [Nat.zero_add]
        show decodeGet args (encode n i) = _
        rw [key i hi, if_pos hg, get_getElem c t i hi])]
      unfold readAll
      cases c with
      | constL => simp [getOk]
      | mutL =>
        have : (∀ e ∈ t, getOk .mutL e.1 = true) ↔ ∀ e ∈ t, e.1 ≠ .cls := by
          constructor
          · intro h e hm hc
            have := h e hm
            rw [hc] at this
            cases this
          · intro h e hm
            have := h e hm
            cases h1 : e.1 with
            | cls => exact absurd h1 this
            | plain => rfl
            | lref => rfl
        simp only [this, he, or_false, reduceCtorEq, false_or, true_and]
      | constR => cases hg
      | mutR => cases hg
    · rw [mapM_none_of_mem _ _ 0 (by simpa using hlen) (by
        show decodeGet args (encode n 0) = none
        rw [key 0 hlen, if_neg hg])]
      unfold readAll
      rw [if_neg]
      cases c with
      | constL => exact absurd rfl hg
      | mutL => exact absurd rfl hg
      | constR => simpa using he
      | mutR => simpa using he

theorem mapM_all (all : List (Cat × Tup)) (n : Nat) (args : List (Cat × Tup)) (h : all.drop n = args) (hl : all.length ≤ 2 ^ 32)
    (ht : ∀ a ∈ args, a.2.length ≤ 2 ^ 32) :
    (places n (args.map fun a => a.2.length)).mapM (decodeGet all) = (args.mapM readAll).map List.flatten := by
  induction args generalizing n with
  | nil => simp [places]
  | cons a args ih =>
    have hn : n < all.length := by
      rcases Nat.lt_or_ge n all.length with hc | hc
      · exact hc
      · rw [List.drop_eq_nil_of_le hc] at h
        cases h
    have ha : all[n]? = some a := by
      have := congrArg (fun l : List (Cat × Tup) => l[0]?) h
      simpa using this
    simp only [List.map_cons, places, List.mapM_append]
    rw [mapM_places all n a.1 a.2 (by omega) (ht a (by simp)) ha, ih (n + 1) (by
      rw [← List.tail_drop, h]
      rfl) fun b hb => ht b (by simp [hb])]
    rw [List.mapM_cons]
    cases readAll (a.1, a.2) with
    | none => rfl
    | some x =>
      cases args.mapM readAll with
      | none => rfl
      | some xs => rfl

theorem cat_eq (args : List (Cat × Tup)) (h2 : 2 ≤ args.length) (hl : args.length ≤ 2 ^ 32) (ht : ∀ a ∈ args, a.2.length ≤ 2 ^ 32) :
    cat args = (args.mapM readAll).map List.flatten := by
  match args, h2 with
  | a :: b :: args, _ =>
    simp only [cat]
    rw [locations_eq _ (by simp)]
    exact mapM_all (a :: b :: args) 0 (a :: b :: args) rfl hl ht

/-- The tuple is const, or it is not const and has no classes; in any case it is no rvalue. (Specification, no line of the source.) -/
def Readable (a : Cat × Tup) : Prop := a.1 = .constL ∨ a.1 = .mutL ∧ ∀ e ∈ a.2, e.1 ≠ .cls

/-- **C315.**  Two or more tuples give the tuple of all their elements in order, for any sizes that half a `size_t` can count, if they are lvalues and either const or
without classes.  Missing: one tuple, rvalues, and classes in tuples that are not const, for which it is false. -/
theorem C315_cat_partial (args : List (Cat × Tup)) (h2 : 2 ≤ args.length) (hl : args.length ≤ 2 ^ 32) (ht : ∀ a ∈ args, a.2.length ≤ 2 ^ 32)
    (hr : ∀ a ∈ args, Readable a) : cat args = some (args.flatMap Prod.snd) := by
  rw [cat_eq args h2 hl ht]
  have : args.mapM readAll = some (args.map Prod.snd) := by
    clear h2 hl ht
    induction args with
    | nil => rfl
    | cons a args ih =>
      rw [List.mapM_cons, ih fun b hb => hr b (by simp [hb]), readAll, if_pos (.inl (hr a (by simp)))]
      rfl
  rw [this]
  rfl

example : ∀ a ∈ [(Cat.constL, [(Elem.plain, 1), (Elem.cls, 2)]), (Cat.mutL, []), (Cat.mutL, [(Elem.plain, 3)])], Readable a := by
  intro a ha
  simp only [List.mem_cons, List.not_mem_nil, or_false] at ha
  rcases ha with rfl | rfl | rfl
  · exact .inl rfl
  · exact .inr ⟨rfl, by simp⟩
  · exact .inr ⟨rfl, by simp⟩

/-- **C315** (finding).  One tuple: `tuple2_cat( t )` is declared to return a tuple without elements and compiles for no other tuple. -/
theorem C315_one_violated (c : Cat) (t : Tup) (h : t ≠ []) : cat [(c, t)] = none := by
  simp [cat, h]

example : cat [(.constL, [(.plain, 1)])] = none := C315_one_violated _ _ (by simp)

/-- **C315** (finding).  Two or more tuples do not compile as soon as one that has elements is an rvalue, or is not const and has an element that is a class: as with
`tuple2_cat( tuple2{ 1 }, tuple2{ 2 } )`. -/
theorem C315_rvalue_violated (args : List (Cat × Tup)) (h2 : 2 ≤ args.length) (hl : args.length ≤ 2 ^ 32) (ht : ∀ a ∈ args, a.2.length ≤ 2 ^ 32)
    (a : Cat × Tup) (ha : a ∈ args) (he : a.2 ≠ []) (hr : a.1 = .mutR ∨ a.1 = .constR ∨ a.1 = .mutL ∧ ∃ e ∈ a.2, e.1 = .cls) : cat args = none := by
  rw [cat_eq args h2 hl ht, mapM_none_of_mem readAll args a ha]
  · rfl
  · rw [readAll, if_neg]
    rintro ((h | ⟨h, h'⟩) | h)
    · rw [h] at hr
      rcases hr with hr | hr | ⟨hr, _⟩ <;> cases hr
    · rcases hr with hr | hr | ⟨_, e, hm, hc⟩
      · rw [h] at hr; cases hr
      · rw [h] at hr; cases hr
      · exact h' e hm hc
    · exact he h

example : cat [(.mutR, [(.plain, 1)]), (.mutR, [(.plain, 2)])] = none :=
  C315_rvalue_violated _ (by simp) (by simp) (by simp) (.mutR, [(.plain, 1)]) (by simp) (by simp) (.inl rfl)

/-- **C315.**  `apply` of a const tuple calls the function with all elements in order.  Missing: tuples that are not const and have classes, and const rvalues, for
which it is false. -/
theorem C315_apply_partial (c : Cat) (t : Tup) (h : c = .constL ∨ (c = .mutL ∨ c = .mutR) ∧ ∀ e ∈ t, e.1 ≠ .cls) : apply c t = some t := by
  unfold apply
  have hok : ∀ e ∈ t, getOk (if c = .mutR then .mutL else c) e.1 = true := by
    intro e he
    rcases h with rfl | ⟨rfl | rfl, h⟩
    · rfl
    all_goals
      have := h e he
      cases h1 : e.1 with
      | cls => exact absurd h1 this
      | plain => rfl
      | lref => rfl
  rw [List.range_eq_range', mapM_range (if c = .mutR then .mutL else c) t _ 0 (by
    intro i hi
    rw [Nat.zero_add, get_getElem _ t i hi]), if_pos hok]

example : apply .mutR [(.plain, 1), (.lref, 2)] = some [(.plain, 1), (.lref, 2)] := by decide

/-- **C315** (finding).  `apply` does not compile for a tuple that is not const and has a class, say a `std::string`, nor for a const rvalue with a value. -/
theorem C315_apply_violated (c : Cat) (t : Tup) (e : Elem × Nat) (he : e ∈ t) (h : (c = .mutL ∨ c = .mutR) ∧ e.1 = .cls ∨ c = .constR ∧ e.1 ≠ .lref) :
    apply c t = none := by
  unfold apply
  obtain ⟨i, hi, rfl⟩ := List.mem_iff_getElem.1 he
  refine mapM_none_of_mem _ _ i (by simpa using hi) ?_
  rw [get_getElem _ t i hi, if_neg]
  rcases h with ⟨rfl | rfl, h⟩ | ⟨rfl, h⟩
  · rw [h]; decide
  · rw [h]; decide
  · rw [if_neg (by decide)]
    cases h2 : t[i].1 with
    | lref => exact absurd h2 h
    | plain => decide
    | cls => decide

example : apply .mutL [(.plain, 1), (.cls, 2)] = none := C315_apply_violated _ _ (.cls, 2) (by simp) (.inl ⟨.inl rfl, rfl⟩)

/-! ## `tuple` -/

/-- What an element of a `daw::tuple` is: a value, `T &` or `T &&`. (Rule of C++ or its library, no line of the source.) -/
inductive Kind
  | value
  | lref
  | rref
  deriving DecidableEq

/-- `tuple_value::get`, daw_tuple.h 42-56 and 62-76, for a value category: whether the result is an rvalue.  References collapse: only an rvalue tuple gives rvalues. -/
def valueGet : Cat → Kind → Bool
  | .constL, _ => false
  | .mutL, _ => false
  | _, .lref => false
  | _, _ => true

/-- `tuple::get`, daw_tuple.h 157-175: in the body `base_type::get` is called on `*this`, which is an lvalue. -/
def memberGet (c : Cat) (k : Kind) : Bool :=
  match c with
  | .constL => valueGet .constL k
  | .mutL => valueGet .mutL k
  | .constR => valueGet .constL k
  | .mutR => valueGet .mutL k

/-- `daw::get`, daw_tuple.h 209-222: the parameter has a name and so is an lvalue; const rvalues use the first overload. -/
def freeGet (c : Cat) (k : Kind) : Bool :=
  match c with
  | .constL => memberGet .constL k
  | .mutL => memberGet .mutL k
  | .mutR => memberGet .mutL k
  | .constR => memberGet .constL k

/-- `apply`, daw_tuple.h 270-307: the arguments, each with whether it is an rvalue.  The rvalue overloads forward the tuple. -/
def applyTuple (c : Cat) (t : List (Kind × Nat)) : List (Nat × Bool) := t.map fun e => (e.2, freeGet c e.1)

/-- What `std::apply` passes. (Rule of C++ or its library, no line of the source.) -/
def stdApply (c : Cat) (t : List (Kind × Nat)) : List (Nat × Bool) := t.map fun e => (e.2, valueGet c e.1)

/-- `and_all`, daw_tuple.h 140-145, with a predicate that may throw: a fold to the right with `and`, which stops at the first false. -/
def andAll {S T : Type} (p : S → T → Cxx Bool) : List S → List T → Cxx Bool
  | x :: xs, y :: ys => do
    let b ← p x y
    if b then andAll p xs ys else pure false
  | _, _ => pure true

/-- `or_all`, daw_tuple.h 147-152. -/
def orAll {S T : Type} (p : S → T → Cxx Bool) : List S → List T → Cxx Bool
  | x :: xs, y :: ys => do
    let b ← p x y
    if b then pure true else orAll p xs ys
  | _, _ => pure false

/-- `operator==`, daw_tuple.h 177-189. -/
def equal {S T : Type} (eq : S → T → Cxx Bool) (xs : List S) (ys : List T) : Cxx Bool :=
  if xs.length = ys.length then andAll eq xs ys else pure false

/-- `operator!=`, daw_tuple.h 191-203. -/
def notEqual {S T : Type} (ne : S → T → Cxx Bool) (xs : List S) (ys : List T) : Cxx Bool :=
  if xs.length = ys.length then orAll ne xs ys else pure true

/-! ### Proofs -/

/-- **C316.**  `apply` calls the function with all elements in order, with the value categories `std::apply` gives for lvalues and for tuples of lvalue references.
Missing: rvalues, for which it is false. -/
theorem C316_apply_partial (c : Cat) (t : List (Kind × Nat)) :
    (applyTuple c t).map Prod.fst = t.map Prod.snd ∧ (c = .constL ∨ c = .mutL ∨ (∀ e ∈ t, e.1 = .lref) → applyTuple c t = stdApply c t) := by
  constructor
  · simp [applyTuple]
  · intro h
    unfold applyTuple stdApply
    apply List.map_congr_left
    intro e he
    rcases h with rfl | rfl | h
    · rfl
    · rfl
    · rw [h e he]
      cases c <;> rfl

example : applyTuple .mutL [(.value, 1), (.rref, 2)] = [(1, false), (2, false)] := rfl

/-- **C316** (finding).  No element of an rvalue is passed as rvalue: `apply( f, forward_as_tuple( std::move( x ) ) )` copies `x` where `std::apply` moves, and does not compile
for types that can only be moved. -/
theorem C316_moved_violated (c : Cat) (t : List (Kind × Nat)) :
    (∀ a ∈ applyTuple c t, a.2 = false) ∧ ((c = .mutR ∨ c = .constR) → ∀ e ∈ t, e.1 ≠ .lref → (e.2, true) ∈ stdApply c t) := by
  constructor
  · intro a ha
    simp only [applyTuple, List.mem_map] at ha
    obtain ⟨e, _, rfl⟩ := ha
    cases c <;> rfl
  · intro hc e he hk
    simp only [stdApply, List.mem_map]
    refine ⟨e, he, ?_⟩
    cases h : e.1 with
    | lref => exact absurd h hk
    | value => rcases hc with rfl | rfl <;> rfl
    | rref => rcases hc with rfl | rfl <;> rfl

/-- **C316.**  Tuples are equal exactly if they have the same number of elements and each is equal to the other at its place. -/
theorem C316_equal {S T : Type} (eq : S → T → Bool) (xs : List S) (ys : List T) :
    ∃ b, equal (fun x y => pure (eq x y)) xs ys = pure b ∧ (b = true ↔ xs.length = ys.length ∧ ∀ i (hx : i < xs.length) (hy : i < ys.length), eq xs[i] ys[i] = true) := by
  unfold equal
  by_cases hl : xs.length = ys.length
  · rw [if_pos hl]
    simp only [hl, true_and]
    induction xs generalizing ys with
    | nil =>
      cases ys with
      | nil => exact ⟨true, rfl, by simp⟩
      | cons y ys => simp at hl
    | cons x xs ih =>
      cases ys with
      | nil => simp at hl
      | cons y ys =>
        obtain ⟨b, hb, hi⟩ := ih ys (by simpa using hl)
        cases he : eq x y with
        | true =>
          refine ⟨b, by simp only [andAll, he, pure_bind]; exact hb, hi.trans ⟨?_, ?_⟩⟩
          · intro h i hx hy
            cases i with
            | zero => exact he
            | succ i => exact h i (by simpa using hx) (by simpa using hy)
          · intro h i hx hy
            have := h (i + 1) (by simpa using hx) (by simpa using hy)
            simpa using this
        | false =>
          refine ⟨false, by simp only [andAll, he, pure_bind]; rfl, ?_⟩
          constructor
          · intro h; cases h
          · intro h
            have := h 0 (by simp) (by simp)
            simp [he] at this
  · rw [if_neg hl]
    exact ⟨false, rfl, by simp [hl]⟩

example := C316_equal (fun (x : Nat) (y : Int) => (x : Int) == y) [3, 4] [3, 4]

/-- **C316.**  `!=` is the negation of `==` if it is for the elements, whatever their comparisons throw. -/
theorem C316_not_equal {S T : Type} (eq : S → T → Cxx Bool) (xs : List S) (ys : List T) :
    notEqual (fun x y => eq x y >>= fun b => pure (!b)) xs ys = (equal eq xs ys >>= fun b => pure (!b)) := by
  unfold equal notEqual
  by_cases hl : xs.length = ys.length
  · rw [if_pos hl, if_pos hl]
    clear hl
    induction xs generalizing ys with
    | nil => rfl
    | cons x xs ih =>
      cases ys with
      | nil => rfl
      | cons y ys =>
        simp only [andAll, orAll, bind_assoc, pure_bind]
        congr 1
        funext b
        cases b with
        | true => exact ih ys
        | false => rfl
  · rw [if_neg hl, if_neg hl]
    rfl

/-- **C316.**  Comparing stops at the first difference: what comes after it, and what its comparison does, does not matter. -/
theorem C316_stops {S T : Type} (eq : S → T → Cxx Bool) (xs : List S) (ys : List T) (hl : xs.length = ys.length) (k : Nat) (hx : k < xs.length) (hy : k < ys.length)
    (hs : ∀ i (hi : i < k), eq (xs[i]'(by omega)) (ys[i]'(by omega)) = pure true) (hk : eq xs[k] ys[k] = pure false) : equal eq xs ys = pure false := by
  unfold equal
  rw [if_pos hl]
  induction xs generalizing ys k with
  | nil => simp at hx
  | cons x xs ih =>
    cases ys with
    | nil => simp at hy
    | cons y ys =>
      simp only [andAll]
      cases k with
      | zero =>
        rw [show eq x y = pure false from hk]
        rfl
      | succ k =>
        rw [show eq x y = pure true from hs 0 (by omega)]
        simp only [pure_bind, if_true]
        exact ih ys (by simpa using hl) k (by simpa using hx) (by simpa using hy) (fun i hi => hs (i + 1) (by omega)) hk

example : equal (fun x y : Nat => if x = 3 then thrown else pure (x == y)) [1, 2, 3] [1, 5, 3] = pure false :=
  C316_stops _ _ _ rfl 1 (by decide) (by decide) (fun i hi => by
    obtain rfl : i = 0 := by omega
    rfl) rfl

end Verif.Util.Tuple2
