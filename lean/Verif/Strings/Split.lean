import Verif.Containers.Lists

/-
The splitting and joining of texts of deprecated/daw_string.h.  A text is a list of characters; an iterator into it is what is left of
the text from there.
-/

namespace Verif.Strings
open Cxx

variable {α : Type}

/-- `std::find_if`: what is before the first character that the predicate accepts, and what is left from it. (Rule of C++ or its library, no line of the source.) -/
def findIf (p : α → Cxx Bool) : List α → Cxx (List α × List α)
  | [] => pure ([], [])
  | c :: cs => do
    let b ← p c
    if b then pure ([], c :: cs)
    else
      let r ← findIf p cs
      pure (c :: r.1, r.2)

/-- The loop of `split_if`, deprecated/daw_string.h 149-158. -/
def splitLoop (p : α → Cxx Bool) (result : List (List α)) (pos : List α) : Cxx (List (List α)) := do
  let r ← findIf p pos
  match r.2 with
  | [] => pure (result ++ [r.1])
  | _ :: pos => splitLoop p (result ++ [r.1]) pos
partial_fixpoint

/-- `split_if`, deprecated/daw_string.h 143-160. -/
def splitIf (p : α → Cxx Bool) (sv : List α) : Cxx (List (List α)) := splitLoop p [] sv

/-- `split( sv, delimiter )`, deprecated/daw_string.h 105-120. -/
def splitChar [DecidableEq α] (sv : List α) (delimiter : α) : Cxx (List (List α)) :=
  splitLoop (fun c => pure (decide (c = delimiter))) [] sv

/-- `split( sv, delimiters )`, deprecated/daw_string.h 122-141. -/
def splitAny [DecidableEq α] (sv delimiters : List α) : Cxx (List (List α)) :=
  splitLoop (fun c => pure (decide (c ∈ delimiters))) [] sv

/-- `isspace` of the C library: undefined unless the argument is an `unsigned char` or `EOF`, which is -1. (Rule of C++ or its library, no line of the source.) -/
def isspace (c : Int) : Cxx Bool :=
  if c = -1 ∨ 0 ≤ c ∧ c ≤ 255 then pure (decide (c = 32 ∨ 9 ≤ c ∧ c ≤ 13)) else ub

/-- `split( sv )`, deprecated/daw_string.h 86-103, for texts of `char`, which is signed: -128 to 127. -/
def splitSpace (sv : List Int) : Cxx (List (List Int)) := splitLoop isspace [] sv

/-- The loop of `combine`, deprecated/daw_string.h 499-506: `ss` is what was written to the stream. -/
def combineLoop (chr : α) : List (List α) → Bool → List α → List α
  | [], _, ss => ss
  | s :: strings, isFirst, ss =>
    if !isFirst then combineLoop chr strings isFirst (ss ++ [chr] ++ s)
    else combineLoop chr strings false (ss ++ s)

/-- `combine`, deprecated/daw_string.h 495-508. -/
def combine (strings : List (List α)) (chr : α) : List α := combineLoop chr strings true []

/-! ### What the parts of a text are -/

/-- The text with the parts `ps` and the separators `ds` between them. (Specification, no line of the source.) -/
def weave : List (List α) → List α → List α
  | p :: ps, d :: ds => p ++ d :: weave ps ds
  | p :: _, [] => p
  | [], _ => []

theorem findIf_hit (q : α → Bool) (p : α → Cxx Bool) (hp : ∀ c, p c = pure (q c)) (d : α) (hd : q d = true) (r : List α) :
    ∀ a : List α, (∀ c ∈ a, q c = false) → findIf p (a ++ d :: r) = pure (a, d :: r)
  | [], _ => by simp [findIf, hp, hd]
  | c :: a, h => by
    simp only [List.cons_append, findIf, hp, pure_bind]
    rw [h c (List.mem_cons_self ..), findIf_hit q p hp d hd r a fun x hx => h x (List.mem_cons_of_mem _ hx)]
    rfl

theorem findIf_end (q : α → Bool) (p : α → Cxx Bool) (hp : ∀ c, p c = pure (q c)) :
    ∀ a : List α, (∀ c ∈ a, q c = false) → findIf p a = pure (a, [])
  | [], _ => rfl
  | c :: a, h => by
    simp only [findIf, hp, pure_bind]
    rw [h c (List.mem_cons_self ..), findIf_end q p hp a fun x hx => h x (List.mem_cons_of_mem _ hx)]
    rfl

theorem splitLoop_weave (q : α → Bool) (p : α → Cxx Bool) (hp : ∀ c, p c = pure (q c)) :
    ∀ (ps : List (List α)) (ds : List α) (result : List (List α)), ps.length = ds.length + 1 → (∀ d ∈ ds, q d = true) →
      (∀ x ∈ ps, ∀ c ∈ x, q c = false) → splitLoop p result (weave ps ds) = pure (result ++ ps)
  | [], _, _, h, _, _ => by simp at h
  | [x], [], result, _, _, hx => by
    rw [splitLoop, weave, findIf_end q p hp x (hx x (List.mem_cons_self ..))]
    rfl
  | x :: y :: ps, [], _, h, _, _ => by simp at h
  | x :: ps, d :: ds, result, h, hd, hx => by
    rw [splitLoop, weave, findIf_hit q p hp d (hd d (List.mem_cons_self ..)) _ x (hx x (List.mem_cons_self ..))]
    show splitLoop p (result ++ [x]) (weave ps ds) = _
    rw [splitLoop_weave q p hp ps ds _ (by simpa using h) (fun e he => hd e (List.mem_cons_of_mem _ he))
      (fun e he => hx e (List.mem_cons_of_mem _ he))]
    simp

theorem weave_exists (q : α → Bool) : ∀ s : List α, ∃ (ps : List (List α)) (ds : List α), ps.length = ds.length + 1 ∧
    (∀ d ∈ ds, q d = true) ∧ (∀ x ∈ ps, ∀ c ∈ x, q c = false) ∧ weave ps ds = s
  | [] => ⟨[[]], [], rfl, by simp, by simp, rfl⟩
  | c :: s => by
    obtain ⟨ps, ds, h1, h2, h3, h4⟩ := weave_exists q s
    cases hc : q c with
    | true => exact ⟨[] :: ps, c :: ds, by simp [h1], by simp [hc]; exact h2, by simp; exact h3, by simp [weave, h4]⟩
    | false =>
      cases ps with
      | nil => simp at h1
      | cons x ps =>
        refine ⟨(c :: x) :: ps, ds, h1, h2, ?_, ?_⟩
        · intro y hy
          rcases List.mem_cons.mp hy with e | e
          · subst e
            intro e he
            rcases List.mem_cons.mp he with e' | e'
            · exact e' ▸ hc
            · exact h3 x (List.mem_cons_self ..) e e'
          · exact h3 y (List.mem_cons_of_mem _ e)
        · cases ds <;> simpa [weave] using h4

/-- C237: `split_if` with a predicate that always answers gives the parts between the characters that it accepts: together with
these characters they are the text, there is one part more than there are such characters, and none is in a part. -/
theorem C237_split_if (q : α → Bool) (s : List α) :
    ∃ (ps : List (List α)) (ds : List α), splitIf (fun c => pure (q c)) s = pure ps ∧ ps.length = ds.length + 1 ∧
      (∀ d ∈ ds, q d = true) ∧ (∀ x ∈ ps, ∀ c ∈ x, q c = false) ∧ weave ps ds = s := by
  obtain ⟨ps, ds, h1, h2, h3, h4⟩ := weave_exists q s
  refine ⟨ps, ds, ?_, h1, h2, h3, h4⟩
  rw [← h4]
  exact splitLoop_weave q _ (fun _ => rfl) ps ds [] h1 h2 h3

example : weave [[97], [], [98, 99]] [32, 9] = [97, 32, 9, 98, 99] := rfl

/-- C237: there is no other way to split: whatever parts and separators a text is made of, `split( sv, delimiters )` finds the
parts. -/
theorem C237_split_any [DecidableEq α] (dl : List α) (ps : List (List α)) (ds : List α) (h : ps.length = ds.length + 1)
    (hd : ∀ d ∈ ds, d ∈ dl) (hp : ∀ x ∈ ps, ∀ c ∈ x, c ∉ dl) : splitAny (weave ps ds) dl = pure ps := by
  refine splitLoop_weave (fun c => decide (c ∈ dl)) _ (fun _ => rfl) ps ds [] h ?_ ?_
  · exact fun d hd' => decide_eq_true (hd d hd')
  · exact fun x hx c hc => decide_eq_false (hp x hx c hc)

example : splitAny (weave [[97], [], [98, 99]] [32, 9]) [9, 32] = pure [[97], [], [98, 99]] :=
  C237_split_any _ _ _ rfl (by decide) (by decide)

theorem combineLoop_eq (d : α) : ∀ (ps : List (List α)) (ss : List α),
    combineLoop d ps false ss = ss ++ (ps.map (d :: ·)).flatten
  | [], ss => by simp [combineLoop]
  | p :: ps, ss => by simp [combineLoop, combineLoop_eq d ps]

theorem combine_weave (d : α) : ∀ (ps : List (List α)), ps ≠ [] →
    combine ps d = weave ps (List.replicate (ps.length - 1) d)
  | [], h => absurd rfl h
  | [p], _ => by simp [combine, combineLoop, weave]
  | p :: y :: ps, _ => by
    have := combine_weave d (y :: ps) (by simp)
    simp only [combine, combineLoop, combineLoop_eq, Bool.not_true, List.nil_append] at this ⊢
    simp only [List.length_cons, Nat.add_sub_cancel, List.replicate_succ, weave] at this ⊢
    rw [← this]
    simp

/-- C238: what `split( sv, c )` takes apart `combine` with `c` puts together again. -/
theorem C238_combine_split [DecidableEq α] (s : List α) (d : α) :
    ∃ ps, splitChar s d = pure ps ∧ ps ≠ [] ∧ combine ps d = s := by
  obtain ⟨ps, ds, h1, h2, h3, h4⟩ := weave_exists (fun c => decide (c = d)) s
  have hne : ps ≠ [] := by
    intro e
    simp [e] at h1
  refine ⟨ps, ?_, hne, ?_⟩
  · rw [← h4]
    exact splitLoop_weave _ _ (fun _ => rfl) ps ds [] h1 h2 h3
  · have : ds = List.replicate (ps.length - 1) d :=
      List.eq_replicate_iff.mpr ⟨by omega, fun b hb => of_decide_eq_true (h2 b hb)⟩
    rw [combine_weave d ps hne, ← this, h4]

example : splitChar [97, 44, 98] 44 = pure [[97], [98]] ∧ combine [[97], [98]] 44 = [97, 44, 98] := by
  refine ⟨?_, rfl⟩
  exact splitLoop_weave _ _ (fun _ => rfl) [[97], [98]] [44] [] rfl (by decide) (by decide)

/-- C238: what `combine` with `c` puts together `split( sv, c )` takes apart, if there are parts and `c` is in none of them. -/
theorem C238_split_combine_partial [DecidableEq α] (ps : List (List α)) (d : α) (hne : ps ≠ []) (h : ∀ x ∈ ps, d ∉ x) :
    splitChar (combine ps d) d = pure ps := by
  have : ps.length ≠ 0 := by simpa using hne
  rw [combine_weave d ps hne]
  refine splitLoop_weave _ _ (fun _ => rfl) ps _ [] (by simp; omega) ?_ ?_
  · intro e he
    exact decide_eq_true (List.eq_of_mem_replicate he)
  · intro x hx c hc
    refine decide_eq_false fun e => h x hx (e ▸ hc)

example : splitChar (combine [[97], [], [98, 99]] 44) 44 = pure [[97], [], [98, 99]] :=
  C238_split_combine_partial _ _ (by decide) (by decide)

/-- C238 is violated for no parts: the empty text has one. -/
theorem C238_none_violated [DecidableEq α] (d : α) : splitChar (combine [] d) d = pure [[]] :=
  splitLoop_weave _ _ (fun _ => rfl) [[]] [] [] rfl (by simp) (by simp)

/-- C239: `split( sv )` splits texts of characters that are not negative at blanks. -/
theorem C239_space_partial (ps : List (List Int)) (ds : List Int) (h : ps.length = ds.length + 1)
    (hd : ∀ d ∈ ds, d = 32 ∨ 9 ≤ d ∧ d ≤ 13) (hp : ∀ x ∈ ps, ∀ c ∈ x, 0 ≤ c ∧ c ≤ 127 ∧ c ≠ 32 ∧ ¬(9 ≤ c ∧ c ≤ 13)) :
    splitSpace (weave ps ds) = pure ps := by
  have aux : ∀ (ps : List (List Int)) (ds : List Int) (result : List (List Int)), ps.length = ds.length + 1 →
      (∀ d ∈ ds, d = 32 ∨ 9 ≤ d ∧ d ≤ 13) → (∀ x ∈ ps, ∀ c ∈ x, 0 ≤ c ∧ c ≤ 127 ∧ c ≠ 32 ∧ ¬(9 ≤ c ∧ c ≤ 13)) →
      splitLoop isspace result (weave ps ds) = pure (result ++ ps) := by
    have sp : ∀ c : Int, c = 32 ∨ 9 ≤ c ∧ c ≤ 13 → isspace c = pure true := by
      intro c hc
      rw [isspace, if_pos (by omega), decide_eq_true hc]
    have ns : ∀ c : Int, 0 ≤ c ∧ c ≤ 127 ∧ c ≠ 32 ∧ ¬(9 ≤ c ∧ c ≤ 13) → isspace c = pure false := by
      intro c hc
      rw [isspace, if_pos (by omega), decide_eq_false (by omega)]
    have hit : ∀ (x : List Int), (∀ c ∈ x, 0 ≤ c ∧ c ≤ 127 ∧ c ≠ 32 ∧ ¬(9 ≤ c ∧ c ≤ 13)) → ∀ (d : Int) (r : List Int),
        (d = 32 ∨ 9 ≤ d ∧ d ≤ 13) → findIf isspace (x ++ d :: r) = pure (x, d :: r) := by
      intro x
      induction x with
      | nil =>
        intro _ d r hd
        simp [findIf, sp d hd]
      | cons c x ih =>
        intro hx d r hd
        simp only [List.cons_append, findIf, ns c (hx c (List.mem_cons_self ..)), pure_bind]
        rw [ih (fun e he => hx e (List.mem_cons_of_mem _ he)) d r hd]
        rfl
    have fin : ∀ (x : List Int), (∀ c ∈ x, 0 ≤ c ∧ c ≤ 127 ∧ c ≠ 32 ∧ ¬(9 ≤ c ∧ c ≤ 13)) → findIf isspace x = pure (x, []) := by
      intro x
      induction x with
      | nil => intro _; rfl
      | cons c x ih =>
        intro hx
        simp only [findIf, ns c (hx c (List.mem_cons_self ..)), pure_bind]
        rw [ih (fun e he => hx e (List.mem_cons_of_mem _ he))]
        rfl
    intro ps
    induction ps with
    | nil => intro ds r h; simp at h
    | cons x ps ih =>
      intro ds r h hd hx
      cases ds with
      | nil =>
        have : ps = [] := by simpa using h
        subst this
        rw [splitLoop, weave, fin x (hx x (List.mem_cons_self ..))]
        rfl
      | cons d ds =>
        rw [splitLoop, weave, hit x (hx x (List.mem_cons_self ..)) d _ (hd d (List.mem_cons_self ..))]
        show splitLoop isspace (r ++ [x]) (weave ps ds) = _
        rw [ih ds _ (by simpa using h) (fun e he => hd e (List.mem_cons_of_mem _ he))
          (fun e he => hx e (List.mem_cons_of_mem _ he))]
        simp
  exact aux ps ds [] h hd hp

example : splitSpace (weave [[97], [98]] [10]) = pure [[97], [98]] :=
  C239_space_partial _ _ rfl (by decide) (by decide)

/-- C239 is violated by every text with a character of the upper half, as all letters with accents are in UTF-8: its `char` is
negative, which `isspace` must not be called with.  The one value that is allowed is that of `EOF`. -/
theorem C239_negative_violated (a r : List Int) (c : Int) (ha : ∀ x ∈ a, 0 ≤ x ∧ x ≤ 127) (hc : -128 ≤ c ∧ c < -1) :
    splitSpace (a ++ c :: r) = ub := by
  have aux : ∀ (n : Nat) (a : List Int) (result : List (List Int)), a.length ≤ n → (∀ x ∈ a, 0 ≤ x ∧ x ≤ 127) →
      splitLoop isspace result (a ++ c :: r) = ub := by
    have hub : isspace c = ub := by
      rw [isspace, if_neg (by omega)]
    have fnd : ∀ a : List Int, (∀ x ∈ a, 0 ≤ x ∧ x ≤ 127) → findIf isspace (a ++ c :: r) = ub ∨
        ∃ (u : List Int) (d : Int) (v : List Int), a = u ++ d :: v ∧ findIf isspace (a ++ c :: r) = pure (u, d :: (v ++ c :: r)) := by
      intro a
      induction a with
      | nil =>
        intro _
        left
        simp [findIf, hub]
      | cons x a ih =>
        intro hx
        have hx1 := hx x (List.mem_cons_self ..)
        simp only [List.cons_append, findIf, isspace]
        rw [if_pos (by omega)]
        by_cases hs : x = 32 ∨ 9 ≤ x ∧ x ≤ 13
        · right
          refine ⟨[], x, a, rfl, ?_⟩
          rw [decide_eq_true hs]
          rfl
        · rw [decide_eq_false hs]
          rcases ih fun e he => hx e (List.mem_cons_of_mem _ he) with e | ⟨u, d, v, e1, e2⟩
          · left
            rw [pure_bind, if_neg (by simp), e]
            rfl
          · right
            refine ⟨x :: u, d, v, by simp [e1], ?_⟩
            rw [pure_bind, if_neg (by simp), e2]
            rfl
    intro n
    induction n with
    | zero =>
      intro a result h ha
      have : a = [] := List.length_eq_zero_iff.mp (by omega)
      subst this
      rw [splitLoop]
      rcases fnd [] ha with e | ⟨u, d, v, e1, _⟩
      · rw [e]
        rfl
      · simp at e1
    | succ n ih =>
      intro a result h ha
      rw [splitLoop]
      rcases fnd a ha with e | ⟨u, d, v, e1, e2⟩
      · rw [e]
        rfl
      · rw [e2]
        show splitLoop isspace (result ++ [u]) (v ++ c :: r) = ub
        apply ih
        · rw [e1] at h
          simp at h
          omega
        · intro x hx
          exact ha x (by rw [e1]; simp [hx])
  exact aux a.length a [] (Nat.le_refl _) ha

example : splitSpace [72, 32, -61, -92] = ub := C239_negative_violated [72, 32] [-92] (-61) (by decide) (by decide)

end Verif.Strings
