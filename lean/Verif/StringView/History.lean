import Verif.StringView.Views

/-
Histories of operations on views: every view stays inside the text it was made from, and what the zero terminated flag
says.
-/

namespace Verif.SV
open Cxx

variable {α : Type}

namespace View

/-- The members of `basic_string_view` that make or change views, with their arguments.  A count of `none` is `npos`.
(Members of `basic_string_view`, daw_string_view.h 575-2827.) -/
inductive Op (α : Type) where
  | removePrefix (n : Option Nat)
  | removeSuffix (n : Option Nat)
  | clear
  | resize (n : Nat)
  | substr (pos : Nat) (count : Option Nat)
  | substrUnsafe (pos count : Nat)
  | substrAll
  | popFront (n : Option Nat)
  | popFrontUnsafe (n : Nat)
  | popBack (n : Option Nat)
  | popBackUnsafe (n : Nat)
  | popFrontChar
  | popBackChar
  | popFrontUntil (w : List α)
  | popFrontUntilKeep (w : List α)
  | popFrontUntilChar (c : α)
  | popFrontUntilCharKeep (c : α)
  | popFrontUntilIf (p : α → Bool)
  | popFrontUntilIfKeep (p : α → Bool)
  | popFrontWhileIn (w : List α)
  | popFrontWhileIf (p : α → Bool)
  | popBackUntil (w : List α)
  | popBackUntilKeep (w : List α)
  | popBackUntilChar (c : α)
  | popBackUntilIf (p : α → Bool)
  | popBackUntilIfKeep (p : α → Bool)
  | tryPopFrontUntil (w : List α)
  | tryPopFrontUntilKeep (w : List α)
  | tryPopFrontUntilChar (c : α)
  | tryPopFrontUntilIf (p : α → Bool)
  | tryPopFrontUntilIfKeep (p : α → Bool)
  | tryPopBackUntil (w : List α)
  | tryPopBackUntilKeep (w : List α)
  | tryPopBackUntilChar (c : α)
  | tryPopBackUntilCharKeep (c : α)
  | tryPopBackUntilIf (p : α → Bool)
  | tryPopBackUntilIfKeep (p : α → Bool)
  | removePrefixUntil (w : List α)
  | removePrefixUntilKeep (w : List α)
  | removePrefixUntilChar (c : α)
  | removePrefixUntilCharKeep (c : α)
  | removePrefixUntilIf (p : α → Bool)
  | removePrefixWhile (p : α → Bool)
  | removeSuffixWhile (p : α → Bool)
  | trim (p : α → Bool)

/-- Running an operation on a view of the memory `m`: the view afterwards and the view returned.  Members that return
nothing, the view itself or a character have the view itself as result here.
(Members of `basic_string_view`, daw_string_view.h 575-2827.) -/
def step [DecidableEq α] (m : List α) (v : View) : Op α → Cxx (View × View)
  | .removePrefix n => pure (v.removePrefix n, v.removePrefix n)
  | .removeSuffix n => pure (v.removeSuffix n, v.removeSuffix n)
  | .clear => pure (v.clear, v.clear)
  | .resize n => do let r ← v.resize n; pure (r, r)
  | .substr pos count => do let r ← v.substr pos count; pure (v, r)
  | .substrUnsafe pos count => do let r ← v.substrUnsafe pos count; pure (v, r)
  | .substrAll => do let r ← v.substrAll; pure (v, r)
  | .popFront n => v.popFront n
  | .popFrontUnsafe n => v.popFrontUnsafe n
  | .popBack n => v.popBack n
  | .popBackUnsafe n => v.popBackUnsafe n
  | .popFrontChar => do let r ← v.popFrontChar m; pure (r.1, r.1)
  | .popBackChar => do let r ← v.popBackChar m; pure (r.1, r.1)
  | .popFrontUntil w => v.popFrontUntil m w
  | .popFrontUntilKeep w => v.popFrontUntilKeep m w
  | .popFrontUntilChar c => v.popFrontUntilChar m c
  | .popFrontUntilCharKeep c => v.popFrontUntilCharKeep m c
  | .popFrontUntilIf p => v.popFrontUntilIf m p
  | .popFrontUntilIfKeep p => v.popFrontUntilIfKeep m p
  | .popFrontWhileIn w => v.popFrontWhileIn m w
  | .popFrontWhileIf p => v.popFrontWhileIf m p
  | .popBackUntil w => v.popBackUntil m w
  | .popBackUntilKeep w => v.popBackUntilKeep m w
  | .popBackUntilChar c => v.popBackUntilChar m c
  | .popBackUntilIf p => v.popBackUntilIf m p
  | .popBackUntilIfKeep p => v.popBackUntilIfKeep m p
  | .tryPopFrontUntil w => v.tryPopFrontUntil m w
  | .tryPopFrontUntilKeep w => v.tryPopFrontUntilKeep m w
  | .tryPopFrontUntilChar c => v.tryPopFrontUntilChar m c
  | .tryPopFrontUntilIf p => v.tryPopFrontUntilIf m p
  | .tryPopFrontUntilIfKeep p => v.tryPopFrontUntilIfKeep m p
  | .tryPopBackUntil w => v.tryPopBackUntil m w
  | .tryPopBackUntilKeep w => v.tryPopBackUntilKeep m w
  | .tryPopBackUntilChar c => v.tryPopBackUntilChar m c
  | .tryPopBackUntilCharKeep c => v.tryPopBackUntilCharKeep m c
  | .tryPopBackUntilIf p => v.tryPopBackUntilIf m p
  | .tryPopBackUntilIfKeep p => v.tryPopBackUntilIfKeep m p
  | .removePrefixUntil w => do let r ← v.removePrefixUntil m w; pure (r, r)
  | .removePrefixUntilKeep w => do let r ← v.removePrefixUntilKeep m w; pure (r, r)
  | .removePrefixUntilChar c => do let r ← v.removePrefixUntilChar m c; pure (r, r)
  | .removePrefixUntilCharKeep c => do let r ← v.removePrefixUntilCharKeep m c; pure (r, r)
  | .removePrefixUntilIf p => pure (v.removePrefixUntilIf m p, v.removePrefixUntilIf m p)
  | .removePrefixWhile p => pure (v.removePrefixWhile m p, v.removePrefixWhile m p)
  | .removeSuffixWhile p => do let r ← v.removeSuffixWhile m p; pure (r, r)
  | .trim p => do let r ← v.trimIf m p; pure (r, r)

/-- The preconditions of the operations; those of `pop_front( )` and `pop_back( )` are not documented.
(Specification, no line of the source.) -/
def Pre (v : View) : Op α → Prop
  | .resize n => n ≤ v.len
  | .substr pos _ => pos ≤ v.len
  | .substrUnsafe pos count => pos + count ≤ v.len
  | .popFrontUnsafe n => n ≤ v.len
  | .popBackUnsafe n => n ≤ v.len
  | .popFrontChar => 0 < v.len
  | .popBackChar => 0 < v.len
  | _ => True

/-- `w` was obtained from `v` by a history of operations, each applied to the view left or returned by an earlier one.
(Specification, no line of the source.) -/
inductive Reach [DecidableEq α] (m : List α) (v : View) : View → Prop
  | refl : Reach m v v
  | rest {w rest result : View} (op : Op α) : Reach m v w → step m w op = pure (rest, result) → Reach m v rest
  | result {w rest result : View} (op : Op α) : Reach m v w → step m w op = pure (rest, result) → Reach m v result

/-- `w` is part of `v`, or empty. (Specification, no line of the source.) -/
def Within (v w : View) : Prop := w.len = 0 ∨ (v.off ≤ w.off ∧ w.off + w.len ≤ v.off + v.len)

theorem Within.refl (v : View) : Within v v := Or.inr ⟨Nat.le_refl _, Nat.le_refl _⟩

theorem Within.trans {u v w : View} (h : Within u v) (h' : Within v w) : Within u w := by
  unfold Within at *
  omega

theorem clip_le (v : View) (n : Option Nat) : v.clip n ≤ v.len := by
  unfold clip; split <;> omega

theorem within_removePrefix (v : View) (n : Option Nat) : Within v (v.removePrefix n) := by
  have := clip_le v n
  unfold Within removePrefix
  simp only []
  omega

theorem within_removeSuffix (v : View) (n : Option Nat) : Within v (v.removeSuffix n) := by
  have := clip_le v n
  unfold Within removeSuffix
  simp only []
  omega

theorem within_null (v : View) : Within v null := Or.inl rfl

theorem within_substr {v w : View} {pos : Nat} {count : Option Nat} (h : v.substr pos count = pure w) : Within v w := by
  unfold substr at h
  split at h
  · have := pure_inj.1 h
    subst this
    refine Or.inr ⟨by simp, ?_⟩
    cases count <;> simp only [] <;> omega
  · exact absurd h (ub_ne_pure _)

theorem within_substrUnsafe {v w : View} {pos count : Nat} (h : v.substrUnsafe pos count = pure w) : Within v w := by
  unfold substrUnsafe at h
  split at h
  · have := pure_inj.1 h
    subst this
    exact Or.inr ⟨by simp, by simp only []; omega⟩
  · exact absurd h (ub_ne_pure _)

theorem within_resize {v w : View} {n : Nat} (h : v.resize n = pure w) : Within v w := by
  unfold resize at h
  split at h
  · split at h
    · have := pure_inj.1 h
      subst this
      exact Or.inr ⟨by simp, by simp only []; omega⟩
    · exact absurd h (ub_ne_pure _)
  · have := pure_inj.1 h
    subst this
    exact Within.refl _

/-- What the views left and returned by an operation are made of. (Specification, no line of the source.) -/
inductive Made (v : View) : View → Prop
  | self : Made v v
  | null : Made v null
  | removePrefix {w : View} (n : Option Nat) : Made v w → Made v (w.removePrefix n)
  | removeSuffix {w : View} (n : Option Nat) : Made v w → Made v (w.removeSuffix n)
  | clear : Made v v.clear
  | substr {w : View} (pos : Nat) (count : Option Nat) : v.substr pos count = pure w → Made v w
  | resize {u w : View} (n : Nat) : Made v u → u.resize n = pure w → Made v w

theorem Made.within {v w : View} (h : Made v w) : Within v w := by
  induction h with
  | self => exact Within.refl _
  | null => exact within_null _
  | removePrefix n _ ih => exact ih.trans (within_removePrefix _ _)
  | removeSuffix n _ ih => exact ih.trans (within_removeSuffix _ _)
  | clear => exact Or.inl rfl
  | substr pos count h => exact within_substr h
  | resize n _ h ih => exact ih.trans (within_resize h)

/-- The operations that use `substr_unsafe`. (Specification, no line of the source.) -/
def Op.unsafe : Op α → Bool
  | .substrUnsafe _ _ => true
  | .substrAll => true
  | .popFrontUnsafe _ => true
  | .popBackUnsafe _ => true
  | _ => false

theorem popFront_made {v : View} {n : Option Nat} {r : View × View} (h : v.popFront n = pure r) :
    Made v r.1 ∧ Made v r.2 := by
  obtain ⟨w, e, h⟩ := bind_eq_pure.1 h
  have := pure_inj.1 h
  subst this
  exact ⟨.removePrefix _ .self, .substr _ _ e⟩

/-- An operation that splits at a position found. -/
theorem popBackAt_made {v : View} {q : Option Nat} {r : View × View} {f : Nat → Nat} {g : Nat → Nat} {d : View × View}
    (hd : Made v d.1 ∧ Made v d.2)
    (h : (match q with
      | none => pure d
      | some pos => do
        let result ← v.substr (f pos) none
        pure (v.removeSuffix (some (g pos)), result) : Cxx (View × View)) = pure r) : Made v r.1 ∧ Made v r.2 := by
  cases q with
  | none =>
    have := pure_inj.1 h
    subst this
    exact hd
  | some pos =>
    obtain ⟨w, e, h⟩ := bind_eq_pure.1 h
    have := pure_inj.1 h
    subst this
    exact ⟨.removeSuffix _ .self, .substr _ _ e⟩

theorem popFrontAt_made {v : View} {q : Option Nat} {k : Nat} {r : View × View}
    (h : (match q with
      | none => pure (v, View.null)
      | some pos => do
        let x ← v.popFront (some pos)
        pure (x.1.removePrefix (some k), x.2) : Cxx (View × View)) = pure r) : Made v r.1 ∧ Made v r.2 := by
  cases q with
  | none =>
    have := pure_inj.1 h
    subst this
    exact ⟨.self, .null⟩
  | some pos =>
    obtain ⟨w, e, h⟩ := bind_eq_pure.1 h
    have := pure_inj.1 h
    subst this
    exact ⟨.removePrefix _ (popFront_made e).1, (popFront_made e).2⟩

theorem popFrontKeepAt_made {v : View} {q : Option Nat} {r : View × View}
    (h : (match q with
      | none => pure (v, View.null)
      | some pos => v.popFront (some pos) : Cxx (View × View)) = pure r) : Made v r.1 ∧ Made v r.2 := by
  cases q with
  | none =>
    have := pure_inj.1 h
    subst this
    exact ⟨.self, .null⟩
  | some pos => exact popFront_made h

theorem popFrontDrop_made {v : View} {q : Option Nat} {k : Nat} {r : View × View}
    (h : (do let x ← v.popFront q; pure (x.1.removePrefix (some k), x.2) : Cxx (View × View)) = pure r) :
    Made v r.1 ∧ Made v r.2 := by
  obtain ⟨w, e, h⟩ := bind_eq_pure.1 h
  have := pure_inj.1 h
  subst this
  exact ⟨.removePrefix _ (popFront_made e).1, (popFront_made e).2⟩

theorem removeSuffixWhile_made {m : List α} {v u w : View} {p : α → Bool} (hu : Made v u)
    (h : u.removeSuffixWhile m p = pure w) : Made v w := by
  unfold removeSuffixWhile at h
  obtain ⟨q, _, h⟩ := bind_eq_pure.1 h
  cases q with
  | none => exact .resize _ hu h
  | some pos => exact .resize _ hu h

theorem both {v : View} {w : View} {r : View × View} (h : (pure (w, w) : Cxx (View × View)) = pure r) (hw : Made v w) :
    Made v r.1 ∧ Made v r.2 := by
  have := pure_inj.1 h
  subst this
  exact ⟨hw, hw⟩

theorem step_made [DecidableEq α] {m : List α} {v : View} {op : Op α} {r : View × View} (hs : op.unsafe = false)
    (h : step m v op = pure r) : Made v r.1 ∧ Made v r.2 := by
  cases op with
  | removePrefix n => exact both h (.removePrefix _ .self)
  | removeSuffix n => exact both h (.removeSuffix _ .self)
  | clear => exact both h .clear
  | resize n => obtain ⟨w, e, h⟩ := bind_eq_pure.1 h; exact both h (.resize _ .self e)
  | substr pos count =>
    obtain ⟨w, e, h⟩ := bind_eq_pure.1 h
    have := pure_inj.1 h
    subst this
    exact ⟨.self, .substr _ _ e⟩
  | substrUnsafe pos count => cases hs
  | substrAll => cases hs
  | popFront n => exact popFront_made h
  | popFrontUnsafe n => cases hs
  | popBack n =>
    obtain ⟨w, e, h⟩ := bind_eq_pure.1 h
    have := pure_inj.1 h
    subst this
    exact ⟨.removeSuffix _ .self, .substr _ _ e⟩
  | popBackUnsafe n => cases hs
  | popFrontChar =>
    obtain ⟨w, e, h⟩ := bind_eq_pure.1 h
    obtain ⟨c, _, e⟩ := bind_eq_pure.1 e
    have := pure_inj.1 e
    subst this
    exact both h (.removePrefix _ .self)
  | popBackChar =>
    obtain ⟨w, e, h⟩ := bind_eq_pure.1 h
    unfold popBackChar at e
    split at e
    · exact absurd e (ub_ne_pure _)
    · obtain ⟨c, _, e⟩ := bind_eq_pure.1 e
      have := pure_inj.1 e
      subst this
      exact both h (.removeSuffix _ .self)
  | popFrontUntil w => obtain ⟨q, _, h⟩ := bind_eq_pure.1 h; exact popFrontDrop_made h
  | popFrontUntilKeep w => obtain ⟨q, _, h⟩ := bind_eq_pure.1 h; exact popFront_made h
  | popFrontUntilChar c => obtain ⟨q, _, h⟩ := bind_eq_pure.1 h; exact popFrontDrop_made h
  | popFrontUntilCharKeep c => obtain ⟨q, _, h⟩ := bind_eq_pure.1 h; exact popFront_made h
  | popFrontUntilIf p => exact popFrontDrop_made h
  | popFrontUntilIfKeep p => exact popFront_made h
  | popFrontWhileIn w => exact popFront_made h
  | popFrontWhileIf p => exact popFront_made h
  | popBackUntil w =>
    obtain ⟨q, _, h⟩ := bind_eq_pure.1 h
    exact popBackAt_made (q := q) (f := fun pos => pos + w.length) (g := fun pos => v.len - pos)
      ⟨.removePrefix _ .self, .self⟩ h
  | popBackUntilKeep w =>
    obtain ⟨q, _, h⟩ := bind_eq_pure.1 h
    exact popBackAt_made (q := q) (f := fun pos => pos + w.length) (g := fun pos => v.len - pos)
      ⟨.removePrefix _ .self, .self⟩ h
  | popBackUntilChar c =>
    obtain ⟨q, _, h⟩ := bind_eq_pure.1 h
    exact popBackAt_made (q := q) (f := fun pos => pos + 1) (g := fun pos => v.len - pos)
      ⟨.removePrefix _ .self, .self⟩ h
  | popBackUntilIf p =>
    obtain ⟨q, _, h⟩ := bind_eq_pure.1 h
    exact popBackAt_made (q := q) (f := fun pos => pos + 1) (g := fun pos => v.len - pos)
      ⟨.removePrefix _ .self, .self⟩ h
  | popBackUntilIfKeep p =>
    obtain ⟨q, _, h⟩ := bind_eq_pure.1 h
    exact popBackAt_made (q := q) (f := fun pos => pos) (g := fun pos => v.len - pos)
      ⟨.removePrefix _ .self, .self⟩ h
  | tryPopFrontUntil w =>
    obtain ⟨q, _, h⟩ := bind_eq_pure.1 h
    exact popFrontAt_made (q := q) h
  | tryPopFrontUntilKeep w =>
    obtain ⟨q, _, h⟩ := bind_eq_pure.1 h
    exact popFrontKeepAt_made (q := q) h
  | tryPopFrontUntilChar c =>
    obtain ⟨q, _, h⟩ := bind_eq_pure.1 h
    exact popFrontAt_made (q := q) h
  | tryPopFrontUntilIf p =>
    obtain ⟨w, e, h⟩ := bind_eq_pure.1 h
    have := popFrontKeepAt_made (q := findFirstOfIf p (v.text m) 0) e
    have h' := pure_inj.1 h
    subst h'
    exact ⟨.removePrefix _ this.1, this.2⟩
  | tryPopFrontUntilIfKeep p => exact popFrontKeepAt_made (q := findFirstOfIf p (v.text m) 0) h
  | tryPopBackUntil w =>
    obtain ⟨q, _, h⟩ := bind_eq_pure.1 h
    exact popBackAt_made (q := q) (f := fun pos => pos + w.length) (g := fun pos => v.len - pos) ⟨.self, .null⟩ h
  | tryPopBackUntilKeep w =>
    obtain ⟨q, _, h⟩ := bind_eq_pure.1 h
    exact popBackAt_made (q := q) (f := fun pos => pos + w.length) (g := fun pos => v.len - pos) ⟨.self, .null⟩ h
  | tryPopBackUntilChar c =>
    obtain ⟨q, _, h⟩ := bind_eq_pure.1 h
    exact popBackAt_made (q := q) (f := fun pos => pos) (g := fun pos => v.len - pos) ⟨.self, .null⟩ h
  | tryPopBackUntilCharKeep c =>
    obtain ⟨q, _, h⟩ := bind_eq_pure.1 h
    exact popBackAt_made (q := q) (f := fun pos => pos) (g := fun pos => v.len - pos - 1) ⟨.self, .null⟩ h
  | tryPopBackUntilIf p =>
    obtain ⟨q, _, h⟩ := bind_eq_pure.1 h
    exact popBackAt_made (q := q) (f := fun pos => pos) (g := fun pos => v.len - pos) ⟨.self, .null⟩ h
  | tryPopBackUntilIfKeep p =>
    obtain ⟨q, _, h⟩ := bind_eq_pure.1 h
    exact popBackAt_made (q := q) (f := fun pos => pos) (g := fun pos => v.len - pos - 1) ⟨.self, .null⟩ h
  | removePrefixUntil w =>
    obtain ⟨u, e, h⟩ := bind_eq_pure.1 h
    obtain ⟨q, _, e⟩ := bind_eq_pure.1 e
    have := pure_inj.1 e
    subst this
    exact both h (.removePrefix _ (.removePrefix _ .self))
  | removePrefixUntilKeep w =>
    obtain ⟨u, e, h⟩ := bind_eq_pure.1 h
    obtain ⟨q, _, e⟩ := bind_eq_pure.1 e
    have := pure_inj.1 e
    subst this
    exact both h (.removePrefix _ .self)
  | removePrefixUntilChar w =>
    obtain ⟨u, e, h⟩ := bind_eq_pure.1 h
    obtain ⟨q, _, e⟩ := bind_eq_pure.1 e
    have := pure_inj.1 e
    subst this
    exact both h (.removePrefix _ (.removePrefix _ .self))
  | removePrefixUntilCharKeep w =>
    obtain ⟨u, e, h⟩ := bind_eq_pure.1 h
    obtain ⟨q, _, e⟩ := bind_eq_pure.1 e
    have := pure_inj.1 e
    subst this
    exact both h (.removePrefix _ .self)
  | removePrefixUntilIf p => exact both h (.removePrefix _ (.removePrefix _ .self))
  | removePrefixWhile p => exact both h (.removePrefix _ .self)
  | removeSuffixWhile p =>
    obtain ⟨u, e, h⟩ := bind_eq_pure.1 h
    exact both h (removeSuffixWhile_made .self e)
  | trim p =>
    obtain ⟨u, e, h⟩ := bind_eq_pure.1 h
    exact both h (removeSuffixWhile_made (.removePrefix _ .self) e)

theorem step_within [DecidableEq α] {m : List α} {v : View} {op : Op α} {r : View × View} (h : step m v op = pure r) :
    Within v r.1 ∧ Within v r.2 := by
  cases hs : op.unsafe
  · obtain ⟨h1, h2⟩ := step_made hs h
    exact ⟨h1.within, h2.within⟩
  · cases op <;> simp [Op.unsafe] at hs
    · obtain ⟨w, e, h⟩ := bind_eq_pure.1 h
      have := pure_inj.1 h
      subst this
      exact ⟨.refl _, within_substrUnsafe e⟩
    · obtain ⟨w, e, h⟩ := bind_eq_pure.1 h
      have := pure_inj.1 h
      subst this
      exact ⟨.refl _, within_substrUnsafe e⟩
    · unfold step popFrontUnsafe at h
      simp only [] at h
      split at h
      · obtain ⟨w, e, h⟩ := bind_eq_pure.1 h
        have := pure_inj.1 h
        subst this
        exact ⟨within_removePrefix _ _, within_substrUnsafe e⟩
      · exact absurd h (ub_ne_pure _)
    · unfold step popBackUnsafe at h
      simp only [] at h
      split at h
      · obtain ⟨w, e, h⟩ := bind_eq_pure.1 h
        have := pure_inj.1 h
        subst this
        exact ⟨within_removeSuffix _ _, within_substrUnsafe e⟩
      · exact absurd h (ub_ne_pure _)

theorem reach_within [DecidableEq α] {m : List α} {v w : View} (h : Reach m v w) : Within v w := by
  induction h with
  | refl => exact .refl _
  | rest op _ e ih => exact ih.trans (step_within e).1
  | result op _ e ih => exact ih.trans (step_within e).2

/-- **C11**: whatever the history of operations, the text of a view made from another is a contiguous part of its text.
-/
theorem C11_within [DecidableEq α] (m : List α) (v w : View) (h : Reach m v w) : w.text m <:+: v.text m := by
  rcases reach_within h with h | ⟨h1, h2⟩
  · have : w.text m = [] := by simp [text, h]
    rw [this]
    exact List.nil_infix
  · unfold text
    have : (m.drop w.off).take w.len = (((m.drop v.off).take v.len).drop (w.off - v.off)).take w.len := by
      rw [List.drop_take, List.drop_drop, List.take_take, show v.off + (w.off - v.off) = w.off by omega,
        Nat.min_eq_left (by omega)]
    rw [this]
    exact (List.take_prefix _ _).isInfix.trans (List.drop_suffix _ _).isInfix

example := C11_within [5, 1, 2, 3, 2, 4] ⟨1, 5, false⟩ ⟨4, 1, false⟩
  (.rest (.popBack (some 1)) (.rest (.popFrontUntil [2, 3]) .refl rfl) rfl)

/-- A run that returns is no undefined behaviour. -/
theorem exists_of_sat {A : Type} {x : Cxx A} {P : A → Prop} (h : ∃ a, x = pure a ∧ P a) : ∃ a, x = pure a := by
  obtain ⟨a, e, _⟩ := h; exact ⟨a, e⟩

theorem substr_total {v : View} {pos : Nat} (count : Option Nat) (h : pos ≤ v.len) : ∃ w, v.substr pos count = pure w := by
  unfold substr; rw [if_pos h]; exact ⟨_, rfl⟩

/-- C11: no operation whose precondition holds reads outside the text, and each returns.  Missing: `pop_back( )` and
`pop_front( )` on an empty view, see `C11_pop_empty_violated`. -/
theorem C11_no_ub_partial [DecidableEq α] (m : List α) (v : View) (hv : v.off + v.len ≤ m.length) (op : Op α)
    (hpre : v.Pre op) : ∃ r, step m v op = pure r := by
  have hl := text_length hv
  have hfind : ∀ w, ∃ q, find (v.text m) w 0 = pure q := fun w =>
    exists_of_sat (C13_find_partial (v.text m) w 0 (Nat.zero_le _))
  have hfindc : ∀ c, ∃ q, findCharRun (v.text m) c 0 = pure q := fun c => by
    obtain ⟨q, e, _⟩ := C14_find_char_partial (v.text m) c; exact ⟨q, e⟩
  have hpop : ∀ q, ∃ r, v.popFront q = pure r := fun q => by
    obtain ⟨w, e, _⟩ := popFront_eq (α := α) v q; exact ⟨_, e⟩
  have hrf : ∀ w, ∃ q, rfind (v.text m) w none = pure q ∧ ∀ pos, q = some pos → pos + w.length ≤ v.len := fun w => by
    obtain ⟨q, e, h, _⟩ := C13_rfind (v.text m) w none
    exact ⟨q, e, fun pos hp => by rw [← hl]; exact occurs_length (h pos hp).2.1.1⟩
  have hlast : ∀ p, ∃ q, findLastOfIf p (v.text m) none = pure q ∧ ∀ pos, q = some pos → pos + 1 ≤ v.len := fun p => by
    obtain ⟨q, e, h, _⟩ := C15_find_last_of_if p (v.text m) none
    exact ⟨q, e, fun pos hp => by have := (h pos hp).1; simp only [hl] at this; omega⟩
  cases op with
  | removePrefix n => exact ⟨_, rfl⟩
  | removeSuffix n => exact ⟨_, rfl⟩
  | clear => exact ⟨_, rfl⟩
  | resize n =>
    simp only [Pre] at hpre
    simp only [step, resize]
    split
    · exact ⟨_, rfl⟩
    · exact ⟨_, rfl⟩
  | substr pos count =>
    obtain ⟨w, e⟩ := substr_total count hpre
    simp only [step, e, pure_bind]
    exact ⟨_, rfl⟩
  | substrUnsafe pos count =>
    simp only [Pre] at hpre
    simp only [step, substrUnsafe]
    rw [if_pos hpre]; exact ⟨_, rfl⟩
  | substrAll =>
    simp only [step, substrAll, substrUnsafe]
    rw [if_pos (by omega)]; exact ⟨_, rfl⟩
  | popFront n => exact hpop n
  | popFrontUnsafe n =>
    simp only [Pre] at hpre
    simp only [step, popFrontUnsafe, substrUnsafe]
    rw [if_pos hpre, if_pos (by omega)]; exact ⟨_, rfl⟩
  | popBack n =>
    obtain ⟨w, e⟩ := substr_total (v := v) (pos := v.len - v.clip n) none (by omega)
    simp only [step, popBack, e, pure_bind]
    exact ⟨_, rfl⟩
  | popBackUnsafe n =>
    simp only [Pre] at hpre
    simp only [step, popBackUnsafe, substrUnsafe]
    rw [if_pos hpre, if_pos (by omega)]; exact ⟨_, rfl⟩
  | popFrontChar =>
    simp only [Pre] at hpre
    simp only [step, popFrontChar]
    rw [rd_eq (by omega)]; exact ⟨_, rfl⟩
  | popBackChar =>
    simp only [Pre] at hpre
    simp only [step, popBackChar]
    rw [if_neg (by omega), rd_eq (by omega)]; exact ⟨_, rfl⟩
  | popFrontUntil w =>
    obtain ⟨q, e⟩ := hfind w
    obtain ⟨r, e'⟩ := hpop q
    simp only [step, popFrontUntil, e, e', pure_bind]
    exact ⟨_, rfl⟩
  | popFrontUntilKeep w =>
    obtain ⟨q, e⟩ := hfind w
    obtain ⟨r, e'⟩ := hpop q
    simp only [step, popFrontUntilKeep, e, e', pure_bind]
    exact ⟨_, rfl⟩
  | popFrontUntilChar c =>
    obtain ⟨q, e⟩ := hfindc c
    obtain ⟨r, e'⟩ := hpop q
    simp only [step, popFrontUntilChar, e, e', pure_bind]
    exact ⟨_, rfl⟩
  | popFrontUntilCharKeep c =>
    obtain ⟨q, e⟩ := hfindc c
    obtain ⟨r, e'⟩ := hpop q
    simp only [step, popFrontUntilCharKeep, e, e', pure_bind]
    exact ⟨_, rfl⟩
  | popFrontUntilIf p =>
    obtain ⟨r, e'⟩ := hpop (findFirstOfIf p (v.text m) 0)
    simp only [step, popFrontUntilIf, popFrontUntilIfKeep, e', pure_bind]
    exact ⟨_, rfl⟩
  | popFrontUntilIfKeep p => exact hpop _
  | popFrontWhileIn w => exact hpop _
  | popFrontWhileIf p => exact hpop _
  | popBackUntil w =>
    obtain ⟨q, e, h⟩ := hrf w
    cases q with
    | none => simp only [step, popBackUntil, e, pure_bind]; exact ⟨_, rfl⟩
    | some pos =>
      obtain ⟨r, e'⟩ := substr_total (v := v) none (h pos rfl)
      simp only [step, popBackUntil, e, e', pure_bind]
      exact ⟨_, rfl⟩
  | popBackUntilKeep w =>
    obtain ⟨q, e, h⟩ := hrf w
    cases q with
    | none => simp only [step, popBackUntilKeep, e, pure_bind]; exact ⟨_, rfl⟩
    | some pos =>
      obtain ⟨r, e'⟩ := substr_total (v := v) none (h pos rfl)
      simp only [step, popBackUntilKeep, e, e', pure_bind]
      exact ⟨_, rfl⟩
  | popBackUntilChar c =>
    obtain ⟨q, e, h⟩ := hrf [c]
    cases q with
    | none => simp only [step, popBackUntilChar, e, pure_bind]; exact ⟨_, rfl⟩
    | some pos =>
      obtain ⟨r, e'⟩ := substr_total (v := v) (pos := pos + 1) none (h pos rfl)
      simp only [step, popBackUntilChar, e, e', pure_bind]
      exact ⟨_, rfl⟩
  | popBackUntilIf p =>
    obtain ⟨q, e, h⟩ := hlast p
    cases q with
    | none => simp only [step, popBackUntilIf, e, pure_bind]; exact ⟨_, rfl⟩
    | some pos =>
      obtain ⟨r, e'⟩ := substr_total (v := v) none (h pos rfl)
      simp only [step, popBackUntilIf, e, e', pure_bind]
      exact ⟨_, rfl⟩
  | popBackUntilIfKeep p =>
    obtain ⟨q, e, h⟩ := hlast p
    cases q with
    | none => simp only [step, popBackUntilIfKeep, e, pure_bind]; exact ⟨_, rfl⟩
    | some pos =>
      obtain ⟨r, e'⟩ := substr_total (v := v) (pos := pos) none (by have := h pos rfl; omega)
      simp only [step, popBackUntilIfKeep, e, e', pure_bind]
      exact ⟨_, rfl⟩
  | tryPopFrontUntil w =>
    obtain ⟨q, e⟩ := hfind w
    cases q with
    | none => simp only [step, tryPopFrontUntil, e, pure_bind]; exact ⟨_, rfl⟩
    | some pos =>
      obtain ⟨r, e'⟩ := hpop (some pos)
      simp only [step, tryPopFrontUntil, e, e', pure_bind]
      exact ⟨_, rfl⟩
  | tryPopFrontUntilKeep w =>
    obtain ⟨q, e⟩ := hfind w
    cases q with
    | none => simp only [step, tryPopFrontUntilKeep, e, pure_bind]; exact ⟨_, rfl⟩
    | some pos =>
      obtain ⟨r, e'⟩ := hpop (some pos)
      simp only [step, tryPopFrontUntilKeep, e, e', pure_bind]
      exact ⟨_, rfl⟩
  | tryPopFrontUntilChar c =>
    obtain ⟨q, e⟩ := hfindc c
    cases q with
    | none => simp only [step, tryPopFrontUntilChar, e, pure_bind]; exact ⟨_, rfl⟩
    | some pos =>
      obtain ⟨r, e'⟩ := hpop (some pos)
      simp only [step, tryPopFrontUntilChar, e, e', pure_bind]
      exact ⟨_, rfl⟩
  | tryPopFrontUntilIf p =>
    cases e : findFirstOfIf p (v.text m) 0 with
    | none => simp only [step, tryPopFrontUntilIf, tryPopFrontUntilIfKeep, e, pure_bind]; exact ⟨_, rfl⟩
    | some pos =>
      obtain ⟨r, e'⟩ := hpop (some pos)
      simp only [step, tryPopFrontUntilIf, tryPopFrontUntilIfKeep, e, e', pure_bind]
      exact ⟨_, rfl⟩
  | tryPopFrontUntilIfKeep p =>
    cases e : findFirstOfIf p (v.text m) 0 with
    | none => simp only [step, tryPopFrontUntilIfKeep, e]; exact ⟨_, rfl⟩
    | some pos =>
      obtain ⟨r, e'⟩ := hpop (some pos)
      simp only [step, tryPopFrontUntilIfKeep, e, e']
      exact ⟨_, rfl⟩
  | tryPopBackUntil w =>
    obtain ⟨q, e, h⟩ := hrf w
    cases q with
    | none => simp only [step, tryPopBackUntil, e, pure_bind]; exact ⟨_, rfl⟩
    | some pos =>
      obtain ⟨r, e'⟩ := substr_total (v := v) none (h pos rfl)
      simp only [step, tryPopBackUntil, e, e', pure_bind]
      exact ⟨_, rfl⟩
  | tryPopBackUntilKeep w =>
    obtain ⟨q, e, h⟩ := hrf w
    cases q with
    | none => simp only [step, tryPopBackUntilKeep, e, pure_bind]; exact ⟨_, rfl⟩
    | some pos =>
      obtain ⟨r, e'⟩ := substr_total (v := v) none (h pos rfl)
      simp only [step, tryPopBackUntilKeep, e, e', pure_bind]
      exact ⟨_, rfl⟩
  | tryPopBackUntilChar c =>
    obtain ⟨q, e, h⟩ := hrf [c]
    cases q with
    | none => simp only [step, tryPopBackUntilChar, e, pure_bind]; exact ⟨_, rfl⟩
    | some pos =>
      obtain ⟨r, e'⟩ := substr_total (v := v) (pos := pos) none (by have := h pos rfl; omega)
      simp only [step, tryPopBackUntilChar, e, e', pure_bind]
      exact ⟨_, rfl⟩
  | tryPopBackUntilCharKeep c =>
    obtain ⟨q, e, h⟩ := hrf [c]
    cases q with
    | none => simp only [step, tryPopBackUntilCharKeep, e, pure_bind]; exact ⟨_, rfl⟩
    | some pos =>
      obtain ⟨r, e'⟩ := substr_total (v := v) (pos := pos) none (by have := h pos rfl; omega)
      simp only [step, tryPopBackUntilCharKeep, e, e', pure_bind]
      exact ⟨_, rfl⟩
  | tryPopBackUntilIf p =>
    obtain ⟨q, e, h⟩ := hlast p
    cases q with
    | none => simp only [step, tryPopBackUntilIf, e, pure_bind]; exact ⟨_, rfl⟩
    | some pos =>
      obtain ⟨r, e'⟩ := substr_total (v := v) (pos := pos) none (by have := h pos rfl; omega)
      simp only [step, tryPopBackUntilIf, e, e', pure_bind]
      exact ⟨_, rfl⟩
  | tryPopBackUntilIfKeep p =>
    obtain ⟨q, e, h⟩ := hlast p
    cases q with
    | none => simp only [step, tryPopBackUntilIfKeep, e, pure_bind]; exact ⟨_, rfl⟩
    | some pos =>
      obtain ⟨r, e'⟩ := substr_total (v := v) (pos := pos) none (by have := h pos rfl; omega)
      simp only [step, tryPopBackUntilIfKeep, e, e', pure_bind]
      exact ⟨_, rfl⟩
  | removePrefixUntil w =>
    obtain ⟨q, e⟩ := hfind w
    simp only [step, removePrefixUntil, e, pure_bind]
    exact ⟨_, rfl⟩
  | removePrefixUntilKeep w =>
    obtain ⟨q, e⟩ := hfind w
    simp only [step, removePrefixUntilKeep, e, pure_bind]
    exact ⟨_, rfl⟩
  | removePrefixUntilChar c =>
    obtain ⟨q, e⟩ := hfindc c
    simp only [step, removePrefixUntilChar, e, pure_bind]
    exact ⟨_, rfl⟩
  | removePrefixUntilCharKeep c =>
    obtain ⟨q, e⟩ := hfindc c
    simp only [step, removePrefixUntilCharKeep, e, pure_bind]
    exact ⟨_, rfl⟩
  | removePrefixUntilIf p => exact ⟨_, rfl⟩
  | removePrefixWhile p => exact ⟨_, rfl⟩
  | removeSuffixWhile p =>
    obtain ⟨out, _, e, _⟩ := C17_trim_suffix m v p hv
    simp only [step, e, pure_bind]
    exact ⟨_, rfl⟩
  | trim p =>
    obtain ⟨out, _, _, e, _⟩ := C17_trim m v p hv
    simp only [step, e, pure_bind]
    exact ⟨_, rfl⟩

example := C11_no_ub_partial [5, 2, 8, 3] ⟨1, 2, false⟩ (by decide) (.removePrefix (some 1)) (by simp [View.Pre])

/-- C11: views inside the memory stay inside it, so that the previous theorem applies along a whole history. -/
theorem C11_history_in_memory [DecidableEq α] (m : List α) (v w : View) (hv : v.off + v.len ≤ m.length)
    (h : Reach m v w) : w.len = 0 ∨ w.off + w.len ≤ m.length := by
  rcases reach_within h with h | ⟨h1, h2⟩
  · exact Or.inl h
  · exact Or.inr (by omega)

example := C11_history_in_memory [5, 1, 2, 3, 2, 4] ⟨1, 5, false⟩ ⟨4, 1, false⟩ (by decide)
  (.rest (.popBack (some 1)) (.rest (.popFrontUntil [2, 3]) .refl rfl) rfl)

/-- C11 does not hold for `pop_back( )` and `pop_front( )` on an empty view, though the first is documented to leave an
empty view alone: they read a character that is not there. -/
theorem C11_pop_empty_violated (m : List α) (off : Nat) (zt : Bool) :
    popBackChar m ⟨off, 0, zt⟩ = ub ∧ popFrontChar m ⟨off, 0, zt⟩ = ub := by
  constructor
  · rfl
  · unfold popFrontChar
    rw [rd_oob (by simp [text])]
    rfl

example : Reach [5, 1, 2, 3, 2, 4] ⟨1, 5, false⟩ ⟨4, 1, false⟩ :=
  .rest (.popBack (some 1)) (.rest (.popFrontUntil [2, 3]) .refl rfl) rfl

/-! ### The zero terminated flag -/

/-- The flag says the truth: if it is set the character past the end of the view is there and is zero.
(Specification, no line of the source.) -/
def ZtOk (m : List α) (zero : α) (v : View) : Prop := v.zt = true → m[v.off + v.len]? = some zero

theorem Made.ztOk {m : List α} {zero : α} {v w : View} (hv : ZtOk m zero v) (h : Made v w) : ZtOk m zero w := by
  induction h with
  | self => exact hv
  | null => intro h; cases h
  | @removePrefix w n _ ih =>
    intro h
    have := ih h
    have hc := clip_le w n
    unfold View.removePrefix
    simp only []
    rwa [show w.off + w.clip n + (w.len - w.clip n) = w.off + w.len by omega]
  | removeSuffix n _ ih => intro h; cases h
  | clear => intro h; cases h
  | @substr w pos count h =>
    intro hz
    unfold View.substr at h
    split at h
    · have := pure_inj.1 h
      subst this
      cases hz
    · exact absurd h (ub_ne_pure _)
  | @resize u w n _ h ih =>
    intro hz
    unfold View.resize at h
    split at h
    · split at h
      · have := pure_inj.1 h
        subst this
        cases hz
      · exact absurd h (ub_ne_pure _)
    · have := pure_inj.1 h
      subst this
      exact ih hz

/-- A history that does not use `substr_unsafe`. (Specification, no line of the source.) -/
inductive ReachSafe [DecidableEq α] (m : List α) (v : View) : View → Prop
  | refl : ReachSafe m v v
  | rest {w rest result : View} (op : Op α) : op.unsafe = false → ReachSafe m v w →
      step m w op = pure (rest, result) → ReachSafe m v rest
  | result {w rest result : View} (op : Op α) : op.unsafe = false → ReachSafe m v w →
      step m w op = pure (rest, result) → ReachSafe m v result
  | expandPrefix {w u : View} (n : Nat) : ReachSafe m v w → w.expandPrefix n = pure u → ReachSafe m v u
  | expandSuffix {w u : View} (n : Nat) : ReachSafe m v w → w.expandSuffix m n = pure u → ReachSafe m v u

/-- C19, as far as it holds: along every history of operations other than `substr_unsafe`, `substr( )`,
`pop_front_unsafe( count )` and `pop_back_unsafe( count )` the flag says the truth if it did at the start.  Missing: those
four, see `C19_zero_terminated_violated`. -/
theorem C19_zero_terminated_partial [DecidableEq α] (m : List α) (zero : α) (v w : View)
    (hv : v.zt = true → m[v.off + v.len]? = some zero) (h : ReachSafe m v w) :
    w.zt = true → m[w.off + w.len]? = some zero := by
  induction h with
  | refl => exact hv
  | rest op hs _ e ih => exact (step_made hs e).1.ztOk ih
  | result op hs _ e ih => exact (step_made hs e).2.ztOk ih
  | @expandPrefix w u n _ e ih =>
    intro hz
    unfold View.expandPrefix at e
    split at e
    · have := pure_inj.1 e
      subst this
      simp only []
      rw [show w.off - n + (w.len + n) = w.off + w.len by omega]
      exact ih hz
    · exact absurd e (ub_ne_pure _)
  | @expandSuffix w u n _ e ih =>
    intro hz
    unfold View.expandSuffix at e
    split at e
    · have := pure_inj.1 e
      subst this
      cases hz
    · exact absurd e (ub_ne_pure _)

example := C19_zero_terminated_partial [1, 2, 3, 0] 0 ⟨0, 3, true⟩ ⟨1, 2, true⟩ (fun _ => rfl)
  (.rest (.removePrefix (some 1)) rfl .refl rfl) rfl

/-- C19 does not hold for the four others: of the view of the first two characters of `1, 2, 3, 0`, which is followed by
3, they make views that claim to be followed by zero. -/
theorem C19_zero_terminated_violated :
    (⟨0, 2, false⟩ : View).substrUnsafe 0 2 = pure ⟨0, 2, true⟩ ∧ (⟨0, 2, false⟩ : View).substrAll = pure ⟨0, 2, true⟩ ∧
    (⟨0, 2, false⟩ : View).popFrontUnsafe 1 = pure (⟨1, 1, false⟩, ⟨0, 2, true⟩) ∧
    (⟨0, 2, false⟩ : View).popBackUnsafe 1 = pure (⟨0, 1, false⟩, ⟨1, 1, true⟩) ∧
    [1, 2, 3, 0][2]? ≠ some 0 := ⟨rfl, rfl, rfl, rfl, by decide⟩

/-- C19: for these four the flag is right if the view they are applied to is itself followed by zero. -/
theorem C19_unsafe_partial (m : List α) (zero : α) (v w : View) (pos count : Nat)
    (hv : m[v.off + v.len]? = some zero) (h : v.substrUnsafe pos count = pure w) :
    w.zt = true → m[w.off + w.len]? = some zero := by
  intro hz
  unfold substrUnsafe at h
  split at h
  · have := pure_inj.1 h
    subst this
    have : pos + count = v.len := by simpa using hz
    simp only []
    rwa [show v.off + pos + count = v.off + v.len by omega]
  · exact absurd h (ub_ne_pure _)

example : ReachSafe [1, 2, 3, 0] ⟨0, 3, true⟩ ⟨1, 2, true⟩ ∧ [1, 2, 3, 0][0 + 3]? = some 0 :=
  ⟨.rest (.removePrefix (some 1)) rfl .refl rfl, rfl⟩

end View

end Verif.SV
