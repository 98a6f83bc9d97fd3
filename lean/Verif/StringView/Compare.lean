import Verif.StringView.Find

/-
Comparison of texts, prefixes, suffixes and containment.
-/

namespace Verif.SV
open Cxx

variable {α : Type}

/-- `a` and `b` are equivalent under `lt`. (Specification, no line of the source.) -/
def Equiv (lt : α → α → Bool) (a b : α) : Prop := lt a b = false ∧ lt b a = false

/-- The lexicographic order: at the first place where the texts are not equivalent the left one has the lesser
character or has ended. (Specification, no line of the source.) -/
def LexLt (lt : α → α → Bool) (xs ys : List α) : Prop :=
  ∃ k, (∀ i a b, i < k → xs[i]? = some a → ys[i]? = some b → Equiv lt a b) ∧
    k ≤ xs.length ∧ k < ys.length ∧
    (k = xs.length ∨ ∃ a b, xs[k]? = some a ∧ ys[k]? = some b ∧ lt a b = true)

/-- Texts of the same length with equivalent characters. (Specification, no line of the source.) -/
def LexEq (lt : α → α → Bool) (xs ys : List α) : Prop :=
  xs.length = ys.length ∧ ∀ (i : Nat) a b, xs[i]? = some a → ys[i]? = some b → Equiv lt a b

theorem lexLt_cons_of_lt {lt : α → α → Bool} {x y : α} {xs ys : List α} (h : lt x y = true) :
    LexLt lt (x :: xs) (y :: ys) :=
  ⟨0, by intros; omega, by simp, by simp, Or.inr ⟨x, y, rfl, rfl, h⟩⟩

theorem lexLt_cons {lt : α → α → Bool} {x y : α} {xs ys : List α} :
    LexLt lt (x :: xs) (y :: ys) ↔ lt x y = true ∨ (Equiv lt x y ∧ LexLt lt xs ys) := by
  constructor
  · rintro ⟨k, h1, h2, h3, h4⟩
    cases k with
    | zero =>
      rcases h4 with h4 | ⟨a, b, ha, hb, h⟩
      · simp at h4
      · simp at ha hb; subst ha; subst hb; exact Or.inl h
    | succ k =>
      refine Or.inr ⟨h1 0 x y (by omega) rfl rfl, k, fun i a b hi ha hb => h1 (i + 1) a b (by omega) ha hb,
        by simpa using h2, by simpa using h3, ?_⟩
      rcases h4 with h4 | ⟨a, b, ha, hb, h⟩
      · exact Or.inl (by simpa using h4)
      · exact Or.inr ⟨a, b, by simpa using ha, by simpa using hb, h⟩
  · rintro (h | ⟨he, k, h1, h2, h3, h4⟩)
    · exact lexLt_cons_of_lt h
    · refine ⟨k + 1, ?_, by simpa using h2, by simpa using h3, ?_⟩
      · intro i a b hi ha hb
        cases i with
        | zero => simp at ha hb; subst ha; subst hb; exact he
        | succ i => exact h1 i a b (by omega) (by simpa using ha) (by simpa using hb)
      · rcases h4 with h4 | ⟨a, b, ha, hb, h⟩
        · exact Or.inl (by simpa using h4)
        · exact Or.inr ⟨a, b, by simpa using ha, by simpa using hb, h⟩

theorem lexLt_nil_right {lt : α → α → Bool} {xs : List α} : ¬ LexLt lt xs [] := by
  rintro ⟨k, _, _, h, _⟩; simp at h

theorem lexLt_nil_cons {lt : α → α → Bool} {y : α} {ys : List α} : LexLt lt [] (y :: ys) :=
  ⟨0, by intros; omega, by simp, by simp, Or.inl rfl⟩

theorem lexEq_cons {lt : α → α → Bool} {x y : α} {xs ys : List α} :
    LexEq lt (x :: xs) (y :: ys) ↔ Equiv lt x y ∧ LexEq lt xs ys := by
  constructor
  · rintro ⟨h1, h2⟩
    exact ⟨h2 0 x y rfl rfl, by simpa using h1, fun i a b ha hb => h2 (i + 1) a b ha hb⟩
  · rintro ⟨he, h1, h2⟩
    refine ⟨by simp [h1], fun i a b ha hb => ?_⟩
    cases i with
    | zero => simp at ha hb; subst ha; subst hb; exact he
    | succ i => exact h2 i a b (by simpa using ha) (by simpa using hb)

/-- What `compare` returns on two non-empty texts. -/
theorem compare_cons {lt : α → α → Bool} {x y : α} {xs ys : List α} :
    compare lt (x :: xs) (y :: ys) =
      if lt x y then pure (-1) else if lt y x then pure 1 else compare lt xs ys := by
  unfold compare
  rw [show min (x :: xs).length (y :: ys).length = min xs.length ys.length + 1 by simp, strCompare]
  by_cases h1 : lt x y = true
  · simp [h1]
  · by_cases h2 : lt y x = true
    · simp [h1, h2]
    · simp [h1, h2]

/-- **C12**: `compare` decides the lexicographic order; it never reads outside the texts. -/
theorem C12_compare {lt : α → α → Bool} (sw : StrictWeak lt) (xs ys : List α) :
    ∃ r, compare lt xs ys = pure r ∧ (r < 0 ↔ LexLt lt xs ys) ∧ (r = 0 ↔ LexEq lt xs ys) ∧
      (r > 0 ↔ LexLt lt ys xs) := by
  induction xs generalizing ys with
  | nil =>
    cases ys with
    | nil =>
      refine ⟨0, rfl, ?_, ?_, ?_⟩
      · simp [lexLt_nil_right]
      · simp [LexEq]
      · simp [lexLt_nil_right]
    | cons y ys =>
      refine ⟨-1, rfl, ?_, ?_, ?_⟩
      · simp [lexLt_nil_cons]
      · simp [LexEq]
      · simp [lexLt_nil_right]
  | cons x xs ih =>
    cases ys with
    | nil =>
      refine ⟨1, rfl, ?_, ?_, ?_⟩
      · simp [lexLt_nil_right]
      · simp [LexEq]
      · simp [lexLt_nil_cons]
    | cons y ys =>
      rw [compare_cons]
      by_cases h1 : lt x y = true
      · rw [if_pos h1]
        have h2 := sw.asymm h1
        refine ⟨-1, rfl, ?_, ?_, ?_⟩
        · simp [lexLt_cons, h1]
        · simp [lexEq_cons, Equiv, h1]
        · simp [lexLt_cons, Equiv, h1, h2]
      · rw [if_neg h1]
        by_cases h2 : lt y x = true
        · rw [if_pos h2]
          refine ⟨1, rfl, ?_, ?_, ?_⟩
          · simp [lexLt_cons, Equiv, h1, h2]
          · simp [lexEq_cons, Equiv, h2]
          · simp [lexLt_cons, h2]
        · rw [if_neg h2]
          obtain ⟨r, e, g1, g2, g3⟩ := ih ys
          refine ⟨r, e, ?_, ?_, ?_⟩
          · simp [lexLt_cons, Equiv, h1, h2, g1]
          · simp [lexEq_cons, Equiv, h1, h2, g2]
          · simp [lexLt_cons, Equiv, h1, h2, g3]

/-- **C12**: the six operators say what they should about the lexicographic order. -/
theorem C12_operators {lt : α → α → Bool} (sw : StrictWeak lt) (xs ys : List α) :
    ∃ eq l g : Bool, (eq = true ↔ LexEq lt xs ys) ∧ (l = true ↔ LexLt lt xs ys) ∧ (g = true ↔ LexLt lt ys xs) ∧
      opEq lt xs ys = pure eq ∧ opNe lt xs ys = pure (!eq) ∧ opLt lt xs ys = pure l ∧ opLe lt xs ys = pure (!g) ∧
      opGt lt xs ys = pure g ∧ opGe lt xs ys = pure (!l) := by
  obtain ⟨r, e, h1, h2, h3⟩ := C12_compare sw xs ys
  refine ⟨r == 0, decide (r < 0), decide (r > 0), by simpa using h2, by simpa using h1, by simpa using h3, ?_⟩
  unfold opEq opNe opLt opLe opGt opGe
  simp only [e, pure_bind]
  refine ⟨trivial, rfl, trivial, ?_, trivial, ?_⟩ <;>
  · congr 1
    rw [Bool.eq_iff_iff]
    simp

/-- **C12**: over characters with a total order, `==` is equality of the texts. -/
theorem C12_equal_iff {lt : α → α → Bool} (sw : StrictWeak lt) (tot : ∀ a b, Equiv lt a b → a = b) (xs ys : List α) :
    ∃ eq, opEq lt xs ys = pure eq ∧ (eq = true ↔ xs = ys) := by
  obtain ⟨eq, _, _, h, _, _, e, _⟩ := C12_operators sw xs ys
  refine ⟨eq, e, h.trans ⟨?_, ?_⟩⟩
  · rintro ⟨hl, he⟩
    refine List.ext_getElem hl fun i h1 h2 => ?_
    exact tot _ _ (he i _ _ (List.getElem?_eq_getElem h1) (List.getElem?_eq_getElem h2))
  · rintro rfl
    refine ⟨rfl, fun i a b ha hb => ?_⟩
    rw [ha] at hb; cases hb
    exact ⟨sw.irrefl a, sw.irrefl a⟩

theorem lexLt_trans {lt : α → α → Bool} (sw : StrictWeak lt) {xs ys zs : List α} (h : LexLt lt xs ys)
    (h' : LexLt lt ys zs) : LexLt lt xs zs := by
  induction xs generalizing ys zs with
  | nil =>
    cases zs with
    | nil => exact absurd h' lexLt_nil_right
    | cons z zs => exact lexLt_nil_cons
  | cons x xs ih =>
    cases ys with
    | nil => exact absurd h lexLt_nil_right
    | cons y ys =>
      cases zs with
      | nil => exact absurd h' lexLt_nil_right
      | cons z zs =>
        rw [lexLt_cons] at h h' ⊢
        rcases h with h | ⟨he, h⟩
        · rcases h' with h' | ⟨he', h'⟩
          · exact Or.inl (sw.trans _ _ _ h h')
          · exact Or.inl (sw.lt_of_lt_of_le h he'.2)
        · rcases h' with h' | ⟨he', h'⟩
          · exact Or.inl (sw.lt_of_le_of_lt he.2 h')
          · exact Or.inr ⟨⟨sw.incomp _ _ _ he.1 he'.1, sw.incomp _ _ _ he'.2 he.2⟩, ih h h'⟩

/-- **C12**: `<` on texts is a strict weak ordering, so texts can be sorted and searched with it; for characters with a
total order it is a strict total order. -/
theorem C12_order {lt : α → α → Bool} (sw : StrictWeak lt) :
    ∃ less : List α → List α → Bool, (∀ xs ys, opLt lt xs ys = pure (less xs ys)) ∧ StrictWeak less ∧
      ((∀ a b, Equiv lt a b → a = b) → ∀ xs ys, xs ≠ ys → less xs ys = true ∨ less ys xs = true) := by
  have key : ∀ xs ys, ∃ l, opLt lt xs ys = pure l ∧ (l = true ↔ LexLt lt xs ys) := by
    intro xs ys
    obtain ⟨_, l, _, _, h, _, _, _, e, _⟩ := C12_operators sw xs ys
    exact ⟨l, e, h⟩
  have tri : ∀ xs ys, LexLt lt xs ys ∨ LexEq lt xs ys ∨ LexLt lt ys xs := by
    intro xs ys
    obtain ⟨r, _, h1, h2, h3⟩ := C12_compare sw xs ys
    rcases Int.lt_trichotomy r 0 with h | h | h
    · exact Or.inl (h1.1 h)
    · exact Or.inr (Or.inl (h2.1 h))
    · exact Or.inr (Or.inr (h3.1 h))
  have excl : ∀ xs ys, LexLt lt xs ys → ¬ LexEq lt xs ys ∧ ¬ LexLt lt ys xs := by
    intro xs ys h
    obtain ⟨r, _, h1, h2, h3⟩ := C12_compare sw xs ys
    have := h1.2 h
    exact ⟨fun h' => by have := h2.2 h'; omega, fun h' => by have := h3.2 h'; omega⟩
  have refl : ∀ xs, LexEq lt xs xs := fun xs => ⟨rfl, fun i a b ha hb => by
    rw [ha] at hb; cases hb; exact ⟨sw.irrefl a, sw.irrefl a⟩⟩
  have congrEq : ∀ xs ys zs, LexEq lt xs ys → LexEq lt ys zs → LexEq lt xs zs := by
    rintro xs ys zs ⟨l1, h1⟩ ⟨l2, h2⟩
    refine ⟨l1.trans l2, fun i a c ha hc => ?_⟩
    have hi : i < ys.length := by have := (List.getElem?_eq_some_iff.1 hc).1; omega
    have g1 := h1 i a _ ha (List.getElem?_eq_getElem hi)
    have g2 := h2 i _ c (List.getElem?_eq_getElem hi) hc
    exact ⟨sw.incomp _ _ _ g1.1 g2.1, sw.incomp _ _ _ g2.2 g1.2⟩
  have symm : ∀ xs ys, LexEq lt xs ys → LexEq lt ys xs := fun xs ys h =>
    ⟨h.1.symm, fun i a b ha hb => ⟨(h.2 i b a hb ha).2, (h.2 i b a hb ha).1⟩⟩
  have ltEq : ∀ xs ys zs, LexLt lt xs ys → LexEq lt ys zs → LexLt lt xs zs := by
    rintro xs ys zs ⟨k, h1, h2, h3, h4⟩ ⟨l, he⟩
    refine ⟨k, fun i a c hi ha hc => ?_, h2, by omega, ?_⟩
    · have hi : i < ys.length := by omega
      have g1 := h1 i a _ (by omega) ha (List.getElem?_eq_getElem hi)
      have g2 := he i _ c (List.getElem?_eq_getElem hi) hc
      exact ⟨sw.incomp _ _ _ g1.1 g2.1, sw.incomp _ _ _ g2.2 g1.2⟩
    · rcases h4 with h4 | ⟨a, b, ha, hb, hab⟩
      · exact Or.inl h4
      · have hk : k < zs.length := by omega
        exact Or.inr ⟨a, _, ha, List.getElem?_eq_getElem hk,
          sw.lt_of_lt_of_le hab (he k b _ hb (List.getElem?_eq_getElem hk)).2⟩
  have ⟨less, hless⟩ : ∃ less : List α → List α → Bool,
      ∀ xs ys, opLt lt xs ys = pure (less xs ys) ∧ (less xs ys = true ↔ LexLt lt xs ys) :=
    ⟨fun xs ys => Classical.choose (key xs ys), fun xs ys => Classical.choose_spec (key xs ys)⟩
  refine ⟨less, fun xs ys => (hless xs ys).1, ?_, ?_⟩
  · have spec := fun xs ys => (hless xs ys).2
    have specF : ∀ xs ys, (less xs ys = false ↔ ¬ LexLt lt xs ys) := by
      intro xs ys; rw [← spec, Bool.not_eq_true]
    refine ⟨fun xs => ?_, fun xs ys zs h h' => ?_, fun xs ys zs h h' => ?_⟩
    · rw [specF]; intro h; exact (excl xs xs h).1 (refl xs)
    · rw [spec] at h h' ⊢; exact lexLt_trans sw h h'
    · rw [specF] at h h' ⊢
      intro hlt
      rcases tri xs ys with h1 | h1 | h1
      · exact h h1
      · rcases tri ys zs with h2 | h2 | h2
        · exact h' h2
        · exact (excl xs zs hlt).1 (congrEq _ _ _ h1 h2)
        · exact (excl xs zs hlt).2 (ltEq _ _ _ h2 (symm _ _ h1))
      · have : LexLt lt ys zs := lexLt_trans sw h1 hlt
        exact h' this
  · intro tot xs ys hne
    rcases tri xs ys with h | h | h
    · exact Or.inl ((hless xs ys).2.2 h)
    · refine absurd ?_ hne
      exact List.ext_getElem h.1 fun i h1 h2 =>
        tot _ _ (h.2 i _ _ (List.getElem?_eq_getElem h1) (List.getElem?_eq_getElem h2))
    · exact Or.inr ((hless ys xs).2.2 h)

example : compare (fun a b : Nat => decide (a < b)) [1, 2] [1, 2, 0] = pure (-1) ∧
    compare (fun a b : Nat => decide (a < b)) [1, 3] [1, 2, 0] = pure 1 ∧
    ∀ a b : Nat, Equiv (fun a b => decide (a < b)) a b → a = b :=
  ⟨rfl, rfl, fun a b h => by have h1 := h.1; have h2 := h.2; simp at h1 h2; omega⟩

/-- Where `char` is signed, its order is not that of the bytes: the order of texts then differs from that of
`std::string_view`, which compares bytes as `unsigned char`. -/
theorem C12_signed_char_finding :
    compare (fun a b : BitVec 8 => a.slt b) [0xC3#8] [0x61#8] = pure (-1) ∧
    compare (fun a b : BitVec 8 => a.ult b) [0xC3#8] [0x61#8] = pure 1 := ⟨rfl, rfl⟩

section
variable [DecidableEq α]

theorem startsWith_loop : ∀ (xs ys : List α), ys.length ≤ xs.length →
    ∃ b, startsWith.loop xs ys = pure b ∧ (b = true ↔ ys <+: xs) := by
  intro xs ys
  induction ys generalizing xs with
  | nil => intro _; exact ⟨true, by cases xs <;> rfl, by simp⟩
  | cons y ys ih =>
    intro h
    cases xs with
    | nil => simp at h
    | cons x xs =>
      rw [startsWith.loop, List.cons_prefix_cons]
      by_cases hxy : x = y
      · obtain ⟨b, e, hb⟩ := ih xs (by simpa using h)
        rw [if_neg (by simpa using hxy)]
        exact ⟨b, e, by rw [hb]; simp [hxy]⟩
      · rw [if_pos hxy]
        exact ⟨false, rfl, by simp [Ne.symm hxy]⟩

/-- **C18**: `starts_with`. -/
theorem C18_starts_with (xs ys : List α) :
    ∃ b, startsWith xs ys = pure b ∧ (b = true ↔ ∃ rest, xs = ys ++ rest) := by
  unfold startsWith
  split
  · rename_i h
    refine ⟨false, rfl, ?_⟩
    simp only [Bool.false_eq_true, false_iff]
    rintro ⟨r, rfl⟩
    simp at h
    omega
  · obtain ⟨b, e, hb⟩ := startsWith_loop xs ys (by omega)
    exact ⟨b, e, by rw [hb]; exact ⟨fun ⟨r, h⟩ => ⟨r, h.symm⟩, fun ⟨r, h⟩ => ⟨r, h.symm⟩⟩⟩

theorem endsWith_loop (xs ys : List α) (h : ys.length ≤ xs.length) : ∀ n k, n + k = ys.length →
    ∃ b, endsWith.loop xs ys n k = pure b ∧
      (b = true ↔ ∀ i, i < n → xs[xs.length - ys.length + i]? = ys[i]?) := by
  intro n
  induction n with
  | zero => intro k _; exact ⟨true, rfl, by simp⟩
  | succ n ih =>
    intro k hk
    have h1 : xs.length - 1 - k < xs.length := by omega
    have h2 : n < ys.length := by omega
    rw [endsWith.loop, rd_eq h1, rd_eq h2]
    simp only [pure_bind]
    have e1 : xs[xs.length - ys.length + n]? = some xs[xs.length - 1 - k] := by
      rw [show xs.length - ys.length + n = xs.length - 1 - k by omega]
      exact List.getElem?_eq_getElem h1
    by_cases hxy : xs[xs.length - 1 - k] = ys[n]
    · rw [if_neg (by simpa using hxy)]
      obtain ⟨b, e, hb⟩ := ih (k + 1) (by omega)
      refine ⟨b, e, hb.trans ⟨fun g i hi => ?_, fun g i hi => g i (by omega)⟩⟩
      by_cases hin : i = n
      · subst hin; rw [e1, hxy, List.getElem?_eq_getElem h2]
      · exact g i (by omega)
    · rw [if_pos hxy]
      refine ⟨false, rfl, ?_⟩
      simp only [Bool.false_eq_true, false_iff]
      intro g
      have := g n (by omega)
      rw [e1, List.getElem?_eq_getElem h2] at this
      exact hxy (Option.some.inj this)

/-- **C18**: `ends_with`. -/
theorem C18_ends_with (xs ys : List α) :
    ∃ b, endsWith xs ys = pure b ∧ (b = true ↔ ∃ rest, xs = rest ++ ys) := by
  unfold endsWith
  split
  · rename_i h
    refine ⟨false, rfl, ?_⟩
    simp only [Bool.false_eq_true, false_iff]
    rintro ⟨r, rfl⟩
    simp at h
    omega
  · rename_i h
    have h : ys.length ≤ xs.length := by omega
    obtain ⟨b, e, hb⟩ := endsWith_loop xs ys h ys.length 0 (by omega)
    refine ⟨b, e, hb.trans ⟨fun g => ⟨xs.take (xs.length - ys.length), ?_⟩, ?_⟩⟩
    · have : xs.drop (xs.length - ys.length) = ys := by
        refine List.ext_getElem? fun i => ?_
        rw [List.getElem?_drop]
        by_cases hi : i < ys.length
        · exact g i hi
        · rw [List.getElem?_eq_none (by omega), List.getElem?_eq_none (by omega)]
      conv => lhs; rw [← List.take_append_drop (xs.length - ys.length) xs, this]
    · rintro ⟨r, rfl⟩ i hi
      rw [List.getElem?_append_right (by simp)]
      simp

/-- **C18**: `contains`. -/
theorem C18_contains (xs ys : List α) :
    ∃ b, contains xs ys = pure b ∧ (b = true ↔ ∃ pre post, xs = pre ++ ys ++ post) := by
  obtain ⟨r, e, h1, h2⟩ := C13_find_partial xs ys 0 (Nat.zero_le _)
  refine ⟨r.isSome, by unfold contains; rw [e]; rfl, ?_⟩
  constructor
  · intro h
    obtain ⟨i, hi⟩ := Option.isSome_iff_exists.1 h
    obtain ⟨_, _, ⟨hle, t, ht⟩, _⟩ := h1 i hi
    exact ⟨xs.take i, t, by rw [List.append_assoc, ht, List.take_append_drop]⟩
  · rintro ⟨pre, post, rfl⟩
    cases r with
    | some i => rfl
    | none =>
      refine absurd ?_ (h2 rfl pre.length (Nat.zero_le _) (by simp; omega))
      exact ⟨by simp, post, by simp⟩

/-- C18 does not hold for `contains( s, pos, count )`: the position is used as a truth value, so a text that starts with
the needle does not contain it and one that does not contain it does. -/
theorem C18_contains_count_violated : containsPtr [1, 2, 3] [1, 2] 0 = pure false ∧
    containsPtr [1, 2, 3] [4] 0 = pure true := ⟨rfl, rfl⟩

/-- C18, what `contains( s, pos, count )` says.  Missing: that it tells containment. -/
theorem C18_contains_count_partial (xs ys : List α) (pos : Nat) (hpos : pos ≤ xs.length) :
    ∃ b, containsPtr xs ys pos = pure b ∧ (b = false ↔ pos = 0 ∧ ys <+: xs) := by
  obtain ⟨r, e, h1, h2⟩ := C13_find_partial xs ys pos hpos
  refine ⟨r != some 0, by unfold containsPtr; rw [e]; rfl, ?_⟩
  rw [bne_eq_false_iff_eq]
  constructor
  · rintro rfl
    obtain ⟨h, _, ⟨_, hp⟩, _⟩ := h1 0 rfl
    exact ⟨by omega, by simpa using hp⟩
  · rintro ⟨rfl, hp⟩
    have hocc : Occurs ys xs 0 := ⟨by simp, by simpa using hp⟩
    cases r with
    | none => exact absurd hocc (h2 rfl 0 (Nat.le_refl _) (by omega))
    | some i =>
      obtain ⟨_, _, _, hmin⟩ := h1 i rfl
      by_cases hi : i = 0
      · rw [hi]
      · exact absurd hocc (hmin 0 (Nat.le_refl _) (by omega))

example := C18_contains_count_partial [1, 2, 3] [2, 3] 1 (by decide)

end

end Verif.SV
