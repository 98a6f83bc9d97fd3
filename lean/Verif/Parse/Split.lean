import Verif.Parse.Int
import Verif.StringView.Views

/-
Splitting and parsing in include/daw/daw_parse_to.h.  The views are those of Verif/StringView; `none` is `npos`.
-/

namespace Verif.Parse
open Cxx SV SV.View

variable {α β : Type}

/-! ### The code -/

/-- `default_splitter`, daw_parse_to.h 203-218. -/
def defaultSplitter [DecidableEq α] (m delim : List α) (v : View) : Cxx (Option Nat × Option Nat) := do
  let pos ← find (v.text m) delim 0
  match pos with
  | some p => if p < v.len then pure (some p, some (p + delim.length)) else pure (none, none)
  | none => pure (none, none)

/-- A loop of `basic_whitespace_splitter`, daw_parse_to.h 235-237 and 245-247: the first position from `n` on where `p` does not hold. -/
def skipWhile (p : α → Bool) (m : List α) (v : View) (n : Nat) : Cxx Nat :=
  if n < v.len then do
    let c ← rd m (v.off + n)
    if p c then skipWhile p m v (n + 1) else pure n
  else pure n
termination_by v.len - n

/-- `basic_whitespace_splitter`, daw_parse_to.h 223-250; `ws` is `is_unicode_whitespace`, daw_parser_helper.h 434-466. -/
def whitespaceSplitter (skip : Bool) (ws : α → Bool) (m : List α) (v : View) : Cxx (Option Nat × Option Nat) := do
  let n ← skipWhile (fun c => !ws c) m v 0
  if n = v.len then pure (none, none)
  else if skip = false then pure (some n, some (n + 1))
  else
    let l ← skipWhile ws m v n
    pure (some n, some l)

/-- `get_positions`, daw_parse_to.h 269-279. -/
def getPositions (splitter : View → Cxx (Option Nat × Option Nat)) : Nat → View → Cxx (List View)
  | 0, _ => pure []
  | n + 1, str => do
    let (first, last) ← splitter str
    let item ← str.substr 0 first
    let rest ← getPositions splitter n (str.removePrefix last)
    pure (item :: rest)

/-- `set_value_from_string_view`, daw_parse_to.h 177-200, for converters to one type. -/
def setValues (m : List α) : List (List α → Cxx β) → List View → Cxx (List β)
  | [], _ => pure []
  | _ :: _, [] => ub
  | f :: fs, v :: vs => do
    let x ← f (v.text m)
    let xs ← setValues m fs vs
    pure (x :: xs)

/-- `parse_to`, daw_parse_to.h 289-297. -/
def parseTo (splitter : View → Cxx (Option Nat × Option Nat)) (m : List α) (fs : List (List α → Cxx β)) (str : View) : Cxx (List β) := do
  let positions ← getPositions splitter fs.length str
  setValues m fs positions

/-! ### Splitting a text -/

/-- The parts of a text between the occurrences of a delimiter, from left to right. (Specification, no line of the source.) -/
inductive Splits (d : List α) : List α → List (List α) → Prop where
  | last (xs : List α) : (∀ j, ¬Occurs d xs j) → Splits d xs [xs]
  | cons (p rest : List α) (ps : List (List α)) : (∀ j, j < p.length → ¬Occurs d (p ++ d ++ rest) j) → Splits d rest ps →
      Splits d (p ++ d ++ rest) (p :: ps)

theorem Splits.join {d xs : List α} {ps : List (List α)} (h : Splits d xs ps) : d.intercalate ps = xs ∧ ps ≠ [] := by
  induction h with
  | last xs _ => simp [List.intercalate]
  | cons p rest ps _ _ ih =>
    obtain ⟨e, hne⟩ := ih
    cases ps with
    | nil => exact absurd rfl hne
    | cons q qs =>
      refine ⟨?_, by simp⟩
      rw [← e]
      simp [List.intercalate, List.intersperse]

/-- A text has parts for every delimiter that is not empty. -/
theorem splits_exist (d : List α) (hd : d ≠ []) (n : Nat) : ∀ xs : List α, xs.length = n → ∃ ps, Splits d xs ps := by
  induction n using Nat.strongRecOn with
  | _ n ih =>
    intro xs hn
    by_cases h : ∃ i, Occurs d xs i
    · have hmin : ∃ i, Occurs d xs i ∧ ∀ j, j < i → ¬Occurs d xs j := by
        obtain ⟨i, hi⟩ := h
        induction i using Nat.strongRecOn with
        | _ i ihi =>
          by_cases hall : ∀ j, j < i → ¬Occurs d xs j
          · exact ⟨i, hi, hall⟩
          · have : ∃ j, j < i ∧ Occurs d xs j := by
              apply Classical.byContradiction
              intro hc
              exact hall fun j hj ho => hc ⟨j, hj, ho⟩
            obtain ⟨j, hj, ho⟩ := this
            exact ihi j hj ho
      obtain ⟨i, hi, hm⟩ := hmin
      have hsplit := occurs_split hi
      have hlen := occurs_length hi
      have hpos : 0 < d.length := List.length_pos_iff.2 hd
      obtain ⟨ps, hps⟩ := ih (xs.length - (i + d.length)) (by omega) (xs.drop (i + d.length)) (by simp)
      refine ⟨xs.take i :: ps, ?_⟩
      have := Splits.cons (d := d) (xs.take i) (xs.drop (i + d.length)) ps (fun j hj => by
        rw [← hsplit]
        rw [List.length_take] at hj
        exact hm j (by omega)) hps
      rwa [← hsplit] at this
    · exact ⟨[xs], .last xs fun j hj => h ⟨j, hj⟩⟩

theorem substr_none (m : List α) (v : View) : ∃ item, v.substr 0 none = pure item ∧ item.text m = v.text m := by
  refine ⟨⟨v.off + 0, v.len - 0, false⟩, ?_, rfl⟩
  rw [View.substr, if_pos (Nat.zero_le _)]

theorem substr_some (m : List α) (v : View) (n : Nat) : ∃ item, v.substr 0 (some n) = pure item ∧ item.text m = (v.text m).take n := by
  refine ⟨⟨v.off + 0, min n (v.len - 0), false⟩, ?_, ?_⟩
  · rw [View.substr, if_pos (Nat.zero_le _)]
  · simp [View.text, List.take_take]

theorem removePrefix_valid (m : List α) (v : View) (hv : v.off + v.len ≤ m.length) (l : Option Nat) :
    (v.removePrefix l).off + (v.removePrefix l).len ≤ m.length := by
  have : v.clip l ≤ v.len := by
    cases l with
    | none => simp [View.clip]
    | some n => simp [View.clip]; omega
  simp only [View.removePrefix]
  omega

/-- What a splitter does with a text that has the parts `p :: ps`. (Specification, no line of the source.) -/
def Step (splitter : View → Cxx (Option Nat × Option Nat)) (m : List α) (S : List α → List (List α) → Prop) : Prop :=
  ∀ (v : View) (p : List α) (ps : List (List α)), v.off + v.len ≤ m.length → S (v.text m) (p :: ps) →
    ∃ item f l, splitter v = pure (f, l) ∧ v.substr 0 f = pure item ∧ item.text m = p ∧
      ((ps = [] ∧ (v.removePrefix l).text m = []) ∨ S ((v.removePrefix l).text m) ps)

theorem getPositions_ok (splitter : View → Cxx (Option Nat × Option Nat)) (m : List α) (S : List α → List (List α) → Prop)
    (hne : ∀ xs, ¬S xs []) (hnil : S [] [[]]) (hstep : Step splitter m S) (n : Nat) : ∀ (v : View) (ps : List (List α)), v.off + v.len ≤ m.length →
    (S (v.text m) ps ∨ (ps = [] ∧ v.text m = [])) →
    ∃ items, getPositions splitter n v = pure items ∧ items.map (View.text m) = (ps ++ List.replicate n []).take n := by
  induction n with
  | zero => intro v ps _ _; exact ⟨[], rfl, by simp⟩
  | succ n ih =>
    intro v ps hv h
    -- without parts left the text is empty and gives an empty part
    have h' : ∃ p qs, S (v.text m) (p :: qs) ∧ (ps = p :: qs ∨ (ps = [] ∧ p = [] ∧ qs = [])) := by
      rcases h with h | ⟨rfl, h⟩
      · cases ps with
        | nil => exact absurd h (hne _)
        | cons p qs => exact ⟨p, qs, h, Or.inl rfl⟩
      · refine ⟨[], [], ?_, Or.inr ⟨rfl, rfl, rfl⟩⟩
        rw [h]
        exact hnil
    obtain ⟨p, qs, hs, hps⟩ := h'
    obtain ⟨item, f, l, e1, e2, e3, h2⟩ := hstep v p qs hv hs
    obtain ⟨items, e4, e5⟩ := ih (v.removePrefix l) qs (removePrefix_valid m v hv l) (by
      rcases h2 with ⟨rfl, h⟩ | h
      · exact Or.inr ⟨rfl, h⟩
      · exact Or.inl h)
    refine ⟨item :: items, ?_, ?_⟩
    · rw [getPositions, e1]
      simp only [pure_bind]
      rw [e2]
      simp only [pure_bind]
      rw [e4]
      rfl
    · rw [List.map_cons, e5, e3]
      rcases hps with rfl | ⟨rfl, rfl, rfl⟩
      · rw [List.cons_append, List.take_succ_cons]
        congr 1
        rw [List.replicate_succ', ← List.append_assoc,
          List.take_append_of_le_length (l₁ := qs ++ List.replicate n []) (by rw [List.length_append, List.length_replicate]; omega)]
      · simp [List.replicate_succ]

theorem defaultSplitter_step [DecidableEq α] (m d : List α) (hd : d ≠ []) : Step (defaultSplitter m d) m (Splits d) := by
  intro v p ps hv h
  obtain ⟨r, e, hr⟩ := C13_find_partial (v.text m) d 0 (Nat.zero_le _)
  have hlen := text_length hv
  have hpos : 0 < d.length := List.length_pos_iff.2 hd
  unfold defaultSplitter
  rw [e]
  simp only [pure_bind]
  generalize hxs : v.text m = xs at h hr hlen
  cases h with
  | last _ hno =>
    have : r = none := by
      cases r with
      | none => rfl
      | some i => exact absurd (hr.1 i rfl).2.2.1 (hno i)
    subst this
    obtain ⟨item, e1, e2⟩ := substr_none m v
    exact ⟨item, none, none, rfl, e1, by rw [e2, hxs], Or.inl ⟨rfl, text_removePrefix_all m v⟩⟩
  | cons _ rest _ hmin hrest =>
    have hocc : Occurs d (p ++ d ++ rest) p.length := by
      refine ⟨by simp, ?_⟩
      rw [List.append_assoc, List.drop_left]
      exact List.prefix_append _ _
    have hl : (p ++ d ++ rest).length = p.length + d.length + rest.length := by simp [Nat.add_assoc]
    have : r = some p.length := by
      cases r with
      | none => exact absurd hocc (hr.2 rfl p.length (Nat.zero_le _) (by omega))
      | some i =>
        obtain ⟨_, _, hi, him⟩ := hr.1 i rfl
        have h1 : ¬i < p.length := fun hlt => hmin i hlt hi
        have h2 : ¬p.length < i := fun hlt => him p.length (Nat.zero_le _) hlt hocc
        rw [show i = p.length by omega]
    subst this
    simp only []
    rw [if_pos (by omega)]
    obtain ⟨item, e1, e2⟩ := substr_some m v p.length
    refine ⟨item, some p.length, some (p.length + d.length), rfl, e1, ?_, Or.inr ?_⟩
    · rw [e2, hxs, List.append_assoc]
      exact List.take_left
    · rw [text_removePrefix, hxs]
      rw [show p.length + d.length = (p ++ d).length by simp, List.drop_left]
      exact hrest

/-- An empty text has one empty part. -/
theorem splits_nil {d : List α} (hd : d ≠ []) : Splits d ([] : List α) [[]] := by
  refine .last [] fun j hj => ?_
  have h1 := occurs_length hj
  have h2 : 0 < d.length := List.length_pos_iff.2 hd
  rw [List.length_nil] at h1
  omega

/-- Splitting a text at a delimiter that is not empty into `n` views gives the first `n` parts, and empty ones when there are not as many. -/
theorem C62_parts [DecidableEq α] (m d : List α) (hd : d ≠ []) (v : View) (hv : v.off + v.len ≤ m.length) (n : Nat) (ps : List (List α))
    (hps : Splits d (v.text m) ps) :
    ∃ items, getPositions (defaultSplitter m d) n v = pure items ∧ items.map (View.text m) = (ps ++ List.replicate n []).take n :=
  getPositions_ok _ m (Splits d) (fun _ h => h.join.2 rfl) (splits_nil hd) (defaultSplitter_step m d hd) n v ps hv (Or.inl hps)

/-- With as many views as there are parts, joining them with the delimiter gives the text back.  Missing are other numbers of views, see
`C62_parts`, and the empty delimiter. -/
theorem C62_join_partial [DecidableEq α] (m d : List α) (hd : d ≠ []) (v : View) (hv : v.off + v.len ≤ m.length) :
    ∃ n items, getPositions (defaultSplitter m d) n v = pure items ∧ items.length = n ∧ d.intercalate (items.map (View.text m)) = v.text m ∧
      ∀ i ∈ items, ∀ j, ¬Occurs d (i.text m) j := by
  obtain ⟨ps, hps⟩ := splits_exist d hd _ (v.text m) rfl
  obtain ⟨items, e, h⟩ := C62_parts m d hd v hv ps.length ps hps
  rw [List.take_left] at h
  have hno : ∀ {xs : List α} {ps : List (List α)}, Splits d xs ps → ∀ p ∈ ps, ∀ j, ¬Occurs d p j := by
    intro xs ps hs
    induction hs with
    | last xs h => intro p hp; rw [List.mem_singleton] at hp; subst hp; exact h
    | cons p rest ps hmin _ ih =>
      intro q hq
      rcases List.mem_cons.1 hq with rfl | hq
      · intro j hj
        have hpos : 0 < d.length := List.length_pos_iff.2 hd
        have hlen := occurs_length hj
        refine hmin j (by omega) ⟨by simp; omega, ?_⟩
        rw [List.append_assoc, List.drop_append_of_le_length (by omega)]
        exact hj.2.trans (List.prefix_append _ _)
      · exact ih q hq
  refine ⟨ps.length, items, e, ?_, ?_, ?_⟩
  · have := congrArg List.length h
    simpa using this
  · rw [h]
    exact hps.join.1
  · intro i hi
    refine hno hps (i.text m) ?_
    rw [← h]
    exact List.mem_map_of_mem hi

example : ∃ ps, Splits [44] [49, 44, 44, 50] ps ∧ ps = [[49], [], [50]] :=
  ⟨_, by
    refine .cons [49] [44, 50] [[], [50]] (fun j hj => ?_) (.cons [] [50] [[50]] (fun j hj => by simp at hj) (.last [50] fun j hj => ?_))
    · have : j = 0 := by simp at hj; omega
      subst this
      simp [Occurs]
    · have := occurs_length hj
      have : j = 0 := by simp at this; omega
      subst this
      simp [Occurs] at hj, rfl⟩

/-- With an empty delimiter every view is empty. -/
theorem C62_empty_violated [DecidableEq α] (m : List α) (n : Nat) : ∀ v : View, v.off + v.len ≤ m.length →
    ∃ items, getPositions (defaultSplitter m []) n v = pure items ∧ items.map (View.text m) = List.replicate n [] := by
  induction n with
  | zero => intro v _; exact ⟨[], rfl, rfl⟩
  | succ n ih =>
    intro v hv
    have hf : find (v.text m) [] 0 = pure (some 0) := by simp [find]
    by_cases h : 0 < v.len
    · obtain ⟨item, e1, e2⟩ := substr_some m v 0
      obtain ⟨items, e3, e4⟩ := ih (v.removePrefix (some 0)) (removePrefix_valid m v hv _)
      refine ⟨item :: items, ?_, ?_⟩
      · rw [getPositions, defaultSplitter, hf]
        simp only [pure_bind]
        rw [if_pos h]
        simp only [pure_bind]
        rw [e1]
        simp only [pure_bind, List.length_nil]
        rw [e3]
        rfl
      · rw [List.map_cons, e2, e4, List.replicate_succ]
        simp
    · obtain ⟨item, e1, e2⟩ := substr_none m v
      obtain ⟨items, e3, e4⟩ := ih (v.removePrefix none) (removePrefix_valid m v hv _)
      refine ⟨item :: items, ?_, ?_⟩
      · rw [getPositions, defaultSplitter, hf]
        simp only [pure_bind]
        rw [if_neg h]
        simp only [pure_bind]
        rw [e1]
        simp only [pure_bind]
        rw [e3]
        rfl
      · rw [List.map_cons, e2, e4, List.replicate_succ]
        congr 1
        exact List.length_eq_zero_iff.1 (by rw [text_length hv]; omega)

/-! ### White space -/

/-- The parts of a text between white space; `skip` joins a run of white space to one delimiter.
(Specification, no line of the source.) -/
inductive Words (skip : Bool) (ws : α → Bool) : List α → List (List α) → Prop where
  | last (xs : List α) : (∀ c ∈ xs, ws c = false) → Words skip ws xs [xs]
  | cons (p w rest : List α) (ps : List (List α)) : (∀ c ∈ p, ws c = false) → w ≠ [] → (∀ c ∈ w, ws c = true) →
      (skip = true → ∀ c, rest.head? = some c → ws c = false) → (skip = false → w.length = 1) → Words skip ws rest ps →
      Words skip ws (p ++ w ++ rest) (p :: ps)

/-- Every text has words. -/
theorem words_exist (skip : Bool) (ws : α → Bool) (n : Nat) : ∀ xs : List α, xs.length = n → ∃ ps, Words skip ws xs ps := by
  induction n using Nat.strongRecOn with
  | _ n ih =>
    intro xs hn
    have hxs : xs.takeWhile (fun c => !ws c) ++ xs.dropWhile (fun c => !ws c) = xs := List.takeWhile_append_dropWhile
    have htw : ∀ (p : α → Bool) (l : List α), ∀ c ∈ l.takeWhile p, p c = true := by
      intro p l
      induction l with
      | nil => simp
      | cons a l ihl =>
        intro c hc
        by_cases ha : p a = true
        · simp [ha] at hc
          rcases hc with rfl | hc
          · exact ha
          · exact ihl c hc
        · simp [ha] at hc
    have hp : ∀ c ∈ xs.takeWhile (fun c => !ws c), ws c = false := fun c hc => by simpa using htw _ _ c hc
    cases hd : xs.dropWhile (fun c => !ws c) with
    | nil =>
      rw [hd, List.append_nil] at hxs
      exact ⟨[xs], .last xs (by rw [hxs] at hp; exact hp)⟩
    | cons a t =>
      have ha : ws a = true := by
        have := List.head?_dropWhile_not (fun c => !ws c) xs
        rw [hd] at this
        simpa using this
      have hlen : (xs.takeWhile (fun c => !ws c)).length + (t.length + 1) = n := by
        rw [← hn, ← congrArg List.length hxs, hd]
        simp
      cases skip with
      | false =>
        obtain ⟨ps, hps⟩ := ih t.length (by omega) t rfl
        refine ⟨xs.takeWhile (fun c => !ws c) :: ps, ?_⟩
        have := Words.cons (skip := false) (xs.takeWhile (fun c => !ws c)) [a] t ps hp (by simp) (by simpa using ha) (by simp) (by simp) hps
        rw [List.append_assoc, List.singleton_append, ← hd, hxs] at this
        exact this
      | true =>
        have ht : t.takeWhile ws ++ t.dropWhile ws = t := List.takeWhile_append_dropWhile
        obtain ⟨ps, hps⟩ := ih (t.dropWhile ws).length (by
          have := (List.dropWhile_suffix ws (l := t)).length_le
          omega) (t.dropWhile ws) rfl
        refine ⟨xs.takeWhile (fun c => !ws c) :: ps, ?_⟩
        have := Words.cons (skip := true) (xs.takeWhile (fun c => !ws c)) (a :: t.takeWhile ws) (t.dropWhile ws) ps hp (by simp)
          (fun c hc => by
            rcases List.mem_cons.1 hc with rfl | hc
            · exact ha
            · exact htw _ _ c hc)
          (fun _ c hc => by
            have := List.head?_dropWhile_not ws t
            rw [hc] at this
            simpa using this) (by simp) hps
        rw [List.append_assoc, List.cons_append, ht, ← hd, hxs] at this
        exact this

theorem skipWhile_ok (p : α → Bool) (m : List α) (v : View) (hv : v.off + v.len ≤ m.length) (a b : List α) : ∀ (pre : List α),
    v.text m = pre ++ a ++ b → (∀ c ∈ a, p c = true) → (∀ c, b.head? = some c → p c = false) →
    skipWhile p m v pre.length = pure (pre.length + a.length) := by
  induction a with
  | nil =>
    intro pre ht ha hb
    have hlen := text_length hv
    rw [skipWhile]
    cases b with
    | nil =>
      rw [if_neg]
      · rfl
      · rw [← hlen, ht]
        simp
    | cons c b =>
      have hr : m[v.off + pre.length]? = some c := by
        have : (v.text m)[pre.length]? = some c := by
          rw [ht]
          simp
        rw [View.text, List.getElem?_take] at this
        split at this
        · rwa [List.getElem?_drop] at this
        · cases this
      rw [if_pos (by rw [← hlen, ht]; simp), rd_some hr]
      simp only [pure_bind]
      rw [if_neg (by simp [hb c rfl])]
      rfl
  | cons c a ih =>
    intro pre ht ha hb
    have hlen := text_length hv
    have hr : m[v.off + pre.length]? = some c := by
      have : (v.text m)[pre.length]? = some c := by
        rw [ht]
        simp
      rw [View.text, List.getElem?_take] at this
      split at this
      · rwa [List.getElem?_drop] at this
      · cases this
    rw [skipWhile, if_pos (by rw [← hlen, ht]; simp), rd_some hr]
    simp only [pure_bind]
    rw [if_pos (ha c (by simp))]
    have := ih (pre ++ [c]) (by simpa using ht) (fun x hx => ha x (by simp [hx])) hb
    rw [List.length_append, List.length_singleton] at this
    rw [this]
    congr 1
    simp
    omega

theorem whitespaceSplitter_step (skip : Bool) (ws : α → Bool) (m : List α) : Step (whitespaceSplitter skip ws m) m (Words skip ws) := by
  intro v p ps hv h
  have hlen := text_length hv
  unfold whitespaceSplitter
  generalize hxs : v.text m = xs at h
  cases h with
  | last _ hno =>
    have e := skipWhile_ok (fun c => !ws c) m v hv p [] [] (by simpa using hxs) (fun c hc => by simp [hno c hc]) (by simp)
    simp only [List.length_nil, Nat.zero_add] at e
    rw [e]
    simp only [pure_bind]
    rw [if_pos (by rw [← hlen, hxs])]
    obtain ⟨item, e1, e2⟩ := substr_none m v
    exact ⟨item, none, none, rfl, e1, by rw [e2, hxs], Or.inl ⟨trivial, text_removePrefix_all m v⟩⟩
  | cons _ w rest _ hp hw hws hrest hone hps =>
    obtain ⟨c, w', rfl⟩ : ∃ c w', w = c :: w' := by
      cases w with
      | nil => exact absurd rfl hw
      | cons c w' => exact ⟨c, w', rfl⟩
    have e := skipWhile_ok (fun c => !ws c) m v hv p (c :: w' ++ rest) [] (by rw [hxs]; simp) (fun c hc => by simp [hp c hc])
      (fun x hx => by
        simp at hx
        subst hx
        simp [hws c (by simp)])
    simp only [List.length_nil, Nat.zero_add] at e
    rw [e]
    simp only [pure_bind]
    have hl : v.len = p.length + (w'.length + 1) + rest.length := by
      rw [← hlen, hxs]
      simp
      omega
    rw [if_neg (by omega)]
    obtain ⟨item, e1, e2⟩ := substr_some m v p.length
    have ht : item.text m = p := by
      rw [e2, hxs, List.append_assoc]
      exact List.take_left
    cases skip with
    | false =>
      have : w' = [] := List.length_eq_zero_iff.1 (by have := hone rfl; simpa using this)
      subst this
      rw [if_pos rfl]
      refine ⟨item, some p.length, some (p.length + 1), rfl, e1, ht, Or.inr ?_⟩
      rw [text_removePrefix, hxs, show p.length + 1 = (p ++ [c]).length by simp, List.drop_left]
      exact hps
    | true =>
      rw [if_neg (by simp)]
      have e' := skipWhile_ok ws m v hv (c :: w') rest p hxs hws (hrest rfl)
      rw [e']
      refine ⟨item, some p.length, some (p.length + (c :: w').length), rfl, e1, ht, Or.inr ?_⟩
      rw [text_removePrefix, hxs, ← List.length_append, List.drop_left]
      exact hps

/-- Splitting at white space gives the words, with empty ones before leading white space, and empty views when there are not as many. -/
theorem C62_whitespace (skip : Bool) (ws : α → Bool) (m : List α) (v : View) (hv : v.off + v.len ≤ m.length) (n : Nat) :
    ∃ ps items, Words skip ws (v.text m) ps ∧ getPositions (whitespaceSplitter skip ws m) n v = pure items ∧
      items.map (View.text m) = (ps ++ List.replicate n []).take n := by
  obtain ⟨ps, hps⟩ := words_exist skip ws _ (v.text m) rfl
  obtain ⟨items, e, h⟩ := getPositions_ok _ m (Words skip ws) (fun xs h => by cases h) (.last [] (by simp)) (whitespaceSplitter_step skip ws m) n v ps hv
    (Or.inl hps)
  exact ⟨ps, items, hps, e, h⟩

example := C62_whitespace true (fun c : Nat => decide (c = 32)) [9, 65, 32, 32, 66, 9] ⟨1, 4, false⟩ (by decide) 3

/-! ### Parsing the parts -/

theorem setValues_ok (m : List α) (fs : List (List α → Cxx β)) : ∀ (items : List View) (vs : List β), items.length = fs.length → vs.length = fs.length →
    (∀ (k : Nat) (f : List α → Cxx β) (i : View) (x : β), fs[k]? = some f → items[k]? = some i → vs[k]? = some x → f (i.text m) = pure x) →
    setValues m fs items = pure vs := by
  induction fs with
  | nil =>
    intro items vs _ hv _
    have : vs = [] := List.length_eq_zero_iff.1 (by simpa using hv)
    subst this
    rfl
  | cons f fs ih =>
    intro items vs hi hv h
    rcases items with _ | ⟨i, items⟩
    · simp at hi
    rcases vs with _ | ⟨x, vs⟩
    · simp at hv
    rw [setValues, h 0 f i x rfl rfl rfl]
    simp only [pure_bind]
    rw [ih items vs (by simpa using hi) (by simpa using hv) (fun k f i x a b c => h (k + 1) f i x (by simpa using a) (by simpa using b) (by simpa using c))]
    rfl

/-- `parse_to` hands the first part to the first converter, the second to the second, and so on. -/
theorem C62_parse_to [DecidableEq α] (m d : List α) (hd : d ≠ []) (v : View) (hv : v.off + v.len ≤ m.length) (ps : List (List α))
    (hps : Splits d (v.text m) ps) (fs : List (List α → Cxx β)) (hfs : fs.length ≤ ps.length) (vs : List β) (hvs : vs.length = fs.length)
    (h : ∀ (k : Nat) (f : List α → Cxx β) (p : List α) (x : β), fs[k]? = some f → ps[k]? = some p → vs[k]? = some x → f p = pure x) :
    parseTo (defaultSplitter m d) m fs v = pure vs := by
  obtain ⟨items, e, ht⟩ := C62_parts m d hd v hv fs.length ps hps
  rw [List.take_append_of_le_length hfs] at ht
  unfold parseTo
  rw [e]
  simp only [pure_bind]
  refine setValues_ok m fs items vs ?_ hvs fun k f i x a b c => ?_
  · have := congrArg List.length ht
    simp at this
    omega
  · refine h k f _ x a ?_ c
    have := congrArg (fun l => l[k]?) ht
    simp only [List.getElem?_map, b, Option.map_some] at this
    rw [List.getElem?_take] at this
    split at this
    · exact this.symm
    · cases this

theorem occurs_mem {d xs : List α} {j : Nat} (h : Occurs d xs j) {c : α} (hc : d.head? = some c) : xs[j]? = some c := by
  obtain ⟨t, ht⟩ := h.2
  cases d with
  | nil => cases hc
  | cons a d =>
    simp at hc
    subst hc
    have : (xs.drop j)[0]? = some a := by rw [← ht]; rfl
    rwa [List.getElem?_drop] at this

/-- Texts without the first character of the delimiter, joined, are the parts. -/
theorem splits_of_join (d : List α) (c : α) (hc : d.head? = some c) : ∀ (ps : List (List α)), ps ≠ [] → (∀ p ∈ ps, c ∉ p) →
    Splits d (d.intercalate ps) ps := by
  intro ps
  induction ps with
  | nil => intro h; exact absurd rfl h
  | cons p ps ih =>
    intro _ h
    cases ps with
    | nil =>
      have : d.intercalate [p] = p := by simp [List.intercalate]
      rw [this]
      exact .last p fun j hj => h p (by simp) (List.mem_of_getElem? (occurs_mem hj hc))
    | cons q qs =>
      have e : d.intercalate (p :: q :: qs) = p ++ d ++ d.intercalate (q :: qs) := by simp [List.intercalate, List.intersperse]
      rw [e]
      refine .cons p _ _ (fun j hj ho => ?_) (ih (by simp) fun x hx => h x (by simp [hx]))
      have := occurs_mem ho hc
      rw [List.append_assoc, List.getElem?_append_left hj] at this
      exact h p (by simp) (List.mem_of_getElem? this)

theorem renderInt_chars (v : Int) : ∀ c ∈ renderInt v, c = 45 ∨ (48 ≤ c ∧ c ≤ 57) := by
  intro c hc
  unfold renderInt at hc
  have hd := render_digits v.natAbs
  split at hc
  · rcases List.mem_cons.1 hc with rfl | hc
    · exact Or.inl rfl
    · right
      simpa [isNumber] using hd c hc
  · right
    simpa [isNumber] using hd c hc

/-- Numbers written one after the other with a delimiter that starts with neither a digit nor a minus sign are read back by `parse_to`. -/
theorem C62_numbers_partial (d : List Nat) (c : Nat) (hc : d.head? = some c) (hcd : c ≠ 45 ∧ ¬(48 ≤ c ∧ c ≤ 57)) (zt : Bool) (tvs : List (Ty × Int))
    (hne : tvs ≠ []) (h : ∀ tv ∈ tvs, tv.1.Ok ∧ tv.1.Holds tv.2 ∧ (tv.1.signed = true → 32 ≤ tv.1.bits → tv.2 ≠ -2 ^ (tv.1.bits - 1))) :
    parseTo (defaultSplitter (d.intercalate (tvs.map fun tv => renderInt tv.2)) d) (d.intercalate (tvs.map fun tv => renderInt tv.2))
      (tvs.map fun tv => parseValue tv.1) ⟨0, (d.intercalate (tvs.map fun tv => renderInt tv.2)).length, zt⟩ = pure (tvs.map Prod.snd) := by
  obtain ⟨m, hm⟩ : ∃ m, m = d.intercalate (tvs.map fun tv => renderInt tv.2) := ⟨_, rfl⟩
  rw [← hm]
  have ht : View.text m ⟨0, m.length, zt⟩ = m := by simp [View.text]
  refine C62_parse_to m d (by rintro rfl; cases hc) _ (by simp) (tvs.map fun tv => renderInt tv.2) ?_ _ (by simp) _ (by simp) ?_
  · rw [ht, hm]
    refine splits_of_join d c hc _ (by simpa using hne) fun p hp hmem => ?_
    obtain ⟨tv, _, rfl⟩ := List.mem_map.1 hp
    rcases renderInt_chars tv.2 c hmem with h | h
    · exact hcd.1 h
    · exact hcd.2 h
  · intro k f p x h1 h2 h3
    rw [List.getElem?_map] at h1 h2 h3
    cases hk : tvs[k]? with
    | none => rw [hk] at h1; cases h1
    | some tv =>
      rw [hk] at h1 h2 h3
      simp only [Option.map_some, Option.some.injEq] at h1 h2 h3
      subst h1 h2 h3
      obtain ⟨a, b, c⟩ := h tv (List.mem_of_getElem? hk)
      exact C61_round_trip_partial tv.1 a tv.2 b c

example : ([32] : List Nat).head? = some 32 ∧ (32 ≠ 45 ∧ ¬(48 ≤ 32 ∧ 32 ≤ 57)) ∧
    ∀ tv ∈ ([(⟨true, 32⟩, -5), (⟨false, 8⟩, 255)] : List (Ty × Int)), tv.1.Ok ∧ tv.1.Holds tv.2 ∧
      (tv.1.signed = true → 32 ≤ tv.1.bits → tv.2 ≠ -2 ^ (tv.1.bits - 1)) := by
  refine ⟨rfl, by omega, ?_⟩
  intro tv htv
  simp only [List.mem_cons, List.not_mem_nil, or_false] at htv
  rcases htv with rfl | rfl
  · exact ⟨Or.inr (Or.inr (Or.inl rfl)), by decide, by decide⟩
  · exact ⟨Or.inl rfl, by decide, by decide⟩

/-- Text behind the last view asked for is ignored without notice. -/
theorem C62_rest_violated : parseTo (defaultSplitter [49, 32, 120] [32]) [49, 32, 120] [parseValue ⟨true, 32⟩] ⟨0, 3, true⟩ = pure [1] := by
  decide +kernel

end Verif.Parse
