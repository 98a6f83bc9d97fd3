import Verif.Containers.Lists

/-
The splitter of format texts, include/daw/format.h 26-98: fed one character after the other, it tells whether a field goes on and
counts its characters.
-/

namespace Verif.Strings.BraceSplitter
open Verif Verif.Cxx

/-- `brace_splitter_t`, format.h 26-29: `m_size` and the bits of `m_state`, of which 1 is `in_escape` and 2 `in_brace`. -/
structure Splitter where
  size : Nat
  state : BitVec 8
  deriving DecidableEq, Repr

/-- `get_state`, format.h 31-33. -/
def Splitter.get (s : Splitter) (b : BitVec 8) : Bool := s.state &&& b != 0

/-- `set_state`, format.h 35-37. -/
def Splitter.set (s : Splitter) (b : BitVec 8) : Splitter := { s with state := s.state ||| b }

/-- `unset_state`, format.h 39-41. -/
def Splitter.unset (s : Splitter) (b : BitVec 8) : Splitter := { s with state := s.state &&& ~~~b }

/-- `switch_state`, format.h 43-49: it sets what is set and unsets what is not. -/
def Splitter.switch (s : Splitter) (b : BitVec 8) : Splitter := if s.get b then s.set b else s.unset b

/-- `count_if`, format.h 51-55; `m_size` as a number, since no text has 2^64 characters. -/
def Splitter.countIf (s : Splitter) : Splitter := if s.get 2 then { s with size := s.size + 1 } else s

/-- The constructor, format.h 58-60. -/
def start : Splitter := ⟨0, 0⟩

/-- `operator( )( c )`, format.h 62-93: the end of the function, after line 92, is reached with every other character; this is undefined. -/
def step (s : Splitter) (c : Char) : Cxx (Bool × Splitter) :=
  let s := if s.state = 0 then { s with size := 0 } else s
  if c = '{' then
    if s.get 1 then pure (true, s.countIf.unset 1)
    else if s.get 2 then thrown else pure (true, s.set 2)
  else if c = '}' then
    if s.get 1 then pure (true, s.countIf.unset 1)
    else if s.get 2 then pure (false, { s with state := 0 }) else thrown
  else if c = '\\' then pure (true, (s.switch 1).countIf)
  else ub

/-- A text fed to the splitter: what it gave and what `size( )`, format.h 95-97, was after each character, and the splitter after all. -/
def feed : Splitter → List Char → Cxx (List (Bool × Nat) × Splitter)
  | s, [] => pure ([], s)
  | s, c :: cs => do
    let (b, s) ← step s c
    let (bs, s') ← feed s cs
    pure ((b, s.size) :: bs, s')

theorem feed_append (s : Splitter) (as bs : List Char) :
    feed s (as ++ bs) = (do
      let (xs, t) ← feed s as
      let (ys, u) ← feed t bs
      pure (xs ++ ys, u)) := by
  induction as generalizing s with
  | nil =>
    simp only [List.nil_append, feed, pure_bind]
    cases h : feed s bs with
    | none => rfl
    | some r => cases r <;> rfl
  | cons a as ih =>
    simp only [List.cons_append, feed]
    simp only [ih, bind_assoc, pure_bind, List.cons_append]

theorem open0 (n : Nat) : step ⟨n, 0⟩ '{' = pure (true, ⟨0, 2⟩) := by simp [step, Splitter.get, Splitter.set]

theorem open2 (n : Nat) : step ⟨n, 2⟩ '{' = thrown := by simp [step, Splitter.get]

theorem close0 (n : Nat) : step ⟨n, 0⟩ '}' = thrown := by simp [step, Splitter.get]

theorem close2 (n : Nat) : step ⟨n, 2⟩ '}' = pure (false, ⟨n, 0⟩) := by simp [step, Splitter.get]

theorem slash0 (n : Nat) : step ⟨n, 0⟩ '\\' = pure (true, ⟨0, 0⟩) := by
  simp [step, Splitter.get, Splitter.switch, Splitter.countIf, Splitter.unset]

theorem slash2 (n : Nat) : step ⟨n, 2⟩ '\\' = pure (true, ⟨n + 1, 2⟩) := by
  simp [step, Splitter.get, Splitter.switch, Splitter.countIf, Splitter.unset]

/-- The states that occur: outside of a field, or in one. -/
theorem feed_state (cs : List Char) : ∀ s : Splitter, s.state = 0 ∨ s.state = 2 → ∀ r, feed s cs = pure r → r.2.state = 0 ∨ r.2.state = 2 := by
  induction cs with
  | nil =>
    intro s h r hr
    obtain rfl := pure_inj.1 hr
    exact h
  | cons c cs ih =>
    intro s h r hr
    rw [feed, bind_eq_pure] at hr
    obtain ⟨⟨b, t⟩, h1, hr⟩ := hr
    rw [bind_eq_pure] at hr
    obtain ⟨⟨bs, u⟩, h2, hr⟩ := hr
    obtain rfl := pure_inj.1 hr
    refine ih t ?_ (bs, u) h2
    obtain ⟨n, st⟩ := s
    simp only at h
    by_cases c1 : c = '{'
    · subst c1
      rcases h with rfl | rfl
      · rw [open0] at h1
        obtain ⟨-, rfl⟩ := Prod.mk.inj (pure_inj.1 h1)
        right; rfl
      · rw [open2] at h1
        cases h1
    · by_cases c2 : c = '}'
      · subst c2
        rcases h with rfl | rfl
        · rw [close0] at h1
          cases h1
        · rw [close2] at h1
          obtain ⟨-, rfl⟩ := Prod.mk.inj (pure_inj.1 h1)
          left; rfl
      · by_cases c3 : c = '\\'
        · subst c3
          rcases h with rfl | rfl
          · rw [slash0] at h1
            obtain ⟨-, rfl⟩ := Prod.mk.inj (pure_inj.1 h1)
            left; rfl
          · rw [slash2] at h1
            obtain ⟨-, rfl⟩ := Prod.mk.inj (pure_inj.1 h1)
            right; rfl
        · simp only [step, c1, c2, c3, if_false] at h1
          exact absurd h1 (ub_ne_pure _)

theorem feed_slashes (k n : Nat) :
    feed ⟨k, 2⟩ (List.replicate n '\\') = pure ((List.range' (k + 1) n).map (fun i => (true, i)), ⟨k + n, 2⟩) := by
  induction n generalizing k with
  | zero => rfl
  | succ n ih =>
    rw [List.replicate_succ, feed]
    rw [slash2, pure_bind]
    simp only
    rw [ih (k + 1), pure_bind]
    simp only [List.range'_succ, List.map_cons]
    rw [show k + 1 + n = k + (n + 1) by omega]

/-- A field of backslashes alone. (Specification, no line of the source.) -/
def field (n : Nat) : List Char := '{' :: (List.replicate n '\\' ++ ['}'])

/-- What is expected for it: the field goes on up to the closing brace, and the characters between the braces are counted.
(Specification, no line of the source.) -/
def answers (n : Nat) : List (Bool × Nat) := (true, 0) :: ((List.range' 1 n).map (fun i => (true, i)) ++ [(false, n)])

/-- C357, as far as it holds: any number of fields of backslashes, one after the other, are told apart and counted.  Missing: fields and
texts with other characters, see `C357_text_violated`, and escapes, see `C357_escape_violated`. -/
theorem C357_fields_partial (ns : List Nat) :
    ∃ k, feed start (ns.flatMap field) = pure (ns.flatMap answers, ⟨k, 0⟩) ∧ (∀ n, ns.getLast? = some n → k = n) := by
  have one : ∀ k n, feed ⟨k, 0⟩ (field n) = pure (answers n, ⟨n, 0⟩) := by
    intro k n
    rw [field, feed]
    rw [open0, pure_bind]
    simp only
    rw [feed_append, feed_slashes, pure_bind]
    simp only [Nat.zero_add]
    have : feed ⟨n, 2⟩ ['}'] = pure ([(false, n)], ⟨n, 0⟩) := by
      simp only [feed, close2, pure_bind]
    rw [this]
    simp only [pure_bind, answers]
  have all : ∀ (ns : List Nat) (k : Nat), ∃ k', feed ⟨k, 0⟩ (ns.flatMap field) = pure (ns.flatMap answers, ⟨k', 0⟩) ∧ (∀ n, ns.getLast? = some n → k' = n) := by
    intro ns
    induction ns with
    | nil => intro k; exact ⟨k, rfl, by simp⟩
    | cons n ns ih =>
      intro k
      obtain ⟨k', h, hl⟩ := ih n
      refine ⟨k', ?_, ?_⟩
      · rw [List.flatMap_cons, feed_append, one, pure_bind]
        simp only
        rw [h, pure_bind, List.flatMap_cons]
      · intro m hm
        cases ns with
        | nil =>
          simp only [List.getLast?_singleton, Option.some.injEq] at hm
          have : feed ⟨n, 0⟩ [] = pure ([], ⟨k', 0⟩) := h
          have := congrArg (fun r => r.2.size) (pure_inj.1 this)
          simp only at this
          omega
        | cons a as => exact hl m (by rw [List.getLast?_cons_cons] at hm; exact hm)
  exact all ns 0

/-- C357: braces that do not match are reported: an opening brace in a field and a closing one outside of a field, after any text. -/
theorem C357_unmatched (cs : List Char) (r : List (Bool × Nat)) (s : Splitter) (h : feed start cs = pure (r, s)) :
    (s.state = 0 ∧ ∀ rest, feed start (cs ++ '}' :: rest) = thrown) ∨ (s.state = 2 ∧ ∀ rest, feed start (cs ++ '{' :: rest) = thrown) := by
  have hs := feed_state cs start (Or.inl rfl) _ h
  obtain ⟨n, st⟩ := s
  rcases hs with hs | hs
  · left
    simp only at hs
    subst hs
    refine ⟨rfl, fun rest => ?_⟩
    rw [feed_append, h, pure_bind]
    simp only [feed, close0]
    rfl
  · right
    simp only at hs
    subst hs
    refine ⟨rfl, fun rest => ?_⟩
    rw [feed_append, h, pure_bind]
    simp only [feed, open2]
    rfl

example : feed start (field 2) = pure ([(true, 0), (true, 1), (true, 2), (false, 2)], ⟨2, 0⟩) := by decide +kernel

/-- C357 does not hold for any text with a character other than braces and backslashes: at the first one it is undefined, in a field
or not. -/
theorem C357_text_violated (cs rest : List Char) (c : Char) (hc : c ∉ ['{', '}', '\\']) (r : List (Bool × Nat) × Splitter)
    (h : feed start cs = pure r) : feed start (cs ++ c :: rest) = ub := by
  simp only [List.mem_cons, List.not_mem_nil, or_false, not_or] at hc
  rw [feed_append, h, pure_bind]
  obtain ⟨rs, s⟩ := r
  simp only [feed]
  have : step s c = ub := by simp [step, hc.1, hc.2.1, hc.2.2]
  rw [this, ub_bind, ub_bind]

example : 'a' ∉ ['{', '}', '\\'] := by decide

/-- C357 does not hold for escapes: after any text, a backslash escapes nothing.  Outside of a field the brace after it opens one; in a
field a closing brace after it ends the field, and an opening one is reported. -/
theorem C357_escape_violated (cs : List Char) (r : List (Bool × Nat)) (s : Splitter) (h : feed start cs = pure (r, s)) :
    s.get 1 = false ∧
    (s.state = 0 → feed start (cs ++ ['\\', '{', '}']) = pure (r ++ [(true, 0), (true, 0), (false, 0)], ⟨0, 0⟩)) ∧
    (s.state = 2 → feed start (cs ++ ['\\', '}']) = pure (r ++ [(true, s.size + 1), (false, s.size + 1)], ⟨s.size + 1, 0⟩) ∧
      feed start (cs ++ ['\\', '{']) = thrown) := by
  have hs := feed_state cs start (Or.inl rfl) _ h
  obtain ⟨n, st⟩ := s
  simp only at hs
  refine ⟨?_, fun h0 => ?_, fun h2 => ⟨?_, ?_⟩⟩
  · rcases hs with rfl | rfl <;> simp [Splitter.get]
  · simp only at h0
    subst h0
    rw [feed_append, h, pure_bind]
    simp only [feed, open0, close2, slash0, pure_bind]
  · simp only at h2
    subst h2
    rw [feed_append, h, pure_bind]
    simp only [feed, close2, slash2, pure_bind]
  · simp only at h2
    subst h2
    rw [feed_append, h, pure_bind]
    simp only [feed, open2, slash2, pure_bind]
    rfl

end Verif.Strings.BraceSplitter
