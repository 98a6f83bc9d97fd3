/-
Shared vocabulary of the imperative models.

`Cxx α` is the type of runs of a piece of C++ code that returns an `α`:
* `pure a`          the run returns `a`;
* `throw .ub`       the run has undefined behaviour;
* `throw .thrown`   the run leaves by a C++ exception;
* `throw .abort`    the run ends in `std::terminate` / `std::abort`;
* `Cxx.diverge`     the run never ends.

Loops whose termination is part of a claim are defined with `partial_fixpoint`,
whose least fixed point is `Cxx.diverge` exactly when the unfolding never stops.
-/

namespace Verif

/-- Abnormal outcomes of a run. (Rule of C++ or its library, no line of the source.) -/
inductive Err where
  | ub
  | thrown
  | abort
  deriving DecidableEq, Repr

/-- Runs of C++ code. (Rule of C++ or its library, no line of the source.) -/
abbrev Cxx := ExceptT Err Option

namespace Cxx

/-- A run that never ends. (Rule of C++ or its library, no line of the source.) -/
def diverge {α : Type} : Cxx α := (none : Option (Except Err α))

/-- Undefined behaviour. (Rule of C++ or its library, no line of the source.) -/
def ub {α : Type} : Cxx α := throw Err.ub

/-- A C++ exception. (Rule of C++ or its library, no line of the source.) -/
def thrown {α : Type} : Cxx α := throw Err.thrown

/-- `std::terminate`, `std::abort`, failed `daw_ensure`. (Rule of C++ or its library, no line of the source.) -/
def abort {α : Type} : Cxx α := throw Err.abort

@[simp] theorem ub_bind {α β : Type} (f : α → Cxx β) : (ub >>= f) = ub := rfl
@[simp] theorem thrown_bind {α β : Type} (f : α → Cxx β) : (thrown >>= f) = thrown := rfl
@[simp] theorem abort_bind {α β : Type} (f : α → Cxx β) : (abort >>= f) = abort := rfl
@[simp] theorem diverge_bind {α β : Type} (f : α → Cxx β) : (diverge >>= f) = diverge := rfl

theorem pure_inj {α : Type} {a b : α} : (pure a : Cxx α) = pure b ↔ a = b := by
  constructor
  · intro h; injection h with h; injection h
  · rintro rfl; rfl

@[simp] theorem ub_ne_pure {α : Type} (a : α) : (ub : Cxx α) ≠ pure a := by
  intro h; injection h with h; injection h

@[simp] theorem thrown_ne_pure {α : Type} (a : α) : (thrown : Cxx α) ≠ pure a := by
  intro h; injection h with h; injection h

@[simp] theorem abort_ne_pure {α : Type} (a : α) : (abort : Cxx α) ≠ pure a := by
  intro h; injection h with h; injection h

@[simp] theorem diverge_ne_pure {α : Type} (a : α) : (diverge : Cxx α) ≠ pure a := by
  intro h; injection h

@[simp] theorem thrown_ne_ub {α : Type} : (thrown : Cxx α) ≠ ub := by
  intro h; injection h with h; injection h with h; injection h

/-- Total correctness: the run returns normally and its result satisfies `P`. (Specification, no line of the source.) -/
def Sat {α : Type} (x : Cxx α) (P : α → Prop) : Prop := ∃ a, x = pure a ∧ P a

theorem Sat.pure {α : Type} {a : α} {P : α → Prop} (h : P a) : Sat (Pure.pure a) P := ⟨a, rfl, h⟩

@[simp] theorem sat_pure {α : Type} {a : α} {P : α → Prop} :
    Sat (Pure.pure a : Cxx α) P ↔ P a := by
  constructor
  · rintro ⟨b, h, hb⟩; rw [pure_inj.1 h]; exact hb
  · exact Sat.pure

theorem Sat.bind {α β : Type} {x : Cxx α} {f : α → Cxx β} {P : α → Prop} {Q : β → Prop}
    (hx : Sat x P) (hf : ∀ a, P a → Sat (f a) Q) : Sat (x >>= f) Q := by
  obtain ⟨a, rfl, ha⟩ := hx
  rw [pure_bind]
  exact hf a ha

theorem Sat.mono {α : Type} {x : Cxx α} {P Q : α → Prop}
    (hx : Sat x P) (h : ∀ a, P a → Q a) : Sat x Q := by
  obtain ⟨a, rfl, ha⟩ := hx
  exact ⟨a, rfl, h a ha⟩

theorem sat_eq {α : Type} {x : Cxx α} {a : α} : Sat x (· = a) ↔ x = Pure.pure a := by
  constructor
  · rintro ⟨b, h, rfl⟩; exact h
  · intro h; exact ⟨a, h, rfl⟩

theorem bind_eq_pure {α β : Type} {x : Cxx α} {f : α → Cxx β} {b : β} :
    (x >>= f) = Pure.pure b ↔ ∃ a, x = Pure.pure a ∧ f a = Pure.pure b := by
  constructor
  · intro h
    cases hx : (x : Option (Except Err α)) with
    | none => subst hx; exact absurd h (diverge_ne_pure b)
    | some e =>
      cases e with
      | error e => subst hx; injection h with h; injection h
      | ok a => subst hx; exact ⟨a, rfl, h⟩
  · rintro ⟨a, rfl, h⟩; exact h

/-! Fixed point induction: a statement about a run that holds for a run that never ends is admissible. -/

theorem admissible {B : Type} (P : Cxx B → Prop) (h : P diverge) : Lean.Order.admissible P :=
  Lean.Order.admissible_flatOrder (b := (none : Option (Except Err B))) P h

theorem admissible1 {A B : Type} (P : A → Cxx B → Prop) (h : ∀ a, P a diverge) :
    Lean.Order.admissible (fun f : A → Cxx B => ∀ a, P a (f a)) :=
  Lean.Order.admissible_pi_apply (fun a (f : Cxx B) => P a f) fun a => admissible _ (h a)

theorem admissible2 {A1 A2 B : Type} (P : A1 → A2 → Cxx B → Prop) (h : ∀ a b, P a b diverge) :
    Lean.Order.admissible (fun f : A1 → A2 → Cxx B => ∀ a b, P a b (f a b)) :=
  Lean.Order.admissible_pi_apply (fun a (f : A2 → Cxx B) => ∀ b, P a b (f b)) fun a =>
    admissible1 (P a) (h a)

theorem admissible3 {A1 A2 A3 B : Type} (P : A1 → A2 → A3 → Cxx B → Prop) (h : ∀ a b c, P a b c diverge) :
    Lean.Order.admissible (fun f : A1 → A2 → A3 → Cxx B => ∀ a b c, P a b c (f a b c)) :=
  Lean.Order.admissible_pi_apply (fun a (f : A2 → A3 → Cxx B) => ∀ b c, P a b c (f b c)) fun a =>
    admissible2 (P a) (h a)

end Cxx

/-- Reading element `i` of a block: undefined behaviour outside the block. (Rule of C++ or its library, no line of the source.) -/
def rd {α : Type} (m : List α) (i : Nat) : Cxx α :=
  match m[i]? with
  | some a => pure a
  | none => Cxx.ub

/-- Writing element `i` of a block: undefined behaviour outside the block. (Rule of C++ or its library, no line of the source.) -/
def wr {α : Type} (m : List α) (i : Nat) (a : α) : Cxx (List α) :=
  if i < m.length then pure (m.set i a) else Cxx.ub

theorem rd_eq {α : Type} {m : List α} {i : Nat} (h : i < m.length) : rd m i = pure m[i] := by
  simp [rd, h]

theorem rd_some {α : Type} {m : List α} {i : Nat} {a : α} (h : m[i]? = some a) :
    rd m i = pure a := by
  simp [rd, h]

theorem rd_oob {α : Type} {m : List α} {i : Nat} (h : m.length ≤ i) : rd m i = Cxx.ub := by
  simp [rd, h]

theorem wr_eq {α : Type} {m : List α} {i : Nat} {a : α} (h : i < m.length) :
    wr m i a = pure (m.set i a) := by
  simp [wr, h]

theorem wr_oob {α : Type} {m : List α} {i : Nat} {a : α} (h : m.length ≤ i) :
    wr m i a = Cxx.ub := by
  simp [wr, Nat.not_lt.2 h]

/-- A strict weak ordering, the requirement the C++ standard puts on `Compare`. (Specification, no line of the source.) -/
structure StrictWeak {α : Type} (lt : α → α → Bool) : Prop where
  irrefl : ∀ a, lt a a = false
  trans : ∀ a b c, lt a b = true → lt b c = true → lt a c = true
  incomp : ∀ a b c, lt a b = false → lt b c = false → lt a c = false

namespace StrictWeak
variable {α : Type} {lt : α → α → Bool}

theorem asymm (h : StrictWeak lt) {a b : α} (hab : lt a b = true) : lt b a = false := by
  cases hba : lt b a
  · rfl
  · have := h.trans a b a hab hba
    rw [h.irrefl] at this; exact this.symm

/-- `a < b ≤ c → a < c`. -/
theorem lt_of_lt_of_le (h : StrictWeak lt) {a b c : α} (hab : lt a b = true)
    (hbc : lt c b = false) : lt a c = true := by
  cases hac : lt a c
  · have := h.incomp a c b hac hbc
    rw [hab] at this; exact this.symm
  · rfl

/-- `a ≤ b < c → a < c`. -/
theorem lt_of_le_of_lt (h : StrictWeak lt) {a b c : α} (hab : lt b a = false)
    (hbc : lt b c = true) : lt a c = true := by
  cases hac : lt a c
  · have := h.incomp b a c hab hac
    rw [hbc] at this; exact this.symm
  · rfl

/-- `a ≤ b ≤ c → a ≤ c`. -/
theorem le_trans (h : StrictWeak lt) {a b c : α} (hab : lt b a = false)
    (hbc : lt c b = false) : lt c a = false := h.incomp c b a hbc hab

theorem le_of_lt (h : StrictWeak lt) {a b : α} (hab : lt a b = true) : lt b a = false :=
  h.asymm hab

theorem le_refl (h : StrictWeak lt) (a : α) : lt a a = false := h.irrefl a

end StrictWeak

/-- The usual order of the natural numbers is a strict weak ordering. -/
theorem strictWeak_nat : StrictWeak (fun a b : Nat => decide (a < b)) where
  irrefl := by simp
  trans := by simp; omega
  incomp := by simp; omega

/-- Comparing only a key is a strict weak ordering with many equivalent elements. -/
theorem StrictWeak.comap {α : Type} {β : Type} {lt : β → β → Bool} (h : StrictWeak lt)
    (f : α → β) : StrictWeak (fun a b => lt (f a) (f b)) where
  irrefl := fun a => h.irrefl (f a)
  trans := fun a b c => h.trans (f a) (f b) (f c)
  incomp := fun a b c => h.incomp (f a) (f b) (f c)

end Verif
