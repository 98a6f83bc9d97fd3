import Verif.Vector.Insert

/- Histories of calls on two vectors. -/

namespace Verif.Vector
open Cxx

variable {α : Type}

/-- A call on the first of two vectors. (Members of `vector`, vector.h 112-1276.) -/
inductive Op (α : Type)
  | pushBack (x : Src α)
  | popBack
  | insertOne (p : Nat) (x : Src α)
  | insertFill (p n : Nat) (x : Src α)
  | insertRange (p : Nat) (ys : List α)
  | eraseOne (p : Nat)
  | eraseRange (p q : Nat)
  | resize (n : Nat) (x : Src α)
  | assignRange (ys : List α)
  | assignFill (n : Nat) (a : α)
  | reserve (n : Nat)
  | shrinkToFit
  | clear
  | swap
  | copyAssign
  | moveAssign

/-- `swap( other )`, vector.h 926-933.  As it stands a call does not compile: line 930 names `swap_allocator` without its namespace
`si_impl`.  The step is what the body does to the members. -/
def swapStep (s : Vec α × Vec α) : Vec α × Vec α := (s.2, s.1)

/-- `operator=( vector && )`, vector.h 327-336, with equal allocators: `move_assign`, vector.h 1104-1114. -/
def moveStep (s : Vec α × Vec α) : Cxx (Vec α × Vec α) := do
  let v ← s.1.vdeallocate
  pure (⟨s.2.mem, s.2.last, s.2.blocks + v.blocks⟩, Vec.empty)

/-- One call.  `false`: it left by an exception. (Members of `vector`, vector.h 112-1276.) -/
def step (env : Env) (s : Vec α × Vec α) : Op α → Cxx (Bool × (Vec α × Vec α))
  | .pushBack x => do let (ok, v) ← s.1.pushBack env x; pure (ok, v, s.2)
  | .popBack => do let v ← s.1.popBack; pure (true, v, s.2)
  | .insertOne p x => do let (ok, v, _) ← s.1.insertOne env p x; pure (ok, v, s.2)
  | .insertFill p n x => do let (ok, v, _) ← s.1.insertFill env p n x; pure (ok, v, s.2)
  | .insertRange p ys => do let (ok, v, _) ← s.1.insertRange env p ys; pure (ok, v, s.2)
  | .eraseOne p => do let (v, _) ← s.1.eraseOne p; pure (true, v, s.2)
  | .eraseRange p q => do let (v, _) ← s.1.eraseRange p q; pure (true, v, s.2)
  | .resize n x => do let (ok, v) ← s.1.resize env n x; pure (ok, v, s.2)
  | .assignRange ys => do let (ok, v) ← s.1.assignRange env ys; pure (ok, v, s.2)
  | .assignFill n a => do let (ok, v) ← s.1.assignFill env n a; pure (ok, v, s.2)
  | .reserve n => do let (ok, v) ← s.1.reserve env n; pure (ok, v, s.2)
  | .shrinkToFit => do let v ← s.1.shrinkToFit env; pure (true, v, s.2)
  | .clear => do let v ← s.1.clear; pure (true, v, s.2)
  | .swap => pure (true, swapStep s)
  | .copyAssign => do
    -- `operator=( vector const & )`, vector.h 278-284: `assign` with the elements of the other
    let ys ← s.2.toList
    let (ok, v) ← s.1.assignRange env ys
    pure (ok, v, s.2)
  | .moveAssign => do let s ← moveStep s; pure (true, s)

/-- A history of calls; the memory available may be different at each.  Result: which calls returned
normally, and the two vectors. (Members of `vector`, vector.h 112-1276.) -/
def run : List (Env × Op α) → Vec α × Vec α → Cxx (List Bool × (Vec α × Vec α))
  | [], s => pure ([], s)
  | (env, op) :: h, s => do
    let (ok, s) ← step env s op
    let (oks, s) ← run h s
    pure (ok :: oks, s)

/-! ### The specification: two sequences -/

/-- The value of an argument, if it exists. (Specification, no line of the source.) -/
def Src.val (xs : List α) : Src α → Option α
  | .ext a => some a
  | .own i => xs[i]?

/-- The documented precondition of a call on sequences `xs` and `ys`: positions are in range, a reference to
an element refers to one, sizes are below the limit of `size_type`. (Specification, no line of the source.) -/
def Op.Pre (xs : List α) : Op α → Prop
  | .pushBack x => (x.val xs).isSome ∧ xs.length + 1 < 2 ^ 64
  | .popBack => xs ≠ []
  | .insertOne p x => p ≤ xs.length ∧ (x.val xs).isSome ∧ xs.length + 1 < 2 ^ 64
  | .insertFill p n x => p ≤ xs.length ∧ (x.val xs).isSome ∧ xs.length + n < 2 ^ 64
  | .insertRange p _ => p ≤ xs.length
  | .eraseOne p => p < xs.length
  | .eraseRange p q => p ≤ q ∧ q ≤ xs.length
  | .resize n x => (x.val xs).isSome ∧ n < 2 ^ 64
  | _ => True

/-- What a call that returns normally does to the two sequences. (Specification, no line of the source.) -/
def Op.spec (s : List α × List α) : Op α → List α × List α
  | .pushBack x => (s.1 ++ (x.val s.1).toList, s.2)
  | .popBack => (s.1.dropLast, s.2)
  | .insertOne p x => (s.1.take p ++ (x.val s.1).toList ++ s.1.drop p, s.2)
  | .insertFill p n x => (s.1.take p ++ (x.val s.1).toList.flatMap (List.replicate n) ++ s.1.drop p, s.2)
  | .insertRange p ys => (s.1.take p ++ ys ++ s.1.drop p, s.2)
  | .eraseOne p => (s.1.eraseIdx p, s.2)
  | .eraseRange p q => (s.1.take p ++ s.1.drop q, s.2)
  | .resize n x => (s.1.take n ++ (x.val s.1).toList.flatMap (List.replicate (n - s.1.length)), s.2)
  | .assignRange ys => (ys, s.2)
  | .assignFill n a => (List.replicate n a, s.2)
  | .reserve _ => s
  | .shrinkToFit => s
  | .clear => ([], s.2)
  | .swap => (s.2, s.1)
  | .copyAssign => (s.2, s.2)
  | .moveAssign => (s.2, [])

/-- What a call that leaves by an exception does: nothing, except that the assignments give up the old
elements before they allocate. (Specification, no line of the source.) -/
def Op.specThrown (s : List α × List α) : Op α → List α × List α
  | .assignRange _ => ([], s.2)
  | .assignFill _ _ => ([], s.2)
  | .copyAssign => ([], s.2)
  | _ => s

/-- The sequences after a call with the given outcome. (Specification, no line of the source.) -/
def Op.after (s : List α × List α) (op : Op α) (ok : Bool) : List α × List α :=
  if ok then op.spec s else op.specThrown s

/-- The sequences after a history with the given outcomes. (Specification, no line of the source.) -/
def afterAll (s : List α × List α) : List (Op α × Bool) → List α × List α
  | [] => s
  | (op, ok) :: h => afterAll (op.after s ok) h

/-- The preconditions hold along a history with the given outcomes. (Specification, no line of the source.) -/
def Legal (s : List α × List α) : List (Op α × Bool) → Prop
  | [] => True
  | (op, ok) :: h => op.Pre s.1 ∧ Legal (op.after s ok) h

/-- The number of elements the vector has after the call, for the calls that make room for it with
`recommend`. (Specification, no line of the source.) -/
def Op.need (xs : List α) : Op α → Option Nat
  | .pushBack _ => some (xs.length + 1)
  | .insertOne _ _ => some (xs.length + 1)
  | .insertFill _ n _ => some (xs.length + n)
  | .insertRange _ ys => some (xs.length + ys.length)
  | .resize n _ => some n
  | _ => none

/-! ### One call -/

theorem Src.get_val {xs : List α} {x : Src α} (h : (x.val xs).isSome) :
    ∃ a, x.val xs = some a ∧ x.get (lv xs) = pure a := by
  obtain ⟨a, ha⟩ := Option.isSome_iff_exists.1 h
  refine ⟨a, ha, ?_⟩
  cases x with
  | ext b => simp only [Src.val, Option.some.injEq] at ha; rw [ha]; rfl
  | own i =>
    simp only [Src.val] at ha
    have := value_lv ha []
    simpa [Src.get] using this

theorem Grows.elim {env : Env} {v : Vec α} {need : Nat} {r : Cxx (Bool × Vec α)} {xs : List α}
    (h : Grows env v need r xs) :
    (∃ c v', grow env v.cap need = some c ∧ r = pure (true, v') ∧ Rep v' xs ∧ v'.cap = c) ∨
    (grow env v.cap need = none ∧ r = pure (false, v)) := by
  unfold Grows at h
  cases hg : grow env v.cap need with
  | none => rw [hg] at h; exact .inr ⟨rfl, h⟩
  | some c => rw [hg] at h; obtain ⟨v', h1, h2, h3⟩ := h; exact .inl ⟨c, v', rfl, h1, h2, h3⟩

theorem GrowsAt.elim {env : Env} {v : Vec α} {need p : Nat} {r : Cxx (Bool × Vec α × Nat)} {xs : List α}
    (h : GrowsAt env v need p r xs) :
    (∃ c v', grow env v.cap need = some c ∧ r = pure (true, v', p) ∧ Rep v' xs ∧ v'.cap = c) ∨
    (grow env v.cap need = none ∧ r = pure (false, v, p)) := by
  unfold GrowsAt at h
  cases hg : grow env v.cap need with
  | none => rw [hg] at h; exact .inr ⟨rfl, h⟩
  | some c => rw [hg] at h; obtain ⟨v', h1, h2, h3⟩ := h; exact .inl ⟨c, v', rfl, h1, h2, h3⟩

/-- Both vectors represent their sequences. (Specification, no line of the source.) -/
def Reps (s : Vec α × Vec α) (xs : List α × List α) : Prop := Rep s.1 xs.1 ∧ Rep s.2 xs.2

/-- The calls which make room: they succeed with the capacity `grow` says, or throw and change nothing. -/
theorem step_grow (env : Env) {s : Vec α × Vec α} {xs : List α × List α} (h : Reps s xs) (op : Op α)
    (hp : op.Pre xs.1) {n : Nat} (hn : op.need xs.1 = some n) :
    (∃ c s', grow env s.1.cap n = some c ∧ step env s op = pure (true, s') ∧ Reps s' (op.spec xs) ∧
      s'.1.cap = c) ∨
    (grow env s.1.cap n = none ∧ step env s op = pure (false, s)) := by
  obtain ⟨h1, h2⟩ := h
  cases op with
  | pushBack x =>
    simp only [Op.need, Option.some.injEq] at hn; subst hn
    obtain ⟨a, ha, hx⟩ := Src.get_val hp.1
    rcases (Vec.pushBack_spec env h1 hx hp.2).elim with ⟨c, v', hg, e, hr, hc⟩ | ⟨hg, e⟩
    · refine .inl ⟨c, (v', s.2), hg, by simp only [step, e, pure_bind], ⟨?_, h2⟩, hc⟩
      simpa only [Op.spec, ha, Option.toList] using hr
    · exact .inr ⟨hg, by simp only [step, e, pure_bind]⟩
  | insertOne p x =>
    simp only [Op.need, Option.some.injEq] at hn; subst hn
    obtain ⟨a, ha, hx⟩ := Src.get_val hp.2.1
    rcases (Vec.insertOne_spec env h1 hp.1 hx hp.2.2).elim with ⟨c, v', hg, e, hr, hc⟩ | ⟨hg, e⟩
    · refine .inl ⟨c, (v', s.2), hg, by simp only [step, e, pure_bind], ⟨?_, h2⟩, hc⟩
      simpa only [Op.spec, ha, Option.toList] using hr
    · exact .inr ⟨hg, by simp only [step, e, pure_bind]⟩
  | insertFill p k x =>
    simp only [Op.need, Option.some.injEq] at hn; subst hn
    obtain ⟨a, ha, hx⟩ := Src.get_val hp.2.1
    rcases (Vec.insertFill_spec env h1 hp.1 hx hp.2.2).elim with ⟨c, v', hg, e, hr, hc⟩ | ⟨hg, e⟩
    · refine .inl ⟨c, (v', s.2), hg, by simp only [step, e, pure_bind], ⟨?_, h2⟩, hc⟩
      simpa only [Op.spec, ha, Option.toList, List.flatMap_cons, List.flatMap_nil, List.append_nil] using hr
    · exact .inr ⟨hg, by simp only [step, e, pure_bind]⟩
  | insertRange p ys =>
    simp only [Op.need, Option.some.injEq] at hn; subst hn
    rcases (Vec.insertRange_spec env h1 ys hp).elim with ⟨c, v', hg, e, hr, hc⟩ | ⟨hg, e⟩
    · exact .inl ⟨c, (v', s.2), hg, by simp only [step, e, pure_bind], ⟨hr, h2⟩, hc⟩
    · exact .inr ⟨hg, by simp only [step, e, pure_bind]⟩
  | resize k x =>
    simp only [Op.need, Option.some.injEq] at hn; subst hn
    obtain ⟨a, ha, hx⟩ := Src.get_val hp.1
    rcases (Vec.resize_spec env h1 hx hp.2).elim with ⟨c, v', hg, e, hr, hc⟩ | ⟨hg, e⟩
    · refine .inl ⟨c, (v', s.2), hg, by simp only [step, e, pure_bind], ⟨?_, h2⟩, hc⟩
      simpa only [Op.spec, ha, Option.toList, List.flatMap_cons, List.flatMap_nil, List.append_nil] using hr
    · exact .inr ⟨hg, by simp only [step, e, pure_bind]⟩
  | popBack => simp [Op.need] at hn
  | eraseOne p => simp [Op.need] at hn
  | eraseRange p q => simp [Op.need] at hn
  | assignRange ys => simp [Op.need] at hn
  | assignFill n a => simp [Op.need] at hn
  | reserve n => simp [Op.need] at hn
  | shrinkToFit => simp [Op.need] at hn
  | clear => simp [Op.need] at hn
  | swap => simp [Op.need] at hn
  | copyAssign => simp [Op.need] at hn
  | moveAssign => simp [Op.need] at hn

theorem Assigns.elim {env : Env} {v : Vec α} {n : Nat} {r : Cxx (Bool × Vec α)} {xs : List α}
    (h : Assigns env v n r xs) :
    (∃ v', r = pure (true, v') ∧ Rep v' xs ∧ (n ≤ v.cap → v'.cap = v.cap) ∧ v.cap ≤ v'.cap) ∨
    (v.cap < n ∧ grow env 0 n = none ∧ r = pure (false, Vec.empty)) := by
  unfold Assigns at h
  by_cases hn : n ≤ v.cap
  · rw [if_pos hn] at h
    obtain ⟨v', h1, h2, h3⟩ := h
    exact .inl ⟨v', h1, h2, fun _ => h3, by omega⟩
  · rw [if_neg hn] at h
    cases hg : grow env 0 n with
    | none => rw [hg] at h; exact .inr ⟨by omega, rfl, h⟩
    | some c =>
      rw [hg] at h
      obtain ⟨v', h1, h2, h3⟩ := h
      have := grow_ge hg
      exact .inl ⟨v', h1, h2, fun h => absurd h hn, by omega⟩

/-- Calls after which the block of the first vector may be smaller. (Specification, no line of the source.) -/
def Op.mayShrink : Op α → Bool
  | .shrinkToFit => true
  | .swap => true
  | .moveAssign => true
  | _ => false

/-- The number of elements that has to fit for the call not to reallocate. (Specification, no line of the source.) -/
def Op.room (s : List α × List α) (op : Op α) : Nat :=
  match op with
  | .reserve n => n
  | op => (op.spec s).1.length

/-- Every call under its precondition: it has one of the two specified effects, is never undefined
behaviour, keeps the block if the elements fit, and never gives up capacity when it returns. -/
theorem step_spec (env : Env) {s : Vec α × Vec α} {xs : List α × List α} (h : Reps s xs) (op : Op α)
    (hp : op.Pre xs.1) :
    ∃ ok s', step env s op = pure (ok, s') ∧ Reps s' (op.after xs ok) ∧
      (op.mayShrink = false → (ok = true → s.1.cap ≤ s'.1.cap) ∧
        (op.room xs ≤ s.1.cap → ok = true ∧ s'.1.cap = s.1.cap)) := by
  have hgrow : ∀ n, op.need xs.1 = some n → (op.mayShrink = false → n = op.room xs ∨ n ≤ op.room xs) →
      op.specThrown xs = xs → ∃ ok s', step env s op = pure (ok, s') ∧ Reps s' (op.after xs ok) ∧
      (op.mayShrink = false → (ok = true → s.1.cap ≤ s'.1.cap) ∧
        (op.room xs ≤ s.1.cap → ok = true ∧ s'.1.cap = s.1.cap)) := by
    intro n hn hroom ht
    rcases step_grow env h op hp hn with ⟨c, s', hg, e, hr, hc⟩ | ⟨hg, e⟩
    · refine ⟨true, s', e, hr, fun hm => ⟨fun _ => ?_, fun hle => ⟨rfl, ?_⟩⟩⟩
      · by_cases hfit : n ≤ s.1.cap
        · rw [grow_fits hfit] at hg; injection hg with hg; omega
        · have := grow_ge hg; omega
      · have hfit : n ≤ s.1.cap := by rcases hroom hm with h | h <;> omega
        rw [grow_fits hfit] at hg; injection hg with hg; omega
    · refine ⟨false, s, e, by simpa [Op.after, ht] using h, fun hm => ⟨fun hh => (nomatch hh), fun hle => ?_⟩⟩
      have hfit : n ≤ s.1.cap := by rcases hroom hm with h | h <;> omega
      rw [grow_fits hfit] at hg; cases hg
  obtain ⟨h1, h2⟩ := h
  cases op with
  | pushBack x =>
    obtain ⟨a, ha, hx⟩ := Src.get_val hp.1
    exact hgrow _ rfl (fun _ => .inl (by simp [Op.room, Op.spec, ha])) rfl
  | insertOne p x =>
    obtain ⟨a, ha, hx⟩ := Src.get_val hp.2.1
    have := hp.1
    exact hgrow _ rfl (fun _ => .inl (by simp [Op.room, Op.spec, ha]; omega)) rfl
  | insertFill p k x =>
    obtain ⟨a, ha, hx⟩ := Src.get_val hp.2.1
    have := hp.1
    exact hgrow _ rfl (fun _ => .inl (by simp [Op.room, Op.spec, ha]; omega)) rfl
  | insertRange p ys =>
    have : p ≤ xs.1.length := hp
    exact hgrow _ rfl (fun _ => .inl (by simp [Op.room, Op.spec]; omega)) rfl
  | resize k x =>
    obtain ⟨a, ha, hx⟩ := Src.get_val hp.1
    exact hgrow _ rfl (fun _ => .inl (by simp [Op.room, Op.spec, ha]; omega)) rfl
  | popBack =>
    obtain ⟨v', e, hr, hc⟩ := Vec.popBack_spec h1 hp
    exact ⟨true, (v', s.2), by simp only [step, e, pure_bind], ⟨hr, h2⟩,
      fun _ => ⟨fun _ => by simp only [hc, Nat.le_refl], fun _ => ⟨rfl, hc⟩⟩⟩
  | eraseOne p =>
    obtain ⟨v', e, hr, hc⟩ := Vec.eraseOne_spec h1 hp
    refine ⟨true, (v', s.2), by simp only [step, e, pure_bind], ⟨?_, h2⟩,
      fun _ => ⟨fun _ => by simp only [hc, Nat.le_refl], fun _ => ⟨rfl, hc⟩⟩⟩
    simpa only [Op.after, Op.spec, if_true, List.eraseIdx_eq_take_drop_succ] using hr
  | eraseRange p q =>
    obtain ⟨v', e, hr, hc⟩ := Vec.eraseRange_spec h1 hp.1 hp.2
    exact ⟨true, (v', s.2), by simp only [step, e, pure_bind], ⟨hr, h2⟩,
      fun _ => ⟨fun _ => by simp only [hc, Nat.le_refl], fun _ => ⟨rfl, hc⟩⟩⟩
  | assignRange ys =>
    rcases (Vec.assignRange_spec env h1 ys).elim with ⟨v', e, hr, hc, hm⟩ | ⟨hn, hg, e⟩
    · exact ⟨true, (v', s.2), by simp only [step, e, pure_bind], ⟨hr, h2⟩,
        fun _ => ⟨fun _ => hm, fun hle => ⟨rfl, hc hle⟩⟩⟩
    · refine ⟨false, (Vec.empty, s.2), by simp only [step, e, pure_bind], ⟨rep_empty, h2⟩,
        fun _ => ⟨fun hh => (nomatch hh), fun hle => ?_⟩⟩
      simp only [Op.room, Op.spec] at hle; omega
  | assignFill n a =>
    rcases (Vec.assignFill_spec env h1 n a).elim with ⟨v', e, hr, hc, hm⟩ | ⟨hn, hg, e⟩
    · exact ⟨true, (v', s.2), by simp only [step, e, pure_bind], ⟨hr, h2⟩,
        fun _ => ⟨fun _ => hm, fun hle => ⟨rfl, hc (by simpa [Op.room, Op.spec] using hle)⟩⟩⟩
    · refine ⟨false, (Vec.empty, s.2), by simp only [step, e, pure_bind], ⟨rep_empty, h2⟩,
        fun _ => ⟨fun hh => (nomatch hh), fun hle => ?_⟩⟩
      simp only [Op.room, Op.spec, List.length_replicate] at hle; omega
  | reserve n =>
    rcases Vec.reserve_spec env h1 n with ⟨hn, e⟩ | ⟨hn, _, _, v', e, hr, hc⟩ | ⟨hn, _, e⟩
    · exact ⟨true, s, by simp only [step, e, pure_bind], ⟨h1, h2⟩, fun _ => ⟨fun _ => Nat.le_refl _, fun _ => ⟨rfl, rfl⟩⟩⟩
    · exact ⟨true, (v', s.2), by simp only [step, e, pure_bind], ⟨hr, h2⟩,
        fun _ => ⟨fun _ => by simp only [hc]; omega, fun hle => by simp only [Op.room] at hle; omega⟩⟩
    · exact ⟨false, s, by simp only [step, e, pure_bind], ⟨h1, h2⟩,
        fun _ => ⟨fun hh => (nomatch hh), fun hle => by simp only [Op.room] at hle; omega⟩⟩
  | shrinkToFit =>
    obtain ⟨v', e, hr, hc, _⟩ := Vec.shrinkToFit_spec env h1
    exact ⟨true, (v', s.2), by simp only [step, e, pure_bind], ⟨hr, h2⟩, fun hm => (nomatch hm)⟩
  | clear =>
    obtain ⟨v', e, hr, hc⟩ := Vec.clear_spec h1
    exact ⟨true, (v', s.2), by simp only [step, e, pure_bind], ⟨hr, h2⟩,
      fun _ => ⟨fun _ => by simp only [hc, Nat.le_refl], fun _ => ⟨rfl, hc⟩⟩⟩
  | swap => exact ⟨true, (s.2, s.1), rfl, ⟨h2, h1⟩, fun hm => (nomatch hm)⟩
  | copyAssign =>
    rcases (Vec.assignRange_spec env h1 xs.2).elim with ⟨v', e, hr, hc, hm⟩ | ⟨hn, hg, e⟩
    · exact ⟨true, (v', s.2), by simp only [step, Vec.toList_spec h2, e, pure_bind], ⟨hr, h2⟩,
        fun _ => ⟨fun _ => hm, fun hle => ⟨rfl, hc hle⟩⟩⟩
    · refine ⟨false, (Vec.empty, s.2), by simp only [step, Vec.toList_spec h2, e, pure_bind], ⟨rep_empty, h2⟩,
        fun _ => ⟨fun hh => (nomatch hh), fun hle => ?_⟩⟩
      simp only [Op.room, Op.spec] at hle; omega
  | moveAssign =>
    refine ⟨true, (⟨s.2.mem, s.2.last, s.2.blocks + 0⟩, Vec.empty), ?_, ⟨?_, rep_empty⟩, fun hm => (nomatch hm)⟩
    · simp only [step, moveStep, Vec.vdeallocate_spec h1, pure_bind]; rfl
    · exact h2

/-! ### Histories -/

/-- What a legal history is when the outcomes are those of the run: the preconditions are only asked for the
calls as they really happen. (Specification, no line of the source.) -/
def LegalRun (xs : List α × List α) : List (Env × Op α) → Vec α × Vec α → Prop
  | [], _ => True
  | (env, op) :: h, s => op.Pre xs.1 ∧
    ∀ ok s', step env s op = pure (ok, s') → LegalRun (op.after xs ok) h s'

/-- C04: any history of calls made under their preconditions ends (no undefined behaviour), and the
elements visible by iterating are those of the sequences on which the calls have been made; a call
that throws has left the sequences alone, or emptied the one assigned to. -/
theorem C04_history (h : List (Env × Op α)) {s : Vec α × Vec α} {xs : List α × List α} (hr : Reps s xs)
    (hl : LegalRun xs h s) :
    ∃ oks s', run h s = pure (oks, s') ∧ oks.length = h.length ∧
      Reps s' (afterAll xs ((h.map Prod.snd).zip oks)) ∧
      s'.1.toList = pure (afterAll xs ((h.map Prod.snd).zip oks)).1 ∧
      s'.2.toList = pure (afterAll xs ((h.map Prod.snd).zip oks)).2 := by
  suffices hs : ∃ oks s', run h s = pure (oks, s') ∧ oks.length = h.length ∧
      Reps s' (afterAll xs ((h.map Prod.snd).zip oks)) by
    obtain ⟨oks, s', e, hlen, hr'⟩ := hs
    exact ⟨oks, s', e, hlen, hr', Vec.toList_spec hr'.1, Vec.toList_spec hr'.2⟩
  induction h generalizing s xs with
  | nil => exact ⟨[], s, rfl, rfl, hr⟩
  | cons p h ih =>
    obtain ⟨env, op⟩ := p
    obtain ⟨hp, hrest⟩ := hl
    obtain ⟨ok, s', e, hr', _⟩ := step_spec env hr op hp
    obtain ⟨oks, s'', e2, hlen, hr''⟩ := ih hr' (hrest ok s' e)
    exact ⟨ok :: oks, s'', by simp only [run, e, e2, pure_bind], by simp [hlen], hr''⟩

/-- An environment in which at most 100 elements fit. (Specification, no line of the source.) -/
def env100 : Env := ⟨100, fun _ => true⟩

/-- The history of the example: growing, aliasing, erasing, copying. (Specification, no line of the source.) -/
def exampleHistory : List (Env × Op Nat) :=
  [(env100, .assignRange [1, 2, 3]), (env100, .insertOne 1 (.own 2)), (env100, .swap), (env100, .pushBack (.ext 9)),
   (env100, .insertFill 0 2 (.own 0)), (env100, .copyAssign), (env100, .eraseRange 1 3), (env100, .resize 120 (.own 0)),
   (env100, .moveAssign), (env100, .eraseOne 0)]

example : LegalRun ([], []) exampleHistory ((Vec.empty, Vec.empty) : Vec Nat × Vec Nat) := by
  have key : ∀ {s : Vec Nat × Vec Nat} {op : Op Nat} {ok s'} {ok2 s2}, step env100 s op = pure (ok, s') →
      step env100 s op = pure (ok2, s2) → ok2 = ok ∧ s2 = s' := by
    intro s op ok s' ok2 s2 h1 h2
    rw [h1] at h2
    have := pure_inj.1 h2
    injection this with h3 h4
    exact ⟨h3.symm, h4.symm⟩
  unfold exampleHistory
  refine ⟨by simp [Op.Pre], fun ok s' e => ?_⟩
  obtain ⟨rfl, rfl⟩ := key (by rfl) e
  refine ⟨by simp [Op.Pre, Op.after, Op.spec, Src.val], fun ok s' e => ?_⟩
  obtain ⟨rfl, rfl⟩ := key (by rfl) e
  refine ⟨by simp [Op.Pre], fun ok s' e => ?_⟩
  obtain ⟨rfl, rfl⟩ := key (by rfl) e
  refine ⟨by simp [Op.Pre, Op.after, Op.spec, Src.val], fun ok s' e => ?_⟩
  obtain ⟨rfl, rfl⟩ := key (by rfl) e
  refine ⟨by simp [Op.Pre, Op.after, Op.spec, Src.val], fun ok s' e => ?_⟩
  obtain ⟨rfl, rfl⟩ := key (by rfl) e
  refine ⟨by simp [Op.Pre], fun ok s' e => ?_⟩
  obtain ⟨rfl, rfl⟩ := key (by rfl) e
  refine ⟨by simp [Op.Pre, Op.after, Op.spec, Src.val], fun ok s' e => ?_⟩
  obtain ⟨rfl, rfl⟩ := key (by rfl) e
  refine ⟨by simp [Op.Pre, Op.after, Op.spec, Src.val], fun ok s' e => ?_⟩
  obtain ⟨rfl, rfl⟩ := key (by rfl) e
  refine ⟨by simp [Op.Pre], fun ok s' e => ?_⟩
  obtain ⟨rfl, rfl⟩ := key (by rfl) e
  exact ⟨by simp [Op.Pre, Op.after, Op.spec, Op.specThrown, Src.val], fun _ _ _ => trivial⟩

example : (do let (oks, s) ← run exampleHistory (Vec.empty, Vec.empty)
              pure (oks, ← s.1.toList, ← s.2.toList) : Cxx _) =
    pure ([true, true, true, true, true, true, true, false, true, true], [3, 2, 3], []) := by rfl

/-- C04: the value `pop_back_value` returns. -/
theorem C04_pop_back_value {v : Vec α} {xs : List α} (h : Rep v xs) (hne : xs ≠ []) :
    ∃ v', v.popBackValue = pure (xs.getLast hne, v') ∧ v'.toList = pure xs.dropLast := by
  obtain ⟨v', e, hr, _⟩ := Vec.popBackValue_spec h hne
  exact ⟨v', e, Vec.toList_spec hr⟩

example := C04_pop_back_value (v := ⟨[.live 4, .live 5, .raw], 2, 1⟩) (xs := [4, 5]) ⟨rfl, by decide, rfl, rfl⟩ (by decide)

/-- C04: element access; `at` throws outside of the sequence. -/
theorem C04_access {v : Vec α} {xs : List α} (h : Rep v xs) (i : Nat) :
    (∀ a, xs[i]? = some a → v.get i = pure a ∧ v.at i = pure a) ∧ (xs.length ≤ i → v.at i = thrown) := by
  constructor
  · intro a ha
    have hi := (List.getElem?_eq_some_iff.1 ha).1
    have e : v.get i = pure a := by unfold Vec.get; rw [h.mem]; exact value_lv ha _
    refine ⟨e, ?_⟩
    unfold Vec.at
    rw [if_neg (by rw [Vec.size, h.last]; omega)]
    exact e
  · intro hi
    unfold Vec.at
    rw [if_pos (by rw [Vec.size, h.last]; omega)]

example := C04_access (v := ⟨[.live 4, .live 5, .raw], 2, 1⟩) (xs := [4, 5]) ⟨rfl, by decide, rfl, rfl⟩ 1

/-- C04: the positions returned by the insertions and erasures are those of the first new element, and of
the element after the erased ones. -/
theorem C04_positions (env : Env) {v : Vec α} {xs : List α} (h : Rep v xs) :
    (∀ p x, (Op.insertOne p x).Pre xs → ∃ ok v', v.insertOne env p x = pure (ok, v', p)) ∧
    (∀ p n x, (Op.insertFill p n x).Pre xs → ∃ ok v', v.insertFill env p n x = pure (ok, v', p)) ∧
    (∀ p ys, (Op.insertRange p ys).Pre xs → ∃ ok v', v.insertRange env p ys = pure (ok, v', p)) ∧
    (∀ p, (Op.eraseOne p : Op α).Pre xs → ∃ v', v.eraseOne p = pure (v', p)) ∧
    (∀ p q, (Op.eraseRange p q : Op α).Pre xs → ∃ v', v.eraseRange p q = pure (v', p)) := by
  refine ⟨fun p x hp => ?_, fun p n x hp => ?_, fun p ys hp => ?_, fun p hp => ?_, fun p q hp => ?_⟩
  · obtain ⟨a, ha, hx⟩ := Src.get_val hp.2.1
    rcases (Vec.insertOne_spec env h hp.1 hx hp.2.2).elim with ⟨_, v', _, e, _⟩ | ⟨_, e⟩
    · exact ⟨_, _, e⟩
    · exact ⟨_, _, e⟩
  · obtain ⟨a, ha, hx⟩ := Src.get_val hp.2.1
    rcases (Vec.insertFill_spec env h hp.1 hx hp.2.2).elim with ⟨_, v', _, e, _⟩ | ⟨_, e⟩
    · exact ⟨_, _, e⟩
    · exact ⟨_, _, e⟩
  · rcases (Vec.insertRange_spec env h ys hp).elim with ⟨_, v', _, e, _⟩ | ⟨_, e⟩
    · exact ⟨_, _, e⟩
    · exact ⟨_, _, e⟩
  · obtain ⟨v', e, _⟩ := Vec.eraseOne_spec h hp
    exact ⟨v', e⟩
  · obtain ⟨v', e, _⟩ := Vec.eraseRange_spec h hp.1 hp.2
    exact ⟨v', e⟩

example := C04_positions ⟨100, fun _ => true⟩ (v := ⟨[.live 4, .live 5, .raw], 2, 1⟩) (xs := [4, 5]) ⟨rfl, by decide, rfl, rfl⟩

/-- C05: in every history from constructed vectors nothing is undefined (the run is a normal result), all cells
outside of the elements are raw, and the destructors of both release everything: no object and no
block is left. -/
theorem C05_lifetimes (env : Env) (as bs : List α) (h : List (Env × Op α)) {a b : Vec α}
    (ha : Vec.fromList env as = pure (some a)) (hb : Vec.fromList env bs = pure (some b))
    (hl : LegalRun (as, bs) h (a, b)) :
    ∃ oks s', run h (a, b) = pure (oks, s') ∧ s'.1.destruct = pure 0 ∧ s'.2.destruct = pure 0 ∧
      (∀ i c, s'.1.mem[i]? = some c → (c = .raw ↔ s'.1.size ≤ i)) := by
  have hfrom : ∀ {zs : List α} {v : Vec α}, Vec.fromList env zs = pure (some v) → Rep v zs := by
    intro zs v hv
    rcases Vec.fromList_spec env zs with ⟨v', e, hr, _⟩ | ⟨_, _, e⟩
    · rw [e] at hv
      have := pure_inj.1 hv
      injection this with this
      exact this ▸ hr
    · rw [e] at hv
      have := pure_inj.1 hv
      cases this
  obtain ⟨oks, s', e, _, hr, _⟩ := C04_history h (s := (a, b)) (xs := (as, bs)) ⟨hfrom ha, hfrom hb⟩ hl
  refine ⟨oks, s', e, Vec.destruct_spec hr.1, Vec.destruct_spec hr.2, ?_⟩
  intro i c hc
  rw [hr.1.mem] at hc
  rw [Vec.size, hr.1.last]
  by_cases hi : i < (afterAll (as, bs) ((h.map Prod.snd).zip oks)).1.length
  · rw [List.getElem?_append_left (by simpa using hi)] at hc
    simp only [lv, List.getElem?_map, List.getElem?_eq_getElem hi, Option.map_some, Option.some.injEq] at hc
    subst hc
    simp; omega
  · rw [List.getElem?_append_right (by simpa using hi)] at hc
    have := List.mem_of_getElem? hc
    simp only [rw', List.mem_replicate] at this
    simp only [this.2, true_iff]; omega

example : ∃ a b : Vec Nat, Vec.fromList env100 [4, 5, 6] = pure (some a) ∧ Vec.fromList env100 [7] = pure (some b) ∧
    LegalRun ([4, 5, 6], [7]) [(env100, .insertFill 1 2 (.own 2)), (env100, .eraseOne 4), (env100, .swap)] (a, b) := by
  refine ⟨_, _, rfl, rfl, ⟨by simp [Op.Pre, Src.val], fun ok s' e => ?_⟩⟩
  have e' := e
  change (pure _ : Cxx _) = pure _ at e'
  have := pure_inj.1 e'
  injection this with h1 h2
  subst h1
  exact ⟨by simp [Op.Pre, Op.after, Op.spec, Src.val], fun _ _ _ => ⟨trivial, fun _ _ _ => trivial⟩⟩

/-- C06: a call with a reference to an element of the vector itself does what it does with a copy of this
element taken before the call, for every position and every index, in place or with reallocation. -/
theorem C06_aliasing (env : Env) {s : Vec α × Vec α} {xs : List α × List α} (hr : Reps s xs) {i : Nat} {a : α}
    (hi : xs.1[i]? = some a) (p n : Nat) (hp : p ≤ xs.1.length) (hn : xs.1.length + n < 2 ^ 64)
    (h1 : xs.1.length + 1 < 2 ^ 64) :
    (∃ ok s' s'', step env s (.pushBack (.own i)) = pure (ok, s') ∧ step env s (.pushBack (.ext a)) = pure (ok, s'') ∧
      ∃ zs, s'.1.toList = pure zs ∧ s''.1.toList = pure zs ∧ (ok = true → zs = xs.1 ++ [a])) ∧
    (∃ ok s' s'', step env s (.insertOne p (.own i)) = pure (ok, s') ∧
      step env s (.insertOne p (.ext a)) = pure (ok, s'') ∧
      ∃ zs, s'.1.toList = pure zs ∧ s''.1.toList = pure zs ∧ (ok = true → zs = xs.1.take p ++ [a] ++ xs.1.drop p)) ∧
    (∃ ok s' s'', step env s (.insertFill p n (.own i)) = pure (ok, s') ∧
      step env s (.insertFill p n (.ext a)) = pure (ok, s'') ∧
      ∃ zs, s'.1.toList = pure zs ∧ s''.1.toList = pure zs ∧
        (ok = true → zs = xs.1.take p ++ List.replicate n a ++ xs.1.drop p)) := by
  have key : ∀ (o1 o2 : Op α) (k : Nat) (zs : List α), o1.Pre xs.1 → o2.Pre xs.1 → o1.need xs.1 = some k →
      o2.need xs.1 = some k → (o1.spec xs).1 = zs → (o2.spec xs).1 = zs →
      ∃ ok s' s'', step env s o1 = pure (ok, s') ∧ step env s o2 = pure (ok, s'') ∧
        ∃ ws, s'.1.toList = pure ws ∧ s''.1.toList = pure ws ∧ (ok = true → ws = zs) := by
    intro o1 o2 k zs hp1 hp2 hk1 hk2 hz1 hz2
    rcases step_grow env hr o1 hp1 hk1 with ⟨c, s', hg, e, hr1, hc⟩ | ⟨hg, e⟩
    · rcases step_grow env hr o2 hp2 hk2 with ⟨c', s'', hg', e', hr2, hc'⟩ | ⟨hg', e'⟩
      · exact ⟨true, s', s'', e, e', zs, hz1 ▸ Vec.toList_spec hr1.1, hz2 ▸ Vec.toList_spec hr2.1, fun _ => rfl⟩
      · rw [hg] at hg'; cases hg'
    · rcases step_grow env hr o2 hp2 hk2 with ⟨c', s'', hg', e', hr2, hc'⟩ | ⟨hg', e'⟩
      · rw [hg] at hg'; cases hg'
      · exact ⟨false, s, s, e, e', xs.1, Vec.toList_spec hr.1, Vec.toList_spec hr.1, fun h => (nomatch h)⟩
  have hs : (Src.val xs.1 (.own i)).isSome := by simp [Src.val, hi]
  refine ⟨key _ _ _ _ ⟨hs, h1⟩ ⟨rfl, h1⟩ rfl rfl ?_ ?_, key _ _ _ _ ⟨hp, hs, h1⟩ ⟨hp, rfl, h1⟩ rfl rfl ?_ ?_,
    key _ _ _ _ ⟨hp, hs, hn⟩ ⟨hp, rfl, hn⟩ rfl rfl ?_ ?_⟩
  all_goals simp [Op.spec, Src.val, hi]

/-- A vector with three elements and room for eight. (Specification, no line of the source.) -/
def roomy : Vec Nat := ⟨lv [1, 2, 3] ++ rw' 5, 3, 1⟩

example : Reps (roomy, Vec.empty) ([1, 2, 3], []) ∧ ([1, 2, 3] : List Nat)[2]? = some 3 :=
  ⟨⟨(Rep.of (k := 5) rfl rfl rfl).1, rep_empty⟩, rfl⟩

example : (do let (_, s) ← step env100 (roomy, Vec.empty) (.insertFill 1 2 (.own 2)); s.1.toList : Cxx _) =
    pure [1, 3, 3, 2, 3] := by rfl

/-! ### Capacity -/

/-- C07: in every history, the size never exceeds the capacity. -/
theorem C07_size_le_capacity (h : List (Env × Op α)) {s : Vec α × Vec α} {xs : List α × List α} (hr : Reps s xs)
    (hl : LegalRun xs h s) :
    ∃ oks s', run h s = pure (oks, s') ∧ s'.1.size ≤ s'.1.cap ∧ s'.2.size ≤ s'.2.cap := by
  obtain ⟨oks, s', e, _, hr', _⟩ := C04_history h hr hl
  refine ⟨oks, s', e, ?_, ?_⟩
  · rw [Vec.size, hr'.1.last]; exact hr'.1.size_le
  · rw [Vec.size, hr'.2.last]; exact hr'.2.size_le

/-- C07: a call that returns does not reduce the capacity unless it is `shrink_to_fit`, `swap` or a move. -/
theorem C07_capacity_monotone (env : Env) {s s' : Vec α × Vec α} {xs : List α × List α} (hr : Reps s xs) (op : Op α)
    (hp : op.Pre xs.1) (hm : op.mayShrink = false) (e : step env s op = pure (true, s')) :
    s.1.cap ≤ s'.1.cap := by
  obtain ⟨ok, s2, e2, _, h⟩ := step_spec env hr op hp
  rw [e] at e2
  have := pure_inj.1 e2
  injection this with h1 h2
  subst h1 h2
  exact (h hm).1 rfl

/-- The sizes along a history, all calls returning normally, stay below `n`, and no call gives up the block.
(Specification, no line of the source.) -/
def StaysBelow (n : Nat) : List α × List α → List (Env × Op α) → Prop
  | _, [] => True
  | xs, (_, op) :: h => op.Pre xs.1 ∧ op.mayShrink = false ∧ op.room xs ≤ n ∧ StaysBelow n (op.spec xs) h

/-- C07: within the capacity (for example after `reserve( n )`), no call reallocates and no call throws,
whatever memory is available. -/
theorem C07_no_reallocation (n : Nat) (h : List (Env × Op α)) {s : Vec α × Vec α} {xs : List α × List α}
    (hr : Reps s xs) (hn : n ≤ s.1.cap) (hb : StaysBelow n xs h) :
    ∃ oks s', run h s = pure (oks, s') ∧ (∀ ok ∈ oks, ok = true) ∧ s'.1.cap = s.1.cap := by
  induction h generalizing s xs with
  | nil => exact ⟨[], s, rfl, by simp, rfl⟩
  | cons p h ih =>
    obtain ⟨env, op⟩ := p
    obtain ⟨hp, hm, hroom, hrest⟩ := hb
    obtain ⟨ok, s', e, hr', hc⟩ := step_spec env hr op hp
    obtain ⟨hok, hcap⟩ := (hc hm).2 (by omega)
    subst hok
    obtain ⟨oks, s'', e2, hall, hcap2⟩ := ih hr' (by omega) hrest
    exact ⟨true :: oks, s'', by simp only [run, e, e2, pure_bind], by simpa using hall, hcap2.trans hcap⟩

example : StaysBelow 8 ([1, 2, 3], []) [(⟨0, fun _ => false⟩, .insertFill 1 4 (.own 0)),
    (⟨0, fun _ => false⟩, .pushBack (.ext 7)), (⟨0, fun _ => false⟩, .eraseRange 2 5)] ∧ 8 ≤ roomy.cap := by
  simp [StaysBelow, Op.Pre, Op.mayShrink, Op.room, Op.spec, Src.val, roomy, Vec.cap]

/-- C07: `reserve` either gives the capacity asked for, or throws and changes nothing. -/
theorem C07_reserve (env : Env) {s : Vec α × Vec α} {xs : List α × List α} (hr : Reps s xs) (n : Nat) :
    (∃ s', step env s (.reserve n) = pure (true, s') ∧ s'.1.toList = pure xs.1 ∧ s'.1.cap = max n s.1.cap) ∨
    (s.1.cap < n ∧ (env.maxSize < n ∨ env.canAlloc n = false) ∧ step env s (.reserve n) = pure (false, s)) := by
  rcases Vec.reserve_spec env hr.1 n with ⟨hn, e⟩ | ⟨hn, _, _, v', e, hr', hc⟩ | ⟨hn, hf, e⟩
  · exact .inl ⟨s, by simp only [step, e, pure_bind], Vec.toList_spec hr.1, by omega⟩
  · exact .inl ⟨(v', s.2), by simp only [step, e, pure_bind], Vec.toList_spec hr', by simp only [hc]; omega⟩
  · exact .inr ⟨hn, hf, by simp only [step, e, pure_bind]⟩

example := C07_reserve ⟨100, fun _ => true⟩ (s := (⟨[.live 4, .live 5, .raw], 2, 1⟩, ⟨[], 0, 0⟩)) (xs := ([4, 5], [])) ⟨⟨rfl, by decide, rfl, rfl⟩, ⟨rfl, by decide, rfl, rfl⟩⟩ 9

/-- C07: a call that has to enlarge the block at least doubles it, or takes all of `max_size()`. -/
theorem C07_growth (env : Env) {s s' : Vec α × Vec α} {xs : List α × List α} (hr : Reps s xs) (op : Op α)
    (hp : op.Pre xs.1) {n : Nat} (hn : op.need xs.1 = some n) (e : step env s op = pure (true, s')) :
    s'.1.cap = s.1.cap ∨ (s.1.cap < n ∧ n ≤ s'.1.cap ∧ (2 * s.1.cap ≤ s'.1.cap ∨ s'.1.cap = env.maxSize)) := by
  rcases step_grow env hr op hp hn with ⟨c, s2, hg, e2, hr', hc⟩ | ⟨hg, e2⟩
  · rw [e] at e2
    have := pure_inj.1 e2
    injection this with _ h2
    subst h2
    have hge := grow_ge hg
    unfold grow at hg
    by_cases h1 : n ≤ s.1.cap
    · rw [if_pos h1] at hg; injection hg with hg; exact .inl (by omega)
    · rw [if_neg h1] at hg
      right
      refine ⟨by omega, by omega, ?_⟩
      by_cases h2 : env.maxSize < n
      · rw [if_pos h2] at hg; cases hg
      · rw [if_neg h2] at hg
        simp only [] at hg
        by_cases h3 : s.1.cap ≥ env.maxSize / 2
        · simp only [if_pos h3] at hg
          by_cases h4 : env.canAlloc env.maxSize
          · rw [if_pos h4] at hg; injection hg with hg; right; omega
          · rw [if_neg h4] at hg; cases hg
        · simp only [if_neg h3] at hg
          by_cases h4 : env.canAlloc (max (2 * s.1.cap) n)
          · rw [if_pos h4] at hg; injection hg with hg; left; omega
          · rw [if_neg h4] at hg; cases hg
  · rw [e] at e2
    have := pure_inj.1 e2
    injection this with h1 _
    cases h1

/-- C07: a call that would need more than `max_size()` elements throws and leaves both vectors as they are,
under the precondition that the number of elements is a `size_type`.

Missing: `insert( pos, n, x )` with `size() + n ≥ 2^64` has to throw as well; it does not
(`C07_insert_wraps_violated`). -/
theorem C07_max_size_partial (env : Env) {s : Vec α × Vec α} {xs : List α × List α} (hr : Reps s xs) (op : Op α)
    (hp : op.Pre xs.1) {n : Nat} (hn : op.need xs.1 = some n) (hc : s.1.cap < n) (hmax : env.maxSize < n) :
    step env s op = pure (false, s) := by
  rcases step_grow env hr op hp hn with ⟨c, s2, hg, _⟩ | ⟨_, e2⟩
  · unfold grow at hg
    rw [if_neg (by omega), if_pos hmax] at hg
    cases hg
  · exact e2

example : Reps (roomy, Vec.empty) ([1, 2, 3], []) ∧ (Op.insertFill 0 200 (.own 1) : Op Nat).Pre [1, 2, 3] ∧
    roomy.cap < 203 ∧ env100.maxSize < 203 :=
  ⟨⟨(Rep.of (k := 5) rfl rfl rfl).1, rep_empty⟩, by simp [Op.Pre, Src.val], by decide, by decide⟩

/-- C07, violated: `insert( pos, n, x )` with `size() + n` wrapping around writes behind the block instead of
throwing `length_error`: a vector with one element, `n = 2^64 - 1`, and
any `max_size()` from 4 on. -/
theorem C07_insert_wraps_violated (a : α) (canAlloc : Nat → Bool) (ha : canAlloc 2 = true) (n ms : Nat)
    (hn : 1 + n = 2 ^ 64) (hms : 4 ≤ ms) :
    step ⟨ms, canAlloc⟩ (⟨[.live a], 1, 1⟩, Vec.empty) (.insertFill 0 n (.ext a)) = ub := by
  simp only [step, Vec.insertFill]
  rw [if_neg (by omega), if_neg (by simp [Vec.cap]; omega)]
  have h1 : add64 (Vec.size (⟨[Cell.live a], 1, 1⟩ : Vec α)) n = 0 := by
    show (1 + n) % 2 ^ 64 = 0
    omega
  rw [h1]
  have h2 : recommend ⟨ms, canAlloc⟩ 1 0 = some 2 := by
    unfold recommend
    rw [if_neg (by simp), if_neg (by simp only []; omega)]
    rfl
  have h3 : Buf.new ⟨ms, canAlloc⟩ 2 0 = some (⟨[.raw, .raw], 0, 0, 1⟩ : Buf α) := by
    simp [Buf.new, ha]
  have h4 : (⟨[Cell.live a], 1, 1⟩ : Vec α).cap = 1 := rfl
  unfold withBuf
  simp only [h4, h2, h3]
  have h5 : ∀ n, 3 ≤ n → Vec.insertFill.constructLoop (.ext a) [Cell.live a] [.raw, .raw] 0 n = (ub : Cxx (Mem α)) := by
    intro n hn
    obtain ⟨k, rfl⟩ : ∃ k, n = k + 3 := ⟨n - 3, by omega⟩
    rfl
  rw [h5 _ (by omega)]
  rfl

/-- Pushing the elements one after the other; counts how often the block changed.  Stops at an exception.
(Specification, no line of the source.) -/
def pushAll (env : Env) : List α → Nat → Vec α → Cxx (Option (Nat × Vec α))
  | [], k, v => pure (some (k, v))
  | a :: as, k, v => do
    let (ok, v') ← v.pushBack env (.ext a)
    if ok then pushAll env as (if v'.cap = v.cap then k else k + 1) v' else pure none

theorem pushAll_spec (env : Env) : ∀ (as : List α) {v : Vec α} {xs : List α} {k : Nat}, Rep v xs →
    xs.length + as.length < 2 ^ 64 →
    (k = 0 ∧ v.cap = 0 ∨ 2 ^ k ≤ 2 * v.cap ∨ v.cap = env.maxSize) → (k = 0 ∨ 2 ^ k ≤ 4 * xs.length) →
    pushAll env as k v = pure none ∨
    ∃ k' v', pushAll env as k v = pure (some (k', v')) ∧ Rep v' (xs ++ as) ∧
      (k' = 0 ∨ 2 ^ k' ≤ 4 * (xs.length + as.length)) := by
  intro as
  induction as with
  | nil => intro v xs k hr _ _ hk; exact .inr ⟨k, v, rfl, by simpa using hr, by simpa using hk⟩
  | cons a as ih =>
    intro v xs k hr hlen hcap hk
    simp only [List.length_cons] at hlen
    rcases (Vec.pushBack_spec env hr (x := .ext a) rfl (by omega)).elim with ⟨c, v', hg, e, hr', hc⟩ | ⟨hg, e⟩
    · rw [pushAll, e, pure_bind]
      simp only [if_true]
      have hge := grow_ge hg
      have hsl := hr.size_le
      have := ih (k := if v'.cap = v.cap then k else k + 1) hr' (by simp; omega) (by
        by_cases hsame : v'.cap = v.cap
        · rw [if_pos hsame, hsame]; exact hcap
        · rw [if_neg hsame]
          unfold grow at hg
          by_cases h1 : xs.length + 1 ≤ v.cap
          · rw [if_pos h1] at hg; injection hg with hg; omega
          · rw [if_neg h1] at hg
            by_cases h2 : env.maxSize < xs.length + 1
            · rw [if_pos h2] at hg; cases hg
            · rw [if_neg h2] at hg
              simp only [] at hg
              by_cases h3 : v.cap ≥ env.maxSize / 2
              · simp only [if_pos h3] at hg
                by_cases h4 : env.canAlloc env.maxSize
                · rw [if_pos h4] at hg; injection hg with hg; right; right; omega
                · rw [if_neg h4] at hg; cases hg
              · simp only [if_neg h3] at hg
                by_cases h4 : env.canAlloc (max (2 * v.cap) (xs.length + 1))
                · rw [if_pos h4] at hg; injection hg with hg
                  right; left
                  rcases hcap with ⟨rfl, h0⟩ | h | h
                  · simp; omega
                  · rw [Nat.pow_succ]; omega
                  · omega
                · rw [if_neg h4] at hg; cases hg) (by
        by_cases hsame : v'.cap = v.cap
        · rw [if_pos hsame]
          rcases hk with h | h
          · exact .inl h
          · right; simp; omega
        · rw [if_neg hsame]
          right
          simp only [List.length_append, List.length_cons, List.length_nil]
          have hnf : ¬ xs.length + 1 ≤ v.cap := by
            intro hf; rw [grow_fits hf] at hg; injection hg with hg; omega
          rcases hcap with ⟨rfl, h0⟩ | h | h
          · simp; omega
          · rw [Nat.pow_succ]; omega
          · exfalso
            unfold grow at hg
            rw [if_neg hnf, if_pos (by omega)] at hg
            cases hg)
      rcases this with h | ⟨k', v'', e2, hr'', hk'⟩
      · exact .inl h
      · refine .inr ⟨k', v'', e2, by simpa using hr'', ?_⟩
        simp only [List.length_append, List.length_cons, List.length_nil] at hk' ⊢
        rcases hk' with h | h
        · exact .inl h
        · right; omega
    · left
      rw [pushAll, e, pure_bind]
      rfl

/-- C07: pushing `n` elements to an empty vector reallocates at most about `log₂ n` times: after `k`
reallocations, `2^k ≤ 4 n`. -/
theorem C07_amortised (env : Env) (as : List α) (hlen : as.length < 2 ^ 64) {k : Nat} {v : Vec α}
    (h : pushAll env as 0 Vec.empty = pure (some (k, v))) :
    v.toList = pure as ∧ (k = 0 ∨ 2 ^ k ≤ 4 * as.length) := by
  rcases pushAll_spec env as (k := 0) rep_empty (by simpa using hlen) (.inl ⟨rfl, rfl⟩) (.inl rfl) with
    e | ⟨k', v', e, hr, hk⟩
  · rw [e] at h; cases pure_inj.1 h
  · rw [e] at h
    have := pure_inj.1 h
    injection this with this
    injection this with h1 h2
    subst h1 h2
    exact ⟨Vec.toList_spec (by simpa using hr), by simpa using hk⟩

example : ∃ v, pushAll env100 [1, 2, 3, 4, 5, 6, 7, 8, 9] 0 (Vec.empty : Vec Nat) = pure (some (5, v)) := ⟨_, rfl⟩

end Verif.Vector
