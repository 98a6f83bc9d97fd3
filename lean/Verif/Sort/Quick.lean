import Verif.Sort.Insertion

/- C01: the quicksort. -/

namespace Verif.Sort
open Cxx Verif.Algorithm

variable {α : Type} {lt : α → α → Bool}

/-- Every element of `[lo, hi)` satisfies `P`. (Specification, no line of the source.) -/
def AllIn (P : α → Prop) (xs : List α) (lo hi : Nat) : Prop :=
  ∀ k a, lo ≤ k → k < hi → xs[k]? = some a → P a

theorem scanUp_spec (p : α → Bool) (xs : List α) (s : Nat) (x : α) (hx : xs[s]? = some x)
    (hp : p x = false) : ∀ n i, s - i = n → i ≤ s →
    ∃ r y, scanUp p xs i = pure r ∧ i ≤ r ∧ r ≤ s ∧ AllIn (fun a => p a = true) xs i r ∧
      xs[r]? = some y ∧ p y = false := by
  have hs : s < xs.length := (List.getElem?_eq_some_iff.1 hx).1
  intro n
  induction n with
  | zero =>
    intro i hn hi
    have : i = s := by omega
    subst this
    rw [scanUp, rd_some hx]
    exact ⟨i, x, by simp [hp], Nat.le_refl _, Nat.le_refl _, by intro k a; omega, hx, hp⟩
  | succ n ih =>
    intro i hn hi
    obtain ⟨z, hz⟩ := getElem?_of_lt (xs := xs) (i := i) (by omega)
    rw [scanUp, rd_some hz]
    simp only [pure_bind]
    by_cases h : p z
    · obtain ⟨r, y, e, h1, h2, h3, h4, h5⟩ := ih (i + 1) (by omega) (by omega)
      refine ⟨r, y, by simp [h, e], by omega, h2, ?_, h4, h5⟩
      intro k a hk hkr ha
      by_cases hki : k = i
      · subst hki
        rw [hz] at ha; injection ha with ha; subst ha; exact h
      · exact h3 k a (by omega) hkr ha
    · exact ⟨i, z, by simp [h], Nat.le_refl _, hi, by intro k a; omega, hz, by simpa using h⟩

theorem scanDown_spec (p : α → Bool) (xs : List α) (s : Nat) (x : α) (hx : xs[s]? = some x)
    (hp : p x = false) : ∀ n j, j - (s + 1) = n → s < j → j ≤ xs.length →
    ∃ r y, scanDown p xs j = pure r ∧ s ≤ r ∧ r < j ∧ AllIn (fun a => p a = true) xs (r + 1) j ∧
      xs[r]? = some y ∧ p y = false := by
  intro n
  induction n with
  | zero =>
    intro j hn hj hl
    have : j = s + 1 := by omega
    subst this
    rw [scanDown, predIt_pos (by omega)]
    simp only [pure_bind, Nat.add_sub_cancel]
    rw [rd_some hx]
    exact ⟨s, x, by simp [hp], Nat.le_refl _, by omega, by intro k a; omega, hx, hp⟩
  | succ n ih =>
    intro j hn hj hl
    rw [scanDown, predIt_pos (by omega)]
    simp only [pure_bind]
    obtain ⟨z, hz⟩ := getElem?_of_lt (xs := xs) (i := j - 1) (by omega)
    rw [rd_some hz]
    simp only [pure_bind]
    by_cases h : p z
    · obtain ⟨r, y, e, h1, h2, h3, h4, h5⟩ := ih (j - 1) (by omega) (by omega) (by omega)
      refine ⟨r, y, by simp [h, e], h1, by omega, ?_, h4, h5⟩
      intro k a hk hkr ha
      by_cases hki : k = j - 1
      · subst hki
        rw [hz] at ha; injection ha with ha; subst ha; exact h
      · exact h3 k a hk (by omega) ha
    · exact ⟨j - 1, z, by simp [h], by omega, by omega, by intro k a; omega, hz, by simpa using h⟩

theorem AllIn.congr {P : α → Prop} {xs ys : List α} {lo hi : Nat} (h : AllIn P xs lo hi)
    (e : ∀ k, lo ≤ k → k < hi → ys[k]? = xs[k]?) : AllIn P ys lo hi := by
  intro k a h1 h2 ha
  rw [e k h1 h2] at ha
  exact h k a h1 h2 ha

theorem AllIn.append {P : α → Prop} {xs : List α} {lo mid hi : Nat} (h1 : AllIn P xs lo mid)
    (h2 : AllIn P xs mid hi) : AllIn P xs lo hi := by
  intro k a hk hk' ha
  by_cases h : k < mid
  · exact h1 k a hk h ha
  · exact h2 k a (by omega) hk' ha

theorem AllIn.sub {P : α → Prop} {xs : List α} {lo hi lo' hi' : Nat} (h : AllIn P xs lo hi)
    (h1 : lo ≤ lo') (h2 : hi' ≤ hi) : AllIn P xs lo' hi' :=
  fun k a hk hk' ha => h k a (by omega) (by omega) ha

theorem AllIn.single {P : α → Prop} {xs : List α} {k : Nat} {a : α} (h : xs[k]? = some a) (hp : P a) :
    AllIn P xs k (k + 1) := by
  intro i b h1 h2 hb
  have : i = k := by omega
  subst this
  rw [h] at hb; injection hb with hb; subst hb; exact hp

theorem AllIn.imp {P Q : α → Prop} {xs : List α} {lo hi : Nat} (h : AllIn P xs lo hi)
    (hpq : ∀ a, P a → Q a) : AllIn Q xs lo hi :=
  fun k a h1 h2 ha => hpq a (h k a h1 h2 ha)

/-! ### No element less than the first -/

theorem eqPart_spec (sw : StrictWeak lt) (first last : Nat) (f : α) :
    ∀ n (xs : List α) (i j : Nat), j - i = n → first < i → i ≤ j → j < last → last ≤ xs.length →
      xs[first]? = some f → AllIn (fun a => lt f a = false) xs first i →
      AllIn (fun a => lt f a = true) xs j last →
      ∃ ys r, eqPart lt first xs i j = pure (ys, r) ∧ RangePerm first last xs ys ∧ first < r ∧ r < last ∧
        AllIn (fun a => lt f a = false) ys first r ∧ AllIn (fun a => lt f a = true) ys r last := by
  intro n
  induction n using Nat.strongRecOn with
  | _ n ih =>
    intro xs i j hn hi hij hj hlen hf hlo hhi
    obtain ⟨z, hz⟩ := getElem?_of_lt (xs := xs) (i := j) (by omega)
    have hfz : lt f z = true := hhi j z (Nat.le_refl _) hj hz
    obtain ⟨i', x, e1, h1, h2, h3, h4, h5⟩ := scanUp_spec (fun x => !lt f x) xs j z hz (by simp [hfz]) _ i rfl hij
    obtain ⟨j', y, e2, g1, g2, g3, g4, g5⟩ := scanDown_spec (fun x => lt f x) xs first f hf (sw.irrefl f) _ j rfl
      (by omega) (by omega)
    rw [eqPart, rd_some hf]
    simp only [pure_bind, e1, e2]
    have hlo' : AllIn (fun a => lt f a = false) xs first i' :=
      hlo.append (h3.imp (fun a ha => by simpa using ha))
    have hhi' : AllIn (fun a => lt f a = true) xs (j' + 1) last := g3.append hhi
    have hfx : lt f x = true := by simpa using h5
    have hfy : lt f y = false := g5
    have hne : i' ≠ j' := by
      intro e
      rw [e, g4] at h4; injection h4 with h4; subst h4
      rw [hfx] at hfy; cases hfy
    by_cases hge : i' ≥ j'
    · rw [if_pos hge]
      refine ⟨xs, i', rfl, RangePerm.refl _ _ _, by omega, by omega, hlo', hhi'.sub (by omega) (Nat.le_refl _)⟩
    · rw [if_neg hge]
      have hj'f : first ≠ j' := by omega
      obtain ⟨ys, e, hp, hk⟩ := swapAt_rangePerm (first := first) (last := last) h4 g4
        (by omega) (by omega) (by omega) (by omega)
      simp only [e, pure_bind]
      obtain ⟨zs, r, e', hp', k1, k2, k3, k4⟩ := ih (j' - (i' + 1)) (by omega) ys (i' + 1) j' rfl (by omega)
        (by omega) (by omega) (by rw [hp.length_eq]; exact hlen)
        (by rw [hk, if_neg (by omega), if_neg (by omega)]; exact hf)
        (by
          refine AllIn.append (mid := i') ?_ ?_
          · exact hlo'.congr (fun k _ hk2 => by rw [hk, if_neg (by omega), if_neg (by omega)])
          · exact AllIn.single (by rw [hk, if_neg (by omega), if_pos rfl]) hfy)
        (by
          refine AllIn.append (mid := j' + 1) ?_ ?_
          · exact AllIn.single (by rw [hk, if_pos rfl]) hfx
          · exact hhi'.congr (fun k hk1 _ => by rw [hk, if_neg (by omega), if_neg (by omega)]))
      exact ⟨zs, r, e', hp.trans hp', k1, k2, k3, k4⟩

theorem eqScan_spec (first last : Nat) (f l : α) (xs : List α)
    (hlen : last ≤ xs.length) (hf : xs[first]? = some f) (hl : xs[last - 1]? = some l)
    (hfl : lt f l = false) :
    ∀ n i, last - 1 - i = n → first < i → i ≤ last - 1 → AllIn (fun a => lt f a = false) xs first i →
      (eqScan lt xs first i (last - 1) = pure none ∧ AllIn (fun a => lt f a = false) xs first last) ∨
      ∃ ys r x, eqScan lt xs first i (last - 1) = pure (some (ys, r)) ∧ RangePerm first last xs ys ∧
        first < r ∧ r ≤ last - 1 ∧ ys[first]? = some f ∧ AllIn (fun a => lt f a = false) ys first r ∧
        ys[last - 1]? = some x ∧ lt f x = true := by
  intro n
  induction n with
  | zero =>
    intro i hn hi hij hlo
    have : i = last - 1 := by omega
    left
    rw [eqScan, if_pos this]
    refine ⟨rfl, ?_⟩
    have e : last = last - 1 + 1 := by omega
    rw [e]
    exact (this ▸ hlo).append (AllIn.single hl hfl)
  | succ n ih =>
    intro i hn hi hij hlo
    obtain ⟨x, hx⟩ := getElem?_of_lt (xs := xs) (i := i) (by omega)
    rw [eqScan, if_neg (by omega), rd_some hf, rd_some hx]
    simp only [pure_bind]
    by_cases h : lt f x
    · right
      obtain ⟨ys, e, hp, hk⟩ := swapAt_rangePerm (first := first) (last := last) hx hl
        (by omega) (by omega) (by omega) (by omega)
      refine ⟨ys, i + 1, x, by simp [h, e], hp, by omega, by omega, ?_, ?_, ?_, h⟩
      · rw [hk, if_neg (by omega), if_neg (by omega)]; exact hf
      · refine AllIn.append (mid := i) ?_ ?_
        · exact hlo.congr (fun k _ hk2 => by rw [hk, if_neg (by omega), if_neg (by omega)])
        · exact AllIn.single (by rw [hk, if_neg (by omega), if_pos rfl]) hfl
      · rw [hk, if_pos rfl]
    · simp only [h, Bool.false_eq_true, if_false]
      exact ih (i + 1) (by omega) (by omega) (by omega)
        (hlo.append (AllIn.single hx (by simpa using h)))

/-- What the code before the partition loop guarantees in each of its outcomes. (Specification, no line of the source.) -/
def GuardPost (lt : α → α → Bool) (xs : List α) (first last m : Nat) (pv : α) : Guard α → Prop
  | .done ys => SortedFrom lt first last xs ys
  | .restart ys i => RangePerm first last xs ys ∧ first < i ∧ i < last ∧
      ∃ f, AllIn (fun a => lt f a = false) ys first i ∧ AllIn (fun a => lt a f = false) ys first last
  | .go ys j _ => RangePerm first last xs ys ∧ first < j ∧ j < last ∧ ys[m]? = some pv ∧
      AllIn (fun a => lt a pv = true) ys first (first + 1) ∧ AllIn (fun a => lt a pv = false) ys j last

theorem sorted_of_equiv (sw : StrictWeak lt) {xs : List α} {first last : Nat} {f : α}
    (h1 : AllIn (fun a => lt f a = false) xs first last)
    (h2 : AllIn (fun a => lt a f = false) xs first last) : SortedRange lt xs first last := by
  intro i j a b hi hij hj ha hb
  exact sw.incomp _ _ _ (h2 j b (by omega) hj hb) (h1 i a hi (by omega) ha)

theorem eqBranch_spec (sw : StrictWeak lt) (xs : List α) (first last m : Nat) (f pv : α)
    (hl : first + 2 ≤ last) (hlen : last ≤ xs.length) (hf : xs[first]? = some f)
    (hall : AllIn (fun a => lt a f = false) xs first last) :
    ∃ g, eqBranch lt xs first last = pure g ∧ GuardPost lt xs first last m pv g := by
  obtain ⟨l, hlast⟩ := getElem?_of_lt (xs := xs) (i := last - 1) (by omega)
  have h0 : AllIn (fun a => lt f a = false) xs first (first + 1) := AllIn.single hf (sw.irrefl f)
  unfold eqBranch
  rw [predIt_pos (by omega)]
  simp only [pure_bind, rd_some hf, rd_some hlast]
  -- the part after the guard scan
  have tail : ∀ (ys : List α) (r : Nat) (x : α), RangePerm first last xs ys → first < r → r ≤ last - 1 →
      ys[first]? = some f → AllIn (fun a => lt f a = false) ys first r → ys[last - 1]? = some x →
      lt f x = true →
      ∃ g, (if r = last - 1 then pure (.done ys) else do
          let (xs, i) ← eqPart lt first ys r (last - 1)
          pure (.restart xs i) : Cxx (Guard α)) = pure g ∧ GuardPost lt xs first last m pv g := by
    intro ys r x hp h1 h2 hyf hlo hx hfx
    have hall' : AllIn (fun a => lt a f = false) ys first last := hp.forall_range hall
    by_cases hr : r = last - 1
    · rw [if_pos hr]
      refine ⟨_, rfl, hp, ?_⟩
      intro i j a b hi hij hj ha hb
      by_cases hj' : j < r
      · exact sw.incomp _ _ _ (hall' j b (by omega) hj hb) (hlo i a hi (by omega) ha)
      · exact sw.incomp _ _ _ (hall' j b (by omega) hj hb) (hlo i a hi (by omega) ha)
    · rw [if_neg hr]
      obtain ⟨zs, r', e, hp', k1, k2, k3, k4⟩ := eqPart_spec sw first last f _ ys r (last - 1) rfl h1 h2
        (by omega) (by rw [hp.length_eq]; exact hlen) hyf hlo (by
          have e : last = last - 1 + 1 := by omega
          intro k a hk1 hk2 ha
          have : k = last - 1 := by omega
          subst this
          rw [hx] at ha; injection ha with ha; subst ha; exact hfx)
      rw [e]
      simp only [pure_bind]
      exact ⟨_, rfl, hp.trans hp', k1, k2, f, k3, hp'.forall_range hall'⟩
  by_cases h : lt f l
  · simp only [h, not_true, if_false]
    exact tail xs (first + 1) l (RangePerm.refl _ _ _) (by omega) (by omega) hf h0 hlast h
  · simp only [h, Bool.false_eq_true, not_false_eq_true, if_true]
    rcases eqScan_spec first last f l xs hlen hf hlast (by simpa using h) _ (first + 1) rfl (by omega)
      (by omega) h0 with ⟨e, hh⟩ | ⟨ys, r, x, e, hp, h1, h2, h3, h4, h5, h6⟩
    · rw [e]
      simp only [pure_bind]
      exact ⟨_, rfl, RangePerm.refl _ _ _, sorted_of_equiv sw hh hall⟩
    · rw [e]
      simp only [pure_bind]
      exact tail ys r x hp h1 h2 h3 h4 h5 h6

theorem guardLoop_spec (sw : StrictWeak lt) (xs : List α) (first last m : Nat) (f pv : α)
    (hl : first + 2 ≤ last) (hlen : last ≤ xs.length) (hf : xs[first]? = some f)
    (hm1 : first < m) (hm : xs[m]? = some pv)
    (hfp : lt f pv = false) (hpf : lt pv f = false) :
    ∀ n j swaps, j - (first + 1) = n → first < j → j < last → AllIn (fun a => lt a pv = false) xs j last →
      ∃ g, guardLoop lt xs first last m j swaps = pure g ∧ GuardPost lt xs first last m pv g := by
  intro n
  induction n with
  | zero =>
    intro j swaps hn hj hj2 hhi
    rw [guardLoop, predIt_pos (by omega)]
    simp only [pure_bind]
    rw [if_pos (by omega)]
    refine eqBranch_spec sw xs first last m f pv hl hlen hf ?_
    have : j = first + 1 := by omega
    subst this
    exact (AllIn.single hf (sw.irrefl f)).append (hhi.imp (fun a ha => sw.incomp _ _ _ ha hpf))
  | succ n ih =>
    intro j swaps hn hj hj2 hhi
    obtain ⟨a, ha⟩ := getElem?_of_lt (xs := xs) (i := j - 1) (by omega)
    rw [guardLoop, predIt_pos (by omega)]
    simp only [pure_bind]
    rw [if_neg (by omega), rd_some ha, rd_some hm]
    simp only [pure_bind]
    by_cases h : lt a pv
    · obtain ⟨ys, e, hp, hk⟩ := swapAt_rangePerm (first := first) (last := last) hf ha
        (by omega) (by omega) (by omega) (by omega)
      have hmj : m ≠ j - 1 := by
        intro e'
        rw [← e', hm] at ha; injection ha with ha; subst ha
        rw [sw.irrefl] at h; cases h
      refine ⟨.go ys (j - 1) (swaps + 1), by simp [h, e], hp, by omega, by omega, ?_, ?_, ?_⟩
      · rw [hk, if_neg hmj, if_neg (by omega)]; exact hm
      · exact AllIn.single (by rw [hk, if_neg (by omega), if_pos rfl]) h
      · refine AllIn.append (mid := j) ?_ ?_
        · have : j = j - 1 + 1 := by omega
          intro k b hk1 hk2 hb
          have : k = j - 1 := by omega
          subst this
          rw [hk, if_pos rfl] at hb; injection hb with hb; subst hb; exact hfp
        · exact hhi.congr (fun k hk1 _ => by rw [hk, if_neg (by omega), if_neg (by omega)])
    · simp only [h, Bool.false_eq_true, if_false]
      refine ih (j - 1) swaps (by omega) (by omega) (by omega) ?_
      refine AllIn.append (mid := j) ?_ hhi
      intro k b hk1 hk2 hb
      have : k = j - 1 := by omega
      subst this
      rw [ha] at hb; injection hb with hb; subst hb; simpa using h

theorem guard_spec (sw : StrictWeak lt) (xs : List α) (first last m : Nat) (f pv l : α) (swaps : Nat)
    (hl : first + 2 ≤ last) (hlen : last ≤ xs.length) (hf : xs[first]? = some f)
    (hm1 : first < m) (hm : xs[m]? = some pv) (hlast : xs[last - 1]? = some l)
    (hfp : lt pv f = false) (hpl : lt l pv = false) :
    ∃ g, guard lt xs first last m swaps = pure g ∧ GuardPost lt xs first last m pv g := by
  have hhi : AllIn (fun a => lt a pv = false) xs (last - 1) last := by
    intro k b hk1 hk2 hb
    have : k = last - 1 := by omega
    subst this
    rw [hlast] at hb; injection hb with hb; subst hb; exact hpl
  unfold guard
  rw [rd_some hf, rd_some hm]
  simp only [pure_bind]
  by_cases h : lt f pv
  · exact ⟨.go xs (last - 1) swaps, by simp only [h, not_true, if_false], RangePerm.refl _ _ _, by omega,
      by omega, hm, AllIn.single hf h, hhi⟩
  · simp only [h, Bool.false_eq_true, not_false_eq_true, if_true]
    exact guardLoop_spec sw xs first last m f pv hl hlen hf hm1 hm (by simpa using h) hfp _ (last - 1)
      swaps rfl (by omega) (by omega) hhi

/-! ### The partition -/

theorem partLoop_spec (sw : StrictWeak lt) (first last : Nat) (pv : α) :
    ∀ n (xs : List α) (i j m swaps : Nat), j - i = n → first < i → i ≤ j → j < last → last ≤ xs.length →
      first ≤ m → m < last → xs[m]? = some pv → AllIn (fun a => lt a pv = true) xs first i →
      AllIn (fun a => lt a pv = false) xs j last →
      ∃ ys r m' s, partLoop lt xs i j m swaps = pure (ys, r, m', s) ∧ RangePerm first last xs ys ∧
        first < r ∧ r < last ∧ first ≤ m' ∧ m' < last ∧ ys[m']? = some pv ∧
        AllIn (fun a => lt a pv = true) ys first r ∧ AllIn (fun a => lt a pv = false) ys r last := by
  intro n
  induction n using Nat.strongRecOn with
  | _ n ih =>
    intro xs i j m swaps hn hi hij hj hlen hm0 hml hm hlo hhi
    obtain ⟨z, hz⟩ := getElem?_of_lt (xs := xs) (i := j) (by omega)
    obtain ⟨f, hf⟩ := getElem?_of_lt (xs := xs) (i := first) (by omega)
    have hfp : lt f pv = true := hlo first f (Nat.le_refl _) (by omega) hf
    have hzp : lt z pv = false := hhi j z (Nat.le_refl _) hj hz
    obtain ⟨i', x, e1, h1, h2, h3, h4, h5⟩ := scanUp_spec (fun x => lt x pv) xs j z hz hzp _ i rfl hij
    obtain ⟨j', y, e2, g1, g2, g3, g4, g5⟩ := scanDown_spec (fun x => !lt x pv) xs first f hf
      (by simp [hfp]) _ j rfl (by omega) (by omega)
    rw [partLoop, rd_some hm]
    simp only [pure_bind, e1, e2]
    have hlo' : AllIn (fun a => lt a pv = true) xs first i' := hlo.append h3
    have hhi' : AllIn (fun a => lt a pv = false) xs (j' + 1) last :=
      (g3.imp (fun a ha => by simpa using ha)).append hhi
    have hxp : lt x pv = false := h5
    have hyp : lt y pv = true := by simpa using g5
    have hne : i' ≠ j' := by
      intro e
      rw [e, g4] at h4; injection h4 with h4; subst h4
      rw [hyp] at hxp; cases hxp
    by_cases hgt : i' > j'
    · rw [if_pos hgt]
      exact ⟨xs, i', m, swaps, rfl, RangePerm.refl _ _ _, by omega, by omega, hm0, hml, hm, hlo',
        hhi'.sub (by omega) (Nat.le_refl _)⟩
    · rw [if_neg hgt]
      obtain ⟨ys, e, hp, hk⟩ := swapAt_rangePerm (first := first) (last := last) h4 g4
        (by omega) (by omega) (by omega) (by omega)
      simp only [e, pure_bind]
      have hmj : m ≠ j' := by
        intro e'
        rw [← e', hm] at g4; injection g4 with g4; subst g4
        rw [sw.irrefl] at hyp; cases hyp
      obtain ⟨zs, r, m', s, e', hp', k1, k2, k3, k4, k5, k6, k7⟩ := ih (j' - (i' + 1)) (by omega) ys (i' + 1) j'
        (if m = i' then j' else m) (swaps + 1) rfl (by omega) (by omega) (by omega)
        (by rw [hp.length_eq]; exact hlen) (by split <;> omega) (by split <;> omega)
        (by
          split
          · rename_i hmi
            rw [hk, if_pos rfl, ← h4, ← hmi, hm]
          · rename_i hmi
            rw [hk, if_neg hmj, if_neg hmi, hm])
        (by
          refine AllIn.append (mid := i') ?_ ?_
          · exact hlo'.congr (fun k _ hk2 => by rw [hk, if_neg (by omega), if_neg (by omega)])
          · exact AllIn.single (by rw [hk, if_neg (by omega), if_pos rfl]) hyp)
        (by
          refine AllIn.append (mid := j' + 1) ?_ ?_
          · exact AllIn.single (by rw [hk, if_pos rfl]) hxp
          · exact hhi'.congr (fun k hk1 _ => by rw [hk, if_neg (by omega), if_neg (by omega)]))
      exact ⟨zs, r, m', s, e', hp.trans hp', k1, k2, k3, k4, k5, k6, k7⟩

theorem partition_spec (sw : StrictWeak lt) (first last : Nat) (pv : α) (xs : List α) (j m swaps : Nat)
    (hj1 : first < j) (hj2 : j < last) (hlen : last ≤ xs.length) (hm0 : first ≤ m) (hml : m < last)
    (hm : xs[m]? = some pv)
    (hlo : AllIn (fun a => lt a pv = true) xs first (first + 1))
    (hhi : AllIn (fun a => lt a pv = false) xs j last) :
    ∃ ys r s p, partition lt xs (first + 1) j m swaps = pure (ys, r, s) ∧ RangePerm first last xs ys ∧
      first < r ∧ r < last ∧ ys[r]? = some p ∧ AllIn (fun a => lt p a = false) ys first r ∧
      AllIn (fun a => lt a p = false) ys (r + 1) last := by
  have key : ∃ ys r m' s, (if first + 1 < j then partLoop lt xs (first + 1) j m swaps
        else pure (xs, first + 1, m, swaps) : Cxx _) = pure (ys, r, m', s) ∧ RangePerm first last xs ys ∧
        first < r ∧ r < last ∧ first ≤ m' ∧ m' < last ∧ ys[m']? = some pv ∧
        AllIn (fun a => lt a pv = true) ys first r ∧ AllIn (fun a => lt a pv = false) ys r last := by
    by_cases h : first + 1 < j
    · rw [if_pos h]
      exact partLoop_spec sw first last pv _ xs (first + 1) j m swaps rfl (by omega) (by omega) hj2 hlen hm0
        hml hm hlo hhi
    · rw [if_neg h]
      exact ⟨xs, first + 1, m, swaps, rfl, RangePerm.refl _ _ _, by omega, by omega, hm0, hml, hm, hlo,
        hhi.sub (by omega) (Nat.le_refl _)⟩
  obtain ⟨ys, r, m', s, e, hp, h1, h2, h0, h3, h4, h5, h6⟩ := key
  unfold partition
  rw [e]
  simp only [pure_bind]
  obtain ⟨x, hx⟩ := getElem?_of_lt (xs := ys) (i := r) (by rw [hp.length_eq]; omega)
  have hxp : lt x pv = false := h6 r x (Nat.le_refl _) h2 hx
  have hm'r : r ≤ m' := by
    by_cases hlt : r ≤ m'
    · exact hlt
    · have : lt pv pv = true := h5 m' pv h0 (by omega) h4
      rw [sw.irrefl] at this; cases this
  by_cases hrm : r = m'
  · subst hrm
    simp only [ne_eq, not_true, if_false]
    rw [h4] at hx; injection hx with hx; subst hx
    exact ⟨ys, r, s, pv, rfl, hp, h1, h2, h4, h5.imp (fun a ha => sw.asymm ha),
      h6.sub (by omega) (Nat.le_refl _)⟩
  · simp only [ne_eq, hrm, not_false_eq_true, if_true]
    rw [rd_some h4, rd_some hx]
    simp only [pure_bind]
    by_cases hc : lt pv x
    · obtain ⟨zs, e', hp', hk⟩ := swapAt_rangePerm (first := first) (last := last) hx h4
        (by omega) (by omega) (by omega) (by omega)
      refine ⟨zs, r, s + 1, pv, by simp [hc, e'], hp.trans hp', h1, h2, ?_, ?_, ?_⟩
      · rw [hk, if_neg hrm, if_pos rfl]
      · exact (h5.congr (fun k _ hk2 => by rw [hk, if_neg (by omega), if_neg (by omega)])).imp
          (fun a ha => sw.asymm ha)
      · intro k a hk1 hk2 ha
        rw [hk] at ha
        by_cases hkm : k = m'
        · rw [if_pos hkm] at ha; injection ha with ha; subst ha; exact hxp
        · rw [if_neg hkm, if_neg (by omega)] at ha
          exact h6 k a (by omega) hk2 ha
    · refine ⟨ys, r, s, x, by simp [hc], hp, h1, h2, hx, ?_, ?_⟩
      · exact h5.imp (fun a ha => sw.incomp _ _ _ hxp (sw.asymm ha))
      · intro k a hk1 hk2 ha
        exact sw.incomp _ _ _ (h6 k a (by omega) hk2 ha) (by simpa using hc)

/-! ### Putting the parts together -/

/-- A pivot at `i` with sorted parts on both sides. -/
theorem glue (sw : StrictWeak lt) {xs : List α} {first i last : Nat} {p : α} (hp : xs[i]? = some p)
    (h1 : AllIn (fun a => lt p a = false) xs first i)
    (h2 : AllIn (fun a => lt a p = false) xs (i + 1) last)
    (s1 : SortedRange lt xs first i) (s2 : SortedRange lt xs (i + 1) last) :
    SortedRange lt xs first last := by
  intro a b x y ha hab hb hx hy
  by_cases hai : a < i
  · by_cases hbi : b < i
    · exact s1 a b x y ha hab hbi hx hy
    · by_cases hbe : b = i
      · subst hbe
        rw [hp] at hy; injection hy with hy; subst hy
        exact h1 a x ha hai hx
      · exact sw.incomp _ _ _ (h2 b y (by omega) hb hy) (h1 a x ha hai hx)
  · by_cases hae : a = i
    · subst hae
      rw [hp] at hx; injection hx with hx; subst hx
      exact h2 b y (by omega) hb hy
    · exact s2 a b x y (by omega) hab hb hx hy

/-- `i` splits the range: nothing before it is greater, nothing after it is less. (Specification, no line of the source.) -/
structure Split (lt : α → α → Bool) (xs : List α) (first i last : Nat) (p : α) : Prop where
  at_pivot : xs[i]? = some p
  lower : AllIn (fun a => lt p a = false) xs first i
  upper : AllIn (fun a => lt a p = false) xs (i + 1) last

theorem Split.left {xs ys : List α} {first i last : Nat} {p : α} (h : Split lt xs first i last p)
    (hp : RangePerm first i xs ys) : Split lt ys first i last p :=
  ⟨by rw [hp.outside i (by omega)]; exact h.at_pivot, hp.forall_range h.lower,
    h.upper.congr (fun k hk _ => hp.outside k (by omega))⟩

theorem Split.right {xs ys : List α} {first i last : Nat} {p : α} (h : Split lt xs first i last p)
    (hp : RangePerm (i + 1) last xs ys) : Split lt ys first i last p :=
  ⟨by rw [hp.outside i (by omega)]; exact h.at_pivot,
    h.lower.congr (fun k _ hk => hp.outside k (by omega)), hp.forall_range h.upper⟩

theorem SortedRange.congr {xs ys : List α} {first last : Nat} (h : SortedRange lt xs first last)
    (e : ∀ k, first ≤ k → k < last → ys[k]? = xs[k]?) : SortedRange lt ys first last := by
  intro i j a b hi hij hj ha hb
  rw [e i hi (by omega)] at ha
  rw [e j (by omega) hj] at hb
  exact h i j a b hi hij hj ha hb

/-- Sort the left part when the right one is sorted. -/
theorem Split.finish_left (sw : StrictWeak lt) {xs ys : List α} {first i last : Nat} {p : α}
    (h : Split lt xs first i last p) (h2 : i < last)
    (hr : SortedRange lt xs (i + 1) last) (hs : SortedFrom lt first i xs ys) :
    SortedFrom lt first last xs ys := by
  have h' := h.left hs.rangePerm
  exact ⟨hs.rangePerm.mono (Nat.le_refl _) (by omega), glue sw h'.at_pivot h'.lower h'.upper hs.sorted
    (SortedRange.congr hr (fun k hk _ => hs.rangePerm.outside k (by omega)))⟩

/-- Sort the right part when the left one is sorted. -/
theorem Split.finish_right (sw : StrictWeak lt) {xs ys : List α} {first i last : Nat} {p : α}
    (h : Split lt xs first i last p) (h1 : first ≤ i)
    (hl : SortedRange lt xs first i) (hs : SortedFrom lt (i + 1) last xs ys) :
    SortedFrom lt first last xs ys := by
  have h' := h.right hs.rangePerm
  exact ⟨hs.rangePerm.mono (by omega) (Nat.le_refl _), glue sw h'.at_pivot h'.lower h'.upper
    (SortedRange.congr hl (fun k _ hk => hs.rangePerm.outside k (by omega))) hs.sorted⟩

theorem sort_total (sw : StrictWeak lt) (limit : Nat) :
    ∀ n (xs : List α) (first last : Nat), last - first = n → first ≤ last → last ≤ xs.length →
      ∃ ys, sort lt limit xs first last = pure ys ∧ SortedFrom lt first last xs ys := by
  intro n
  induction n using Nat.strongRecOn with
  | _ n ih =>
    intro xs first last hn hf hlen
    rw [sort]
    rcases smallSort_spec sw xs first last hf hlen with ⟨e, h9⟩ | ⟨ys, e, h⟩
    rotate_left
    · rw [e]; exact ⟨ys, rfl, h⟩
    rw [e]
    simp only []
    by_cases hlim : last - first < limit
    · rw [if_pos hlim]
      exact insertionSort3_spec sw xs first last (by omega) hlen
    rw [if_neg hlim]
    -- the choice of the pivot
    have pivot : ∃ ys d, (if last - first ≥ 1000 then
          sort5Impl lt xs first (first + (last - first) / 2 / 2) (first + (last - first) / 2)
            (first + (last - first) / 2 + (last - first) / 2 / 2) (last - 1)
        else sort3Impl lt xs first (first + (last - first) / 2) (last - 1)) = pure (ys, d) ∧
        RangePerm first last xs ys ∧
        (∀ x y, ys[first]? = some x → ys[first + (last - first) / 2]? = some y → lt y x = false) ∧
        (∀ x y, ys[first + (last - first) / 2]? = some x → ys[last - 1]? = some y → lt y x = false) := by
      by_cases h1000 : last - first ≥ 1000
      · rw [if_pos h1000]
        exact sort5Impl_spec sw xs first last _ _ _ _ _ (Nat.le_refl _) (by omega) (by omega) (by omega)
          (by omega) (by omega) hlen
      · rw [if_neg h1000]
        obtain ⟨ys, d, e, hp, k1, k2, _⟩ := sort3Impl_spec sw xs first last first
          (first + (last - first) / 2) (last - 1) (by omega) (by omega) (by omega) (by omega) (by omega)
          (by omega) hlen
        exact ⟨ys, d, e, hp, k1, k2⟩
    obtain ⟨ys, d, e1, hp1, hlow, hhigh⟩ := pivot
    rw [e1]
    simp only [pure_bind]
    have hleny : last ≤ ys.length := by rw [hp1.length_eq]; exact hlen
    generalize hmdef : first + (last - first) / 2 = m at *
    obtain ⟨f, hfy⟩ := getElem?_of_lt (xs := ys) (i := first) (by omega)
    obtain ⟨pv, hmy⟩ := getElem?_of_lt (xs := ys) (i := m) (by omega)
    obtain ⟨l, hly⟩ := getElem?_of_lt (xs := ys) (i := last - 1) (by omega)
    obtain ⟨g, e2, hg⟩ := guard_spec sw ys first last m f pv l d (by omega) hleny hfy (by omega) hmy hly
      (hlow f pv hfy hmy) (hhigh pv l hmy hly)
    rw [e2]
    simp only [pure_bind]
    cases g with
    | done zs => exact ⟨zs, rfl, hg.trans_left hp1⟩
    | restart zs i =>
      obtain ⟨hp2, hi1, hi2, f', hl1, hl2⟩ := hg
      simp only []
      obtain ⟨ws, e3, hs⟩ := ih (last - i) (by omega) zs i last rfl (by omega)
        (by rw [hp2.length_eq]; exact hleny)
      refine ⟨ws, e3, (hp1.trans hp2).trans (hs.rangePerm.mono (by omega) (Nat.le_refl _)), ?_⟩
      have hp3 := hs.rangePerm.mono (show first ≤ i by omega) (Nat.le_refl last)
      have hl2' : AllIn (fun a => lt a f' = false) ws first last := hp3.forall_range hl2
      have hl1' : AllIn (fun a => lt f' a = false) ws first i :=
        hl1.congr (fun k _ hk => hs.rangePerm.outside k (by omega))
      intro a b x y ha hab hb hx hy
      by_cases hai : a < i
      · exact sw.incomp _ _ _ (hl2' b y (by omega) hb hy) (hl1' a x ha hai hx)
      · exact hs.sorted a b x y (by omega) hab hb hx hy
    | go zs j s =>
      obtain ⟨hp2, hj1, hj2, hm2, hlo, hhi⟩ := hg
      have hlenz : last ≤ zs.length := by rw [hp2.length_eq]; exact hleny
      obtain ⟨ws, i, s', p, e3, hp3, hi1, hi2, hpi, hlo', hhi'⟩ := partition_spec sw first last pv zs j m s
        hj1 hj2 hlenz (by omega) (by omega) hm2 hlo hhi
      simp only []
      rw [e3]
      simp only [pure_bind]
      have hpw : RangePerm first last xs ws := (hp1.trans hp2).trans hp3
      have hlenw : last ≤ ws.length := by rw [hp3.length_eq]; exact hlenz
      have hsplit : Split lt ws first i last p := ⟨hpi, hlo', hhi'⟩
      -- the two recursive calls
      have parts : ∀ us : List α, RangePerm first last xs us → Split lt us first i last p →
          ∃ ys, sortParts lt limit us first i last = pure ys ∧ SortedFrom lt first last xs ys := by
        intro us hpu hsp
        have hlenu : last ≤ us.length := by rw [hpu.length_eq]; exact hlen
        rw [sortParts]
        split
        · obtain ⟨vs, e4, hs4⟩ := ih (i - first) (by omega) us first i rfl (by omega) (by omega)
          have hsp' := hsp.left hs4.rangePerm
          have hp4 := hs4.rangePerm.mono (Nat.le_refl first) (show i ≤ last by omega)
          obtain ⟨ts, e5, hs5⟩ := ih (last - (i + 1)) (by omega) vs (i + 1) last rfl (by omega)
            (by rw [hp4.length_eq]; exact hlenu)
          refine ⟨ts, by rw [e4, pure_bind, e5], ?_⟩
          exact (hsp'.finish_right sw (by omega) hs4.sorted hs5).trans_left (hpu.trans hp4)
        · obtain ⟨vs, e4, hs4⟩ := ih (last - (i + 1)) (by omega) us (i + 1) last rfl (by omega) hlenu
          have hsp' := hsp.right hs4.rangePerm
          have hp4 := hs4.rangePerm.mono (show first ≤ i + 1 by omega) (Nat.le_refl last)
          obtain ⟨ts, e5, hs5⟩ := ih (i - first) (by omega) vs first i rfl (by omega)
            (by rw [hp4.length_eq]; omega)
          refine ⟨ts, by rw [e4, pure_bind, e5], ?_⟩
          exact (hsp'.finish_left sw hi2 hs4.sorted hs5).trans_left (hpu.trans hp4)
      by_cases hs0 : s' = 0
      rotate_left
      · rw [if_neg hs0]; exact parts ws hpw hsplit
      rw [if_pos hs0]
      obtain ⟨us, fs, e4, hp4, hfs⟩ := insertionSortIncomplete_spec sw ws first i (by omega) (by omega)
      rw [e4]
      simp only [pure_bind]
      have hsp4 := hsplit.left hp4
      have hp4' := hp4.mono (Nat.le_refl first) (show i ≤ last by omega)
      obtain ⟨vs, ss, e5, hp5, hss⟩ := insertionSortIncomplete_spec sw us (i + 1) last (by omega)
        (by rw [hp4'.length_eq]; exact hlenw)
      rw [e5]
      simp only [pure_bind]
      have hsp5 := hsp4.right hp5
      have hp5' := hp5.mono (show first ≤ i + 1 by omega) (Nat.le_refl last)
      have hpv := (hpw.trans hp4').trans hp5'
      have hlenv : last ≤ vs.length := by rw [hpv.length_eq]; exact hlen
      have hfs' : fs = true → SortedRange lt vs first i := fun h =>
        SortedRange.congr (hfs h) (fun k _ hk => hp5.outside k (by omega))
      cases ss with
      | true =>
        simp only [if_true]
        cases fs with
        | true =>
          exact ⟨vs, rfl, hpv, glue sw hsp5.at_pivot hsp5.lower hsp5.upper (hfs' rfl) (hss rfl)⟩
        | false =>
          simp only [Bool.false_eq_true, if_false]
          obtain ⟨ts, e6, hs6⟩ := ih (i - first) (by omega) vs first i rfl (by omega) (by omega)
          exact ⟨ts, e6, (hsp5.finish_left sw hi2 (hss rfl) hs6).trans_left hpv⟩
      | false =>
        simp only [Bool.false_eq_true, if_false]
        cases fs with
        | true =>
          simp only [if_true]
          obtain ⟨ts, e6, hs6⟩ := ih (last - (i + 1)) (by omega) vs (i + 1) last rfl (by omega) hlenv
          exact ⟨ts, e6, (hsp5.finish_right sw (by omega) (hfs' rfl) hs6).trans_left hpv⟩
        | false =>
          simp only [Bool.false_eq_true, if_false]
          exact parts vs hpv hsp5

/-- **C01**: `daw::sort` terminates without undefined behaviour on every valid range, for every
strict weak ordering and both thresholds; it changes nothing outside the range, and the range
ends up a sorted permutation of its old contents. -/
theorem C01_sort (sw : StrictWeak lt) (limit : Nat) (xs : List α) (first last : Nat)
    (hf : first ≤ last) (hlen : last ≤ xs.length) :
    ∃ ys, sort lt limit xs first last = pure ys ∧ ys.length = xs.length ∧
      (∀ k, k < first ∨ last ≤ k → ys[k]? = xs[k]?) ∧
      (slice ys first last).Perm (slice xs first last) ∧
      SortedRange lt ys first last := by
  obtain ⟨ys, e, h⟩ := sort_total sw limit _ xs first last rfl hf hlen
  exact ⟨ys, e, h.rangePerm.length_eq, h.rangePerm.outside, h.rangePerm.slice_perm hf, h.sorted⟩

/-- A range of 1200 elements with many equivalent ones, sorted by its last digit. -/
example : ∃ ys, sort (fun a b : Nat => decide (a % 10 < b % 10)) 30 (List.range 2000) 300 1500 = pure ys ∧
    SortedRange (fun a b : Nat => decide (a % 10 < b % 10)) ys 300 1500 :=
  let ⟨ys, h, _, _, _, hs⟩ := C01_sort (strictWeak_nat.comap (· % 10)) 30 (List.range 2000) 300 1500
    (by decide) (by simp)
  ⟨ys, h, hs⟩

end Verif.Sort
