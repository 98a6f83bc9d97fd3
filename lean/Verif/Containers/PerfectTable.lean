import Verif.Containers.PerfectHash
import Verif.Containers.Lists
import Mathlib.Data.List.Permutation

/-
What `daw::perfect_hash_table` answers and for which keys it can be built.
-/

namespace Verif.Containers.Mph
open Cxx

attribute [local irreducible] slotOf

variable {κ υ : Type} [DecidableEq κ]

/-! ### Answers -/

omit [DecidableEq κ] in
/-- What is left behind by a construction that returns. -/
theorem construct_ok {hash : κ → Nat} {limit n : Nat} {dk : κ} {dv : υ} {items : List (κ × υ)} {T : St κ υ} (h0 : 0 < n) (hn : n < 2 ^ 60)
    (h : construct hash limit n dk dv items = pure T) :
    Len (bucketCount n) (nextPow2 n) T ∧ (∀ s ∈ T.salts, 0 ≤ s) ∧ Known dk items T ∧
      ∀ it ∈ items, Placed hash (nextPow2 n) T (bucketAt hash (bucketCount n) items (hash it.1 % bucketCount n)) := by
  have hnb : 0 < bucketCount n := by rw [bucketCount_eq h0 (by omega)]; exact Nat.two_pow_pos _
  unfold construct at h
  obtain ⟨bs, h1, h⟩ := bind_eq_pure.1 h
  have hbs := fill_eq hnb items h1
  subst hbs
  obtain ⟨ys, h2, h⟩ := bind_eq_pure.1 h
  obtain ⟨ys', e, hperm, hpw⟩ := sort_buckets limit ((List.range (bucketCount n)).map (bucketAt hash (bucketCount n) items))
  rw [List.length_map, List.length_range, h2] at e
  have e := pure_inj.1 e
  subst e
  have hmem : ∀ b, b ∈ ys ↔ ∃ i, i < bucketCount n ∧ bucketAt hash (bucketCount n) items i = b := by
    intro b
    rw [hperm.mem_iff, List.mem_map]
    simp only [List.mem_range]
  obtain ⟨hl, _, _, hp, hk, hnn⟩ := process_ok (nb := bucketCount n) ys _ T
    ⟨List.length_replicate, List.length_replicate, List.length_replicate, List.length_replicate⟩
    (fun b hb => by
      obtain ⟨i, hi, rfl⟩ := (hmem b).1 hb
      exact hi)
    ((hperm.map Bucket.index).nodup_iff.2 (by
      rw [List.map_map]
      have : (Bucket.index ∘ bucketAt hash (bucketCount n) items) = id := rfl
      rw [this, List.map_id]
      exact List.nodup_range))
    hpw (fun s hs => by rw [(List.mem_replicate.1 hs).2]) h
  refine ⟨hl, hnn, fun p k hpk => ?_, fun it hit => ?_⟩
  · rcases hk p k hpk with h | ⟨b, hb, v, hv⟩
    · left
      have := List.mem_of_getElem? h
      exact (List.mem_replicate.1 this).2
    · obtain ⟨i, _, rfl⟩ := (hmem b).1 hb
      exact Or.inr ⟨v, List.mem_of_mem_filter hv⟩
  · refine hp _ ((hmem _).2 ⟨_, Nat.mod_lt _ hnb, rfl⟩) (List.ne_nil_of_mem (a := it) ?_)
    exact List.mem_filter.2 ⟨hit, by simp⟩

omit [DecidableEq κ] in
theorem slotOf_lt {hash : κ → Nat} {dsize s : Nat} {x : κ} (h : 0 < dsize) : slotOf hash dsize s x < dsize := by
  unfold slotOf
  exact Nat.mod_lt _ h

omit [DecidableEq κ] in
theorem dataIndex_ok {hash : κ → Nat} {n : Nat} {T : St κ υ} {x : κ} {s : Nat}
    (hs : T.salts[hash x % bucketCount n]? = some (s : Int)) : dataIndex hash n T x = pure (slotOf hash (nextPow2 n) s x) := by
  unfold dataIndex
  rw [rd_some hs]
  simp only [pure_bind]
  rw [if_neg (by omega), Int.toNat_natCast]

/-- A table that was built answers its keys with their values, and no other key than the default one. -/
theorem C51_lookup_partial (hash : κ → Nat) (limit n : Nat) (dk : κ) (dv : υ) (items : List (κ × υ)) (T : St κ υ) (h0 : 0 < n)
    (hn : n < 2 ^ 60) (h : construct hash limit n dk dv items = pure T) :
    (∀ k v, (k, v) ∈ items → find hash n T k = pure (some v) ∧ contains hash n T k = pure true ∧ get hash n T k = pure v) ∧
      ∀ x, x ≠ dk → x ∉ items.map Prod.fst → find hash n T x = pure none ∧ contains hash n T x = pure false := by
  obtain ⟨hl, hnn, hk, hp⟩ := construct_ok h0 hn h
  have hnb : 0 < bucketCount n := by rw [bucketCount_eq h0 (by omega)]; exact Nat.two_pow_pos _
  have hd : 0 < nextPow2 n := by rw [nextPow2_eq h0 (by omega)]; exact Nat.two_pow_pos _
  constructor
  · intro k v hkv
    obtain ⟨s, hs, _, _, hit⟩ := hp (k, v) hkv
    obtain ⟨_, h2, h3⟩ := hit (k, v) (List.mem_filter.2 ⟨hkv, by simp⟩)
    have e := dataIndex_ok (x := k) hs
    dsimp only at h2 h3
    refine ⟨?_, ?_, ?_⟩
    · unfold find
      rw [e]
      simp only [pure_bind]
      rw [rd_some h2]
      simp only [pure_bind]
      rw [if_pos trivial, rd_some h3]
      rfl
    · unfold contains
      rw [e]
      simp only [pure_bind]
      rw [rd_some h2]
      simp
    · unfold get
      rw [e]
      simp only [pure_bind]
      exact rd_some h3
  · intro x hx hxk
    have hlt : hash x % bucketCount n < T.salts.length := by rw [hl.salts]; exact Nat.mod_lt _ hnb
    have hge := hnn _ (List.getElem_mem hlt)
    obtain ⟨s, hs⟩ := Int.eq_ofNat_of_zero_le hge
    have e := dataIndex_ok (n := n) (T := T) (x := x) (s := s) (by rw [List.getElem?_eq_getElem hlt, hs])
    have hkl : slotOf hash (nextPow2 n) s x < T.keys.length := by rw [hl.keys]; exact slotOf_lt hd
    have hne : x ≠ T.keys[slotOf hash (nextPow2 n) s x] := by
      intro hc
      rcases hk _ _ (List.getElem?_eq_getElem hkl) with h | ⟨v, h⟩
      · exact hx (hc.trans h)
      · exact hxk (List.mem_map.2 ⟨_, h, hc.symm⟩)
    constructor
    · unfold find
      rw [e]
      simp only [pure_bind]
      rw [rd_eq hkl]
      simp only [pure_bind]
      rw [if_neg hne]
    · unfold contains
      rw [e]
      simp only [pure_bind]
      rw [rd_eq hkl]
      simp [hne]

/-! ### Which keys can be placed -/

omit [DecidableEq κ] in
theorem slotOf_eq {hash : κ → Nat} {m s : Nat} {x : κ} (hs : s < saltEnd) (hm : m ≤ 60) :
    slotOf hash (2 ^ (m + 1)) s x = mix (s + 1) (hash x) % 2 ^ (m + 1) := by
  unfold slotOf
  unfold saltEnd at hs
  exact hashCombine_mod s (hash x) (m + 1) (by omega) (by omega)

omit [DecidableEq κ] in
/-- Keys whose hashes agree modulo the number of places prevent the construction. -/
theorem construct_only {hash : κ → Nat} {limit n : Nat} {dk : κ} {dv : υ} {items : List (κ × υ)} {T : St κ υ} (h0 : 0 < n)
    (hn : n < 2 ^ 60) (h : construct hash limit n dk dv items = pure T) :
    (items.map fun it => hash it.1 % nextPow2 n).Nodup := by
  obtain ⟨_, _, _, hp⟩ := construct_ok h0 hn h
  have hm : Nat.log2 n ≤ 60 := by
    have := (Nat.log2_lt (by omega : n ≠ 0)).2 hn
    omega
  rw [List.nodup_iff_sublist]
  intro a ha
  rw [List.sublist_map_iff] at ha
  obtain ⟨l, hl, he⟩ := ha
  match l, hl, he with
  | [x, y], hl, he =>
    simp only [List.map_cons, List.map_nil, List.cons.injEq, and_true] at he
    obtain ⟨hx, hy⟩ := he
    have hxy : hash x.1 % 2 ^ (Nat.log2 n + 1) = hash y.1 % 2 ^ (Nat.log2 n + 1) := by
      rw [nextPow2_eq h0 (by omega)] at hx hy
      rw [← hx, ← hy]
    have hxy' : hash y.1 % bucketCount n = hash x.1 % bucketCount n := by
      rw [bucketCount_eq h0 (by omega)]
      have hd : 2 ^ Nat.log2 n ∣ 2 ^ (Nat.log2 n + 1) := Nat.pow_dvd_pow 2 (Nat.le_succ _)
      rw [← Nat.mod_mod_of_dvd _ hd, ← hxy, Nat.mod_mod_of_dvd _ hd]
    obtain ⟨s, _, hs, hnd, _⟩ := hp x (hl.subset (by simp))
    have hsub := (hl.filter fun it => hash it.1 % bucketCount n == hash x.1 % bucketCount n).map
      fun it => slotOf hash (nextPow2 n) s it.1
    have hf : List.filter (fun it => hash it.1 % bucketCount n == hash x.1 % bucketCount n) [x, y] = [x, y] := by
      rw [List.filter_cons_of_pos (by simp), List.filter_cons_of_pos (by simp [hxy'])]
      rfl
    rw [hf] at hsub
    have := hsub.nodup hnd
    simp only [List.map_cons, List.map_nil, List.nodup_cons, List.mem_singleton] at this
    apply this.1
    rw [nextPow2_eq h0 (by omega), slotOf_eq hs hm, slotOf_eq hs hm]
    exact mix_congr _ hxy
  | _ :: _ :: _ :: _, _, he => simp at he

theorem exists_free (l : List Bool) (h : l.count true < l.length) : ∃ p : Nat, l[p]? = some false := by
  induction l with
  | nil => simp at h
  | cons b l ih =>
    cases b with
    | false => exact ⟨0, rfl⟩
    | true =>
      rw [List.count_cons_self, List.length_cons] at h
      obtain ⟨p, hp⟩ := ih (by omega)
      exact ⟨p + 1, by simpa using hp⟩

/-- The claimed places come in pairs. (Specification, no line of the source.) -/
def Sym (m : Nat) (claimed : List Bool) : Prop := ∀ q : Nat, claimed[q]? = some true → claimed[q ^^^ 2 ^ m]? = some true

/-- A bucket of distinct residues: at most two items, and two of them differ in the top bit.
(Specification, no line of the source.) -/
def Small (hash : κ → Nat) (m : Nat) (b : Bucket κ υ) : Prop :=
  b.items.length ≤ 1 ∨ ∃ x y, b.items = [x, y] ∧ hash y.1 % 2 ^ (m + 1) = (hash x.1 + 2 ^ m) % 2 ^ (m + 1)

omit [DecidableEq κ] in
theorem findSalt_total {hash : κ → Nat} {m nb : Nat} (hm : m < 60) {b : Bucket κ υ} (hb : b.index < nb) {st : St κ υ}
    (hl : Len nb (2 ^ (m + 1)) st) (hsm : Small hash m b) (hne : b.items ≠ []) (hsym : b.items.length ≤ 1 ∨ Sym m st.claimed)
    (hcnt : st.claimed.count true + 2 ≤ 2 ^ (m + 1)) : ∃ st', findSalt hash (2 ^ (m + 1)) b st = pure st' := by
  have hpm : 2 ^ (m + 1) = 2 ^ m + 2 ^ m := by rw [Nat.pow_succ]; omega
  have hpos := Nat.two_pow_pos m
  have hend : ∀ s, s < 2 ^ (m + 1 + 2) → s < 2 ^ 63 := fun s h => Nat.lt_of_lt_of_le h (Nat.pow_le_pow_right (by omega) (by omega))
  -- once a salt is known, the rest succeeds
  have fin : ∀ st1 : St κ υ, Len nb (2 ^ (m + 1)) st1 → single b st = pure st1 → b.items.length ≤ 2 ^ (m + 1) →
      (∃ s, 1 ≤ s ∧ s < 2 ^ 63 ∧ (b.items.map fun it => slotOf hash (2 ^ (m + 1)) s it.1).Nodup ∧
        ∀ it ∈ b.items, st1.claimed[slotOf hash (2 ^ (m + 1)) s it.1]? = some false) →
      ∃ st', findSalt hash (2 ^ (m + 1)) b st = pure st' := by
    rintro st1 hl1 e hlen ⟨s, hs1, hs2, hnd, hfree⟩
    have ht : ∀ salt, ∃ o, tryAll hash (2 ^ (m + 1)) st1.claimed salt b.items [] = pure o := fun salt => by
      obtain ⟨o, ho, _⟩ := tryAll_total (hash := hash) (Nat.two_pow_pos _) hl1.claimed salt b.items [] (by simpa using hlen)
      exact ⟨o, ho⟩
    have hsome : ∃ slots, tryAll hash (2 ^ (m + 1)) st1.claimed s b.items [] = pure (some slots) := by
      obtain ⟨o, ho, h⟩ := tryAll_total (hash := hash) (Nat.two_pow_pos _) hl1.claimed s b.items [] (by simpa using hlen)
      have := h (by simpa using hnd) hfree
      obtain ⟨slots, rfl⟩ := Option.isSome_iff_exists.1 this
      exact ⟨slots, ho⟩
    obtain ⟨⟨s', slots'⟩, hr⟩ := saltLoop_total ht s hs2 hsome _ 1 rfl hs1
    obtain ⟨_, h63, htry⟩ := saltLoop_some _ 1 rfl (by decide) s' slots' hr
    obtain ⟨st', e', _⟩ := finish_ok hb hl1 htry h63
    refine ⟨st', ?_⟩
    unfold findSalt
    rw [e]
    simp only [pure_bind]
    rw [hr]
    exact e'
  rcases hsm with h1 | ⟨x, y, hxy, htop⟩
  · obtain ⟨x, hx⟩ : ∃ x, b.items = [x] := by
      match hi : b.items, h1, hne with
      | [x], _, _ => exact ⟨x, rfl⟩
    rcases single_spec hl hb with ⟨hn1, _⟩ | ⟨it, p, st1, hit, hp, e, hl1, _, hc1, _, _⟩ | ⟨_, hfull⟩
    · rw [hx] at hn1; exact absurd rfl hn1
    · apply fin st1 hl1 e (by omega)
      obtain ⟨q, hq⟩ := exists_free st1.claimed (by rw [hc1, count_set hp, List.length_set, hl.claimed]; omega)
      have hql : q < 2 ^ (m + 1) := by rw [← hl1.claimed]; exact (List.getElem?_eq_some_iff.1 hq).1
      obtain ⟨s, h2, hlt, hs⟩ := mix_onto (hash x.1) q (m + 1)
      have h63 := hend s hlt
      have he : slotOf hash (2 ^ (m + 1)) (s - 1) x.1 = q := by
        rw [slotOf_eq (by unfold saltEnd; omega) (by omega), Nat.sub_add_cancel (by omega), hs, Nat.mod_eq_of_lt hql]
      refine ⟨s - 1, by omega, by omega, by rw [hx]; simp, fun it hit => ?_⟩
      rw [hx, List.mem_singleton] at hit
      rw [hit, he]
      exact hq
    · obtain ⟨q, hq⟩ := exists_free st.claimed (by rw [hl.claimed]; omega)
      rw [hfull q (by rw [← hl.claimed]; exact (List.getElem?_eq_some_iff.1 hq).1)] at hq
      injection hq with hq
      injection hq
  · have h2 : b.items.length = 2 := by rw [hxy]; rfl
    have hsym : Sym m st.claimed := by
      rcases hsym with h | h
      · omega
      · exact h
    have e : single b st = pure st := by
      unfold single
      rw [hxy]
    apply fin st hl e (by omega)
    obtain ⟨q, hq⟩ := exists_free st.claimed (by rw [hl.claimed]; omega)
    have hql : q < 2 ^ (m + 1) := by rw [← hl.claimed]; exact (List.getElem?_eq_some_iff.1 hq).1
    have hql' : q ^^^ 2 ^ m < 2 ^ (m + 1) := Nat.xor_lt_two_pow hql (by omega)
    obtain ⟨s, hs2, hlt, hs⟩ := mix_onto (hash x.1) q (m + 1)
    have h63 := hend s hlt
    have hse : s - 1 < saltEnd := by unfold saltEnd; omega
    have hex : slotOf hash (2 ^ (m + 1)) (s - 1) x.1 = q := by
      rw [slotOf_eq hse (by omega), Nat.sub_add_cancel (by omega), hs, Nat.mod_eq_of_lt hql]
    have hey : slotOf hash (2 ^ (m + 1)) (s - 1) y.1 = q ^^^ 2 ^ m := by
      rw [slotOf_eq hse (by omega), Nat.sub_add_cancel (by omega), mix_top _ _ _ _ htop, hs, Nat.mod_eq_of_lt hql]
    have hback : (q ^^^ 2 ^ m) ^^^ 2 ^ m = q := by rw [Nat.xor_assoc, Nat.xor_self, Nat.xor_zero]
    have hqne : q ≠ q ^^^ 2 ^ m := by
      intro hc
      have : q ^^^ (q ^^^ 2 ^ m) = 0 := by rw [← hc, Nat.xor_self]
      rw [← Nat.xor_assoc, Nat.xor_self, Nat.zero_xor] at this
      omega
    have hq' : st.claimed[q ^^^ 2 ^ m]? = some false := by
      cases hc : st.claimed[q ^^^ 2 ^ m]? with
      | none =>
        rw [List.getElem?_eq_none_iff, hl.claimed] at hc
        omega
      | some c =>
        cases c with
        | false => rfl
        | true =>
          have := hsym _ hc
          rw [hback, hq] at this
          injection this with this
          injection this
    refine ⟨s - 1, by omega, by omega, ?_, fun it hit => ?_⟩
    · rw [hxy]
      simp only [List.map_cons, List.map_nil, hex, hey]
      simp [hqne]
    · rw [hxy] at hit
      simp only [List.mem_cons, List.not_mem_nil, or_false] at hit
      rcases hit with rfl | rfl
      · rw [hex]; exact hq
      · rw [hey]; exact hq'

omit [DecidableEq κ] in
theorem process_total {hash : κ → Nat} {m nb : Nat} (hm : m < 60) (bs : List (Bucket κ υ)) : ∀ st : St κ υ,
    Len nb (2 ^ (m + 1)) st → (∀ b ∈ bs, b.index < nb) → (∀ b ∈ bs, Small hash m b) →
    bs.Pairwise (fun l r => r.items.length ≤ l.items.length) → ((∀ b ∈ bs, b.items.length ≤ 1) ∨ Sym m st.claimed) →
    st.claimed.count true + 2 * bs.length ≤ 2 ^ (m + 1) → ∃ st', process hash (2 ^ (m + 1)) bs st = pure st' := by
  induction bs with
  | nil => intro st _ _ _ _ _ _; exact ⟨st, rfl⟩
  | cons b bs ih =>
    intro st hl hidx hsm hpw hsym hcnt
    rw [List.pairwise_cons] at hpw
    rw [List.length_cons] at hcnt
    rw [process]
    by_cases he : b.items.isEmpty = true
    · rw [if_pos he]; exact ⟨st, rfl⟩
    rw [if_neg he]
    have hne : b.items ≠ [] := by rwa [List.isEmpty_iff] at he
    have hbn := hidx b (by simp)
    obtain ⟨st1, e1⟩ := findSalt_total hm hbn hl (hsm b (by simp)) hne
      (hsym.imp (fun h => h b (by simp)) id) (by omega)
    obtain ⟨hl1, hx1, _, _, _, hc1, hs1⟩ := findSalt_ok hbn hl e1
    rw [e1]
    simp only [pure_bind]
    have hlen : 1 ≤ b.items.length := List.length_pos_iff.2 hne
    refine ih st1 hl1 (fun b' hb' => hidx b' (List.mem_cons_of_mem _ hb')) (fun b' hb' => hsm b' (List.mem_cons_of_mem _ hb')) hpw.2 ?_ ?_
    · rcases hsm b (by simp) with h1 | ⟨x, y, hxy, htop⟩
      · left
        intro b' hb'
        exact Nat.le_trans (hpw.1 b' hb') h1
      · right
        have h2 : b.items.length = 2 := by rw [hxy]; rfl
        have hsym : Sym m st.claimed := by
          rcases hsym with h | h
          · have := h b (by simp); omega
          · exact h
        obtain ⟨s, hs, hin, hout⟩ := hs1 (by omega)
        have hey : slotOf hash (2 ^ (m + 1)) s y.1 = slotOf hash (2 ^ (m + 1)) s x.1 ^^^ 2 ^ m := by
          rw [slotOf_eq hs (by omega), slotOf_eq hs (by omega), mix_top _ _ _ _ htop]
        intro q hq
        by_cases hqx : q = slotOf hash (2 ^ (m + 1)) s x.1
        · rw [hqx, ← hey]
          exact hin y (by rw [hxy]; simp)
        · by_cases hqy : q = slotOf hash (2 ^ (m + 1)) s y.1
          · rw [hqy, hey, Nat.xor_assoc, Nat.xor_self, Nat.xor_zero]
            exact hin x (by rw [hxy]; simp)
          · rw [hout q (by rw [hxy]; simp [hqx, hqy])] at hq
            exact hx1.claimed _ (hsym q hq)
    · rw [hc1]
      rcases hsm b (by simp) with h1 | ⟨x, y, hxy, htop⟩
      · rw [if_pos (by omega)]; omega
      · have h2 : b.items.length = 2 := by rw [hxy]; rfl
        rw [if_neg (by omega)]; omega

omit [DecidableEq κ] in
/-- Distinct residues make small buckets. -/
theorem small_of_nodup {hash : κ → Nat} {m i : Nat} (items : List (κ × υ)) (h : (items.map fun it => hash it.1 % 2 ^ (m + 1)).Nodup) :
    Small hash m (bucketAt hash (2 ^ m) items i) := by
  have hnd : ((bucketAt hash (2 ^ m) items i).items.map fun it => hash it.1 % 2 ^ (m + 1)).Nodup :=
    List.Sublist.nodup (List.Sublist.map _ List.filter_sublist) h
  have hall : ∀ it ∈ (bucketAt hash (2 ^ m) items i).items, hash it.1 % 2 ^ m = i := by
    intro it hit
    have := (List.mem_filter.1 hit).2
    simpa using this
  unfold Small
  obtain ⟨l, hl⟩ : ∃ l, (bucketAt hash (2 ^ m) items i).items = l := ⟨_, rfl⟩
  rw [hl] at hnd hall ⊢
  have step : ∀ x y : κ × υ, hash x.1 % 2 ^ m = i → hash y.1 % 2 ^ m = i → hash x.1 % 2 ^ (m + 1) ≠ hash y.1 % 2 ^ (m + 1) →
      hash y.1 % 2 ^ (m + 1) = (hash x.1 % 2 ^ (m + 1)) ^^^ 2 ^ m := by
    intro x y hx hy hne
    rcases eq_or_top (hy.trans hx.symm) with h | h
    · exact absurd h.symm hne
    · exact h
  match l, hnd, hall with
  | [], _, _ => left; simp
  | [x], _, _ => left; simp
  | [x, y], hnd, hall =>
    right
    simp only [List.map_cons, List.map_nil, List.nodup_cons, List.mem_singleton] at hnd
    refine ⟨x, y, rfl, ?_⟩
    rw [add_top]
    exact step x y (hall x (by simp)) (hall y (by simp)) hnd.1
  | x :: y :: z :: l, hnd, hall =>
    exfalso
    simp only [List.map_cons, List.nodup_cons, List.mem_cons, not_or] at hnd
    have h1 := step x y (hall x (by simp)) (hall y (by simp)) hnd.1.1
    have h2 := step x z (hall x (by simp)) (hall z (by simp)) hnd.1.2.1
    exact hnd.2.1.1 (h1.trans h2.symm)

omit [DecidableEq κ] in
/-- The construction returns exactly if the hashes are distinct modulo the number of places, the power of two above `N`. -/
theorem C51_construct (hash : κ → Nat) (limit : Nat) (dk : κ) (dv : υ) (items : List (κ × υ)) (h0 : 0 < items.length)
    (hn : items.length < 2 ^ 60) :
    (∃ T, construct hash limit items.length dk dv items = pure T) ↔
      (items.map fun it => hash it.1 % 2 ^ (Nat.log2 items.length + 1)).Nodup := by
  constructor
  · rintro ⟨T, h⟩
    have := construct_only h0 hn h
    rwa [nextPow2_eq h0 (by omega)] at this
  · intro hnd
    have hm : Nat.log2 items.length < 60 := (Nat.log2_lt (by omega)).2 hn
    have hlt : items.length < 2 ^ (Nat.log2 items.length + 1) := Nat.lt_log2_self
    unfold construct
    rw [nextPow2_eq h0 (by omega), bucketCount_eq h0 (by omega)]
    obtain ⟨m, hmd⟩ : ∃ m, Nat.log2 items.length = m := ⟨_, rfl⟩
    rw [hmd] at hm hlt hnd ⊢
    obtain ⟨bs, hbs⟩ := fill_total (hash := hash) (dsize := 2 ^ (m + 1)) (Nat.two_pow_pos m) items ((List.range (2 ^ m)).map fun i => ⟨i, []⟩) 0
      (by simp) (by
        intro b hb
        obtain ⟨i, _, rfl⟩ := List.mem_map.1 hb
        exact Nat.le_refl 0) (by omega)
    have he := fill_eq (Nat.two_pow_pos m) items hbs
    subst he
    obtain ⟨ys, hys, hperm, hpw⟩ := sort_buckets limit ((List.range (2 ^ m)).map (bucketAt hash (2 ^ m) items))
    rw [List.length_map, List.length_range] at hys
    have hmem : ∀ b ∈ ys, ∃ i, i < 2 ^ m ∧ bucketAt hash (2 ^ m) items i = b := by
      intro b hb
      rw [hperm.mem_iff, List.mem_map] at hb
      simpa only [List.mem_range] using hb
    have hylen : ys.length = 2 ^ m := by rw [hperm.length_eq]; simp
    simp only []
    rw [hbs]
    simp only [pure_bind]
    rw [hys]
    simp only [pure_bind]
    refine process_total (nb := 2 ^ m) hm ys _
      ⟨List.length_replicate, List.length_replicate, List.length_replicate, List.length_replicate⟩ ?_ ?_ hpw (Or.inr ?_) ?_
    · intro b hb
      obtain ⟨i, hi, rfl⟩ := hmem b hb
      exact hi
    · intro b hb
      obtain ⟨i, hi, rfl⟩ := hmem b hb
      exact small_of_nodup items hnd
    · intro q hq
      have := (List.mem_replicate.1 (List.mem_of_getElem? hq)).2
      simp at this
    · rw [List.count_replicate, hylen, Nat.pow_succ]
      simp
      omega

/-- Three keys of hashes 0, 2 and 5 can be placed. -/
example : ((([(1, 10), (2, 20), (3, 30)] : List (Nat × Nat)).map fun it => (if it.1 = 1 then 0 else if it.1 = 2 then 2 else 5) %
    2 ^ (Nat.log2 3 + 1))).Nodup := by decide

example : ∃ T, construct (fun k => k) 5 2 0 0 [(1, 10), (2, 20)] = pure T ∧ find (fun k => k) 2 T 2 = pure (some 20) := by
  obtain ⟨T, hT⟩ := (C51_construct (fun k => k) 5 0 0 [(1, 10), (2, 20)] (by decide) (by decide)).2 (by decide)
  exact ⟨T, hT, ((C51_lookup_partial (fun k => k) 5 2 0 0 [(1, 10), (2, 20)] T (by decide) (by decide) hT).1 2 20 (by decide)).1⟩

/-- Distinct hashes do not suffice: with the hashes 0 and 4 no salt separates two keys among four places. -/
theorem C51_distinct_violated : ∃ (hash : Nat → Nat) (items : List (Nat × Nat)), (items.map fun it => hash it.1).Nodup ∧
    (items.map Prod.fst).Nodup ∧ 0 < items.length ∧ ∀ limit dk dv, ¬ ∃ T, construct hash limit items.length dk dv items = pure T := by
  refine ⟨fun x => 4 * x, [(0, 1), (1, 2)], by decide, by decide, by decide, fun limit dk dv h => ?_⟩
  rw [C51_construct _ _ _ _ _ (by decide) (by decide)] at h
  exact absurd h (by decide)

/-- The default key is reported although it was not given: the unused places hold it. -/
theorem C51_default_violated : ∃ (hash : Nat → Nat) (items : List (Nat × Nat)), (0 : Nat) ∉ items.map Prod.fst ∧
    ∀ limit, ∃ T, construct hash limit items.length 0 0 items = pure T ∧ contains hash items.length T 0 = pure true ∧
      find hash items.length T 0 = pure (some 0) := by
  refine ⟨fun x => x + 3, [(6, 60), (2, 20), (5, 50), (9, 90), (7, 70)], by decide, fun limit => ?_⟩
  obtain ⟨ys, hys, hperm, hpw⟩ := sort_buckets limit
    ((List.range 4).map (bucketAt (fun x => x + 3) 4 [(6, 60), (2, 20), (5, 50), (9, 90), (7, 70)]))
  have key : ∀ ys ∈ ((List.range 4).map (bucketAt (fun x => x + 3) 4 [(6, 60), (2, 20), (5, 50), (9, 90), (7, 70)])).permutations',
      ys.Pairwise (fun l r => r.items.length ≤ l.items.length) → ∃ T ∈ (process (fun x => x + 3) 8 ys
        ⟨List.replicate 4 0, List.replicate 8 0, List.replicate 8 0, List.replicate 8 false⟩ : Cxx (St Nat Nat)).run.bind Except.toOption,
        contains (fun x => x + 3) 5 T 0 = pure true ∧ find (fun x => x + 3) 5 T 0 = pure (some 0) := by
    decide +kernel
  obtain ⟨T, hT, h⟩ := key ys (List.mem_permutations'.2 hperm) hpw
  refine ⟨T, ?_, h⟩
  have hp : (process (fun x => x + 3) 8 ys
      ⟨List.replicate 4 0, List.replicate 8 0, List.replicate 8 0, List.replicate 8 false⟩ : Cxx (St Nat Nat)) = pure T := by
    obtain ⟨r, hr, hrT⟩ := Option.bind_eq_some_iff.1 hT
    cases r with
    | error e => simp [Except.toOption] at hrT
    | ok t =>
      have : t = T := by simpa [Except.toOption] using hrT
      subst this
      exact hr
  have hf : fill (fun x => x + 3) 8 4 [(6, 60), (2, 20), (5, 50), (9, 90), (7, 70)] ((List.range 4).map fun i => ⟨i, []⟩) =
      pure ((List.range 4).map (bucketAt (fun x => x + 3) 4 [(6, 60), (2, 20), (5, 50), (9, 90), (7, 70)])) := rfl
  unfold construct
  have h1 : nextPow2 5 = 8 := by decide +kernel
  have h2 : bucketCount 5 = 4 := by decide +kernel
  show (do
    let bs ← fill (fun x => x + 3) (nextPow2 5) (bucketCount 5) [(6, 60), (2, 20), (5, 50), (9, 90), (7, 70)]
      ((List.range (bucketCount 5)).map fun i => ⟨i, []⟩)
    let bs ← Verif.Sort.sort bigger limit bs 0 (bucketCount 5)
    process (fun x => x + 3) (nextPow2 5) bs ⟨List.replicate (bucketCount 5) 0, List.replicate (nextPow2 5) 0,
      List.replicate (nextPow2 5) 0, List.replicate (nextPow2 5) false⟩ : Cxx (St Nat Nat)) = _
  rw [h1, h2, hf]
  simp only [pure_bind]
  rw [List.length_map, List.length_range] at hys
  rw [hys]
  exact hp

end Verif.Containers.Mph
