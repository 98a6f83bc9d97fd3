import Verif.Containers.MphHash
import Verif.Sort.Quick
import Mathlib.Data.List.Basic

/-
`daw::perfect_hash_table`, include/daw/daw_min_perfect_hash.h.  The hash is any function into the 64 bit numbers, `KeyEqual` is
equality.  `m_data_size` is `dsize` and `m_num_buckets` is `nb`.
-/

namespace Verif.Containers.Mph
open Cxx

variable {κ υ : Type} [DecidableEq κ]

/-- `bucket_t`, daw_min_perfect_hash.h 230-239: iterators are replaced by the items they point to. -/
structure Bucket (κ υ : Type) where
  /-- `bucket_index` -/
  index : Nat
  /-- `items` -/
  items : List (κ × υ)

/-- The members, daw_min_perfect_hash.h 244-246, and `slots_claimed`, 176. -/
structure St (κ υ : Type) where
  /-- `m_salts` -/
  salts : List Int
  /-- `m_values` -/
  values : List υ
  /-- `m_keys` -/
  keys : List κ
  /-- `slots_claimed` -/
  claimed : List Bool
  deriving DecidableEq

/-- `buckets[bucket].items.push_back( it )` for every item, daw_min_perfect_hash.h 166-169; a full `bounded_vector` is written
outside of its array. -/
def fill (hash : κ → Nat) (dsize nb : Nat) : List (κ × υ) → List (Bucket κ υ) → Cxx (List (Bucket κ υ))
  | [], bs => pure bs
  | it :: its, bs => do
    let b ← rd bs (hash it.1 % nb)
    if b.items.length < dsize then do
      let bs ← wr bs (hash it.1 % nb) ⟨b.index, b.items ++ [it]⟩
      fill hash dsize nb its bs
    else ub

/-- The place of a key for a salt, daw_min_perfect_hash.h 289-290 and 321-322. -/
def slotOf (hash : κ → Nat) (dsize salt : Nat) (x : κ) : Nat := hashCombine salt (hash x) % dsize

/-- The search for places for all items of a bucket, daw_min_perfect_hash.h 286-299. -/
def tryAll (hash : κ → Nat) (dsize : Nat) (claimed : List Bool) (salt : Nat) : List (κ × υ) → List Nat → Cxx (Option (List Nat))
  | [], slots => pure (some slots)
  | it :: its, slots => do
    let c ← rd claimed (slotOf hash dsize salt it.1)
    if c = true ∨ slotOf hash dsize salt it.1 ∈ slots then pure none
    else if slots.length < dsize then tryAll hash dsize claimed salt its (slots ++ [slotOf hash dsize salt it.1])
    else ub

/-- The loop over the salts, daw_min_perfect_hash.h 283-311, up to the first success; the salt is an `intmax_t`, whose overflow is
undefined. -/
def saltLoop (hash : κ → Nat) (dsize : Nat) (claimed : List Bool) (items : List (κ × υ)) (salt : Nat) : Cxx (Nat × List Nat) := do
  match ← tryAll hash dsize claimed salt items [] with
  | some slots => pure (salt, slots)
  | none => if salt + 1 < 2 ^ 63 then saltLoop hash dsize claimed items (salt + 1) else ub
  termination_by 2 ^ 63 - salt
  decreasing_by omega

/-- One item is stored, daw_min_perfect_hash.h 304-307. -/
def store (st : St κ υ) (it : κ × υ) (p : Nat) : Cxx (St κ υ) := do
  let keys ← wr st.keys p it.1
  let values ← wr st.values p it.2
  let claimed ← wr st.claimed p true
  pure ⟨st.salts, values, keys, claimed⟩

/-- The items are stored, daw_min_perfect_hash.h 303-308. -/
def storeAll : List (κ × υ) → List Nat → St κ υ → Cxx (St κ υ)
  | [], _, st => pure st
  | it :: its, slots, st => do
    let p ← rd slots 0
    let st ← store st it p
    storeAll its slots.tail st

/-- The branch for a bucket of one item, daw_min_perfect_hash.h 269-281.  It does not return. -/
def single (b : Bucket κ υ) (st : St κ υ) : Cxx (St κ υ) :=
  match b.items with
  | [it] =>
    match st.claimed.findIdx? (fun c => c == false) with
    | none => abort
    | some p => do
      let claimed ← wr st.claimed p true
      let salts ← wr st.salts b.index (-((p : Int) + 1))
      let keys ← wr st.keys p it.1
      let values ← wr st.values p it.2
      pure ⟨salts, values, keys, claimed⟩
  | _ => pure st

/-- `find_salt_for_bucket`, daw_min_perfect_hash.h 265-312. -/
def findSalt (hash : κ → Nat) (dsize : Nat) (b : Bucket κ υ) (st : St κ υ) : Cxx (St κ υ) := do
  let st ← single b st
  let (salt, slots) ← saltLoop hash dsize st.claimed b.items 1
  let salts ← wr st.salts b.index salt
  storeAll b.items slots ⟨salts, st.values, st.keys, st.claimed⟩

/-- The buckets up to the first empty one, daw_min_perfect_hash.h 178-185. -/
def process (hash : κ → Nat) (dsize : Nat) : List (Bucket κ υ) → St κ υ → Cxx (St κ υ)
  | [], st => pure st
  | b :: bs, st =>
    if b.items.isEmpty then pure st
    else do
      let st ← findSalt hash dsize b st
      process hash dsize bs st

/-- The order of the buckets, daw_min_perfect_hash.h 172-174. -/
def bigger (l r : Bucket κ υ) : Bool := decide (r.items.length < l.items.length)

/-- The constructor, daw_min_perfect_hash.h 153-186; `n` is `N`, `dk` and `dv` are `Key{ }` and `Value{ }`, `limit` is the
threshold of `daw::sort`. -/
def construct (hash : κ → Nat) (limit n : Nat) (dk : κ) (dv : υ) (items : List (κ × υ)) : Cxx (St κ υ) := do
  let dsize := nextPow2 n
  let nb := bucketCount n
  let bs ← fill hash dsize nb items ((List.range nb).map fun i => ⟨i, []⟩)
  let bs ← Verif.Sort.sort bigger limit bs 0 nb
  process hash dsize bs ⟨List.replicate nb 0, List.replicate dsize dv, List.replicate dsize dk, List.replicate dsize false⟩

/-- `find_data_index`, daw_min_perfect_hash.h 314-323. -/
def dataIndex (hash : κ → Nat) (n : Nat) (st : St κ υ) (x : κ) : Cxx Nat := do
  let salt ← rd st.salts (hash x % bucketCount n)
  if salt < 0 then pure (-salt - 1).toNat
  else pure (slotOf hash (nextPow2 n) salt.toNat x)

/-- `find`, daw_min_perfect_hash.h 192-199 and 210-216: the value pointed to. -/
def find (hash : κ → Nat) (n : Nat) (st : St κ υ) (x : κ) : Cxx (Option υ) := do
  let p ← dataIndex hash n st x
  let k ← rd st.keys p
  if x = k then do
    let v ← rd st.values p
    pure (some v)
  else pure none

/-- `contains`, daw_min_perfect_hash.h 205-208. -/
def contains (hash : κ → Nat) (n : Nat) (st : St κ υ) (x : κ) : Cxx Bool := do
  let p ← dataIndex hash n st x
  let k ← rd st.keys p
  pure (decide (x = k))

/-- `operator[]`, daw_min_perfect_hash.h 218-227. -/
def get (hash : κ → Nat) (n : Nat) (st : St κ υ) (x : κ) : Cxx υ := do
  let p ← dataIndex hash n st x
  rd st.values p

/-! ### Storing -/

/-- The sizes of the arrays. (Specification, no line of the source.) -/
structure Len (nb dsize : Nat) (st : St κ υ) : Prop where
  salts : st.salts.length = nb
  values : st.values.length = dsize
  keys : st.keys.length = dsize
  claimed : st.claimed.length = dsize

/-- Claimed places keep their contents. (Specification, no line of the source.) -/
structure Ext (st st' : St κ υ) : Prop where
  claimed : ∀ p : Nat, st.claimed[p]? = some true → st'.claimed[p]? = some true
  keys : ∀ p : Nat, st.claimed[p]? = some true → st'.keys[p]? = st.keys[p]?
  values : ∀ p : Nat, st.claimed[p]? = some true → st'.values[p]? = st.values[p]?

omit [DecidableEq κ] in
theorem Ext.trans {a b c : St κ υ} (h : Ext a b) (h' : Ext b c) : Ext a c :=
  ⟨fun p hp => h'.claimed p (h.claimed p hp), fun p hp => (h'.keys p (h.claimed p hp)).trans (h.keys p hp),
    fun p hp => (h'.values p (h.claimed p hp)).trans (h.values p hp)⟩

/-- Every key stored is the default one or one of a list of items. (Specification, no line of the source.) -/
def Known (dk : κ) (items : List (κ × υ)) (st : St κ υ) : Prop :=
  ∀ (p : Nat) (k : κ), st.keys[p]? = some k → k = dk ∨ ∃ v, (k, v) ∈ items

omit [DecidableEq κ] in
theorem count_set {l : List Bool} {p : Nat} (h : l[p]? = some false) : (l.set p true).count true = l.count true + 1 := by
  induction l generalizing p with
  | nil => simp at h
  | cons b l ih =>
    cases p with
    | zero =>
      rw [List.getElem?_cons_zero] at h
      injection h with h
      subst h
      simp
    | succ p =>
      rw [List.getElem?_cons_succ] at h
      rw [List.set_cons_succ, List.count_cons, List.count_cons, ih h]
      omega

omit [DecidableEq κ] in
/-- Storing one item in a place not claimed. -/
theorem store_ok {nb dsize : Nat} {st : St κ υ} (hl : Len nb dsize st) (it : κ × υ) (p : Nat) (hp : st.claimed[p]? = some false) :
    ∃ st', store st it p = pure st' ∧ Len nb dsize st' ∧ Ext st st' ∧ st'.salts = st.salts ∧ st'.claimed[p]? = some true ∧
      st'.keys[p]? = some it.1 ∧ st'.values[p]? = some it.2 ∧ (∀ q : Nat, q ≠ p → st'.claimed[q]? = st.claimed[q]?) ∧
      (∀ (q : Nat) (k : κ), st'.keys[q]? = some k → st.keys[q]? = some k ∨ k = it.1) ∧ st'.claimed.count true = st.claimed.count true + 1 := by
  have hlt : p < dsize := by
    rw [← hl.claimed]
    exact (List.getElem?_eq_some_iff.1 hp).1
  refine ⟨⟨st.salts, st.values.set p it.2, st.keys.set p it.1, st.claimed.set p true⟩, ?_, ?_, ?_, rfl, ?_, ?_, ?_, ?_, ?_, ?_⟩
  · unfold store
    rw [wr_eq (by rw [hl.keys]; exact hlt)]
    simp only [pure_bind]
    rw [wr_eq (by rw [hl.values]; exact hlt)]
    simp only [pure_bind]
    rw [wr_eq (by rw [hl.claimed]; exact hlt)]
    rfl
  · exact ⟨hl.salts, by simpa using hl.values, by simpa using hl.keys, by simpa using hl.claimed⟩
  · have hne : ∀ q : Nat, st.claimed[q]? = some true → p ≠ q := by
      rintro q hq rfl
      rw [hp] at hq
      injection hq with hq; injection hq
    refine ⟨fun q hq => ?_, fun q hq => ?_, fun q hq => ?_⟩
    · show (st.claimed.set p true)[q]? = _
      rw [List.getElem?_set_ne (hne q hq)]; exact hq
    · show (st.keys.set p it.1)[q]? = _
      rw [List.getElem?_set_ne (hne q hq)]
    · show (st.values.set p it.2)[q]? = _
      rw [List.getElem?_set_ne (hne q hq)]
  · show (st.claimed.set p true)[p]? = _
    rw [List.getElem?_set_self (by rw [hl.claimed]; exact hlt)]
  · show (st.keys.set p it.1)[p]? = _
    rw [List.getElem?_set_self (by rw [hl.keys]; exact hlt)]
  · show (st.values.set p it.2)[p]? = _
    rw [List.getElem?_set_self (by rw [hl.values]; exact hlt)]
  · intro q hq
    show (st.claimed.set p true)[q]? = _
    rw [List.getElem?_set_ne (fun h => hq h.symm)]
  · intro q k hk
    have hk : (st.keys.set p it.1)[q]? = some k := hk
    by_cases hq : q = p
    · subst hq
      rw [List.getElem?_set_self (by rw [hl.keys]; exact hlt)] at hk
      injection hk with hk
      exact Or.inr hk.symm
    · rw [List.getElem?_set_ne (fun h => hq h.symm)] at hk
      exact Or.inl hk
  · exact count_set hp

omit [DecidableEq κ] in
theorem storeAll_ok {nb dsize : Nat} (items : List (κ × υ)) : ∀ (slots : List Nat) (st : St κ υ), Len nb dsize st →
    slots.length = items.length → slots.Nodup → (∀ p ∈ slots, st.claimed[p]? = some false) →
    ∃ st', storeAll items slots st = pure st' ∧ Len nb dsize st' ∧ Ext st st' ∧ st'.salts = st.salts ∧
      (∀ (i : Nat) (it : κ × υ) (p : Nat), items[i]? = some it → slots[i]? = some p →
        st'.claimed[p]? = some true ∧ st'.keys[p]? = some it.1 ∧ st'.values[p]? = some it.2) ∧
      (∀ q : Nat, q ∉ slots → st'.claimed[q]? = st.claimed[q]?) ∧
      (∀ (q : Nat) (k : κ), st'.keys[q]? = some k → st.keys[q]? = some k ∨ ∃ v, (k, v) ∈ items) ∧
      st'.claimed.count true = st.claimed.count true + items.length := by
  induction items with
  | nil =>
    intro slots st hl _ _ _
    exact ⟨st, rfl, hl, ⟨fun _ h => h, fun _ _ => rfl, fun _ _ => rfl⟩, rfl, fun i it p h => by simp at h, fun _ _ => rfl,
      fun _ _ h => Or.inl h, rfl⟩
  | cons it its ih =>
    intro slots st hl hlen hnd hfree
    cases slots with
    | nil => simp at hlen
    | cons p slots =>
      rw [List.nodup_cons] at hnd
      obtain ⟨st1, e1, hl1, hx1, hs1, hc1, hk1, hv1, hoth, hkn, hcnt⟩ := store_ok hl it p (hfree p (by simp))
      obtain ⟨st2, e2, hl2, hx2, hs2, hall, hoth2, hkn2, hcnt2⟩ := ih slots st1 hl1 (by simpa using hlen) hnd.2 fun q hq => by
        rw [hoth q (fun h => hnd.1 (h ▸ hq))]
        exact hfree q (List.mem_cons_of_mem _ hq)
      refine ⟨st2, ?_, hl2, hx1.trans hx2, hs2.trans hs1, ?_, ?_, ?_, ?_⟩
      · rw [storeAll]
        show (do let st ← store st it p; storeAll its slots st) = _
        rw [e1]
        exact e2
      · intro i it' p' hi hp'
        cases i with
        | zero =>
          rw [List.getElem?_cons_zero] at hi hp'
          injection hi with hi; injection hp' with hp'
          subst hi hp'
          exact ⟨hx2.claimed p hc1, (hx2.keys p hc1).trans hk1, (hx2.values p hc1).trans hv1⟩
        | succ i =>
          rw [List.getElem?_cons_succ] at hi hp'
          exact hall i it' p' hi hp'
      · intro q hq
        rw [List.mem_cons, not_or] at hq
        rw [hoth2 q hq.2, hoth q hq.1]
      · intro q k hk
        rcases hkn2 q k hk with h | ⟨v, h⟩
        · rcases hkn q k h with h | rfl
          · exact Or.inl h
          · exact Or.inr ⟨it.2, by simp⟩
        · exact Or.inr ⟨v, List.mem_cons_of_mem _ h⟩
      · rw [hcnt2, hcnt, List.length_cons]
        omega

/-! ### The search for a salt -/

omit [DecidableEq κ] in
theorem tryAll_some {hash : κ → Nat} {dsize : Nat} {claimed : List Bool} {salt : Nat} (items : List (κ × υ)) :
    ∀ acc slots, acc.Nodup → tryAll hash dsize claimed salt items acc = pure (some slots) →
    slots = acc ++ items.map (fun it => slotOf hash dsize salt it.1) ∧ slots.Nodup ∧
      ∀ it ∈ items, claimed[slotOf hash dsize salt it.1]? = some false := by
  induction items with
  | nil =>
    intro acc slots hnd h
    have h := pure_inj.1 h
    injection h with h
    subst h
    exact ⟨by simp, hnd, fun it h => by simp at h⟩
  | cons it its ih =>
    intro acc slots hnd h
    rw [tryAll] at h
    obtain ⟨c, hc, h⟩ := bind_eq_pure.1 h
    have hc' : claimed[slotOf hash dsize salt it.1]? = some c := by
      rcases Nat.lt_or_ge (slotOf hash dsize salt it.1) claimed.length with hlt | hge
      · rw [rd_eq hlt] at hc
        rw [List.getElem?_eq_getElem hlt, pure_inj.1 hc]
      · rw [rd_oob hge] at hc
        exact absurd hc (ub_ne_pure _)
    by_cases hcond : c = true ∨ slotOf hash dsize salt it.1 ∈ acc
    · rw [if_pos hcond] at h
      have h := pure_inj.1 h
      injection h
    · rw [if_neg hcond] at h
      rw [not_or] at hcond
      by_cases hfull : acc.length < dsize
      · rw [if_pos hfull] at h
        obtain ⟨h1, h2, h3⟩ := ih _ slots (by
          rw [List.nodup_append]
          refine ⟨hnd, by simp, ?_⟩
          intro a ha b hb
          rw [List.mem_singleton] at hb
          rintro rfl
          exact hcond.2 (hb ▸ ha)) h
        refine ⟨by rw [h1]; simp, h2, ?_⟩
        intro it' hit
        rcases List.mem_cons.1 hit with rfl | hit
        · rw [hc']
          cases c with
          | true => exact absurd rfl hcond.1
          | false => rfl
        · exact h3 it' hit
      · rw [if_neg hfull] at h
        exact absurd h (ub_ne_pure _)

omit [DecidableEq κ] in
theorem tryAll_total {hash : κ → Nat} {dsize : Nat} {claimed : List Bool} (hd : 0 < dsize) (hcl : claimed.length = dsize) (salt : Nat)
    (items : List (κ × υ)) : ∀ acc, acc.length + items.length ≤ dsize →
    ∃ o, tryAll hash dsize claimed salt items acc = pure o ∧
      ((acc ++ items.map (fun it => slotOf hash dsize salt it.1)).Nodup →
        (∀ it ∈ items, claimed[slotOf hash dsize salt it.1]? = some false) → o.isSome) := by
  induction items with
  | nil => intro acc _; exact ⟨some acc, rfl, fun _ _ => rfl⟩
  | cons it its ih =>
    intro acc hlen
    have hlt : slotOf hash dsize salt it.1 < claimed.length := by rw [hcl]; exact Nat.mod_lt _ hd
    rw [List.length_cons] at hlen
    rw [tryAll, rd_eq hlt]
    simp only [pure_bind]
    by_cases hcond : claimed[slotOf hash dsize salt it.1] = true ∨ slotOf hash dsize salt it.1 ∈ acc
    · rw [if_pos hcond]
      refine ⟨none, rfl, fun hnd hfree => ?_⟩
      exfalso
      rcases hcond with h | h
      · have := hfree it (by simp)
        rw [List.getElem?_eq_getElem hlt, h] at this
        injection this with this; injection this
      · rw [List.nodup_append] at hnd
        exact hnd.2.2 _ h _ (by simp) rfl
    · rw [if_neg hcond, if_pos (by omega)]
      obtain ⟨o, e, ho⟩ := ih (acc ++ [slotOf hash dsize salt it.1]) (by simp; omega)
      refine ⟨o, e, fun hnd hfree => ho ?_ fun it' hit => hfree it' (List.mem_cons_of_mem _ hit)⟩
      simpa using hnd

omit [DecidableEq κ] in
theorem saltLoop_some {hash : κ → Nat} {dsize : Nat} {claimed : List Bool} {items : List (κ × υ)} (n : Nat) :
    ∀ salt, 2 ^ 63 - salt = n → salt < 2 ^ 63 → ∀ s slots, saltLoop hash dsize claimed items salt = pure (s, slots) →
    salt ≤ s ∧ s < 2 ^ 63 ∧ tryAll hash dsize claimed s items [] = pure (some slots) := by
  induction n with
  | zero => intro salt h1 h2; omega
  | succ n ih =>
    intro salt h1 h2 s slots h
    rw [saltLoop] at h
    obtain ⟨o, ho, h⟩ := bind_eq_pure.1 h
    cases o with
    | some slots' =>
      have h := pure_inj.1 h
      injection h with ha hb
      subst ha hb
      exact ⟨Nat.le_refl _, h2, ho⟩
    | none =>
      by_cases hc : salt + 1 < 2 ^ 63
      · have h : (if salt + 1 < 2 ^ 63 then saltLoop hash dsize claimed items (salt + 1) else ub) = pure (s, slots) := h
        rw [if_pos hc] at h
        obtain ⟨h3, h4, h5⟩ := ih (salt + 1) (by omega) hc s slots h
        exact ⟨by omega, h4, h5⟩
      · have h : (if salt + 1 < 2 ^ 63 then saltLoop hash dsize claimed items (salt + 1) else ub) = pure (s, slots) := h
        rw [if_neg hc] at h
        exact absurd h (ub_ne_pure _)

omit [DecidableEq κ] in
theorem saltLoop_total {hash : κ → Nat} {dsize : Nat} {claimed : List Bool} {items : List (κ × υ)}
    (ht : ∀ salt, ∃ o, tryAll hash dsize claimed salt items [] = pure o) (s0 : Nat) (h0 : s0 < 2 ^ 63)
    (hs : ∃ slots, tryAll hash dsize claimed s0 items [] = pure (some slots)) (n : Nat) :
    ∀ salt, s0 - salt = n → salt ≤ s0 → ∃ r, saltLoop hash dsize claimed items salt = pure r := by
  induction n with
  | zero =>
    intro salt h1 h2
    have : salt = s0 := by omega
    subst this
    obtain ⟨slots, hs⟩ := hs
    exact ⟨(salt, slots), by rw [saltLoop, hs]; rfl⟩
  | succ n ih =>
    intro salt h1 h2
    obtain ⟨o, ho⟩ := ht salt
    cases o with
    | some slots => exact ⟨(salt, slots), by rw [saltLoop, ho]; rfl⟩
    | none =>
      obtain ⟨r, hr⟩ := ih (salt + 1) (by omega) (by omega)
      refine ⟨r, ?_⟩
      rw [saltLoop, ho]
      show (if salt + 1 < 2 ^ 63 then saltLoop hash dsize claimed items (salt + 1) else ub) = pure r
      rw [if_pos (by omega)]
      exact hr

/-! ### One bucket -/

attribute [local irreducible] slotOf

/-- No salt reaches this: `max_value_for<ssize_t>` plus one. (Specification, no line of the source.) -/
def saltEnd : Nat := 2 ^ 63

/-- The items of a bucket are where its salt leads. (Specification, no line of the source.) -/
def Placed (hash : κ → Nat) (dsize : Nat) (st : St κ υ) (b : Bucket κ υ) : Prop :=
  ∃ s : Nat, st.salts[b.index]? = some (s : Int) ∧ s < saltEnd ∧ (b.items.map fun it => slotOf hash dsize s it.1).Nodup ∧
    ∀ it ∈ b.items, st.claimed[slotOf hash dsize s it.1]? = some true ∧ st.keys[slotOf hash dsize s it.1]? = some it.1 ∧
      st.values[slotOf hash dsize s it.1]? = some it.2

omit [DecidableEq κ] in
theorem single_spec {nb dsize : Nat} {st : St κ υ} (hl : Len nb dsize st) {b : Bucket κ υ} (hb : b.index < nb) :
    (b.items.length ≠ 1 ∧ single b st = pure st) ∨
    (∃ it p st1, b.items = [it] ∧ st.claimed[p]? = some false ∧ single b st = pure st1 ∧ Len nb dsize st1 ∧ Ext st st1 ∧
      st1.claimed = st.claimed.set p true ∧ (∀ i : Nat, i ≠ b.index → st1.salts[i]? = st.salts[i]?) ∧
      (∀ (q : Nat) (k : κ), st1.keys[q]? = some k → st.keys[q]? = some k ∨ k = it.1)) ∨
    (single b st = abort ∧ ∀ p, p < dsize → st.claimed[p]? = some true) := by
  unfold single
  cases hi : b.items with
  | nil => left; exact ⟨by simp, rfl⟩
  | cons it its =>
    cases its with
    | cons it' its => left; exact ⟨by simp, rfl⟩
    | nil =>
      right
      cases hf : st.claimed.findIdx? (fun c => c == false) with
      | none =>
        right
        refine ⟨rfl, fun p hp => ?_⟩
        rw [List.findIdx?_eq_none_iff] at hf
        rw [List.getElem?_eq_getElem (by rw [hl.claimed]; exact hp)]
        have := hf _ (List.getElem_mem (by rw [hl.claimed]; exact hp))
        cases hc : st.claimed[p]'(by rw [hl.claimed]; exact hp) with
        | true => rfl
        | false => rw [hc] at this; simp at this
      | some p =>
        left
        rw [List.findIdx?_eq_some_iff_getElem] at hf
        obtain ⟨hlt, hc, _⟩ := hf
        have hp : st.claimed[p]? = some false := by
          rw [List.getElem?_eq_getElem hlt]
          simpa using hc
        have hpd : p < dsize := by rw [← hl.claimed]; exact hlt
        have hne : ∀ q : Nat, st.claimed[q]? = some true → p ≠ q := by
          rintro q hq rfl
          rw [hp] at hq
          injection hq with hq; injection hq
        refine ⟨it, p, ⟨st.salts.set b.index (-((p : Int) + 1)), st.values.set p it.2, st.keys.set p it.1, st.claimed.set p true⟩, rfl,
          hp, ?_, ?_, ?_, rfl, ?_, ?_⟩
        · show (do
            let claimed ← wr st.claimed p true
            let salts ← wr st.salts b.index (-((p : Int) + 1))
            let keys ← wr st.keys p it.1
            let values ← wr st.values p it.2
            pure (⟨salts, values, keys, claimed⟩ : St κ υ)) = _
          rw [wr_eq hlt]
          simp only [pure_bind]
          rw [wr_eq (by rw [hl.salts]; exact hb)]
          simp only [pure_bind]
          rw [wr_eq (by rw [hl.keys]; exact hpd)]
          simp only [pure_bind]
          rw [wr_eq (by rw [hl.values]; exact hpd)]
          rfl
        · exact ⟨by simpa using hl.salts, by simpa using hl.values, by simpa using hl.keys, by simpa using hl.claimed⟩
        · refine ⟨fun q hq => ?_, fun q hq => ?_, fun q hq => ?_⟩
          · show (st.claimed.set p true)[q]? = _
            rw [List.getElem?_set_ne (hne q hq)]; exact hq
          · show (st.keys.set p it.1)[q]? = _
            rw [List.getElem?_set_ne (hne q hq)]
          · show (st.values.set p it.2)[q]? = _
            rw [List.getElem?_set_ne (hne q hq)]
        · intro i hi
          show (st.salts.set b.index _)[i]? = _
          rw [List.getElem?_set_ne (fun h => hi h.symm)]
        · intro q k hk
          have hk : (st.keys.set p it.1)[q]? = some k := hk
          by_cases hq : q = p
          · subst hq
            rw [List.getElem?_set_self (by rw [hl.keys]; exact hpd)] at hk
            injection hk with hk
            exact Or.inr hk.symm
          · rw [List.getElem?_set_ne (fun h => hq h.symm)] at hk
            exact Or.inl hk

omit [DecidableEq κ] in
/-- The end of `find_salt_for_bucket`, once a salt was found. -/
theorem finish_ok {hash : κ → Nat} {nb dsize : Nat} {b : Bucket κ υ} (hb : b.index < nb) {st1 : St κ υ} (hl1 : Len nb dsize st1)
    {s : Nat} {slots : List Nat} (hs : tryAll hash dsize st1.claimed s b.items [] = pure (some slots)) (h63 : s < saltEnd) :
    ∃ st', (do
        let salts ← wr st1.salts b.index (s : Int)
        storeAll b.items slots ⟨salts, st1.values, st1.keys, st1.claimed⟩) = pure st' ∧ Len nb dsize st' ∧ Ext st1 st' ∧
      (∀ i : Nat, i ≠ b.index → st'.salts[i]? = st1.salts[i]?) ∧ Placed hash dsize st' b ∧
      (∀ (q : Nat) (k : κ), st'.keys[q]? = some k → st1.keys[q]? = some k ∨ ∃ v, (k, v) ∈ b.items) ∧
      st'.claimed.count true = st1.claimed.count true + b.items.length ∧ 
      (∃ s, s < saltEnd ∧ (∀ it ∈ b.items, st1.claimed[slotOf hash dsize s it.1]? = some false ∧
        st'.claimed[slotOf hash dsize s it.1]? = some true) ∧
        ∀ q, q ∉ b.items.map (fun it => slotOf hash dsize s it.1) → st'.claimed[q]? = st1.claimed[q]?) := by
  obtain ⟨heq, hnd, hfree⟩ := tryAll_some b.items [] slots List.nodup_nil hs
  rw [List.nil_append] at heq
  clear hs
  rw [heq] at hnd ⊢
  have hl2 : Len nb dsize (⟨st1.salts.set b.index (s : Int), st1.values, st1.keys, st1.claimed⟩ : St κ υ) :=
    ⟨by simpa using hl1.salts, hl1.values, hl1.keys, hl1.claimed⟩
  obtain ⟨st', e, hl', hx, hsl, hall, hoth, hkn, hcnt⟩ := storeAll_ok b.items (b.items.map fun it => slotOf hash dsize s it.1)
    ⟨st1.salts.set b.index (s : Int), st1.values, st1.keys, st1.claimed⟩ hl2 (List.length_map _) hnd (by
      intro p hp
      obtain ⟨it, hit, hpe⟩ := List.mem_map.1 hp
      rw [← hpe]
      exact hfree it hit)
  have hall' : ∀ it ∈ b.items, st'.claimed[slotOf hash dsize s it.1]? = some true ∧
      st'.keys[slotOf hash dsize s it.1]? = some it.1 ∧ st'.values[slotOf hash dsize s it.1]? = some it.2 := by
    intro it hit
    obtain ⟨i, hi, h⟩ := List.mem_iff_getElem.1 hit
    have h1 : b.items[i]? = some it := by rw [List.getElem?_eq_getElem hi, h]
    exact hall i it _ h1 (by rw [List.getElem?_map, h1]; rfl)
  refine ⟨st', ?_, hl', ⟨hx.claimed, hx.keys, hx.values⟩, ?_, ?_, hkn, hcnt, s, h63, fun it hit => ⟨hfree it hit, (hall' it hit).1⟩, hoth⟩
  · rw [wr_eq (by rw [hl1.salts]; exact hb)]
    exact e
  · intro i hi
    rw [hsl]
    show (st1.salts.set b.index _)[i]? = _
    rw [List.getElem?_set_ne (fun h => hi h.symm)]
  · refine ⟨s, ?_, h63, hnd, hall'⟩
    rw [hsl]
    show (st1.salts.set b.index _)[b.index]? = _
    rw [List.getElem?_set_self (by rw [hl1.salts]; exact hb)]

omit [DecidableEq κ] in
/-- What a bucket that was given places leaves behind. -/
theorem findSalt_ok {hash : κ → Nat} {nb dsize : Nat} {b : Bucket κ υ} (hb : b.index < nb) {st st' : St κ υ} (hl : Len nb dsize st)
    (h : findSalt hash dsize b st = pure st') :
    Len nb dsize st' ∧ Ext st st' ∧ (∀ i : Nat, i ≠ b.index → st'.salts[i]? = st.salts[i]?) ∧ Placed hash dsize st' b ∧
      (∀ (q : Nat) (k : κ), st'.keys[q]? = some k → st.keys[q]? = some k ∨ ∃ v, (k, v) ∈ b.items) ∧
      st'.claimed.count true = st.claimed.count true + (if b.items.length = 1 then 2 else b.items.length) ∧
      (b.items.length ≠ 1 → ∃ s, s < saltEnd ∧ (∀ it ∈ b.items, st'.claimed[slotOf hash dsize s it.1]? = some true) ∧
        ∀ q, q ∉ b.items.map (fun it => slotOf hash dsize s it.1) → st'.claimed[q]? = st.claimed[q]?) := by
  unfold findSalt at h
  obtain ⟨st1, h1, h⟩ := bind_eq_pure.1 h
  obtain ⟨⟨s, slots⟩, h2, h⟩ := bind_eq_pure.1 h
  obtain ⟨hs1, hs2, hs3⟩ := saltLoop_some _ 1 rfl (by decide) s slots h2
  rcases single_spec hl hb with ⟨hne, e⟩ | ⟨it, p, st1', hit, hp, e, hl1, hx1, hc1, ho1, hk1⟩ | ⟨e, _⟩
  · rw [e] at h1
    have h1 := pure_inj.1 h1
    subst h1
    dsimp only at h
    obtain ⟨st2, e2, hl2, hx2, ho2, hpl, hkn, hcnt, s', hs63, hs', hoth⟩ := finish_ok hb hl hs3 hs2
    rw [e2] at h
    have h := pure_inj.1 h
    subst h
    refine ⟨hl2, hx2, ho2, hpl, hkn, by rw [hcnt, if_neg hne], fun _ => ⟨s', hs63, fun it hit => (hs' it hit).2, hoth⟩⟩
  · rw [e] at h1
    have h1 := pure_inj.1 h1
    subst h1
    dsimp only at h
    obtain ⟨st2, e2, hl2, hx2, ho2, hpl, hkn, hcnt, _⟩ := finish_ok hb hl1 hs3 hs2
    rw [e2] at h
    have h := pure_inj.1 h
    subst h
    have hlen : b.items.length = 1 := by rw [hit]; rfl
    refine ⟨hl2, hx1.trans hx2, fun i hi => (ho2 i hi).trans (ho1 i hi), hpl, ?_, ?_, fun hc => absurd hlen hc⟩
    · intro q k hk
      rcases hkn q k hk with h | h
      · rcases hk1 q k h with h | rfl
        · exact Or.inl h
        · exact Or.inr ⟨it.2, by rw [hit]; simp⟩
      · exact Or.inr h
    · rw [hcnt, hc1, count_set hp, if_pos hlen, hlen]
  · rw [e] at h1
    exact absurd h1 (abort_ne_pure _)

omit [DecidableEq κ] in
theorem Placed.ext {hash : κ → Nat} {dsize : Nat} {st st' : St κ υ} {b : Bucket κ υ} (h : Placed hash dsize st b) (hx : Ext st st')
    (hs : st'.salts[b.index]? = st.salts[b.index]?) : Placed hash dsize st' b := by
  obtain ⟨s, h1, h2, h3, h4⟩ := h
  refine ⟨s, hs.trans h1, h2, h3, fun it hit => ?_⟩
  obtain ⟨h5, h6, h7⟩ := h4 it hit
  exact ⟨hx.claimed _ h5, (hx.keys _ h5).trans h6, (hx.values _ h5).trans h7⟩

/-! ### All buckets -/

omit [DecidableEq κ] in
/-- All buckets of a run that returns are placed. -/
theorem process_ok {hash : κ → Nat} {nb dsize : Nat} (bs : List (Bucket κ υ)) : ∀ (st st' : St κ υ), Len nb dsize st →
    (∀ b ∈ bs, b.index < nb) → (bs.map Bucket.index).Nodup → bs.Pairwise (fun l r => r.items.length ≤ l.items.length) →
    (∀ s ∈ st.salts, 0 ≤ s) → process hash dsize bs st = pure st' →
    Len nb dsize st' ∧ Ext st st' ∧ (∀ i : Nat, i ∉ bs.map Bucket.index → st'.salts[i]? = st.salts[i]?) ∧
      (∀ b ∈ bs, b.items ≠ [] → Placed hash dsize st' b) ∧
      (∀ (q : Nat) (k : κ), st'.keys[q]? = some k → st.keys[q]? = some k ∨ ∃ b ∈ bs, ∃ v, (k, v) ∈ b.items) ∧
      ∀ s ∈ st'.salts, 0 ≤ s := by
  induction bs with
  | nil =>
    intro st st' hl _ _ _ hnn h
    have h := pure_inj.1 h
    subst h
    exact ⟨hl, ⟨fun _ h => h, fun _ _ => rfl, fun _ _ => rfl⟩, fun _ _ => rfl, fun b hb => by simp at hb, fun _ _ h => Or.inl h, hnn⟩
  | cons b bs ih =>
    intro st st' hl hidx hnd hpw hnn h
    rw [process] at h
    rw [List.pairwise_cons] at hpw
    rw [List.map_cons, List.nodup_cons] at hnd
    by_cases he : b.items.isEmpty = true
    · rw [if_pos he] at h
      have h := pure_inj.1 h
      subst h
      rw [List.isEmpty_iff] at he
      refine ⟨hl, ⟨fun _ h => h, fun _ _ => rfl, fun _ _ => rfl⟩, fun _ _ => rfl, fun b' hb' hne => ?_, fun _ _ h => Or.inl h, hnn⟩
      exfalso
      rcases List.mem_cons.1 hb' with rfl | hb'
      · exact hne he
      · have := hpw.1 b' hb'
        rw [he, List.length_nil] at this
        exact hne (List.length_eq_zero_iff.1 (by omega))
    · rw [if_neg he] at h
      obtain ⟨st1, h1, h2⟩ := bind_eq_pure.1 h
      have hbn := hidx b (by simp)
      obtain ⟨hl1, hx1, ho1, hp1, hk1, _, _⟩ := findSalt_ok hbn hl h1
      have hnn1 : ∀ s ∈ st1.salts, 0 ≤ s := by
        intro s hs
        obtain ⟨i, hi, hsi⟩ := List.mem_iff_getElem.1 hs
        have hsi' : st1.salts[i]? = some s := by rw [List.getElem?_eq_getElem hi, hsi]
        by_cases hib : i = b.index
        · obtain ⟨s', hs', _⟩ := hp1
          rw [hib, hs'] at hsi'
          injection hsi' with hsi'
          omega
        · rw [ho1 i hib] at hsi'
          exact hnn s (List.mem_of_getElem? hsi')
      obtain ⟨hl2, hx2, ho2, hp2, hk2, hnn2⟩ := ih st1 st' hl1 (fun b' hb' => hidx b' (List.mem_cons_of_mem _ hb')) hnd.2 hpw.2 hnn1 h2
      refine ⟨hl2, hx1.trans hx2, fun i hi => ?_, fun b' hb' hne => ?_, fun q k hk => ?_, hnn2⟩
      · rw [List.map_cons, List.mem_cons, not_or] at hi
        rw [ho2 i hi.2, ho1 i hi.1]
      · rcases List.mem_cons.1 hb' with rfl | hb'
        · exact hp1.ext hx2 (ho2 _ hnd.1)
        · exact hp2 b' hb' hne
      · rcases hk2 q k hk with h | ⟨b', hb', v, hv⟩
        · rcases hk1 q k h with h | ⟨v, hv⟩
          · exact Or.inl h
          · exact Or.inr ⟨b, by simp, v, hv⟩
        · exact Or.inr ⟨b', List.mem_cons_of_mem _ hb', v, hv⟩

/-! ### The buckets -/

omit [DecidableEq κ] in
theorem fill_ok {hash : κ → Nat} {dsize nb : Nat} (hnb : 0 < nb) (its : List (κ × υ)) : ∀ bs bs' : List (Bucket κ υ), bs.length = nb →
    fill hash dsize nb its bs = pure bs' → bs'.length = nb ∧ ∀ (i : Nat) (b : Bucket κ υ), bs[i]? = some b →
      bs'[i]? = some ⟨b.index, b.items ++ its.filter fun it => hash it.1 % nb == i⟩ := by
  induction its with
  | nil =>
    intro bs bs' hl h
    have h := pure_inj.1 h
    subst h
    exact ⟨hl, fun i b hb => by simpa using hb⟩
  | cons it its ih =>
    intro bs bs' hl h
    have hlt : hash it.1 % nb < bs.length := by rw [hl]; exact Nat.mod_lt _ hnb
    rw [fill, rd_eq hlt] at h
    simp only [pure_bind] at h
    by_cases hc : bs[hash it.1 % nb].items.length < dsize
    · rw [if_pos hc, wr_eq hlt] at h
      simp only [pure_bind] at h
      obtain ⟨h1, h2⟩ := ih _ bs' (by simpa using hl) h
      refine ⟨h1, fun i b hb => ?_⟩
      by_cases hi : hash it.1 % nb = i
      · subst hi
        rw [List.getElem?_eq_getElem hlt] at hb
        injection hb with hb
        rw [h2 _ ⟨bs[hash it.1 % nb].index, bs[hash it.1 % nb].items ++ [it]⟩ (by rw [List.getElem?_set_self hlt]), hb,
          List.filter_cons_of_pos (by simp)]
        simp
      · rw [h2 i b (by rw [List.getElem?_set_ne hi]; exact hb), List.filter_cons_of_neg (by simpa using hi)]
    · rw [if_neg hc] at h
      exact absurd h (ub_ne_pure _)

omit [DecidableEq κ] in
theorem fill_total {hash : κ → Nat} {dsize nb : Nat} (hnb : 0 < nb) (its : List (κ × υ)) : ∀ (bs : List (Bucket κ υ)) (m : Nat),
    bs.length = nb → (∀ b ∈ bs, b.items.length ≤ m) → m + its.length ≤ dsize → ∃ bs', fill hash dsize nb its bs = pure bs' := by
  induction its with
  | nil => intro bs m _ _ _; exact ⟨bs, rfl⟩
  | cons it its ih =>
    intro bs m hl hm hd
    have hlt : hash it.1 % nb < bs.length := by rw [hl]; exact Nat.mod_lt _ hnb
    rw [List.length_cons] at hd
    have h1 := hm _ (List.getElem_mem hlt)
    rw [fill, rd_eq hlt]
    simp only [pure_bind]
    rw [if_pos (by omega), wr_eq hlt]
    simp only [pure_bind]
    refine ih _ (m + 1) (by simpa using hl) (fun b hb => ?_) (by omega)
    rcases List.mem_or_eq_of_mem_set hb with hb | rfl
    · have := hm b hb; omega
    · simp only [List.length_append, List.length_singleton]; omega

/-- The bucket of a place, before sorting. (Specification, no line of the source.) -/
def bucketAt (hash : κ → Nat) (nb : Nat) (items : List (κ × υ)) (i : Nat) : Bucket κ υ :=
  ⟨i, items.filter fun it => hash it.1 % nb == i⟩

omit [DecidableEq κ] in
theorem fill_eq {hash : κ → Nat} {dsize nb : Nat} (hnb : 0 < nb) (its : List (κ × υ)) {bs' : List (Bucket κ υ)}
    (h : fill hash dsize nb its ((List.range nb).map fun i => ⟨i, []⟩) = pure bs') :
    bs' = (List.range nb).map (bucketAt hash nb its) := by
  obtain ⟨h1, h2⟩ := fill_ok hnb its _ bs' (by simp) h
  apply List.ext_getElem?
  intro i
  by_cases hi : i < nb
  · rw [h2 i ⟨i, []⟩ (by simp [hi]), List.getElem?_map, List.getElem?_range hi]
    rfl
  · rw [List.getElem?_eq_none (by omega), List.getElem?_eq_none (by simp; omega)]

omit [DecidableEq κ] in
theorem bigger_sw : StrictWeak (bigger : Bucket κ υ → Bucket κ υ → Bool) where
  irrefl := by simp [bigger]
  trans := by simp [bigger]; omega
  incomp := by simp [bigger]; omega

omit [DecidableEq κ] in
/-- Sorting the buckets. -/
theorem sort_buckets (limit : Nat) (bs : List (Bucket κ υ)) :
    ∃ ys, Verif.Sort.sort bigger limit bs 0 bs.length = pure ys ∧ ys.Perm bs ∧
      ys.Pairwise (fun l r => r.items.length ≤ l.items.length) := by
  obtain ⟨ys, e, hl, _, hp, hs⟩ := Verif.Sort.C01_sort bigger_sw limit bs 0 bs.length (Nat.zero_le _) (Nat.le_refl _)
  refine ⟨ys, e, ?_, ?_⟩
  · unfold Verif.Algorithm.slice at hp
    rwa [List.drop_zero, List.drop_zero, List.take_of_length_le (by omega), List.take_of_length_le (Nat.le_refl _)] at hp
  · rw [List.pairwise_iff_getElem]
    intro i j hi hj hij
    have := hs i j _ _ (Nat.zero_le _) hij (by omega) (List.getElem?_eq_getElem hi) (List.getElem?_eq_getElem hj)
    simpa [bigger] using this

end Verif.Containers.Mph
