import Verif.Containers.Probe
import Mathlib.Data.List.Perm.Subperm
import Mathlib.Data.Fintype.Pigeonhole

/-
`daw::static_hash_t`, include/daw/static_hash_table.h.  A place is a pair of `hash_value` and `value`, with the hash 0 for a free
place.  The key enters only through `fnv1a_hash`, which is any function `hash` into the 64 bit numbers.

The default constructor (110-113) calls `begin` of an array and the const `operator[]` of any key (157-163) assigns to a member:
neither can be instantiated.  The const `operator[]` modelled is that of character pointers (165-170).
-/

namespace Verif.Containers.StaticHash
open Cxx Probe

variable {κ υ : Type}

/-- `hash_fn`, static_hash_table.h 55-69, of the value of `fnv1a_hash`. -/
def hashFn (f : Nat) : Nat := f % (2 ^ 64 - 1 - 1) + 1

/-- The test that ends a search, static_hash_table.h 74-79. -/
def stop (h : Nat) (p : Nat × υ) : Bool := p.1 == 0 || p.1 == h

/-- `find_impl`, static_hash_table.h 71-90. -/
def findImpl (t : List (Nat × υ)) (h : Nat) : Cxx Nat := do
  match ← findIndex (stop h) t t.length h with
  | some i => pure i
  | none => pure t.length

/-- `m_values` before anything is stored, static_hash_table.h 27-30 and 45. -/
def make (cap : Nat) (dv : υ) : List (Nat × υ) := List.replicate cap (0, dv)

/-- Storing a value, static_hash_table.h 118-121, 129-132, and assigning through `operator[]`, 142-155. -/
def put (hash : κ → Nat) (t : List (Nat × υ)) (k : κ) (v : υ) : Cxx (List (Nat × υ)) := do
  let pos ← findImpl t (hashFn (hash k))
  wr t pos (hashFn (hash k), v)

/-- Reading through the `operator[]` of a table that is not const, static_hash_table.h 142-155. -/
def touch (hash : κ → Nat) (t : List (Nat × υ)) (k : κ) : Cxx (List (Nat × υ) × υ) := do
  let pos ← findImpl t (hashFn (hash k))
  let p ← rd t pos
  let t ← wr t pos (hashFn (hash k), p.2)
  pure (t, p.2)

/-- The const `operator[]`, static_hash_table.h 165-170. -/
def cget (hash : κ → Nat) (t : List (Nat × υ)) (k : κ) : Cxx υ := do
  let pos ← findImpl t (hashFn (hash k))
  let p ← rd t pos
  pure p.2

/-- `find`, static_hash_table.h 136-140. -/
def find (hash : κ → Nat) (t : List (Nat × υ)) (k : κ) : Cxx Nat := findImpl t (hashFn (hash k))

/-- The loop of the constructors, static_hash_table.h 115-134. -/
def fill (hash : κ → Nat) (t : List (Nat × υ)) : List (κ × υ) → Cxx (List (Nat × υ))
  | [] => pure t
  | it :: its => do
    let t ← put hash t it.1 it.2
    fill hash t its

/-- The constructors, static_hash_table.h 115-134. -/
def build (hash : κ → Nat) (cap : Nat) (dv : υ) (items : List (κ × υ)) : Cxx (List (Nat × υ)) := fill hash (make cap dv) items

/-- Calls. (Members of `static_hash_t`, static_hash_table.h 21-171.) -/
inductive Op (κ υ : Type) where
  | put (k : κ) (v : υ)
  | touch (k : κ)
  | cget (k : κ)

/-- The key of a call. (Members of `static_hash_t`, static_hash_table.h 21-171.) -/
def Op.key : Op κ υ → κ
  | .put k _ => k
  | .touch k => k
  | .cget k => k

/-- A call and the value it reads, static_hash_table.h 142-170. -/
def step (hash : κ → Nat) (t : List (Nat × υ)) : Op κ υ → Cxx (List (Nat × υ) × Option υ)
  | .put k v => do
    let t ← put hash t k v
    pure (t, none)
  | .touch k => do
    let (t, v) ← touch hash t k
    pure (t, some v)
  | .cget k => do
    let v ← cget hash t k
    pure (t, some v)

/-- A history of calls, static_hash_table.h 142-170. -/
def run (hash : κ → Nat) (t : List (Nat × υ)) : List (Op κ υ) → Cxx (List (Nat × υ) × List (Option υ))
  | [] => pure (t, [])
  | o :: os => do
    let (t, r) ← step hash t o
    let (t, rs) ← run hash t os
    pure (t, r :: rs)

section spec
variable [DecidableEq κ]

/-- The same call on a map with a default value. (Specification, no line of the source.) -/
def mapStep (dv : υ) (m : κ → Option υ) : Op κ υ → (κ → Option υ) × Option υ
  | .put k v => (fun x => if x = k then some v else m x, none)
  | .touch k => (fun x => if x = k then some ((m k).getD dv) else m x, some ((m k).getD dv))
  | .cget k => (m, some ((m k).getD dv))

/-- The same history on a map: what is read. (Specification, no line of the source.) -/
def mapRun (dv : υ) (m : κ → Option υ) : List (Op κ υ) → List (Option υ)
  | [] => []
  | o :: os => (mapStep dv m o).2 :: mapRun dv (mapStep dv m o).1 os

/-- The map of a list of items: the last of equal keys counts. (Specification, no line of the source.) -/
def mapOf (m : κ → Option υ) : List (κ × υ) → κ → Option υ
  | [] => m
  | it :: its => mapOf (fun x => if x = it.1 then some it.2 else m x) its

end spec

/-! ### Places as entries -/

/-- A place as an entry or nothing. (Specification, no line of the source.) -/
def ent (p : Nat × υ) : Option (Nat × υ) := if p.1 = 0 then none else some p

theorem scan_map {α β : Type} (f : α → β) (s : β → Bool) (t : List α) (n last : Nat) :
    scan s (t.map f) n last = scan (fun x => s (f x)) t n last := by
  induction hk : last - n generalizing n with
  | zero => rw [scan, if_neg (by omega), scan, if_neg (by omega)]
  | succ k ih =>
    by_cases h : n < last
    · have ih' := ih (n + 1) (by omega)
      rw [scan, if_pos h, scan.eq_1 _ t, if_pos h, ih']
      by_cases hl : n < t.length
      · rw [rd_eq (by simpa using hl), rd_eq hl]
        simp only [pure_bind, List.getElem_map]
      · rw [rd_oob (by simpa using hl), rd_oob (by omega)]
        rfl
    · rw [scan, if_neg h, scan, if_neg h]

theorem findIndex_map {h : Nat} (t : List (Nat × υ)) :
    findIndex (stop h) t t.length h = findIndex (stopAt Prod.fst h) (t.map ent) t.length h := by
  unfold findIndex
  have e : (fun x : Nat × υ => stopAt Prod.fst h (ent x)) = stop h := by
    funext p
    unfold stop ent
    by_cases hp : p.1 = 0
    · simp [hp, stopAt]
    · simp [hp, stopAt]
  simp only [scan_map, e]

theorem hashFn_ne (f : Nat) : hashFn f ≠ 0 := by unfold hashFn; omega

/-! ### The table as a map from hashes -/

/-- The table stores the map `f` from hashes to values. (Specification, no line of the source.) -/
structure Rep (dv : υ) (t : List (Nat × υ)) (f : Nat → Option υ) : Prop where
  chained : Chained Prod.fst (homeOf id t.length) t.length (t.map ent)
  holds : ∀ h v, f h = some v ↔ (h, v) ∈ entries t.length (t.map ent)
  free : ∀ v, (0, v) ∈ t → v = dv

theorem ent_some {p q : Nat × υ} (h : ent p = some q) : p = q ∧ q.1 ≠ 0 := by
  unfold ent at h
  by_cases hp : p.1 = 0
  · rw [if_pos hp] at h; injection h
  · rw [if_neg hp] at h
    injection h with h
    subst h
    exact ⟨rfl, hp⟩

theorem ent_none {p : Nat × υ} (h : ent p = none) : p.1 = 0 := by
  unfold ent at h
  by_cases hp : p.1 = 0
  · exact hp
  · rw [if_neg hp] at h; injection h

/-- Where the search for a hash ends. -/
theorem findImpl_ok {dv : υ} {t : List (Nat × υ)} {f : Nat → Option υ} (hr : Rep dv t f) {h : Nat} (h0 : h ≠ 0) :
    (∃ i, findImpl t h = pure i ∧ i < t.length ∧ EndsAt Prod.fst (homeOf id t.length) t.length (t.map ent) h i ∧
      ((∃ v, t[i]? = some (h, v) ∧ f h = some v) ∨ (t[i]? = some (0, dv) ∧ f h = none))) ∨
    (findImpl t h = pure t.length ∧ f h = none ∧ (entries t.length (t.map ent)).length = t.length) := by
  unfold findImpl
  rw [findIndex_map]
  rcases find_ends Prod.fst id t.length (t.map ent) hr.chained.pos (by simp) h with ⟨i, e, hi⟩ | ⟨e, hj⟩
  · left
    refine ⟨i, ?_, hi.lt, hi, ?_⟩
    · rw [id] at e
      rw [e]
      rfl
    · rcases hi.choose_spec.2.2.1 with ho | ⟨⟨h', v⟩, ho, rfl⟩
      · right
        rw [List.getElem?_map, Option.map_eq_some_iff] at ho
        obtain ⟨⟨a, v⟩, hp, he⟩ := ho
        have ha : a = 0 := ent_none he
        subst ha
        have hv := hr.free v (List.mem_of_getElem? hp)
        subst hv
        refine ⟨hp, ?_⟩
        cases hf : f h with
        | none => rfl
        | some w =>
          exact absurd rfl (hr.chained.absent hi (by rw [List.getElem?_map, hp]; rfl) _ ((hr.holds h w).1 hf))
      · left
        refine ⟨v, ?_, (hr.holds _ _).2 (mem_entries.2 ⟨i, hi.lt, ho⟩)⟩
        rw [List.getElem?_map, Option.map_eq_some_iff] at ho
        obtain ⟨p, hp, he⟩ := ho
        rw [hp, (ent_some he).1]
  · right
    refine ⟨?_, ?_, entries_full (by simp) fun j hj' => ?_⟩
    · rw [id] at e
      rw [e]
      rfl
    · cases hf : f h with
      | none => rfl
      | some w =>
        obtain ⟨i, hi, he⟩ := mem_entries.1 ((hr.holds h w).1 hf)
        obtain ⟨e', he', hne⟩ := hj i hi
        rw [he] at he'
        injection he' with he'; injection he' with he'
        subst he'
        exact absurd rfl hne
    · obtain ⟨e', he', _⟩ := hj j hj'
      exact ⟨e', he'⟩

/-- Storing at the place where the search ended. -/
theorem Rep.write {dv : υ} {t : List (Nat × υ)} {f : Nat → Option υ} (hr : Rep dv t f) {h : Nat} (h0 : h ≠ 0) {i : Nat}
    (hi : EndsAt Prod.fst (homeOf id t.length) t.length (t.map ent) h i) (v : υ)
    (ho : (∃ v, t[i]? = some (h, v) ∧ f h = some v) ∨ (t[i]? = some (0, dv) ∧ f h = none)) :
    Rep dv (t.set i (h, v)) (fun x => if x = h then some v else f x) := by
  have hl := hi.lt
  have hs : (t.set i (h, v)).map ent = (t.map ent).set i (some (h, v)) := by
    rw [List.map_set]
    congr 1
    unfold ent
    rw [if_neg h0]
  refine ⟨?_, ?_, ?_⟩
  · rw [List.length_set, hs]
    exact hr.chained.write (e := (h, v)) hi
  · intro x w
    rw [List.length_set, hs]
    rcases ho with ⟨v0, hv0, hf⟩ | ⟨h00, hf⟩
    · have hget : (t.map ent)[i]? = some (some (h, v0)) := by
        rw [List.getElem?_map, hv0]
        show some (ent (h, v0)) = _
        unfold ent
        rw [if_neg h0]
      obtain ⟨l, hp1, hp2, _⟩ := entries_replace hl hget
      rw [(hp2 (h, v)).mem_iff, List.mem_cons]
      have hx := hr.holds x w
      rw [hp1.mem_iff, List.mem_cons] at hx
      have hnd := hr.chained.nodup
      rw [(hp1.map Prod.fst).nodup_iff, List.map_cons, List.nodup_cons] at hnd
      by_cases hxh : x = h
      · subst hxh
        rw [if_pos rfl]
        constructor
        · intro hvw; injection hvw with hvw; subst hvw; exact Or.inl rfl
        · rintro (hvw | hm)
          · injection hvw with _ hvw; rw [hvw]
          · exact absurd (List.mem_map.2 ⟨_, hm, rfl⟩) hnd.1
      · rw [if_neg hxh, hx]
        constructor
        · rintro (hvw | hm)
          · injection hvw with hvw; exact absurd hvw hxh
          · exact Or.inr hm
        · rintro (hvw | hm)
          · injection hvw with hvw; exact absurd hvw hxh
          · exact Or.inr hm
    · have hget : (t.map ent)[i]? = some none := by
        rw [List.getElem?_map, h00]
        rfl
      rw [(entries_add hl hget (h, v)).mem_iff, List.mem_cons]
      by_cases hxh : x = h
      · subst hxh
        rw [if_pos rfl]
        constructor
        · intro hvw; injection hvw with hvw; subst hvw; exact Or.inl rfl
        · rintro (hvw | hm)
          · injection hvw with _ hvw; rw [hvw]
          · rw [(hr.holds x w).2 hm] at hf; injection hf
      · rw [if_neg hxh, hr.holds x w]
        constructor
        · exact Or.inr
        · rintro (hvw | hm)
          · injection hvw with hvw; exact absurd hvw hxh
          · exact hm
  · intro w hw
    rcases List.mem_or_eq_of_mem_set hw with hw | hw
    · exact hr.free w hw
    · injection hw with hw
      exact absurd hw.symm h0

theorem make_rep (cap : Nat) (dv : υ) (hc : 0 < cap) : Rep dv (make cap dv) (fun _ => none) := by
  have hm : (make cap dv).map ent = List.replicate cap none := by
    unfold make
    rw [List.map_replicate]
    rfl
  have hl : (make cap dv).length = cap := by unfold make; simp
  obtain ⟨h1, h2⟩ := chained_empty (ε := Nat × υ) Prod.fst id cap cap hc (Nat.le_refl _)
  refine ⟨by rw [hm, hl]; exact h1, fun h v => ?_, fun v hv => ?_⟩
  · rw [hm, hl, h2]; simp
  · have := (List.mem_replicate.1 hv).2
    injection this

/-- With no more hashes in use than places, every hash in use finds its place. -/
theorem findImpl_room {dv : υ} {t : List (Nat × υ)} {f : Nat → Option υ} (hr : Rep dv t f) (hs : List Nat) (hsl : hs.length ≤ t.length)
    (hin : ∀ h v, f h = some v → h ∈ hs) {h : Nat} (h0 : h ≠ 0) (hh : h ∈ hs) :
    ∃ i, findImpl t h = pure i ∧ i < t.length ∧ EndsAt Prod.fst (homeOf id t.length) t.length (t.map ent) h i ∧
      ((∃ v, t[i]? = some (h, v) ∧ f h = some v) ∨ (t[i]? = some (0, dv) ∧ f h = none)) := by
  rcases findImpl_ok hr h0 with hi | ⟨_, hf, hfull⟩
  · exact hi
  · exfalso
    have hnd : (h :: (entries t.length (t.map ent)).map Prod.fst).Nodup := by
      rw [List.nodup_cons]
      refine ⟨fun hc => ?_, hr.chained.nodup⟩
      obtain ⟨⟨a, v⟩, hm, rfl⟩ := List.mem_map.1 hc
      rw [(hr.holds a v).2 hm] at hf
      injection hf
    have hsub : (h :: (entries t.length (t.map ent)).map Prod.fst) ⊆ hs := by
      intro x hx
      rcases List.mem_cons.1 hx with rfl | hx
      · exact hh
      · obtain ⟨⟨a, v⟩, hm, rfl⟩ := List.mem_map.1 hx
        exact hin a v ((hr.holds a v).2 hm)
    have := (List.subperm_of_subset hnd hsub).length_le
    rw [List.length_cons, List.length_map, hfull] at this
    omega

/-! ### Keys -/

variable [DecidableEq κ]

/-- The map of keys `m` and the map of hashes `f` agree on the keys `ks`. (Specification, no line of the source.) -/
def Agree (hash : κ → Nat) (ks : List κ) (m : κ → Option υ) (f : Nat → Option υ) : Prop :=
  (∀ k ∈ ks, f (hashFn (hash k)) = m k) ∧ ∀ h v, f h = some v → h ∈ ks.map fun k => hashFn (hash k)

theorem Agree.update {hash : κ → Nat} {ks : List κ} (hinj : (ks.map fun k => hashFn (hash k)).Nodup) {m : κ → Option υ}
    {f : Nat → Option υ} (ha : Agree hash ks m f) {k : κ} (hk : k ∈ ks) (v : υ) :
    Agree hash ks (fun x => if x = k then some v else m x) (fun x => if x = hashFn (hash k) then some v else f x) := by
  refine ⟨fun x hx => ?_, fun h w hw => ?_⟩
  · by_cases hxk : x = k
    · subst hxk; simp
    · have : hashFn (hash x) ≠ hashFn (hash k) := fun hc => hxk (List.inj_on_of_nodup_map hinj hx hk hc)
      simp only [if_neg this, if_neg hxk]
      exact ha.1 x hx
  · by_cases hh : h = hashFn (hash k)
    · rw [hh]; exact List.mem_map.2 ⟨k, hk, rfl⟩
    · simp only [if_neg hh] at hw
      exact ha.2 h w hw

/-- One call. -/
theorem step_ok {hash : κ → Nat} {ks : List κ} (hinj : (ks.map fun k => hashFn (hash k)).Nodup) {dv : υ} {t : List (Nat × υ)}
    {m : κ → Option υ} {f : Nat → Option υ} (hr : Rep dv t f) (ha : Agree hash ks m f) (hlen : ks.length ≤ t.length) (o : Op κ υ)
    (ho : o.key ∈ ks) : ∃ t' f', step hash t o = pure (t', (mapStep dv m o).2) ∧ t'.length = t.length ∧ Rep dv t' f' ∧
      Agree hash ks (mapStep dv m o).1 f' := by
  have room : ∀ k ∈ ks, _ := fun k hk => findImpl_room hr (ks.map fun k => hashFn (hash k)) (by simpa using hlen) ha.2
    (hashFn_ne (hash k)) (List.mem_map.2 ⟨k, hk, rfl⟩)
  -- what is at the place found
  have val : ∀ k ∈ ks, ∃ i, findImpl t (hashFn (hash k)) = pure i ∧ i < t.length ∧
      EndsAt Prod.fst (homeOf id t.length) t.length (t.map ent) (hashFn (hash k)) i ∧
      ((∃ v, t[i]? = some (hashFn (hash k), v) ∧ f (hashFn (hash k)) = some v) ∨ (t[i]? = some (0, dv) ∧ f (hashFn (hash k)) = none)) ∧
      ∃ p, t[i]? = some p ∧ p.2 = (m k).getD dv := by
    intro k hk
    obtain ⟨i, e, hi, hends, hcase⟩ := room k hk
    refine ⟨i, e, hi, hends, hcase, ?_⟩
    rw [← ha.1 k hk]
    rcases hcase with ⟨v, hv, hf⟩ | ⟨hv, hf⟩
    · exact ⟨_, hv, by rw [hf]; rfl⟩
    · exact ⟨_, hv, by rw [hf]; rfl⟩
  cases o with
  | put k v =>
    obtain ⟨i, e, hi, hends, hcase, _⟩ := val k ho
    refine ⟨t.set i (hashFn (hash k), v), _, ?_, by simp, hr.write (hashFn_ne _) hends v hcase, ha.update hinj ho v⟩
    unfold step put
    simp only []
    rw [e]
    simp only [pure_bind]
    rw [wr_eq hi]
    rfl
  | touch k =>
    obtain ⟨i, e, hi, hends, hcase, p, hp, hp2⟩ := val k ho
    refine ⟨t.set i (hashFn (hash k), p.2), _, ?_, by simp, hr.write (hashFn_ne _) hends p.2 hcase, ?_⟩
    · unfold step touch
      simp only []
      rw [e]
      simp only [pure_bind]
      rw [rd_some hp]
      simp only [pure_bind]
      rw [wr_eq hi]
      simp only [pure_bind]
      rw [hp2]
      rfl
    · rw [hp2]
      exact ha.update hinj ho _
  | cget k =>
    obtain ⟨i, e, hi, hends, hcase, p, hp, hp2⟩ := val k ho
    refine ⟨t, f, ?_, rfl, hr, ha⟩
    unfold step cget
    simp only []
    rw [e]
    simp only [pure_bind]
    rw [rd_some hp]
    simp only [pure_bind]
    rw [hp2]
    rfl

theorem run_ok {hash : κ → Nat} {ks : List κ} (hinj : (ks.map fun k => hashFn (hash k)).Nodup) {dv : υ} (os : List (Op κ υ)) :
    ∀ {t : List (Nat × υ)} {m : κ → Option υ} {f : Nat → Option υ}, Rep dv t f → Agree hash ks m f → ks.length ≤ t.length →
    (∀ o ∈ os, o.key ∈ ks) → ∃ t', run hash t os = pure (t', mapRun dv m os) := by
  induction os with
  | nil => intro t m f _ _ _ _; exact ⟨t, rfl⟩
  | cons o os ih =>
    intro t m f hr ha hlen ho
    obtain ⟨t1, f1, e1, hl1, hr1, ha1⟩ := step_ok hinj hr ha hlen o (ho o (by simp))
    obtain ⟨t2, e2⟩ := ih hr1 ha1 (by omega) fun o' ho' => ho o' (List.mem_cons_of_mem _ ho')
    refine ⟨t2, ?_⟩
    rw [run, e1]
    simp only [pure_bind]
    rw [e2]
    rfl

theorem fill_ok {hash : κ → Nat} {ks : List κ} (hinj : (ks.map fun k => hashFn (hash k)).Nodup) {dv : υ} (items : List (κ × υ)) :
    ∀ {t : List (Nat × υ)} {m : κ → Option υ} {f : Nat → Option υ}, Rep dv t f → Agree hash ks m f → ks.length ≤ t.length →
    (∀ it ∈ items, it.1 ∈ ks) → ∃ t' f', fill hash t items = pure t' ∧ t'.length = t.length ∧ Rep dv t' f' ∧
      Agree hash ks (mapOf m items) f' := by
  induction items with
  | nil => intro t m f hr ha _ _; exact ⟨t, f, rfl, rfl, hr, ha⟩
  | cons it its ih =>
    intro t m f hr ha hlen hk
    obtain ⟨t1, f1, e1, hl1, hr1, ha1⟩ := step_ok hinj hr ha hlen (.put it.1 it.2) (hk it (by simp))
    obtain ⟨t2, f2, e2, hl2, hr2, ha2⟩ := ih hr1 ha1 (by omega) fun o' ho' => hk o' (List.mem_cons_of_mem _ ho')
    refine ⟨t2, f2, ?_, by omega, hr2, ha2⟩
    rw [fill]
    unfold step at e1
    simp only [] at e1
    obtain ⟨t', e3, e4⟩ := bind_eq_pure.1 e1
    have := pure_inj.1 e4
    injection this with this
    subst this
    rw [e3]
    exact e2

/-- As long as the keys have distinct hashes and there are no more of them than places, a table and every history of calls behave
as a map with a default value. -/
theorem C52_history_partial (hash : κ → Nat) (cap : Nat) (dv : υ) (ks : List κ) (hcap : 0 < cap) (hlen : ks.length ≤ cap)
    (hinj : (ks.map fun k => hashFn (hash k)).Nodup) (items : List (κ × υ)) (os : List (Op κ υ)) (hk : ∀ it ∈ items, it.1 ∈ ks)
    (ho : ∀ o ∈ os, o.key ∈ ks) :
    ∃ t t', build hash cap dv items = pure t ∧ run hash t os = pure (t', mapRun dv (mapOf (fun _ => none) items) os) := by
  have hl : (make cap dv).length = cap := by unfold make; simp
  obtain ⟨t, f, e, hl', hr, ha⟩ := fill_ok (m := fun _ => none) hinj items (make_rep cap dv hcap)
    ⟨fun _ _ => rfl, fun h v hv => by simp at hv⟩ (by omega) hk
  obtain ⟨t', e'⟩ := run_ok hinj os hr ha (by omega) ho
  exact ⟨t, t', e, e'⟩

example : (([5, 6, 2 ^ 64 - 3] : List Nat).map fun k => hashFn (id k)).Nodup ∧ ([5, 6, 2 ^ 64 - 3] : List Nat).length ≤ 3 := by
  decide +kernel

omit [DecidableEq κ] in
theorem cget_one (hash : κ → Nat) (k : κ) (cap : Nat) (dv v : υ) (hcap : 0 < cap) :
    ∃ t, build hash cap dv [(k, v)] = pure t ∧ cget hash t k = pure v := by
  classical
  obtain ⟨t, t', e, e'⟩ := C52_history_partial hash cap dv [k] hcap hcap (by simp) [(k, v)] [.cget k]
    (by simp) (by simp [Op.key])
  refine ⟨t, e, ?_⟩
  unfold run step at e'
  simp only [] at e'
  obtain ⟨⟨a, b⟩, e1, e2⟩ := bind_eq_pure.1 e'
  obtain ⟨w, e3, e4⟩ := bind_eq_pure.1 e1
  have h4 := pure_inj.1 e4
  injection h4 with h4 h5
  subst h4 h5
  simp only [run, pure_bind] at e2
  have h2 := pure_inj.1 e2
  injection h2 with _ h2
  rw [e3]
  simp [mapRun, mapStep, mapOf] at h2
  rw [h2]

omit [DecidableEq κ] in
/-- Two keys of one hash share their value, and with more keys than hashes there are such keys. -/
theorem C52_collision_violated [Infinite κ] (hash : κ → Nat) : ∃ k k', k ≠ k' ∧ ∀ (cap : Nat) (dv v : υ), 0 < cap →
    ∃ t, build hash cap dv [(k, v)] = pure t ∧ cget hash t k' = pure v := by
  obtain ⟨k, k', hne, he⟩ := Finite.exists_ne_map_eq_of_infinite (fun k : κ => (⟨hashFn (hash k), by
    unfold hashFn
    have := Nat.mod_lt (hash k) (show 0 < 2 ^ 64 - 1 - 1 by decide)
    omega⟩ : Fin (2 ^ 64)))
  have he := congrArg Fin.val he
  refine ⟨k, k', hne, fun cap dv v hcap => ?_⟩
  obtain ⟨t, e, e'⟩ := cget_one hash k cap dv v hcap
  refine ⟨t, e, ?_⟩
  rw [← e']
  unfold cget
  rw [show hashFn (hash k') = hashFn (hash k) from he.symm]

/-- A key beyond the capacity is stored behind the end of the array. -/
theorem C52_full_violated (hash : κ → Nat) (cap : Nat) (dv : υ) (items : List (κ × υ)) (hcap : 0 < cap) (hlen : items.length = cap)
    (k : κ) (v : υ) (hinj : ((k :: items.map Prod.fst).map fun k => hashFn (hash k)).Nodup) :
    ∃ t, build hash cap dv items = pure t ∧ put hash t k v = ub ∧ cget hash t k = ub ∧ find hash t k = pure cap := by
  have hl : (make cap dv).length = cap := by unfold make; simp
  rw [List.map_cons, List.nodup_cons] at hinj
  obtain ⟨t, f, e, hl', hr, ha⟩ := fill_ok (m := fun _ => none) (ks := items.map Prod.fst) hinj.2 items (make_rep cap dv hcap)
    ⟨fun _ _ => rfl, fun h v hv => by simp at hv⟩ (by simp; omega) (fun it hit => List.mem_map.2 ⟨it, hit, rfl⟩)
  have hnone : f (hashFn (hash k)) = none := by
    cases hf : f (hashFn (hash k)) with
    | none => rfl
    | some w => exact absurd (ha.2 _ _ hf) hinj.1
  -- every stored key occupies a place
  have hfull : (entries t.length (t.map ent)).length = t.length := by
    have hsub : (items.map Prod.fst).map (fun k => hashFn (hash k)) ⊆ (entries t.length (t.map ent)).map Prod.fst := by
      intro h hh
      obtain ⟨k', hk', rfl⟩ := List.mem_map.1 hh
      have hs : ∃ v, mapOf (fun _ => none) items k' = some v := by
        have gen : ∀ (its : List (κ × υ)) (m : κ → Option υ), (k' ∈ its.map Prod.fst ∨ ∃ v, m k' = some v) → ∃ v, mapOf m its k' = some v := by
          intro its
          induction its with
          | nil => rintro m (h | h); simp at h; exact h
          | cons it its ih =>
            intro m h
            rw [mapOf]
            apply ih
            by_cases hk : k' = it.1
            · right; exact ⟨it.2, by rw [if_pos hk]⟩
            · rcases h with h | h
              · rw [List.map_cons, List.mem_cons] at h
                exact Or.inl (h.resolve_left hk)
              · right; rw [if_neg hk]; exact h
        exact gen items _ (Or.inl hk')
      obtain ⟨v, hv⟩ := hs
      rw [← ha.1 k' hk'] at hv
      exact List.mem_map.2 ⟨_, (hr.holds _ _).1 hv, rfl⟩
    have h1 := (List.subperm_of_subset hinj.2 hsub).length_le
    simp only [List.length_map] at h1
    have h2 : (entries t.length (t.map ent)).length ≤ t.length := by
      unfold entries
      refine Nat.le_trans (List.length_filterMap_le _ _) ?_
      simp
    omega
  have hfind : findImpl t (hashFn (hash k)) = pure t.length := by
    rcases findImpl_ok hr (hashFn_ne (hash k)) with ⟨i, _, hi, _, ⟨w, _, hf⟩ | ⟨hf, _⟩⟩ | ⟨h, _⟩
    · rw [hnone] at hf; injection hf
    · exfalso
      have := entries_lt (cap := t.length) (t := t.map ent) hi (by rw [List.getElem?_map, hf]; rfl)
      omega
    · exact h
  refine ⟨t, e, ?_, ?_, ?_⟩
  · unfold put
    rw [hfind]
    simp only [pure_bind]
    exact wr_oob (Nat.le_refl _)
  · unfold cget
    rw [hfind]
    simp only [pure_bind]
    rw [rd_oob (Nat.le_refl _)]
    rfl
  · unfold find
    rw [hfind]
    congr 1
    omega

example : (((3 : Nat) :: ([(1, 10), (2, 20)] : List (Nat × Nat)).map Prod.fst).map fun k => hashFn (id k)).Nodup := by decide +kernel

/-- A key that is not there is found at a place of the table, as a key that is there. -/
theorem C52_find_violated (hash : κ → Nat) (cap : Nat) (dv : υ) (items : List (κ × υ)) (hlen : items.length < cap)
    (k : κ) (hinj : ((k :: items.map Prod.fst).map fun k => hashFn (hash k)).Nodup) :
    ∃ t i, build hash cap dv items = pure t ∧ find hash t k = pure i ∧ i < cap ∧ t[i]? = some (0, dv) := by
  have hl : (make cap dv).length = cap := by unfold make; simp
  obtain ⟨t, f, e, hl', hr, ha⟩ := fill_ok (m := fun _ => none) (ks := k :: items.map Prod.fst) hinj items (make_rep cap dv (by omega))
    ⟨fun _ _ => rfl, fun h v hv => by simp at hv⟩ (by simp; omega)
    (fun it hit => List.mem_cons_of_mem _ (List.mem_map.2 ⟨it, hit, rfl⟩))
  have hm : ∀ (its : List (κ × υ)) (m : κ → Option υ), k ∉ its.map Prod.fst → m k = none → mapOf m its k = none := by
    intro its
    induction its with
    | nil => intro m _ h; exact h
    | cons it its ih =>
      intro m h1 h2
      rw [List.map_cons, List.mem_cons, not_or] at h1
      rw [mapOf]
      exact ih _ h1.2 (by rw [if_neg h1.1]; exact h2)
  have hknot : k ∉ items.map Prod.fst := by
    rw [List.map_cons, List.nodup_cons] at hinj
    exact fun hc => hinj.1 (List.mem_map.2 ⟨k, hc, rfl⟩)
  have hnone : f (hashFn (hash k)) = none := by rw [ha.1 k (by simp), hm items _ hknot rfl]
  obtain ⟨i, e', hi, _, ⟨w, _, hf⟩ | ⟨hf, _⟩⟩ := findImpl_room hr _ (by simp; omega) ha.2 (hashFn_ne (hash k)) (List.mem_map.2 ⟨k, by simp, rfl⟩)
  · rw [hnone] at hf; injection hf
  · exact ⟨t, i, e, e', by omega, hf⟩

example := C52_find_violated (fun k : Nat => k) 4 0 [(5, 1), (9, 2)] (by decide) 13 (by decide +kernel)

/-- A key that is there is found at its place. -/
theorem C52_find (hash : κ → Nat) (cap : Nat) (dv : υ) (items : List (κ × υ)) (ks : List κ) (hcap : 0 < cap) (hlen : ks.length ≤ cap)
    (hinj : (ks.map fun k => hashFn (hash k)).Nodup) (hk : ∀ it ∈ items, it.1 ∈ ks) (k : κ) (v : υ) (hks : k ∈ ks)
    (hv : mapOf (fun _ => none) items k = some v) :
    ∃ t i, build hash cap dv items = pure t ∧ find hash t k = pure i ∧ i < cap ∧ t[i]? = some (hashFn (hash k), v) := by
  have hl : (make cap dv).length = cap := by unfold make; simp
  obtain ⟨t, f, e, hl', hr, ha⟩ := fill_ok (m := fun _ => none) hinj items (make_rep cap dv hcap)
    ⟨fun _ _ => rfl, fun h v hv => by simp at hv⟩ (by omega) hk
  rw [← ha.1 k hks] at hv
  obtain ⟨i, e', hi, _, ⟨w, hw, hf⟩ | ⟨_, hf⟩⟩ := findImpl_room hr _ (by simp; omega) ha.2 (hashFn_ne (hash k)) (List.mem_map.2 ⟨k, hks, rfl⟩)
  · rw [hv] at hf
    injection hf with hf
    subst hf
    exact ⟨t, i, e, e', by omega, hw⟩
  · rw [hv] at hf; injection hf

example := C52_find (fun k : Nat => k) 4 0 [(5, 1), (9, 2)] [5, 9] (by decide) (by decide) (by decide +kernel) (by decide) 9 2 (by decide) (by decide)

end Verif.Containers.StaticHash
