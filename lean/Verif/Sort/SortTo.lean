import Verif.Sort.Quick

/- C03: `sort_to` and the counting pass it makes for integral element types. -/

namespace Verif.Sort
open Cxx Verif.Algorithm

variable {α : Type}

/-! ### Model -/

/-- `daw::algorithm::copy`, algorithms/daw_algorithm_copy.h 24-40: the loop advances through the
input and writes at successive positions of the output.  Result: output block and returned iterator. -/
def copyTo (out : List α) (o : Nat) : List α → Cxx (List α × Nat)
  | [] => pure (out, o)
  | v :: rest => do
    let out ← wr out o v
    copyTo out (o + 1) rest

/-- `sort_to` for non-integral element types, daw_sort_n.h 731-745.  `out` is the block `first_out`
points into at position `o`; the input range does not overlap it. -/
def sortToOther (lt : α → α → Bool) (limit : Nat) (inp out : List α) (o : Nat) : Cxx (List α × Nat) := do
  let (out, last) ← copyTo out o inp
  let out ← sort lt limit out o last
  pure (out, last)

/-- `static_cast<std::size_t>( v % 10 )`, daw_sort_n.h 760: truncating remainder, then
conversion to a 64 bit unsigned number. -/
def digit (v : Int) : Nat := ((v.tmod 10) % 2 ^ 64).toNat

/-- The counting loop, daw_sort_n.h 757-762; `counts` is a `std::array<size_t, 10>`.
The increments cannot overflow (one per input element). -/
def countDigits (counts : List Nat) : List Int → Cxx (List Nat)
  | [] => pure counts
  | v :: rest => do
    let c ← rd counts (digit v)
    let counts ← wr counts (digit v) (c + 1)
    countDigits counts rest

/-- `daw::algorithm::partial_sum`, algorithms/daw_algorithm_partial_sum.h 17-44, with the output
over the input: every element is read before its position is written.  `sum` is the running sum. -/
def partialSum (sum : Nat) : List Nat → List Nat
  | [] => []
  | x :: rest => (sum + x) :: partialSum (sum + x) rest

/-- `counts[pos] - 1U` and `--counts[pos]` on a `size_t`. (Rule of C++ or its library, no line of the source.) -/
def dec64 (c : Nat) : Nat := (c + (2 ^ 64 - 1)) % 2 ^ 64

/-- The placing loop for an ascending comparison, daw_sort_n.h 766-772. -/
def placeAsc (o : Nat) (counts : List Nat) (out : List Int) : List Int → Cxx (List Int)
  | [] => pure out
  | v :: rest => do
    let c ← rd counts (digit v)
    let out ← wr out (o + dec64 c) v
    let counts ← wr counts (digit v) (dec64 c)
    placeAsc o counts out rest

/-- The conversion `size_t → difference_type` of the argument of `operator[]`.
(Rule of C++ or its library, no line of the source.) -/
def toSigned (c : Nat) : Int := if c < 2 ^ 63 then c else (c : Int) - 2 ^ 64

/-- The placing loop for any other comparison, daw_sort_n.h 774-781: `rf` is a
`daw::reverse_iterator` with base `first_out + b`, so `rf[n]` is `*( base - n - 1 )`
(iterator/daw_reverse_iterator.h 68-70).  `first_in` is never advanced, and `rf` is. -/
def placeDesc (o : Nat) (inp : List Int) : Nat → List Nat → List Int → Cxx (List Int)
  | 0, _, out => pure out
  | b + 1, counts, out => do
    let v ← rd inp 0
    let c ← rd counts (digit v)
    let k : Int := (o : Int) + (b + 1 : Nat) - toSigned (dec64 c) - 1
    let out ← (if 0 ≤ k then wr out k.toNat v else ub : Cxx (List Int))
    let counts ← wr counts (digit v) (dec64 c)
    placeDesc o inp b counts out

/-- `sort_n_details::counting_sort`, daw_sort_n.h 747-785. -/
def countingSort (lt : Int → Int → Bool) (inp out : List Int) (o : Nat) : Cxx (List Int × Nat) := do
  let counts ← countDigits (List.replicate 10 0) inp
  let counts := partialSum 0 counts
  let out ← (if lt 0 1 then placeAsc o counts out inp else placeDesc o inp inp.length counts out :
    Cxx (List Int))
  pure (out, o + inp.length)

/-- `sort_to` for integral element types, daw_sort_n.h 787-800. -/
def sortToInt (lt : Int → Int → Bool) (limit : Nat) (inp out : List Int) (o : Nat) :
    Cxx (List Int × Nat) := do
  let (out, last) ← countingSort lt inp out o
  let out ← sort lt limit out o last
  pure (out, last)

/-! ### Specification -/

/-- `ys` is `out` with a sorted copy of `inp` written from position `o` on. (Specification, no line of the source.) -/
structure SortedCopy (lt : α → α → Bool) (inp out : List α) (o : Nat) (ys : List α) : Prop where
  length_eq : ys.length = out.length
  outside : ∀ k, k < o ∨ o + inp.length ≤ k → ys[k]? = out[k]?
  perm : (slice ys o (o + inp.length)).Perm inp
  sorted : SortedRange lt ys o (o + inp.length)

/-! ### Any element type that is not integral -/

theorem copyTo_spec (inp : List α) : ∀ (out : List α) (o : Nat), o + inp.length ≤ out.length →
    ∃ ys, copyTo out o inp = pure (ys, o + inp.length) ∧ ys.length = out.length ∧
      (∀ k, k < o ∨ o + inp.length ≤ k → ys[k]? = out[k]?) ∧ slice ys o (o + inp.length) = inp := by
  induction inp with
  | nil => intro out o h; exact ⟨out, rfl, rfl, fun _ _ => rfl, by simp [slice]⟩
  | cons v rest ih =>
    intro out o h
    simp only [List.length_cons] at h ⊢
    obtain ⟨ys, e, hl, ho, hs⟩ := ih (out.set o v) (o + 1) (by rw [List.length_set]; omega)
    refine ⟨ys, ?_, by rw [hl, List.length_set], ?_, ?_⟩
    · rw [copyTo, wr_eq (by omega), pure_bind, e]
      congr 2; omega
    · intro k hk
      rw [ho k (by omega), List.getElem?_set]
      rw [if_neg (by omega)]
    · have e1 : o + (rest.length + 1) = o + 1 + rest.length := by omega
      have hv : ys[o]? = some v := by
        rw [ho o (by omega), List.getElem?_set, if_pos rfl, if_pos (by omega)]
      rw [e1, slice_cons (by omega) hv, hs]

/-- **C03** for element types that are not integral: `sort_to` writes a sorted permutation of the
input into the output range, touches nothing else, and returns the end of it. -/
theorem C03_sort_to_other {lt : α → α → Bool} (sw : StrictWeak lt) (limit : Nat) (inp out : List α)
    (o : Nat) (h : o + inp.length ≤ out.length) :
    ∃ ys, sortToOther lt limit inp out o = pure (ys, o + inp.length) ∧ SortedCopy lt inp out o ys := by
  obtain ⟨zs, e, hl, ho, hs⟩ := copyTo_spec inp out o h
  obtain ⟨ys, e', hl', ho', hp', hs'⟩ := C01_sort sw limit zs o (o + inp.length) (by omega) (by omega)
  refine ⟨ys, ?_, by omega, fun k hk => (ho' k hk).trans (ho k hk), ?_, hs'⟩
  · unfold sortToOther
    rw [e, pure_bind]
    simp only []
    rw [e', pure_bind]
  · rw [hs] at hp'; exact hp'

example : ∃ ys, sortToOther (fun a b : Nat => decide (a < b)) 6 [5, 1, 3] [0, 0, 0, 0, 9] 1 =
    pure (ys, 4) ∧ SortedCopy (fun a b : Nat => decide (a < b)) [5, 1, 3] [0, 0, 0, 0, 9] 1 ys :=
  C03_sort_to_other strictWeak_nat 6 [5, 1, 3] [0, 0, 0, 0, 9] 1 (by decide)

/-! ### Integral element types -/

theorem digit_lt {v : Int} (h : 0 ≤ v) : digit v < 10 := by
  unfold digit
  have h1 : v.tmod 10 = v % 10 := Int.tmod_eq_emod_of_nonneg h
  rw [h1]; omega

/-- Number of elements with a digit below `p`. (Specification, no line of the source.) -/
def below (inp : List Int) (p : Nat) : Nat := inp.countP (fun v => decide (digit v < p))
/-- Number of elements with digit `p`. (Specification, no line of the source.) -/
def atDigit (inp : List Int) (p : Nat) : Nat := inp.countP (fun v => decide (digit v = p))

theorem below_succ (inp : List Int) (p : Nat) : below inp (p + 1) = below inp p + atDigit inp p := by
  unfold below atDigit
  induction inp with
  | nil => rfl
  | cons v r ih =>
    simp only [List.countP_cons, ih]
    simp only [decide_eq_true_eq]
    split <;> split <;> split <;> omega

theorem below_mono (inp : List Int) {p q : Nat} (h : p ≤ q) : below inp p ≤ below inp q := by
  obtain ⟨d, rfl⟩ := Nat.exists_eq_add_of_le h
  induction d with
  | zero => exact Nat.le_refl _
  | succ d ih => rw [← Nat.add_assoc, below_succ]; have := ih (by omega); omega

theorem below_le (inp : List Int) (p : Nat) : below inp p ≤ inp.length := List.countP_le_length

theorem countDigits_spec (inp : List Int) (hn : ∀ v ∈ inp, 0 ≤ v) :
    ∀ counts : List Nat, counts.length = 10 →
      ∃ cs, countDigits counts inp = pure cs ∧ cs.length = 10 ∧
        ∀ p c, counts[p]? = some c → cs[p]? = some (c + atDigit inp p) := by
  induction inp with
  | nil => intro counts h; exact ⟨counts, rfl, h, fun p c hc => by simpa [atDigit] using hc⟩
  | cons v rest ih =>
    intro counts h
    have hd := digit_lt (hn v (by simp))
    obtain ⟨c, hc⟩ := getElem?_of_lt (xs := counts) (i := digit v) (by omega)
    obtain ⟨cs, e, hl, hcs⟩ := ih (fun w hw => hn w (by simp [hw])) (counts.set (digit v) (c + 1)) (by simpa)
    refine ⟨cs, ?_, hl, ?_⟩
    · rw [countDigits, rd_some hc, pure_bind, wr_eq (by omega), pure_bind, e]
    · intro p x hx
      by_cases hp : digit v = p
      · subst hp
        rw [hc] at hx; injection hx with hx; subst hx
        rw [hcs _ (c + 1) (by rw [List.getElem?_set, if_pos rfl, if_pos (by omega)])]
        unfold atDigit
        rw [List.countP_cons, if_pos (by simp)]
        congr 1; omega
      · rw [hcs _ x (by rw [List.getElem?_set, if_neg hp]; exact hx)]
        unfold atDigit
        rw [List.countP_cons, if_neg (by simpa using hp)]
        rfl

theorem partialSum_get (l : List Nat) : ∀ s p c, (partialSum s l)[p]? = some c →
    c = s + (l.take (p + 1)).sum := by
  induction l with
  | nil => intro s p c h; simp [partialSum] at h
  | cons x r ih =>
    intro s p c h
    rw [partialSum] at h
    cases p with
    | zero => simp at h; simp [h]
    | succ p =>
      rw [List.getElem?_cons_succ] at h
      rw [ih _ _ _ h, List.take_succ_cons, List.sum_cons]; omega

theorem partialSum_length (l : List Nat) : ∀ s, (partialSum s l).length = l.length := by
  induction l with
  | nil => intro s; rfl
  | cons x r ih => intro s; simp [partialSum, ih]

theorem sum_take (inp : List Int) (cs : List Nat) (hcs : ∀ p, p < 10 → cs[p]? = some (atDigit inp p)) :
    ∀ p, p ≤ 10 → (cs.take p).sum = below inp p := by
  intro p
  induction p with
  | zero => intro _; simp [below]
  | succ p ih =>
    intro hp
    rw [List.take_add_one, hcs p (by omega), List.sum_append, ih (by omega), below_succ]
    simp

theorem dec64_pos {c : Nat} (h : 0 < c) (h2 : c < 2 ^ 64) : dec64 c = c - 1 := by
  unfold dec64
  omega

open Classical in
/-- Position `k` of the output has been written: it is not in the pending part of any bucket.
(Specification, no line of the source.) -/
noncomputable def filled (inp : List Int) (cnt : Nat → Nat) (k : Nat) : Bool :=
  decide (∀ p, p < 10 → ¬ (below inp p ≤ k ∧ k < cnt p))

theorem filled_iff {inp : List Int} {cnt : Nat → Nat} {k : Nat} :
    filled inp cnt k = true ↔ ∀ p, p < 10 → ¬ (below inp p ≤ k ∧ k < cnt p) :=
  @decide_eq_true_iff _ (Classical.propDecidable _)

theorem filled_false {inp : List Int} {cnt : Nat → Nat} {k : Nat} :
    filled inp cnt k = false ↔ ¬ ∀ p, p < 10 → ¬ (below inp p ≤ k ∧ k < cnt p) := by
  rw [← filled_iff]; simp

theorem placeAsc_spec (inp : List Int) (o : Nat) (hbig : inp.length < 2 ^ 64) :
    ∀ (rest done : List Int) (counts : List Nat) (out : List Int) (cnt : Nat → Nat),
      (∀ v ∈ rest, 0 ≤ v) →
      o + inp.length ≤ out.length → counts.length = 10 →
      (∀ p, p < 10 → counts[p]? = some (cnt p)) →
      (∀ p, p < 10 → cnt p = below inp p + atDigit rest p) →
      (∀ p, p < 10 → cnt p ≤ below inp (p + 1)) →
      (∃ vals : Nat → Int, (∀ k, k < inp.length → filled inp cnt k = true → out[o + k]? = some (vals k)) ∧
        (((List.range inp.length).filter (filled inp cnt)).map vals).Perm done) →
      ∃ ys, placeAsc o counts out rest = pure ys ∧ ys.length = out.length ∧
        (∀ k, k < o ∨ o + inp.length ≤ k → ys[k]? = out[k]?) ∧
        (slice ys o (o + inp.length)).Perm (done ++ rest) := by
  intro rest
  induction rest with
  | nil =>
    intro done counts out cnt _ hlen _ _ hcnt _ ⟨vals, hv, hp⟩
    refine ⟨out, rfl, rfl, fun _ _ => rfl, ?_⟩
    have hall : ∀ k, filled inp cnt k = true := by
      intro k
      rw [filled_iff]
      intro p hp' hh
      have := hcnt p hp'
      simp [atDigit] at this
      omega
    have e : (List.range inp.length).filter (filled inp cnt) = List.range inp.length :=
      List.filter_eq_self.2 (fun k _ => hall k)
    rw [e] at hp
    rw [List.append_nil]
    have e2 : slice out o (o + inp.length) = (List.range inp.length).map vals := by
      apply List.ext_getElem?
      intro k
      unfold slice
      rw [List.getElem?_drop, List.getElem?_take, List.getElem?_map]
      by_cases hk : k < inp.length
      · rw [if_pos (by omega), hv k hk (hall k), List.getElem?_range hk]
        rfl
      · rw [if_neg (by omega), List.getElem?_eq_none (by simpa using hk)]
        rfl
    rw [e2]; exact hp
  | cons v rest ih =>
    intro done counts out cnt hn hlen hc10 hcounts hcnt hle ⟨vals, hv, hp⟩
    have hd := digit_lt (hn v (by simp))
    have hget := hcounts _ hd
    have hpos : 0 < cnt (digit v) ∧ below inp (digit v) < cnt (digit v) := by
      have := hcnt _ hd
      unfold atDigit at this
      rw [List.countP_cons, if_pos (by simp)] at this
      omega
    have hmax : cnt (digit v) ≤ inp.length := Nat.le_trans (hle _ hd) (below_le _ _)
    have hdec : dec64 (cnt (digit v)) = cnt (digit v) - 1 := dec64_pos hpos.1 (by omega)
    have hlt2 : o + (cnt (digit v) - 1) < out.length := by omega
    let cnt' : Nat → Nat := fun p => if p = digit v then cnt p - 1 else cnt p
    have hfill : ∀ j, filled inp cnt' j = true ↔ filled inp cnt j = true ∨ j = cnt (digit v) - 1 := by
      intro j
      rw [filled_iff, filled_iff]
      constructor
      · intro h
        by_cases hj : j = cnt (digit v) - 1
        · exact .inr hj
        · left
          intro p hp' hh
          refine h p hp' ⟨hh.1, ?_⟩
          show j < if p = digit v then cnt p - 1 else cnt p
          split
          · rename_i hpe; subst hpe; omega
          · exact hh.2
      · rintro (h | h) p hp' hh
        · refine h p hp' ⟨hh.1, ?_⟩
          have h2 : j < if p = digit v then cnt p - 1 else cnt p := hh.2
          split at h2 <;> omega
        · have h2 : j < if p = digit v then cnt p - 1 else cnt p := hh.2
          split at h2
          · rename_i hpe; subst hpe; omega
          · rename_i hpe
            rcases Nat.lt_or_gt_of_ne hpe with hlt | hgt
            · have h3 := below_mono inp (show p + 1 ≤ digit v by omega)
              have h4 := hle p hp'
              omega
            · have h3 := below_mono inp (show digit v + 1 ≤ p by omega)
              have h4 := hle _ hd
              omega
    have hnot : filled inp cnt (cnt (digit v) - 1) = false := by
      rw [filled_false]
      intro h
      exact h _ hd ⟨by omega, by omega⟩
    let vals' : Nat → Int := fun k => if k = cnt (digit v) - 1 then v else vals k
    obtain ⟨ys, e, hl, ho, hperm⟩ := ih (v :: done) (counts.set (digit v) (cnt (digit v) - 1))
      (out.set (o + (cnt (digit v) - 1)) v) cnt' (fun w hw => hn w (by simp [hw]))
      (by rw [List.length_set]; exact hlen) (by rw [List.length_set]; exact hc10)
      (by
        intro p hp'
        show _ = some (if p = digit v then cnt p - 1 else cnt p)
        rw [List.getElem?_set]
        by_cases hpe : digit v = p
        · subst hpe; rw [if_pos rfl, if_pos rfl, if_pos (by omega)]
        · rw [if_neg hpe, if_neg (Ne.symm hpe)]; exact hcounts p hp')
      (by
        intro p hp'
        show (if p = digit v then cnt p - 1 else cnt p) = _
        have h2 := hcnt p hp'
        unfold atDigit at h2 ⊢
        rw [List.countP_cons] at h2
        by_cases hpe : digit v = p
        · rw [if_pos (by simpa using hpe)] at h2
          rw [if_pos hpe.symm]; omega
        · rw [if_neg (by simpa using hpe)] at h2
          rw [if_neg (Ne.symm hpe)]; omega)
      (by
        intro p hp'
        show (if p = digit v then cnt p - 1 else cnt p) ≤ _
        have := hle p hp'
        split <;> omega)
      (by
        refine ⟨vals', ?_, ?_⟩
        · intro k hk hf
          show _ = some (if k = cnt (digit v) - 1 then v else vals k)
          rw [List.getElem?_set]
          by_cases hke : k = cnt (digit v) - 1
          · rw [if_pos hke, if_pos (by omega), if_pos hlt2]
          · rw [if_neg hke, if_neg (by omega)]
            rcases (hfill k).1 hf with h | h
            · exact hv k hk h
            · exact absurd h hke
        · have hf1 : ((List.range inp.length).filter (filled inp cnt')).Perm
              ((cnt (digit v) - 1) :: (List.range inp.length).filter (filled inp cnt)) := by
            rw [List.perm_ext_iff_of_nodup (List.nodup_range.filter _)
              (List.nodup_cons.2 ⟨by simp [hnot], List.nodup_range.filter _⟩)]
            intro j
            simp only [List.mem_filter, List.mem_cons, List.mem_range, hfill]
            constructor
            · rintro ⟨h1, h2 | h2⟩
              · exact .inr ⟨h1, h2⟩
              · exact .inl h2
            · rintro (h | ⟨h1, h2⟩)
              · exact ⟨by omega, .inr h⟩
              · exact ⟨h1, .inl h2⟩
          refine (hf1.map vals').trans ?_
          rw [List.map_cons]
          have hv1 : vals' (cnt (digit v) - 1) = v := if_pos rfl
          rw [hv1]
          refine List.Perm.cons v ?_
          have hm : ((List.range inp.length).filter (filled inp cnt)).map vals' =
              ((List.range inp.length).filter (filled inp cnt)).map vals := by
            apply List.map_congr_left
            intro k hk
            rw [List.mem_filter] at hk
            exact if_neg (fun h => by rw [h, hnot] at hk; exact absurd hk.2 (by simp))
          rw [hm]; exact hp)
    refine ⟨ys, ?_, by rw [hl, List.length_set], ?_, ?_⟩
    · rw [placeAsc, rd_some hget, pure_bind, hdec, wr_eq hlt2, pure_bind, wr_eq (by omega), pure_bind, e]
    · intro k hk
      rw [ho k hk, List.getElem?_set, if_neg (by omega)]
    · exact hperm.trans (by simpa using List.perm_middle.symm)

theorem countingSort_asc {lt : Int → Int → Bool} (hasc : lt 0 1 = true) (inp out : List Int)
    (o : Nat) (hn : ∀ v ∈ inp, 0 ≤ v) (hbig : inp.length < 2 ^ 64) (h : o + inp.length ≤ out.length) :
    ∃ ys, countingSort lt inp out o = pure (ys, o + inp.length) ∧ ys.length = out.length ∧
      (∀ k, k < o ∨ o + inp.length ≤ k → ys[k]? = out[k]?) ∧ (slice ys o (o + inp.length)).Perm inp := by
  obtain ⟨cs, e, hl, hcs⟩ := countDigits_spec inp hn (List.replicate 10 0) (by simp)
  have hcs' : ∀ p, p < 10 → cs[p]? = some (atDigit inp p) := by
    intro p hp
    rw [hcs p 0 (by rw [List.getElem?_replicate, if_pos hp]), Nat.zero_add]
  obtain ⟨ys, e', hl', ho, hp⟩ := placeAsc_spec inp o hbig inp [] (partialSum 0 cs) out
    (fun p => below inp (p + 1)) hn h (by rw [partialSum_length, hl])
    (by
      intro p hp
      obtain ⟨c, hc⟩ := getElem?_of_lt (xs := partialSum 0 cs) (i := p) (by rw [partialSum_length]; omega)
      rw [hc, partialSum_get _ _ _ _ hc, sum_take inp cs hcs' _ (by omega), Nat.zero_add])
    (fun p _ => below_succ inp p) (fun p _ => Nat.le_refl _)
    (by
      have hno : ∀ k, k < inp.length → filled inp (fun p => below inp (p + 1)) k = false := by
        intro k hk
        rw [filled_false]
        intro hh
        -- the last bucket boundary is the length
        have h10 : below inp 10 = inp.length := by
          unfold below
          rw [List.countP_eq_length]
          intro v hv
          simpa using digit_lt (hn v hv)
        have key : ∀ p, p ≤ 10 → below inp p ≤ k := by
          intro p
          induction p with
          | zero => intro _; simp [below]
          | succ p ih =>
            intro hp
            have := ih (by omega)
            by_cases hlt : below inp (p + 1) ≤ k
            · exact hlt
            · exact absurd ⟨this, show k < below inp (p + 1) by omega⟩ (hh p (by omega))
        have := key 10 (Nat.le_refl _)
        omega
      refine ⟨fun _ => 0, fun k hk hf => absurd hf (by simp [hno k hk]), ?_⟩
      have e : (List.range inp.length).filter (filled inp (fun p => below inp (p + 1))) = [] := by
        rw [List.filter_eq_nil_iff]
        intro k hk
        simp [hno k (by simpa using hk)]
      rw [e]; exact List.Perm.refl _)
  refine ⟨ys, ?_, hl', ho, by simpa using hp⟩
  unfold countingSort
  rw [e, pure_bind]
  simp only []
  rw [if_pos hasc, e', pure_bind]

/-- **C03** for integral element types, only non-negative values and comparisons with `0 < 1`:
`sort_to` writes a sorted permutation of the input and touches nothing else.
Missing: negative values (`C03_negative_violated`) and descending comparisons
(`C03_descending_violated`). -/
theorem C03_sort_to_integral_partial {lt : Int → Int → Bool} (sw : StrictWeak lt) (hasc : lt 0 1 = true)
    (limit : Nat) (inp out : List Int) (o : Nat) (hn : ∀ v ∈ inp, 0 ≤ v)
    (hbig : inp.length < 2 ^ 64) (h : o + inp.length ≤ out.length) :
    ∃ ys, sortToInt lt limit inp out o = pure (ys, o + inp.length) ∧ SortedCopy lt inp out o ys := by
  obtain ⟨zs, e, hl, ho, hs⟩ := countingSort_asc hasc inp out o hn hbig h
  obtain ⟨ys, e', hl', ho', hp', hs'⟩ := C01_sort sw limit zs o (o + inp.length) (by omega) (by omega)
  refine ⟨ys, ?_, by omega, fun k hk => (ho' k hk).trans (ho k hk), hp'.trans hs, hs'⟩
  unfold sortToInt
  rw [e, pure_bind]
  simp only []
  rw [e', pure_bind]

/-- The usual order on `Int`. -/
theorem strictWeak_int : StrictWeak (fun a b : Int => decide (a < b)) where
  irrefl := by intro a; simp
  trans := by intro a b c; simp; omega
  incomp := by intro a b c; simp; omega

example : ∃ ys, sortToInt (fun a b => decide (a < b)) 30 [31, 4, 21, 0, 4] [7, 7, 7, 7, 7, 7] 1 =
    pure (ys, 6) ∧ SortedCopy (fun a b : Int => decide (a < b)) [31, 4, 21, 0, 4] [7, 7, 7, 7, 7, 7] 1 ys :=
  C03_sort_to_integral_partial strictWeak_int (by decide) 30 _ _ 1 (by decide) (by decide) (by decide)

theorem digit_neg {v : Int} (h : v < 0) (h10 : v.tmod 10 ≠ 0) : 10 ≤ digit v := by
  unfold digit
  have h2 := Int.tmod_add_mul_tdiv v 10
  have h3 : v.tmod 10 ≤ 0 := by
    have := Int.tmod_nonneg 10 (show 0 ≤ -v by omega)
    rw [Int.neg_tmod] at this; omega
  have h4 : -10 < v.tmod 10 := by
    have := Int.tmod_lt_of_pos (-v) (show (0 : Int) < 10 by omega)
    rw [Int.neg_tmod] at this; omega
  omega

theorem countDigits_neg (inp : List Int) (v : Int) (hv : v ∈ inp) (h : v < 0) (h10 : v.tmod 10 ≠ 0) :
    ∀ counts : List Nat, counts.length = 10 → countDigits counts inp = ub := by
  induction inp with
  | nil => cases hv
  | cons w rest ih =>
    intro counts hl
    rw [countDigits]
    by_cases hw : digit w < 10
    · have hvr : v ∈ rest := by
        rcases List.mem_cons.1 hv with e | e
        · subst e; have := digit_neg h h10; omega
        · exact e
      obtain ⟨c, hc⟩ := getElem?_of_lt (xs := counts) (i := digit w) (by omega)
      rw [rd_some hc, pure_bind, wr_eq (by omega), pure_bind, ih hvr _ (by simpa)]
    · rw [rd_oob (by omega), ub_bind]

/-- The code does not have **C03** for negative values: whenever the input holds a negative
number that is not a multiple of ten, `sort_to` indexes outside its array of ten counters. -/
theorem C03_negative_violated (lt : Int → Int → Bool) (limit : Nat) (inp out : List Int) (o : Nat)
    (v : Int) (hv : v ∈ inp) (h : v < 0) (h10 : v.tmod 10 ≠ 0) :
    sortToInt lt limit inp out o = ub := by
  unfold sortToInt countingSort
  rw [countDigits_neg inp v hv h h10 _ (by simp), ub_bind, ub_bind]

example : sortToInt (fun a b => decide (a < b)) 30 [3, -1, 2] [0, 0, 0] 0 = ub :=
  C03_negative_violated _ _ _ _ _ (-1) (by decide) (by decide) (by decide)

/-- The code does not have **C03** for a descending comparison: sorting `[2, 1]` into an output
range holding `[9, 9]` leaves a 9 there, so the output is not a permutation of the input. -/
theorem C03_descending_violated : ∃ ys,
    sortToInt (fun a b => decide (a > b)) 30 [2, 1] [9, 9] 0 = pure (ys, 2) ∧ ys.Perm [2, 9] ∧
      ¬ SortedCopy (fun a b : Int => decide (a > b)) [2, 1] [9, 9] 0 ys := by
  have hsw : StrictWeak (fun a b : Int => decide (a > b)) := by
    constructor
    · intro a; simp
    · intro a b c; simp; omega
    · intro a b c; simp; omega
  have e : countingSort (fun a b => decide (a > b)) [2, 1] [9, 9] 0 = pure ([2, 9], 2) := rfl
  obtain ⟨ys, e', hl, _, hp, _⟩ := C01_sort hsw 30 ([2, 9] : List Int) 0 2 (by decide) (by decide)
  have hys : slice ys 0 2 = ys := by
    unfold slice
    rw [List.take_of_length_le (by rw [hl]; decide)]; rfl
  rw [hys] at hp
  refine ⟨ys, ?_, hp, ?_⟩
  · unfold sortToInt
    rw [e, pure_bind]
    simp only []
    rw [e', pure_bind]
  · intro hs
    have h2 : ys.Perm [2, 1] := by
      have := hs.perm
      simp only [List.length_cons, List.length_nil] at this
      rw [hys] at this; exact this
    have h9 : (9 : Int) ∈ ([2, 1] : List Int) := h2.mem_iff.1 (hp.mem_iff.2 (by decide))
    exact absurd h9 (by decide)

end Verif.Sort
